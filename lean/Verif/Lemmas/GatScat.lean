import Verif.Model.GatScat
import Verif.Lemmas.LocalView

/-!
# Lemmas: the linked lists of gather/scatter
-/

namespace GA
open Spec Model

/-- `ks` is the linked list that starts at `h` -/
def Chain (next : Nat → Int) : Int → List Nat → Prop
  | h, [] => h = -1
  | h, k :: ks => h = k ∧ Chain next (next k) ks

theorem chain_upd {next : Nat → Int} {h : Int} {ks : List Nat} {i : Nat} {v : Int} (hc : Chain next h ks)
    (hi : i ∉ ks) : Chain (upd next i v) h ks := by
  induction ks generalizing h with
  | nil => exact hc
  | cons k ks ih =>
    simp only [List.mem_cons, not_or] at hi
    refine ⟨hc.1, ?_⟩
    have : upd next i v k = next k := by
      unfold upd; rw [if_neg]; exact fun e => hi.1 e.symm
    rw [this]
    exact ih hc.2 hi.2

theorem walk_chain {next : Nat → Int} {h : Int} {ks : List Nat} (hc : Chain next h ks) {f : Nat}
    (hf : ks.length ≤ f) : gsWalk next f h = some ks := by
  induction ks generalizing h f with
  | nil =>
    simp only [Chain] at hc
    subst hc
    cases f <;> simp [gsWalk]
  | cons k ks ih =>
    obtain ⟨rfl, hc⟩ := hc
    cases f with
    | zero => simp at hf
    | succ f =>
      simp only [gsWalk]
      rw [if_pos (by omega), Int.toNat_natCast, ih hc (by simpa using hf)]
      rfl

/-- list data after the first loop has handled the elements `0 .. i-1` with home processes `home` -/
structure Built (home : Nat → Nat) (i : Nat) (s : GSLists) : Prop where
  chain : ∀ p, Chain s.next (s.header p) ((List.range i).filter fun k => home k = p).reverse
  count : ∀ p, s.nelems p = ((List.range i).filter fun k => home k = p).length
  room : ∀ p, s.nelems p ≤ s.maxlen

theorem built_init (home : Nat → Nat) : Built home 0 gsInit :=
  ⟨fun _ => rfl, fun _ => rfl, fun _ => Nat.zero_le _⟩

theorem built_insert {home : Nat → Nat} {i : Nat} {s : GSLists} (h : Built home i s) :
    Built home (i + 1) (gsInsert s i (home i)) := by
  refine ⟨fun p => ?_, fun p => ?_, fun p => ?_⟩
  · rw [List.range_succ, List.filter_append]
    have hni : i ∉ ((List.range i).filter fun k => home k = p).reverse := by simp
    by_cases hp : home i = p
    · subst hp
      simp only [List.filter_cons, decide_true, if_true, List.filter_nil, List.reverse_append,
        List.reverse_cons, List.reverse_nil, List.nil_append, List.singleton_append]
      refine ⟨by simp [gsInsert, upd], ?_⟩
      have : (gsInsert s i (home i)).next i = s.header (home i) := by simp [gsInsert, upd]
      rw [this]
      exact chain_upd (h.chain _) hni
    · have hh : (gsInsert s i (home i)).header p = s.header p := by
        simp only [gsInsert, upd]; rw [if_neg (fun e => hp e.symm)]
      rw [hh]
      have e : ([i].filter fun k => decide (home k = p)) = [] := by simp [hp]
      rw [e, List.append_nil]
      exact chain_upd (h.chain _) hni
  · rw [List.range_succ, List.filter_append, List.length_append, ← h.count]
    by_cases hp : home i = p
    · subst hp
      simp [gsInsert, upd]
    · simp only [gsInsert, upd]
      rw [if_neg (fun e => hp e.symm)]
      simp [hp]
  · have h1 := h.room p
    have h2 := h.room (home i)
    simp only [gsInsert, upd]
    split <;> split <;> (try subst_vars) <;> omega

theorem gsBuild_spec {G : GArr} {cand : Nat → List Nat} {home : Nat → Nat} {i : Nat}
    {xs : List (List Int)} {s : GSLists} (hb : Built home i s)
    (hh : ∀ k (hk : k < xs.length), gsHome G (cand (i + k)) xs[k] = some (home (i + k)))
    (hp : ∀ k, k < xs.length → home (i + k) < G.nproc) :
    ∃ s', gsBuild G cand i xs s = some s' ∧ Built home (i + xs.length) s' := by
  induction xs generalizing i s with
  | nil => exact ⟨s, rfl, hb⟩
  | cons x xs ih =>
    have h0 := hh 0 (by simp)
    have p0 := hp 0 (by simp)
    simp only [Nat.add_zero, List.getElem_cons_zero] at h0 p0
    simp only [gsBuild, h0]
    rw [if_pos p0]
    obtain ⟨s', e, b⟩ := ih (built_insert hb) (fun k hk => by
        have := hh (k + 1) (by simpa using hk)
        simp only [List.getElem_cons_succ] at this
        rw [show i + 1 + k = i + (k + 1) by omega]; exact this)
      (fun k hk => by
        have := hp (k + 1) (by simpa using hk)
        rwa [show i + 1 + k = i + (k + 1) by omega])
    refine ⟨s', e, ?_⟩
    rw [List.length_cons, show i + (xs.length + 1) = i + 1 + xs.length by omega]
    exact b

theorem gsBuild_none {G : GArr} {cand : Nat → List Nat} {i : Nat} {xs : List (List Int)} {s : GSLists}
    {k : Nat} (hk : k < xs.length) (hn : gsHome G (cand (i + k)) xs[k] = none) :
    gsBuild G cand i xs s = none := by
  induction xs generalizing i s k with
  | nil => simp at hk
  | cons x xs ih =>
    simp only [gsBuild]
    cases hg : gsHome G (cand i) x with
    | none => rfl
    | some p =>
      simp only
      split
      · cases k with
        | zero => simp only [Nat.add_zero, List.getElem_cons_zero] at hn; rw [hg] at hn; simp at hn
        | succ k =>
          simp only [List.getElem_cons_succ] at hn
          exact ih (k := k) (by simpa using hk) (by rw [show i + 1 + k = i + (k + 1) by omega]; exact hn)
      · rfl

theorem mapOpt_map {α β} {f : α → Option β} {g : α → β} {as : List α} (h : ∀ a ∈ as, f a = some (g a)) :
    mapOpt f as = some (as.map g) := by
  induction as with
  | nil => rfl
  | cons a as ih =>
    simp only [mapOpt, h a List.mem_cons_self, ih (fun b hb => h b (List.mem_cons_of_mem _ hb)),
      List.map_cons]

/-- splitting a list by a key with values below `n` only permutes it -/
theorem bucket_perm {α} (l : List α) (key : α → Nat) {n : Nat} (h : ∀ a ∈ l, key a < n) :
    ((List.range n).flatMap fun p => l.filter fun a => key a = p).Perm l := by
  induction l with
  | nil => simp
  | cons a l ih =>
    have ih := ih fun b hb => h b (List.mem_cons_of_mem _ hb)
    have ha := h a List.mem_cons_self
    have key' : ∀ L : List Nat, L.Nodup → key a ∈ L →
        (L.flatMap fun p => (a :: l).filter fun a => key a = p).Perm
          (a :: L.flatMap fun p => l.filter fun a => key a = p) := by
      intro L
      induction L with
      | nil => intro _ hm; simp at hm
      | cons p L ihL =>
        intro hnd hm
        rw [List.nodup_cons] at hnd
        simp only [List.flatMap_cons]
        by_cases hp : key a = p
        · have hrest : (L.flatMap fun p => (a :: l).filter fun a => key a = p)
              = L.flatMap fun p => l.filter fun a => key a = p := by
            rw [List.flatMap_def, List.flatMap_def]
            congr 1
            apply List.map_congr_left
            intro q hq
            have : key a ≠ q := fun e => hnd.1 (by rw [← hp, e]; exact hq)
            simp [this]
          rw [hrest, List.filter_cons]
          simp [hp]
        · have hm' : key a ∈ L := by
            rcases List.mem_cons.1 hm with e | e
            · exact absurd e hp
            · exact e
          have e1 : ((a :: l).filter fun a => key a = p) = l.filter fun a => key a = p := by
            simp [hp]
          rw [e1]
          exact ((ihL hnd.2 hm').append_left _).trans List.perm_middle
    exact (key' _ List.nodup_range (List.mem_range.2 ha)).trans (ih.cons a)

/-- the legal guesses of `findblock` -/
def CandG (G : GArr) (cand : List Nat) : Prop :=
  match G with
  | .reg A _ => CandOK A.nblock cand
  | .blk A => CandOK A.nblocks cand

end GA
