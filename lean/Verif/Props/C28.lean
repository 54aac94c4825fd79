import Verif.Model.MATable
import Mathlib.Data.List.Count
import Mathlib.Tactic.Common

/-!
# C28: the MA handle table behaves as a map from handles to blocks
-/

namespace GA
open Spec Model

variable {D : Type} [DecidableEq D]

/-- content of the table as a map -/
def tblAbs (t : Tbl D) (h : Int) : Option D :=
  if h < 0 then none
  else match t.slots[h.toNat]? with
    | some s => if s.state = .allocated then s.data else none
    | none => none

/-- number of allocated slots -/
def allocCount (slots : List (Slot D)) : Nat := slots.countP fun s => decide (s.state = .allocated)

/-- consistency of the static variables -/
structure TblOK (t : Tbl D) : Prop where
  count : t.entries = allocCount t.slots
  next : t.next < t.slots.length ∨ t.slots = []
  data : ∀ s ∈ t.slots, s.state = .allocated → s.data.isSome = true

theorem tblSearch_some {slots : List (Slot D)} {n i k : Nat} (h : tblSearch slots n i = some k)
    (hi : i < slots.length) : k < slots.length ∧ ∀ s, slots[k]? = some s → s.state ≠ .allocated := by
  induction n generalizing i with
  | zero => simp [tblSearch] at h
  | succ n ih =>
    simp only [tblSearch] at h
    split at h
    · rename_i hc
      cases h
      refine ⟨hi, ?_⟩
      intro s hs
      rw [hs] at hc
      simpa using hc
    · exact ih h (Nat.mod_lt _ (by omega))

theorem tblSearch_none {slots : List (Slot D)} {n i : Nat} (h : tblSearch slots n i = none)
    (hi : i < slots.length) (j : Nat) (hj : j < n) :
    (slots[(i + j) % slots.length]?).map (·.state) = some .allocated := by
  induction n generalizing i j with
  | zero => omega
  | succ n ih =>
    simp only [tblSearch] at h
    split at h
    · simp at h
    · rename_i hc
      cases j with
      | zero =>
        rw [Nat.add_zero, Nat.mod_eq_of_lt hi]
        simpa using hc
      | succ j =>
        have := ih h (Nat.mod_lt _ (by omega)) j (by omega)
        rw [Nat.mod_add_mod] at this
        rwa [show i + (j + 1) = i + 1 + j by omega]

theorem exists_free {slots : List (Slot D)} (h : allocCount slots < slots.length) :
    ∃ j, ∃ hj : j < slots.length, (slots[j]).state ≠ .allocated := by
  by_contra hc
  simp only [not_exists, not_not] at hc
  have : allocCount slots = slots.length := by
    unfold allocCount
    rw [List.countP_eq_length]
    intro s hs
    obtain ⟨j, hj, rfl⟩ := List.getElem_of_mem hs
    simp [hc j hj]
  omega

theorem tblSearch_total {slots : List (Slot D)} (h : allocCount slots < slots.length) {i : Nat}
    (hi : i < slots.length) : ∃ k, tblSearch slots slots.length i = some k := by
  cases hs : tblSearch slots slots.length i with
  | some k => exact ⟨k, rfl⟩
  | none =>
    exfalso
    obtain ⟨j, hj, hne⟩ := exists_free h
    have := tblSearch_none hs hi ((j + slots.length - i) % slots.length) (Nat.mod_lt _ (by omega))
    have e : (i + (j + slots.length - i) % slots.length) % slots.length = j := by
      rw [Nat.add_mod_mod, show i + (j + slots.length - i) = j + slots.length by omega,
        Nat.add_mod_right, Nat.mod_eq_of_lt hj]
    rw [e, List.getElem?_eq_getElem hj] at this
    simp at this
    exact hne this

theorem allocCount_set {slots : List (Slot D)} {k : Nat} (hk : k < slots.length)
    (hs : (slots[k]).state ≠ .allocated) (d : D) :
    allocCount (slots.set k ⟨some d, .allocated⟩) = allocCount slots + 1 := by
  unfold allocCount
  rw [List.countP_set hk]
  simp [hs]

theorem tblGrow_ok {t : Tbl D} (h : TblOK t) (hfull : t.entries ≥ t.slots.length) :
    TblOK (tblGrow t) ∧ (tblGrow t).next < (tblGrow t).slots.length ∧
      allocCount (tblGrow t).slots < (tblGrow t).slots.length ∧
      ∀ x, tblAbs (tblGrow t) x = tblAbs t x := by
  have hle : allocCount t.slots ≤ t.slots.length := List.countP_le_length
  have hc := h.count
  have hcnt : ∀ n : Nat, allocCount (t.slots ++ List.replicate n (⟨none, .unused⟩ : Slot D)) =
      allocCount t.slots := by
    intro n
    unfold allocCount
    rw [List.countP_append, List.countP_replicate]
    simp
  have hcap : t.slots.length < (if t.slots.length = 0 then 32 else 2 * t.slots.length) := by
    split <;> omega
  refine ⟨⟨?_, ?_, ?_⟩, ?_, ?_, ?_⟩
  · simp only [tblGrow]
    rw [hcnt, hc]
  · left; simp only [tblGrow, List.length_append, List.length_replicate]; omega
  · simp only [tblGrow]
    intro s hs hst
    rcases List.mem_append.1 hs with hs | hs
    · exact h.data s hs hst
    · rw [List.mem_replicate] at hs
      rw [hs.2] at hst
      simp at hst
  · simp only [tblGrow, List.length_append, List.length_replicate]; omega
  · simp only [tblGrow]
    rw [hcnt, List.length_append, List.length_replicate]
    omega
  · intro x
    unfold tblAbs tblGrow
    simp only
    split
    · rfl
    · by_cases hx : x.toNat < t.slots.length
      · rw [List.getElem?_append_left hx]
      · rw [List.getElem?_append_right (by omega), List.getElem?_eq_none (by omega : t.slots.length ≤ x.toNat)]
        rw [List.getElem?_replicate]
        by_cases hy : x.toNat - t.slots.length <
            (if t.slots.length = 0 then 32 else 2 * t.slots.length) - t.slots.length
        · rw [if_pos hy]; simp
        · rw [if_neg hy]

theorem tblAbs_set {t : Tbl D} {k : Nat} (hk : k < t.slots.length) (d : D) (e : Int) (nx : Nat)
    (x : Int) :
    tblAbs ⟨t.slots.set k ⟨some d, .allocated⟩, e, nx⟩ x =
      if x = (k : Int) then some d else tblAbs t x := by
  unfold tblAbs
  simp only [List.getElem?_set]
  by_cases hx : x < 0
  · rw [if_pos hx, if_neg (by omega), if_pos hx]
  · rw [if_neg hx]
    by_cases hxk : x = (k : Int)
    · subst hxk
      simp [hk]
    · rw [if_neg hxk, if_neg (by omega), if_neg hx]

theorem alloc_main {t : Tbl D} (h : TblOK t) (hn : t.next < t.slots.length)
    (hc : allocCount t.slots < t.slots.length) (d : D) :
    ∃ k, tblSearch t.slots t.slots.length t.next = some k ∧ k < t.slots.length ∧
      tblAbs t k = none ∧
      TblOK ⟨t.slots.set k ⟨some d, .allocated⟩, t.entries + 1, (k + 1) % t.slots.length⟩ := by
  obtain ⟨k, hk⟩ := tblSearch_total hc hn
  obtain ⟨hlt, hfree⟩ := tblSearch_some hk hn
  have hf := hfree _ (List.getElem?_eq_getElem hlt)
  refine ⟨k, hk, hlt, ?_, ?_, ?_, ?_⟩
  · unfold tblAbs
    simp [hlt, hf]
  · simp only
    rw [allocCount_set hlt hf, h.count]
    push_cast; rfl
  · left
    simp only [List.length_set]
    exact Nat.mod_lt _ (by omega)
  · intro s hs hst
    rcases List.mem_or_eq_of_mem_set hs with hs | rfl
    · exact h.data s hs hst
    · rfl

theorem tblVerify_iff {t : Tbl D} (h : TblOK t) (x : Int) :
    tblVerify t x = (tblAbs t x).isSome := by
  unfold tblVerify tblAbs
  by_cases hx : x < 0
  · simp [hx]
  · rw [if_neg hx, if_neg hx]
    by_cases hl : x ≥ t.slots.length
    · rw [if_pos hl, List.getElem?_eq_none (by omega)]; rfl
    · rw [if_neg hl]
      have hlt : x.toNat < t.slots.length := by omega
      rw [List.getElem?_eq_getElem hlt]
      simp only
      have := h.data _ (List.getElem_mem hlt)
      cases hst : (t.slots[x.toNat]).state with
      | unused => simp
      | deallocated => simp
      | allocated => simp [this hst]

theorem tblAssocLoop_spec (d : D) (slots : List (Slot D)) (i : Nat) :
    (∀ h, tblAssocLoop d slots i = some h → ∃ j, ∃ hj : j < slots.length, h = (i + j : Nat) ∧
      (slots[j]).state = .allocated ∧ (slots[j]).data = some d) ∧
    (tblAssocLoop d slots i = none → ∀ s ∈ slots, ¬ (s.state = .allocated ∧ s.data = some d)) := by
  induction slots generalizing i with
  | nil => simp [tblAssocLoop]
  | cons s ss ih =>
    simp only [tblAssocLoop]
    by_cases hc : s.state = .allocated ∧ s.data = some d
    · rw [if_pos hc]
      refine ⟨?_, by simp⟩
      intro h e
      cases e
      exact ⟨0, by simp, by simp, by simpa using hc⟩
    · rw [if_neg hc]
      constructor
      · intro h e
        obtain ⟨j, hj, e1, e2⟩ := (ih (i + 1)).1 h e
        exact ⟨j + 1, by simpa using hj, by rw [e1]; congr 1; omega, by simpa using e2⟩
      · intro e s' hs'
        rcases List.mem_cons.1 hs' with rfl | hs'
        · exact hc
        · exact (ih (i + 1)).2 e s' hs'

theorem tblStep_ok {t : Tbl D} (h : TblOK t) (o : TOp D) :
    TblOK (tblStep t o).1 ∧ TStep (tblAbs t) o (tblStep t o).2 (tblAbs (tblStep t o).1) := by
  cases o with
  | alloc d b =>
    simp only [tblStep, tblAllocate]
    by_cases hfail : t.entries ≥ t.slots.length ∧ b = false
    · rw [if_pos hfail, hfail.2]
      exact ⟨h, .allocFail⟩
    · rw [if_neg hfail]
      have main : ∀ t' : Tbl D, TblOK t' → t'.next < t'.slots.length →
          allocCount t'.slots < t'.slots.length → (∀ x, tblAbs t' x = tblAbs t x) →
          let r : Tbl D × Option Int := match tblSearch t'.slots t'.slots.length t'.next with
            | some i => (⟨t'.slots.set i ⟨some d, .allocated⟩, t'.entries + 1,
                (i + 1) % t'.slots.length⟩, some (i : Int))
            | none => (t', none)
          TblOK r.1 ∧ TStep (tblAbs t) (.alloc d b) (.handle r.2) (tblAbs r.1) := by
        intro t' h' hn hc habs
        obtain ⟨k, hk, hlt, hnone, hok⟩ := alloc_main h' hn hc d
        rw [hk]
        refine ⟨hok, ?_⟩
        simp only
        have e : tblAbs (⟨t'.slots.set k ⟨some d, .allocated⟩, t'.entries + 1,
            (k + 1) % t'.slots.length⟩ : Tbl D) = fun x => if x = (k : Int) then some d else tblAbs t x := by
          funext x
          rw [tblAbs_set hlt, habs]
        rw [e]
        exact .allocOk (by omega) (by rw [← habs]; exact hnone)
      by_cases hfull : t.entries ≥ t.slots.length
      · rw [if_pos hfull]
        obtain ⟨g1, g2, g3, g4⟩ := tblGrow_ok h hfull
        exact main _ g1 g2 g3 g4
      · rw [if_neg hfull]
        have hc : allocCount t.slots < t.slots.length := by
          have := h.count; omega
        have hn : t.next < t.slots.length := by
          rcases h.next with hn | hn
          · exact hn
          · rw [hn] at hc; simp at hc
        exact main t h hn hc fun _ => rfl
  | dealloc x =>
    simp only [tblStep, tblDeallocate]
    have hv := tblVerify_iff h x
    by_cases hx : tblVerify t x = true
    · rw [if_pos hx]
      have hnn : ¬ x < 0 := by
        intro hc
        simp [tblVerify, hc] at hx
      have hlt : x.toNat < t.slots.length := by
        by_contra hc
        have : x ≥ t.slots.length := by omega
        simp [tblVerify, hnn, this] at hx
      have hst : (t.slots[x.toNat]).state = .allocated := by
        rw [hv] at hx
        unfold tblAbs at hx
        rw [if_neg hnn, List.getElem?_eq_getElem hlt] at hx
        simp only at hx
        by_contra hc
        simp [hc] at hx
      have habs : tblAbs (⟨t.slots.modify x.toNat (fun s => { s with state := .deallocated }),
          t.entries - 1, t.next⟩ : Tbl D) = fun y => if y = x then none else tblAbs t y := by
        funext y
        unfold tblAbs
        by_cases hy : y < 0
        · simp [hy]
        · rw [if_neg hy, if_neg hy]
          simp only [List.getElem?_modify]
          by_cases hyx : y = x
          · subst hyx
            simp [List.getElem?_eq_getElem hlt]
          · rw [if_neg hyx]
            have : ¬ (x.toNat = y.toNat) := by omega
            cases t.slots[y.toNat]? <;> simp [this]
      refine ⟨⟨?_, ?_, ?_⟩, ?_⟩
      · simp only
        rw [h.count]
        unfold allocCount
        have e : t.slots.modify x.toNat (fun s => { s with state := .deallocated }) =
            t.slots.set x.toNat { t.slots[x.toNat] with state := .deallocated } := by
          rw [List.modify_eq_set_getElem? , List.getElem?_eq_getElem hlt]
          rfl
        rw [e, List.countP_set hlt]
        have hpos : 0 < t.slots.countP fun s => decide (s.state = .allocated) := by
          rw [List.countP_pos_iff]
          exact ⟨_, List.getElem_mem hlt, by simp [hst]⟩
        simp [hst]
        omega
      · simp only [List.length_modify]
        rcases h.next with hn | hn
        · exact Or.inl hn
        · rw [hn] at hlt; simp at hlt
      · intro s hs hsa
        obtain ⟨j, hj, rfl⟩ := List.getElem_of_mem hs
        simp only [List.length_modify] at hj
        rw [List.getElem_modify] at hsa ⊢
        split at hsa
        · simp at hsa
        · rename_i hne
          rw [if_neg hne]
          exact h.data _ (List.getElem_mem hj) hsa
      · rw [habs]; exact .dealloc
    · rw [if_neg hx]
      refine ⟨h, ?_⟩
      have hnone : tblAbs t x = none := by
        rw [hv] at hx
        simpa using hx
      have e : tblAbs t = fun y => if y = x then none else tblAbs t y := by
        funext y
        by_cases hy : y = x
        · subst hy; simp [hnone]
        · simp [hy]
      conv => rhs; rw [e]
      exact .dealloc
  | lookup x =>
    refine ⟨h, ?_⟩
    simp only [tblStep]
    have e : tblLookup t x = tblAbs t x := by
      unfold tblLookup
      rw [tblVerify_iff h x]
      unfold tblAbs
      by_cases hx : x < 0
      · simp [hx]
      · rw [if_neg hx]
        cases hs : t.slots[x.toNat]? with
        | none => simp
        | some s =>
          simp only [Option.bind_some]
          by_cases ha : s.state = .allocated
          · rw [if_pos ha, if_pos (h.data s (List.mem_of_getElem? hs) ha)]
          · rw [if_neg ha]; simp
    rw [e]
    exact .lookup
  | assoc d =>
    refine ⟨h, ?_⟩
    simp only [tblStep, tblAssoc]
    obtain ⟨h1, h2⟩ := tblAssocLoop_spec d t.slots 0
    cases hr : tblAssocLoop d t.slots 0 with
    | some x =>
      obtain ⟨j, hj, rfl, e1, e2⟩ := h1 x hr
      apply TStep.assocSome
      unfold tblAbs
      simp [hj, e1, e2]
    | none =>
      apply TStep.assocNone
      intro x hx
      unfold tblAbs at hx
      split at hx
      · simp at hx
      · cases hs : t.slots[x.toNat]? with
        | none => rw [hs] at hx; simp at hx
        | some s =>
          rw [hs] at hx
          simp only at hx
          split at hx
          · rename_i ha
            exact h2 hr s (List.mem_of_getElem? hs) ⟨ha, hx⟩
          · simp at hx
  | verify x =>
    refine ⟨h, ?_⟩
    simp only [tblStep]
    rw [tblVerify_iff h x]
    exact .verify

/-- C28: every history of table operations, started with the empty table, is a history of a map
from handles to data: new handles are not in use, lookups return what was stored until the handle
is freed, stale and out-of-range handles are rejected, growth disturbs nothing, and allocation
fails only when the system has no memory. -/
theorem C28_table (os : List (TOp D)) :
    ∃ m, TRun (fun _ => none) (tblRun (Tbl.init : Tbl D) os).2 m := by
  have gen : ∀ (t : Tbl D), TblOK t → ∃ m, TRun (tblAbs t) (tblRun t os).2 m := by
    induction os with
    | nil => intro t _; exact ⟨_, .nil⟩
    | cons o os ih =>
      intro t ht
      obtain ⟨h1, h2⟩ := tblStep_ok ht o
      obtain ⟨m, hm⟩ := ih _ h1
      exact ⟨m, .cons h2 hm⟩
  have h0 : TblOK (Tbl.init : Tbl D) := ⟨rfl, Or.inr rfl, by simp [Tbl.init]⟩
  have e : tblAbs (Tbl.init : Tbl D) = fun _ => none := by
    funext x; simp [tblAbs, Tbl.init]
  have := gen _ h0
  rwa [e] at this

/-- Non-trivial instance: the table grows past 32 entries, a freed handle is reused and a stale
handle is rejected. -/
example :
    (tblRun (Tbl.init : Tbl Nat) ((List.range 33).map (fun d => .alloc d true) ++
      [.dealloc 5, .lookup 5, .lookup 32, .assoc 7, .verify 40])).2.map (·.2) =
    (List.range 33).map (fun h => .handle (some (h : Nat))) ++
      [.done, .data none, .data (some 32), .handle (some 7), .valid false] := by decide

end GA
