import Verif.Lemmas.KrMalloc
import Mathlib.Data.List.Pairwise
import Mathlib.Data.List.Nodup

/-! # Lemmas: the invariant of the allocator -/

namespace GA.Kr

/-- the byte is part of the block -/
def Blk.has (b : Blk) (z : Nat) : Prop := b.addr ≤ z ∧ z < b.fin

/-- the blocks do not overlap -/
def Disj (x y : Blk) : Prop := x.fin ≤ y.addr ∨ y.fin ≤ x.addr

theorem Disj.symm {x y : Blk} (h : Disj x y) : Disj y x := Or.symm h

/-- the blocks do not overlap and together are the memory from the system -/
structure Geo (l chunks : List Blk) : Prop where
  disj : l.Pairwise Disj
  bytes : ∀ z, (∃ b ∈ l, b.has z) ↔ ∃ b ∈ chunks, b.has z

theorem geo_perm {l l' chunks : List Blk} (h : Geo l chunks) (hp : l.Perm l') : Geo l' chunks := by
  refine ⟨(hp.pairwise_iff (fun {x y} h => Disj.symm h)).1 h.disj, fun z => ?_⟩
  rw [← h.bytes z]
  constructor
  · rintro ⟨b, hb, hz⟩
    exact ⟨b, hp.mem_iff.2 hb, hz⟩
  · rintro ⟨b, hb, hz⟩
    exact ⟨b, hp.mem_iff.1 hb, hz⟩

/-- cutting a block -/
theorem geo_cut {a s t : Nat} {r chunks : List Blk} (h : Geo (⟨a, s + t⟩ :: r) chunks) : Geo (⟨a, s⟩ :: ⟨a + 64 * s, t⟩ :: r) chunks := by
  refine ⟨?_, fun z => ?_⟩
  · have h := h.disj
    rw [List.pairwise_cons] at h
    rw [List.pairwise_cons, List.pairwise_cons]
    refine ⟨?_, ?_, h.2⟩
    · intro x hx
      rcases List.mem_cons.1 hx with rfl | hx
      · exact Or.inl (by simp [Blk.fin])
      · have := h.1 x hx
        simp only [Disj, Blk.fin] at this ⊢
        omega
    · intro x hx
      have := h.1 x hx
      simp only [Disj, Blk.fin] at this ⊢
      omega
  · rw [← h.bytes z]
    simp only [List.mem_cons, exists_eq_or_imp, Blk.has, Blk.fin]
    constructor
    · rintro (h | h | h)
      · exact Or.inl ⟨h.1, by omega⟩
      · exact Or.inl ⟨by omega, by omega⟩
      · exact Or.inr h
    · rintro (h | h)
      · by_cases hz : z < a + 64 * s
        · exact Or.inl ⟨h.1, hz⟩
        · exact Or.inr (Or.inl ⟨by omega, by omega⟩)
      · exact Or.inr (Or.inr h)

/-- joining two neighbours -/
theorem geo_join {x y : Blk} {r chunks : List Blk} (hxy : x.fin = y.addr) (hr : ∀ w ∈ r, w.size = 0 → w.addr ≠ y.addr)
    (h : Geo (x :: y :: r) chunks) : Geo (⟨x.addr, x.size + y.size⟩ :: r) chunks := by
  unfold Blk.fin at hxy
  refine ⟨?_, fun z => ?_⟩
  · have hp := h.disj
    rw [List.pairwise_cons, List.pairwise_cons] at hp
    rw [List.pairwise_cons]
    refine ⟨fun w hw => ?_, hp.2.2⟩
    have h1 := hp.1 w (by simp [hw])
    have h2 := hp.2.1 w hw
    have h3 := hr w hw
    simp only [Disj, Blk.fin] at h1 h2 ⊢
    omega
  · rw [← h.bytes z]
    simp only [List.mem_cons, exists_eq_or_imp, Blk.has, Blk.fin]
    constructor
    · rintro (h | h)
      · by_cases hz : z < x.addr + 64 * x.size
        · exact Or.inl ⟨h.1, hz⟩
        · exact Or.inr (Or.inl ⟨by omega, by omega⟩)
      · exact Or.inr (Or.inr h)
    · rintro (h | h | h)
      · exact Or.inl ⟨h.1, by omega⟩
      · exact Or.inl ⟨by omega, by omega⟩
      · exact Or.inr h

/-- the sum of the sizes -/
def units (l : List Blk) : Nat := (l.map Blk.size).sum

theorem units_perm {l l' : List Blk} (h : l.Perm l') : units l = units l' := (h.map Blk.size).sum_nat

theorem units_cons (b : Blk) (l : List Blk) : units (b :: l) = b.size + units l := by simp [units]

theorem units_append (l l' : List Blk) : units (l ++ l') = units l + units l' := by simp [units]

/-- what holds of the list of free blocks -/
structure Free (base : Nat) (L used chunks : List Blk) : Prop where
  cs : CS (L.map Blk.addr)
  hd : ⟨base, 0⟩ ∈ L
  zero : ∀ x ∈ L, x.size = 0 → x.addr = base
  upos : ∀ x ∈ used, 0 < x.size
  geo : Geo (used ++ L) chunks
  away : ∀ ch ∈ chunks, ∀ z, ch.has z → z ≠ base ∧ z + 1 ≠ base
  gap : ∀ x ∈ L, ∀ y ∈ L, 0 < x.size → x.fin ≠ y.addr
  al : ∀ x ∈ used ++ L, 0 < x.size → ∃ ch ∈ chunks, x.addr % 64 = ch.addr % 64

/-- a block with bytes does not touch the header in the context -/
theorem away_blk {base : Nat} {l chunks : List Blk} (g : Geo l chunks) (h : ∀ ch ∈ chunks, ∀ z, ch.has z → z ≠ base ∧ z + 1 ≠ base) {x : Blk} (hx : x ∈ l) :
    (∀ z, x.has z → z ≠ base ∧ z + 1 ≠ base) ∧ (0 < x.size → x.addr ≠ base ∧ x.fin ≠ base) := by
  have h1 : ∀ z, x.has z → z ≠ base ∧ z + 1 ≠ base := by
    intro z hz
    obtain ⟨ch, hc, hcz⟩ := (g.bytes z).1 ⟨x, hx, hz⟩
    exact h ch hc z hcz
  refine ⟨h1, fun hs => ⟨(h1 x.addr ⟨Nat.le_refl _, by unfold Blk.fin; omega⟩).1, ?_⟩⟩
  have := (h1 (x.fin - 1) ⟨by unfold Blk.fin; omega, by unfold Blk.fin; omega⟩).2
  have hf : 0 < x.fin := by unfold Blk.fin; omega
  omega

theorem pair_disj {l : List Blk} (h : l.Pairwise Disj) {x y : Blk} (hx : x ∈ l) (hy : y ∈ l) (hne : x ≠ y) : Disj x y := by
  haveI : Std.Symm Disj := ⟨fun _ _ h => h.symm⟩
  exact h.forall hx hy hne

/-- the gaps after a new block -/
theorem gap_new {L M : List Blk} {n : Blk} (g : ∀ x ∈ L, ∀ y ∈ L, 0 < x.size → x.fin ≠ y.addr) (hM : ∀ x ∈ M, x = n ∨ x ∈ L) (hn : 0 < n.size)
    (up : ∀ y ∈ M, n.fin ≠ y.addr) (low : ∀ x ∈ M, 0 < x.size → x.fin ≠ n.addr) : ∀ x ∈ M, ∀ y ∈ M, 0 < x.size → x.fin ≠ y.addr := by
  intro x hx y hy hs
  rcases hM x hx with rfl | hx'
  · exact up y hy
  · rcases hM y hy with rfl | hy'
    · exact low x hx hs
    · exact g x hx' y hy' hs

macro "perm" : tactic => `(tactic| (rw [List.perm_iff_count]; intro x; simp only [List.count_append, List.count_cons, List.count_nil]; omega))

/-- the addresses of new blocks -/
theorem al_new {l M chunks : List Blk} (h : ∀ x ∈ l, 0 < x.size → ∃ ch ∈ chunks, x.addr % 64 = ch.addr % 64)
    (hM : ∀ x ∈ M, x ∈ l ∨ ∃ y ∈ l, 0 < y.size ∧ x.addr % 64 = y.addr % 64) : ∀ x ∈ M, 0 < x.size → ∃ ch ∈ chunks, x.addr % 64 = ch.addr % 64 := by
  intro x hx hs
  rcases hM x hx with h1 | ⟨y, hy, hys, e⟩
  · exact h x h1 hs
  · rw [e]
    exact h y hy hys

/-- returning a block to the list -/
theorem insert_spec {base : Nat} {b : Blk} {L used chunks : List Blk} (f : Free base L (b :: used) chunks) :
    ∃ l lost, insert b L = some (l, lost) ∧ Free base l used chunks ∧ units l = units L + b.size ∧ (l.length : Int) + lost = L.length + 1 ∧
      ∃ x ∈ l, b.size ≤ x.size := by
  have hb : 0 < b.size := f.upos b (by simp)
  have hbb := (away_blk f.geo f.away (x := b) (by simp)).2 hb
  have hne : ∀ x ∈ L, x.addr ≠ b.addr := by
    intro x hx h
    by_cases hs : x.size = 0
    · exact hbb.1 (h.symm.trans (f.zero x hx hs))
    · have hd := f.geo.disj
      rw [List.cons_append, List.pairwise_cons] at hd
      have := hd.1 x (by simp [hx])
      simp only [Disj, Blk.fin] at this
      omega
  have hL : L ≠ [] := fun h => by
    have := f.hd
    rw [h] at this
    simp at this
  obtain ⟨L', hw⟩ := place_some hL f.cs hne
  obtain ⟨p, r, hL', hok, hperm, hcs⟩ := walk_some hw
  have hcs := hcs f.cs
  have hmem : ∀ x, x ∈ p :: r ↔ x ∈ L := fun x => by rw [← hL']; exact hperm.mem_iff
  have geo : Geo (b :: used ++ (p :: r)) chunks := geo_perm f.geo (by rw [← hL']; exact List.Perm.append_left _ hperm.symm)
  have hun : units L = p.size + units r := by
    rw [← units_perm hperm, hL', units_cons]
  have hlen : L.length = r.length + 1 := by
    rw [← hperm.length_eq, hL']
    rfl
  have hins : insert b L = some ((joinLow (joinUp b (p :: r)).1).1, (joinUp b (p :: r)).2 + (joinLow (joinUp b (p :: r)).1).2) := by
    unfold insert
    rw [hw, hL']
  have hbase : ⟨base, 0⟩ ∈ p :: r := (hmem _).2 f.hd
  have hz : ∀ x ∈ p :: r, x.size = 0 → x.addr = base := fun x hx => f.zero x ((hmem x).1 hx)
  have hgap : ∀ x ∈ p :: r, ∀ y ∈ p :: r, 0 < x.size → x.fin ≠ y.addr := fun x hx y hy => f.gap x ((hmem x).1 hx) y ((hmem y).1 hy)
  have hne : ∀ x ∈ p :: r, x.addr ≠ b.addr := fun x hx => hne x ((hmem x).1 hx)
  have hupos : ∀ x ∈ used, 0 < x.size := fun x hx => f.upos x (by simp [hx])
  rw [hL', List.map_cons] at hcs
  rw [hL'] at hok
  have hM : CS (p.addr :: b.addr :: r.map Blk.addr) := cs_place hcs (Ne.symm (hne p (by simp))) _ (next_map p r) (place_iff.1 hok)
  rw [hins, hun, hlen]
  have away := f.away
  have hal : ∀ x ∈ b :: used ++ (p :: r), 0 < x.size → ∃ ch ∈ chunks, x.addr % 64 = ch.addr % 64 := by
    intro x hx
    refine f.al x ?_
    simp only [List.cons_append, List.mem_cons, List.mem_append] at hx ⊢
    rw [← hmem, List.mem_cons]
    exact hx
  clear hins hun hlen hw hperm f hmem hL' hok hL
  have hrz : ∀ y : Blk, y.addr ≠ base → ∀ w ∈ used ++ (p :: r), w.size = 0 → w.addr ≠ y.addr := by
    intro y hy w hw hs
    rcases List.mem_append.1 hw with hw | hw
    · have := hupos w hw
      omega
    · rw [hz w hw hs]
      exact Ne.symm hy
  have hdb : ∀ x ∈ p :: r, Disj b x := by
    intro x hx
    have hd := geo.disj
    rw [List.cons_append, List.pairwise_cons] at hd
    exact hd.1 x (List.mem_append.2 (Or.inr hx))
  have hdl : ∀ x ∈ p :: r, ∀ y ∈ p :: r, x ≠ y → Disj x y := fun x hx y hy h =>
    pair_disj geo.disj (List.mem_append.2 (Or.inr hx)) (List.mem_append.2 (Or.inr hy)) h
  have hinj : ∀ x ∈ p :: r, ∀ y ∈ p :: r, x.addr = y.addr → x = y := fun x hx y hy h =>
    List.inj_on_of_nodup_map (f := Blk.addr) (l := p :: r) (by rw [List.map_cons]; exact cs_nodup hcs) hx hy h
  have hlow : ∀ x ∈ p :: r, 0 < x.size → x.fin = b.addr → x = p := by
    intro x hx hs h
    have hxb : x.addr < b.addr := by
      unfold Blk.fin at h
      omega
    have hxm : x.addr ∈ p.addr :: b.addr :: r.map Blk.addr := by
      rcases List.mem_cons.1 hx with rfl | hx
      · simp
      · exact List.mem_cons_of_mem _ (List.mem_cons_of_mem _ (List.mem_map_of_mem hx))
    have := cs_prev hM hxm hxb
    by_contra hne'
    have hd := hdl x hx p (by simp) hne'
    have hne2 : x.addr ≠ p.addr := fun h => hne' (hinj x hx p (by simp) h)
    simp only [Disj, Blk.fin] at hd h
    omega
  have awayblk : ∀ x ∈ p :: r, 0 < x.size → x.addr ≠ base ∧ x.fin ≠ base := fun x hx =>
    (away_blk geo away (x := x) (List.mem_append.2 (Or.inr hx))).2
  cases r with
  | nil =>
    have hp : p = ⟨base, 0⟩ := by
      rw [List.mem_singleton] at hbase
      exact hbase.symm
    subst hp
    have e1 : joinUp b [⟨base, 0⟩] = ([⟨base, 0⟩, b], 0) := by
      simp only [joinUp]
      rw [if_neg hbb.2]
    have e2 : joinLow [⟨base, 0⟩, b] = ([⟨base, 0⟩, b], 0) := by
      simp only [joinLow]
      rw [if_neg]
      intro h
      exact hbb.1 (h.symm.trans (by simp [Blk.fin]))
    rw [e1]
    dsimp only
    rw [e2]
    refine ⟨_, _, rfl, ⟨hM, by simp, ?_, hupos, ?_, away, ?_, al_new hal ?_⟩, ?_, ?_, b, by simp, Nat.le_refl _⟩
    · intro x hx hs
      rcases List.mem_cons.1 hx with rfl | hx
      · rfl
      · rw [List.mem_singleton] at hx
        subst hx
        omega
    · exact geo_perm geo (by perm)
    · intro x hx y hy hs
      rcases List.mem_cons.1 hx with rfl | hx
      · simp at hs
      · rw [List.mem_singleton] at hx
        subst hx
        rcases List.mem_cons.1 hy with rfl | hy
        · exact hbb.2
        · rw [List.mem_singleton] at hy
          subst hy
          unfold Blk.fin
          omega
    · intro x hx
      simp only [List.cons_append, List.mem_append, List.mem_cons, List.not_mem_nil, or_false] at hx ⊢
      grind
    · simp [units]
    · simp
  | cons q r =>
    have hup : ∀ y ∈ p :: q :: r, b.fin = y.addr → y = q := by
      intro y hy h
      have hby : b.addr < y.addr := by
        unfold Blk.fin at h
        omega
      have hM' := cs_rot hM
      rw [List.map_cons, List.cons_append, List.cons_append] at hM'
      have hym : y.addr ∈ b.addr :: q.addr :: (r.map Blk.addr ++ [p.addr]) := by
        simp only [List.mem_cons] at hy
        rcases hy with rfl | rfl | hy
        · simp
        · simp
        · have := List.mem_map_of_mem (f := Blk.addr) hy
          simp only [List.mem_cons, List.mem_append]
          exact Or.inr (Or.inr (Or.inl this))
      have := cs_next hM' hym hby
      have hd := hdb q (by simp)
      apply hinj y hy q (by simp)
      simp only [Disj, Blk.fin] at hd h
      omega
    have hqz : b.fin = q.addr → 0 < q.size := by
      intro h
      by_contra hs
      exact hbb.2 (h.trans (hz q (by simp) (by omega)))
    have hpz : p.fin = b.addr → 0 < p.size := by
      intro h
      by_contra hs
      have h0 : p.size = 0 := by omega
      have := hz p (by simp) h0
      unfold Blk.fin at h
      apply hbb.1
      omega
    by_cases hu : b.fin = q.addr
    · have hqs := hqz hu
      have e1 : joinUp b (p :: q :: r) = (p :: ⟨b.addr, b.size + q.size⟩ :: r, 1) := by
        simp only [joinUp]
        rw [if_pos hu]
      rw [e1]
      dsimp only
      have g1 : Geo (⟨b.addr, b.size + q.size⟩ :: (used ++ (p :: r))) chunks := by
        refine geo_join hu ?_ (geo_perm geo (by perm))
        intro w hw
        refine hrz q (awayblk q (by simp) hqs).1 w ?_
        simp only [List.mem_append, List.mem_cons] at hw ⊢
        rcases hw with h | h | h
        · exact Or.inl h
        · exact Or.inr (Or.inl h)
        · exact Or.inr (Or.inr (Or.inr h))
      have hbr : ⟨base, 0⟩ ∈ p :: r := by
        simp only [List.mem_cons] at hbase ⊢
        rcases hbase with h | h | h
        · exact Or.inl h
        · rw [← h] at hqs
          simp at hqs
        · exact Or.inr h
      by_cases hl : p.fin = b.addr
      · have hps := hpz hl
        have e2 : joinLow (p :: ⟨b.addr, b.size + q.size⟩ :: r) = (⟨p.addr, p.size + (b.size + q.size)⟩ :: r, 1) := by
          simp only [joinLow]
          rw [if_pos hl]
        rw [e2]
        refine ⟨_, _, rfl, ⟨?_, ?_, ?_, hupos, ?_, away, ?_, al_new hal ?_⟩, ?_, ?_, ⟨p.addr, p.size + (b.size + q.size)⟩, by simp, by simp; omega⟩
        · exact cs_sub hM (by simp)
        · rcases List.mem_cons.1 hbr with h | h
          · rw [← h] at hps
            simp at hps
          · exact List.mem_cons_of_mem _ h
        · intro x hx hs
          rcases List.mem_cons.1 hx with rfl | hx
          · simp at hs
            omega
          · exact hz x (by simp [hx]) hs
        · have := geo_join (x := p) (y := ⟨b.addr, b.size + q.size⟩) hl (r := used ++ r) (by
            intro w hw
            refine hrz b hbb.1 w ?_
            simp only [List.mem_append, List.mem_cons] at hw ⊢
            rcases hw with h | h
            · exact Or.inl h
            · exact Or.inr (Or.inr (Or.inr h))) (geo_perm g1 (by perm))
          exact geo_perm this (by perm)
        · refine gap_new (L := p :: q :: r) (n := ⟨p.addr, p.size + (b.size + q.size)⟩) hgap ?_ (by simp; omega) ?_ ?_
          · intro x hx
            rcases List.mem_cons.1 hx with rfl | hx
            · exact Or.inl rfl
            · exact Or.inr (by simp [hx])
          · intro y hy h
            have hf : q.fin = y.addr := by
              rw [← h]
              simp only [Blk.fin] at hu hl ⊢
              omega
            rcases List.mem_cons.1 hy with rfl | hy
            · simp only [Blk.fin] at h
              omega
            · exact hgap q (by simp) y (by simp [hy]) hqs hf
          · intro x hx hs h
            rcases List.mem_cons.1 hx with rfl | hx
            · simp only [Blk.fin] at h
              omega
            · exact hgap x (by simp [hx]) p (by simp) hs h
        · intro x hx
          simp only [List.cons_append, List.mem_append, List.mem_cons, List.not_mem_nil, or_false] at hx ⊢
          grind
        · simp only [units_cons]
          omega
        · simp only [List.length_cons]
          omega
      · have e2 : joinLow (p :: ⟨b.addr, b.size + q.size⟩ :: r) = (p :: ⟨b.addr, b.size + q.size⟩ :: r, 0) := by
          simp only [joinLow]
          rw [if_neg hl]
        rw [e2]
        refine ⟨_, _, rfl, ⟨?_, ?_, ?_, hupos, ?_, away, ?_, al_new hal ?_⟩, ?_, ?_, ⟨b.addr, b.size + q.size⟩, by simp, by simp⟩
        · exact cs_sub hM (by simp)
        · rcases List.mem_cons.1 hbr with h | h
          · exact h ▸ List.mem_cons_self
          · exact List.mem_cons_of_mem _ (List.mem_cons_of_mem _ h)
        · intro x hx hs
          simp only [List.mem_cons] at hx
          rcases hx with rfl | rfl | hx
          · exact hz x (by simp) hs
          · simp at hs
            omega
          · exact hz x (by simp [hx]) hs
        · exact geo_perm g1 (by perm)
        · refine gap_new (L := p :: q :: r) (n := ⟨b.addr, b.size + q.size⟩) hgap ?_ (by simp; omega) ?_ ?_
          · intro x hx
            simp only [List.mem_cons] at hx
            rcases hx with rfl | rfl | hx
            · exact Or.inr (by simp)
            · exact Or.inl rfl
            · exact Or.inr (by simp [hx])
          · intro y hy h
            have hf : q.fin = y.addr := by
              rw [← h]
              simp only [Blk.fin] at hu ⊢
              omega
            simp only [List.mem_cons] at hy
            rcases hy with rfl | rfl | hy
            · exact hgap q (by simp) y (by simp) hqs hf
            · simp only [Blk.fin] at h
              omega
            · exact hgap q (by simp) y (by simp [hy]) hqs hf
          · intro x hx hs h
            simp only [List.mem_cons] at hx
            rcases hx with rfl | rfl | hx
            · exact hl h
            · simp only [Blk.fin] at h
              omega
            · have hxm : x ∈ p :: q :: r := by simp [hx]
              have := hlow x hxm hs h
              rw [this] at h
              exact hl h
        · intro x hx
          simp only [List.cons_append, List.mem_append, List.mem_cons, List.not_mem_nil, or_false] at hx ⊢
          grind
        · simp only [units_cons]
          omega
        · simp only [List.length_cons]
          omega
    · have e1 : joinUp b (p :: q :: r) = (p :: b :: q :: r, 0) := by
        simp only [joinUp]
        rw [if_neg hu]
      rw [e1]
      dsimp only
      by_cases hl : p.fin = b.addr
      · have hps := hpz hl
        have e2 : joinLow (p :: b :: q :: r) = (⟨p.addr, p.size + b.size⟩ :: q :: r, 1) := by
          simp only [joinLow]
          rw [if_pos hl]
        rw [e2]
        refine ⟨_, _, rfl, ⟨?_, ?_, ?_, hupos, ?_, away, ?_, al_new hal ?_⟩, ?_, ?_, ⟨p.addr, p.size + b.size⟩, by simp, by simp⟩
        · exact hcs
        · rcases List.mem_cons.1 hbase with h | h
          · rw [← h] at hps
            simp at hps
          · exact List.mem_cons_of_mem _ h
        · intro x hx hs
          rcases List.mem_cons.1 hx with rfl | hx
          · simp at hs
            omega
          · exact hz x (List.mem_cons_of_mem _ hx) hs
        · have := geo_join (x := p) (y := b) hl (r := used ++ q :: r) (by
            intro w hw
            refine hrz b hbb.1 w ?_
            simp only [List.mem_append, List.mem_cons] at hw ⊢
            rcases hw with h | h | h
            · exact Or.inl h
            · exact Or.inr (Or.inr (Or.inl h))
            · exact Or.inr (Or.inr (Or.inr h))) (geo_perm geo (by perm))
          exact geo_perm this (by perm)
        · refine gap_new (L := p :: q :: r) (n := ⟨p.addr, p.size + b.size⟩) hgap ?_ (by simp; omega) ?_ ?_
          · intro x hx
            rcases List.mem_cons.1 hx with rfl | hx
            · exact Or.inl rfl
            · exact Or.inr (List.mem_cons_of_mem _ hx)
          · intro y hy h
            have hf : b.fin = y.addr := by
              rw [← h]
              simp only [Blk.fin] at hl ⊢
              omega
            rcases List.mem_cons.1 hy with rfl | hy
            · simp only [Blk.fin] at h
              omega
            · have := hup y (List.mem_cons_of_mem _ hy) hf
              rw [this] at hf
              exact hu hf
          · intro x hx hs h
            rcases List.mem_cons.1 hx with rfl | hx
            · simp only [Blk.fin] at h
              omega
            · exact hgap x (List.mem_cons_of_mem _ hx) p (by simp) hs h
        · intro x hx
          simp only [List.cons_append, List.mem_append, List.mem_cons, List.not_mem_nil, or_false] at hx ⊢
          grind
        · simp only [units_cons]
          omega
        · simp only [List.length_cons]
          omega
      · have e2 : joinLow (p :: b :: q :: r) = (p :: b :: q :: r, 0) := by
          simp only [joinLow]
          rw [if_neg hl]
        rw [e2]
        refine ⟨_, _, rfl, ⟨hM, ?_, ?_, hupos, ?_, away, ?_, al_new hal ?_⟩, ?_, ?_, b, by simp, Nat.le_refl _⟩
        · rcases List.mem_cons.1 hbase with h | h
          · exact h ▸ List.mem_cons_self
          · exact List.mem_cons_of_mem _ (List.mem_cons_of_mem _ h)
        · intro x hx hs
          simp only [List.mem_cons] at hx
          rcases hx with rfl | rfl | hx
          · exact hz x (by simp) hs
          · omega
          · exact hz x (by simpa using Or.inr hx) hs
        · exact geo_perm geo (by perm)
        · refine gap_new (L := p :: q :: r) (n := b) hgap ?_ hb ?_ ?_
          · intro x hx
            simp only [List.mem_cons] at hx ⊢
            rcases hx with rfl | rfl | hx
            · exact Or.inr (Or.inl rfl)
            · exact Or.inl rfl
            · exact Or.inr (Or.inr hx)
          · intro y hy h
            rcases List.mem_cons.1 hy with rfl | hy
            · have := hup y (by simp) h
              rw [this] at h
              exact hu h
            · rcases List.mem_cons.1 hy with rfl | hy
              · unfold Blk.fin at h
                omega
              · have := hup y (List.mem_cons_of_mem _ hy) h
                rw [this] at h
                exact hu h
          · intro x hx hs h
            rcases List.mem_cons.1 hx with rfl | hx
            · exact hl h
            · rcases List.mem_cons.1 hx with rfl | hx
              · unfold Blk.fin at h
                omega
              · have := hlow x (List.mem_cons_of_mem _ hx) hs h
                rw [this] at h
                exact hl h
        · intro x hx
          simp only [List.cons_append, List.mem_append, List.mem_cons, List.not_mem_nil, or_false] at hx ⊢
          grind
        · simp only [units_cons]
          omega
        · simp only [List.length_cons]
          omega

/-- taking a block from the list -/
theorem take_spec {base nu : Nat} {L L' used chunks : List Blk} (hnu : 0 < nu) (f : Free base L used chunks) (hw : walk (fits nu) L.length L = some L') :
    ∃ b l fr, take nu L' = (l, b, fr) ∧ b.size = nu ∧ Free base l (b :: used) chunks ∧ units L = units l + nu ∧ (l.length : Int) + 1 = L.length + fr := by
  obtain ⟨p, r, rfl, hok, hperm, hcs⟩ := walk_some hw
  have hcs := hcs f.cs
  have hmem : ∀ x, x ∈ p :: r ↔ x ∈ L := fun x => hperm.mem_iff
  have geo : Geo (used ++ (p :: r)) chunks := geo_perm f.geo (List.Perm.append_left _ hperm.symm)
  have hun := units_perm hperm
  have hlen := hperm.length_eq
  have hbase : ⟨base, 0⟩ ∈ p :: r := (hmem _).2 f.hd
  have hz : ∀ x ∈ p :: r, x.size = 0 → x.addr = base := fun x hx => f.zero x ((hmem x).1 hx)
  have hgap : ∀ x ∈ p :: r, ∀ y ∈ p :: r, 0 < x.size → x.fin ≠ y.addr := fun x hx y hy => f.gap x ((hmem x).1 hx) y ((hmem y).1 hy)
  have hsz : nu ≤ (next (p :: r)).size := by simpa [fits] using hok
  cases r with
  | nil =>
    exfalso
    rw [List.mem_singleton] at hbase
    rw [← hbase] at hsz
    simp [next] at hsz
    omega
  | cons q r =>
    have hsz : nu ≤ q.size := hsz
    have hqb : ⟨base, 0⟩ ∈ p :: r := by
      simp only [List.mem_cons] at hbase ⊢
      rcases hbase with h | h | h
      · exact Or.inl h
      · rw [← h] at hsz
        simp at hsz
        omega
      · exact Or.inr h
    by_cases he : q.size = nu
    · refine ⟨q, p :: r, 0, by simp only [take]; rw [if_pos he], he, ⟨?_, hqb, ?_, ?_, ?_, f.away, ?_, al_new f.al ?_⟩, ?_, ?_⟩
      · exact cs_sub hcs (by simp)
      · intro x hx
        refine hz x ?_
        simp only [List.mem_cons] at hx ⊢
        rcases hx with h | h
        · exact Or.inl h
        · exact Or.inr (Or.inr h)
      · intro x hx
        rcases List.mem_cons.1 hx with rfl | hx
        · omega
        · exact f.upos x hx
      · exact geo_perm geo (by perm)
      · have sub : ∀ x ∈ p :: r, x ∈ p :: q :: r := by
          intro x hx
          simp only [List.mem_cons] at hx ⊢
          rcases hx with h | h
          · exact Or.inl h
          · exact Or.inr (Or.inr h)
        exact fun x hx y hy => hgap x (sub x hx) y (sub y hy)
      · intro x hx
        simp only [List.cons_append, List.mem_append, List.mem_cons, ← hmem] at hx ⊢
        grind
      · rw [← hun]
        simp only [units_cons]
        omega
      · rw [← hlen]
        simp
    · refine ⟨⟨q.addr + 64 * (q.size - nu), nu⟩, p :: ⟨q.addr, q.size - nu⟩ :: r, 1, by simp only [take]; rw [if_neg he], rfl,
        ⟨hcs, ?_, ?_, ?_, ?_, f.away, ?_, al_new f.al ?_⟩, ?_, ?_⟩
      · rcases List.mem_cons.1 hqb with h | h
        · exact h ▸ List.mem_cons_self
        · exact List.mem_cons_of_mem _ (List.mem_cons_of_mem _ h)
      · intro x hx hs
        rcases List.mem_cons.1 hx with rfl | hx
        · exact hz x (by simp) hs
        · rcases List.mem_cons.1 hx with rfl | hx
          · simp at hs
            omega
          · exact hz x (List.mem_cons_of_mem _ (List.mem_cons_of_mem _ hx)) hs
      · intro x hx
        rcases List.mem_cons.1 hx with rfl | hx
        · exact hnu
        · exact f.upos x hx
      · have g1 : Geo (⟨q.addr, q.size - nu + nu⟩ :: (used ++ p :: r)) chunks := by
          rw [Nat.sub_add_cancel hsz]
          change Geo (q :: _) chunks
          exact geo_perm geo (by perm)
        exact geo_perm (geo_cut g1) (by perm)
      · refine gap_new (L := p :: q :: r) (n := ⟨q.addr, q.size - nu⟩) hgap ?_ (by simp; omega) ?_ ?_
        · intro x hx
          rcases List.mem_cons.1 hx with rfl | hx
          · exact Or.inr (by simp)
          · rcases List.mem_cons.1 hx with rfl | hx
            · exact Or.inl rfl
            · exact Or.inr (List.mem_cons_of_mem _ (List.mem_cons_of_mem _ hx))
        · have key : ∀ y ∈ p :: q :: r, (⟨q.addr, q.size - nu⟩ : Blk).fin ≠ y.addr := by
            intro y hy h
            by_cases hys : y.size = 0
            · have hb := hz y hy hys
              refine ((away_blk geo f.away (x := q) (by simp)).1 y.addr ⟨?_, ?_⟩).1 hb
              · rw [← h]
                simp [Blk.fin]
              · rw [← h]
                simp only [Blk.fin]
                omega
            · by_cases hyq : y = q
              · rw [hyq] at h
                simp only [Blk.fin] at h
                omega
              · have hd := pair_disj geo.disj (x := q) (y := y) (by simp) (List.mem_append.2 (Or.inr hy)) (Ne.symm hyq)
                simp only [Disj, Blk.fin] at hd h
                omega
          intro y hy
          rcases List.mem_cons.1 hy with rfl | hy
          · exact key y (by simp)
          · rcases List.mem_cons.1 hy with rfl | hy
            · simp only [Blk.fin]
              omega
            · exact key y (List.mem_cons_of_mem _ (List.mem_cons_of_mem _ hy))
        · intro x hx hs h
          rcases List.mem_cons.1 hx with rfl | hx
          · exact hgap x (by simp) q (by simp) hs h
          · rcases List.mem_cons.1 hx with rfl | hx
            · simp only [Blk.fin] at h
              simp at hs
              omega
            · exact hgap x (List.mem_cons_of_mem _ (List.mem_cons_of_mem _ hx)) q (by simp) hs h
      · intro x hx
        simp only [List.cons_append, List.mem_append, List.mem_cons, ← hmem] at hx ⊢
        grind
      · rw [← hun]
        simp only [units_cons]
        omega
      · rw [← hlen]
        simp

end GA.Kr
