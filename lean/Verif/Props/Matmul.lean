import Verif.Lemmas.MatmulSum
import Verif.Props.C01

/-!
# C60: `GA_Dgemm` and `GA_Matmul_patch`; C61: `NGA_Matmul_patch`

`f`, `f'`: the result array before and after the call, for any interleaving of the processes.
-/

namespace GA
open Spec Model Matmul

section
variable {V : Type}

/-! ## the blocks of the result array -/

private theorem blk2_iff {C : RegArray} {d0 d1 : Int} (hd : C.dims = [d0, d1]) (hm : MapOK C.nblock C.dims C.mapc) (p : Int)
    (x y : Int) : OwnedBy C p [x, y] ↔ ((blk2 (owns C p)).1 ≤ x ∧ x ≤ (blk2 (owns C p)).2.1) ∧
      (blk2 (owns C p)).2.2.1 ≤ y ∧ y ≤ (blk2 (owns C p)).2.2.2 := by
  have hl : ∃ a b, C.nblock = [a, b] := by
    rw [hd] at hm
    cases h : C.nblock with
    | nil => rw [h] at hm; simp [MapOK] at hm
    | cons a t =>
      rw [h] at hm
      cases t with
      | nil => simp [MapOK] at hm
      | cons b t =>
        cases t with
        | nil => exact ⟨a, b, rfl⟩
        | cons c t => simp [MapOK] at hm
  obtain ⟨a, b, hl⟩ := hl
  unfold OwnedBy owns
  rw [hl, hd]
  split <;> simp [InPatch, ownsLo, ownsHi, blk2]

private theorem blocks {C : RegArray} {d0 d1 : Int} (hd : C.dims = [d0, d1]) (hm : MapOK C.nblock C.dims C.mapc) {n : Nat}
    (hn : gridSize C.nblock ≤ n) :
    (∀ x y, 1 ≤ x → x ≤ d0 → 1 ≤ y → y ≤ d1 → ∃ p : Nat, p < n ∧ OwnedBy C p [x, y] ∧ ∀ q : Nat, OwnedBy C q [x, y] → q = p) ∧
    ∀ (p : Nat) x y, OwnedBy C p [x, y] → 1 ≤ x ∧ x ≤ d0 ∧ 1 ≤ y ∧ y ≤ d1 := by
  have hne : C.dims ≠ [] := by rw [hd]; simp
  have hc : CandOK C.nblock (C.nblock.map fun _ => 0) := by
    generalize C.nblock = l
    induction l with
    | nil => simp [CandOK]
    | cons a l ih => simpa [CandOK] using ih
  constructor
  · intro x y h1 h2 h3 h4
    obtain ⟨p, _, p1, p2, p3, p4⟩ := (C01_unique_owner C hne hm _ hc [x, y] (by rw [hd]; rfl)).1
      (by rw [hd]; simp [InArray, InPatch]; omega)
    refine ⟨p.toNat, by omega, ?_, ?_⟩
    · rwa [Int.toNat_of_nonneg p1]
    · intro q hq
      have := p4 q hq
      omega
  · intro p x y h
    by_contra hx
    have := (C01_unique_owner C hne hm _ hc [x, y] (by rw [hd]; rfl)).2
      (by rw [hd]; simp only [InArray, InPatch, List.map_cons, List.map_nil]; omega)
    exact this.2 p h

/-! ## legal calls -/

/-- the patches lie inside the arrays and their extents agree -/
def MatmulLegal (c : Call V) (A B : Arr V) (d0 d1 : Int) : Prop :=
  (1 ≤ c.ailo ∧ 1 ≤ c.ajlo ∧ if c.ta then c.ajhi ≤ A.d0 ∧ c.aihi ≤ A.d1 else c.aihi ≤ A.d0 ∧ c.ajhi ≤ A.d1) ∧
  (1 ≤ c.bilo ∧ 1 ≤ c.bjlo ∧ if c.tb then c.bjhi ≤ B.d0 ∧ c.bihi ≤ B.d1 else c.bihi ≤ B.d0 ∧ c.bjhi ≤ B.d1) ∧
  (1 ≤ c.cilo ∧ c.cihi ≤ d0 ∧ 1 ≤ c.cjlo ∧ c.cjhi ≤ d1) ∧
  c.cihi - c.cilo = c.aihi - c.ailo ∧ c.cjhi - c.cjlo = c.bjhi - c.bjlo ∧ c.bihi - c.bilo = c.ajhi - c.ajlo

theorem matmul_patchBad (tr : Bool) (d0 d1 ilo ihi jlo jhi : Int) : patchBad tr d0 d1 ilo ihi jlo jhi = false ↔
    1 ≤ ilo ∧ 1 ≤ jlo ∧ if tr then jhi ≤ d0 ∧ ihi ≤ d1 else ihi ≤ d0 ∧ jhi ≤ d1 := by
  unfold patchBad
  cases tr <;> simp <;> omega

theorem matmul_legal (c : Call V) (A B : Arr V) (d0 d1 : Int) : MatmulLegal c A B d0 d1 ↔
    (patchBad c.ta A.d0 A.d1 c.ailo c.aihi c.ajlo c.ajhi || patchBad c.tb B.d0 B.d1 c.bilo c.bihi c.bjlo c.bjhi ||
      patchBad false d0 d1 c.cilo c.cihi c.cjlo c.cjhi) = false ∧
    ¬ (c.cihi - c.cilo + 1 ≠ c.aihi - c.ailo + 1 ∨ c.cjhi - c.cjlo + 1 ≠ c.bjhi - c.bjlo + 1 ∨
      c.bihi - c.bilo + 1 ≠ c.ajhi - c.ajlo + 1) := by
  rw [Bool.or_eq_false_iff, Bool.or_eq_false_iff, matmul_patchBad, matmul_patchBad, matmul_patchBad]
  unfold MatmulLegal
  simp only [Bool.false_eq_true, if_false]
  constructor
  · rintro ⟨h1, h2, h3, h4⟩
    exact ⟨⟨⟨h1, h2⟩, by omega⟩, by omega⟩
  · rintro ⟨⟨⟨h1, h2⟩, h3⟩, h4⟩
    exact ⟨h1, h2, by omega, by omega, by omega, by omega⟩

variable [CommSemiring V]

theorem matmul_good {c : Call V} {A B : Arr V} {d0 d1 : Int} (h : MatmulLegal c A B d0 d1) :
    Good c A B d0 d1 (c.aihi - c.ailo + 1) (c.bjhi - c.bjlo + 1) (c.ajhi - c.ajlo + 1) := by
  obtain ⟨h1, h2, h3, h4⟩ := h
  refine ⟨⟨by omega, by omega, ?_⟩, ⟨by omega, by omega, ?_⟩, by omega⟩
  · obtain ⟨_, _, h1⟩ := h1
    split <;> rename_i hq <;> simp only [hq, if_true, if_false, Bool.false_eq_true] at h1 <;> omega
  · obtain ⟨_, _, h2⟩ := h2
    split <;> rename_i hq <;> simp only [hq, if_true, if_false, Bool.false_eq_true] at h2 <;> omega

/-! ## the result -/

/-- what the program leaves in the array, element by element -/
theorem matmul_result {c : Call V} {A B : Arr V} {d0 d1 : Int} (hl : MatmulLegal c A B d0 d1) {f f' : Mat V}
    (h : ∀ i j, f' (c.cilo + i) (c.cjlo + j) =
      if (0 ≤ i ∧ i ≤ c.aihi - c.ailo) ∧ 0 ≤ j ∧ j ≤ c.bjhi - c.bjlo then
        c.beta * f (c.cilo + i) (c.cjlo + j) + taskVal c A B 0 (c.ajhi - c.ajlo + 1 - 1) i j
      else f (c.cilo + i) (c.cjlo + j)) :
    MatmulResult c.ta c.tb c.alpha c.beta (c.cihi - c.cilo + 1) (c.cjhi - c.cjlo + 1) (c.ajhi - c.ajlo + 1).toNat
      c.ailo c.ajlo c.bilo c.bjlo c.cilo c.cjlo A.f B.f f f' := by
  obtain ⟨_, _, _, h4⟩ := hl
  constructor
  · intro i j h1 h2 h3 h5
    rw [h, if_pos (by omega), taskVal_full, add_comm]
  · intro x y hxy
    have := h (x - c.cilo) (y - c.cjlo)
    rw [if_neg (by omega)] at this
    simpa using this

private theorem scale_fill {c : Call V} {A B : Arr V} {d0 d1 : Int} [DecidableEq V] (hl : MatmulLegal c A B d0 d1) (f : Mat V)
    (i j : Int) : (if c.beta ≠ 0 then scalePatch c f else fillPatch c f) (c.cilo + i) (c.cjlo + j) =
      if (0 ≤ i ∧ i ≤ c.aihi - c.ailo) ∧ 0 ≤ j ∧ j ≤ c.bjhi - c.bjlo then c.beta * f (c.cilo + i) (c.cjlo + j)
      else f (c.cilo + i) (c.cjlo + j) := by
  obtain ⟨_, _, _, h4⟩ := hl
  by_cases hb : c.beta = 0
  · rw [if_neg (by simpa using hb)]
    unfold fillPatch
    by_cases hi : (0 ≤ i ∧ i ≤ c.aihi - c.ailo) ∧ 0 ≤ j ∧ j ≤ c.bjhi - c.bjlo
    · rw [if_pos (by omega), if_pos hi, hb, zero_mul]
    · rw [if_neg (by omega), if_neg hi]
  · rw [if_pos hb]
    unfold scalePatch
    by_cases hi : (0 ≤ i ∧ i ≤ c.aihi - c.ailo) ∧ 0 ≤ j ∧ j ≤ c.bjhi - c.bjlo
    · rw [if_pos (by omega), if_pos hi, mul_comm]
    · rw [if_neg (by omega), if_neg hi]

private theorem result_dealt {c : Call V} {A B : Arr V} {d0 d1 : Int} [DecidableEq V] (hl : MatmulLegal c A B d0 d1) {f f' : Mat V}
    {ch : Chunks} (hp : ch.Pos) {np : Nat} (hn : 0 < np) {acts : Nat → Option (List (CAct V))}
    (ha : ∀ p, p < np → acts p = some (own np p (accActs c A B (c.aihi - c.ailo + 1) (c.bjhi - c.bjlo + 1) (c.ajhi - c.ajlo + 1) ch)
      0 (allTasks (c.aihi - c.ailo + 1) (c.bjhi - c.bjlo + 1) (c.ajhi - c.ajlo + 1) ch)))
    (h : Exec np acts (if c.beta ≠ 0 then scalePatch c f else fillPatch c f) f') :
    MatmulResult c.ta c.tb c.alpha c.beta (c.cihi - c.cilo + 1) (c.cjhi - c.cjlo + 1) (c.ajhi - c.ajlo + 1).toNat
      c.ailo c.ajlo c.bilo c.bjlo c.cilo c.cjlo A.f B.f f f' := by
  refine matmul_result hl fun i j => ?_
  rw [exec_dealt hp hn rfl ha h, scale_fill hl]
  simp only [Int.add_sub_cancel]
  by_cases hi : (0 ≤ i ∧ i ≤ c.aihi - c.ailo) ∧ 0 ≤ j ∧ j ≤ c.bjhi - c.bjlo
  · simp only [if_pos hi]
  · simp only [if_neg hi, add_zero]

private theorem result_own {c : Call V} {A B : Arr V} {d0 d1 : Int} [DecidableEq V] (hl : MatmulLegal c A B d0 d1)
    (hk : c.ajlo ≤ c.ajhi) (hm : d0 = c.aihi - c.ailo + 1) (hn : d1 = c.bjhi - c.bjlo + 1)
    {C : RegArray} (hd : C.dims = [d0, d1]) (hmap : MapOK C.nblock C.dims C.mapc) {np : Nat} (hg : gridSize C.nblock ≤ np)
    {f f' : Mat V} {ch : Nat → Chunks} (hp : ∀ p, (ch p).Pos) {acts : Nat → Option (List (CAct V))}
    (ha : ∀ p, p < np → acts p = some (ownActs c A B (decide (c.beta ≠ 0)) ((blk2 (owns C p)).1 - 1) ((blk2 (owns C p)).2.1 - 1)
      ((blk2 (owns C p)).2.2.1 - 1) ((blk2 (owns C p)).2.2.2 - 1) (c.ajhi - c.ajlo + 1 - 1) (ch p)))
    (h : Exec np acts (if decide (c.beta ≠ 0) = true then scalePatch c f else f) f') :
    MatmulResult c.ta c.tb c.alpha c.beta (c.cihi - c.cilo + 1) (c.cjhi - c.cjlo + 1) (c.ajhi - c.ajlo + 1).toNat
      c.ailo c.ajlo c.bilo c.bjlo c.cilo c.cjlo A.f B.f f f' := by
  obtain ⟨b1, b2⟩ := blocks hd hmap hg
  have hl' := hl
  obtain ⟨_, _, h3, h4⟩ := hl'
  have c1 : c.cilo = 1 := by omega
  have c2 : c.cjlo = 1 := by omega
  have at_ := fun (p : Nat) (i j : Int) => ownActs_at c A B (decide (c.beta ≠ 0)) ((blk2 (owns C p)).1 - 1)
    ((blk2 (owns C p)).2.1 - 1) ((blk2 (owns C p)).2.2.1 - 1) ((blk2 (owns C p)).2.2.2 - 1) (c.ajhi - c.ajlo + 1 - 1) (ch p) (hp p) i j
  have no : ∀ (p : Nat) (i j : Int), ¬ OwnedBy C p [1 + i, 1 + j] → (ownActs c A B (decide (c.beta ≠ 0)) ((blk2 (owns C p)).1 - 1)
      ((blk2 (owns C p)).2.1 - 1) ((blk2 (owns C p)).2.2.1 - 1) ((blk2 (owns C p)).2.2.2 - 1) (c.ajhi - c.ajlo + 1 - 1)
      (ch p)).filter (onEl (c.cilo + i) (c.cjlo + j)) = [] := by
    intro p i j h
    rw [at_, if_neg]
    rw [blk2_iff hd hmap] at h
    omega
  refine matmul_result hl fun i j => ?_
  by_cases hi : (0 ≤ i ∧ i ≤ c.aihi - c.ailo) ∧ 0 ≤ j ∧ j ≤ c.bjhi - c.bjlo
  · rw [if_pos hi]
    obtain ⟨p, p1, p2, p3⟩ := b1 (1 + i) (1 + j) (by omega) (by omega) (by omega) (by omega)
    rw [exec_owner h ha _ _ p p1 (fun q _ hq => no q i j fun ho => hq (p3 q ho))]
    rw [blk2_iff hd hmap] at p2
    rw [ownActs_val _ _ _ _ _ _ _ _ _ _ (hp p) (by omega) i j (by omega)]
    congr 1
    by_cases hb : c.beta = 0
    · simp [hb]
    · simp only [ne_eq, hb, not_false_eq_true, decide_true, if_true]
      unfold scalePatch
      rw [if_pos (by omega), mul_comm]
  · rw [if_neg hi, exec_none h ha]
    · by_cases hb : c.beta = 0
      · simp [hb]
      · simp only [ne_eq, hb, not_false_eq_true, decide_true, if_true]
        unfold scalePatch
        rw [if_neg (by omega)]
    · intro p _
      refine no p i j fun ho => ?_
      have := b2 p _ _ ho
      omega

/-! ## the three algorithms -/

/-- the algorithm for irregular distributions is taken -/
def IrregularCase (e : MEnv) (c : Call V) (d0 d1 : Int) : Prop :=
  e.irreg = true ∨ d0 ≠ c.aihi - c.ailo + 1 ∨ d1 ≠ c.bjhi - c.bjlo + 1 ∨ (e.nodes = true ∧ e.aspect = true)

/-- the algorithm with task lists is taken -/
def RegularCase (e : MEnv) (c : Call V) (d0 d1 : Int) : Prop :=
  e.irreg = false ∧ d0 = c.aihi - c.ailo + 1 ∧ d1 = c.bjhi - c.bjlo + 1 ∧ e.nodes = true ∧ e.aspect = false

private theorem matmul_cases {e : MEnv} {c : Call V} {A B : Arr V} {C : RegArray} [DecidableEq V] {d0 d1 : Int}
    (hd : C.dims = [d0, d1]) {old : Nat → Int → V} {f f' : Mat V} :
    matmul e c A B C old f f' ↔ MatmulLegal c A B d0 d1 ∧
      ((IrregularCase e c d0 d1 ∧ Exec e.procs (fun p => irreg c A B d0 d1 (e.chunk p) e.nnodes p (old p))
          (if c.beta ≠ 0 then scalePatch c f else fillPatch c f) f') ∨
       (RegularCase e c d0 d1 ∧ ∃ fuel, Exec e.procs (fun p => regular c A B d0 d1 (blk2 (owns C p)).1 (blk2 (owns C p)).2.1
          (blk2 (owns C p)).2.2.1 (blk2 (owns C p)).2.2.2 (e.chunk p) (decide (c.beta ≠ 0)) (old p) fuel)
          (if decide (c.beta ≠ 0) = true then scalePatch c f else f) f') ∨
       (¬ IrregularCase e c d0 d1 ∧ ¬ RegularCase e c d0 d1 ∧ Exec e.procs (fun p => shmem c A B d0 d1 (blk2 (owns C p)).1
          (blk2 (owns C p)).2.1 (blk2 (owns C p)).2.2.1 (blk2 (owns C p)).2.2.2 (e.chunk p) (decide (c.beta ≠ 0)) (old p))
          (if decide (c.beta ≠ 0) = true then scalePatch c f else f) f')) := by
  unfold matmul
  have e0 : C.dims.getD 0 0 = d0 := by rw [hd]; rfl
  have e1 : C.dims.getD 1 0 = d1 := by rw [hd]; rfl
  simp only [e0, e1]
  rw [matmul_legal]
  generalize hx : (patchBad c.ta A.d0 A.d1 c.ailo c.aihi c.ajlo c.ajhi || patchBad c.tb B.d0 B.d1 c.bilo c.bihi c.bjlo c.bjhi ||
      patchBad false d0 d1 c.cilo c.cihi c.cjlo c.cjhi) = bad
  cases bad with
  | true => simp
  | false =>
    simp only [Bool.false_eq_true, if_false, true_and]
    by_cases hy : c.cihi - c.cilo + 1 ≠ c.aihi - c.ailo + 1 ∨ c.cjhi - c.cjlo + 1 ≠ c.bjhi - c.bjlo + 1 ∨
      c.bihi - c.bilo + 1 ≠ c.ajhi - c.ajlo + 1
    · rw [if_pos hy]
      simp only [hy, not_true_eq_false, false_and]
    · rw [if_neg hy]
      simp only [hy, not_false_eq_true, true_and]
      unfold IrregularCase RegularCase
      by_cases q : d0 ≠ c.aihi - c.ailo + 1 ∨ d1 ≠ c.bjhi - c.bjlo + 1
      · have q1 : ¬ (d0 = c.aihi - c.ailo + 1 ∧ d1 = c.bjhi - c.bjlo + 1) := by omega
        have q2 : (d0 ≠ c.aihi - c.ailo + 1 ∨ d1 ≠ c.bjhi - c.bjlo + 1 ∨ (e.nodes = true ∧ e.aspect = true)) := by
          rcases q with q | q <;> simp [q]
        have q3 : ¬ (e.irreg = false ∧ d0 = c.aihi - c.ailo + 1 ∧ d1 = c.bjhi - c.bjlo + 1 ∧ e.nodes = true ∧ e.aspect = false) :=
          fun z => q1 ⟨z.2.1, z.2.2.1⟩
        simp only [decide_eq_true q, Bool.or_true, Bool.true_or, Bool.not_true, Bool.false_eq_true, if_false, if_true, q2, or_true,
          true_and, q3, false_and, not_true_eq_false, or_false]
        by_cases hb : c.beta = 0 <;> simp [hb]
      · have q1 : d0 = c.aihi - c.ailo + 1 ∧ d1 = c.bjhi - c.bjlo + 1 := by omega
        simp only [decide_eq_false q, Bool.or_false, q1.1, q1.2, ne_eq, not_true_eq_false, false_or, true_and]
        cases e.irreg <;> cases e.nodes <;> cases e.aspect <;> simp <;> by_cases hb : c.beta = 0 <;> simp [hb]

private theorem blk_block {C : RegArray} {d0 d1 : Int} (hd : C.dims = [d0, d1]) (hm : MapOK C.nblock C.dims C.mapc) (p : Nat) :
    Block d0 d1 ((blk2 (owns C p)).1 - 1) ((blk2 (owns C p)).2.1 - 1) ((blk2 (owns C p)).2.2.1 - 1) ((blk2 (owns C p)).2.2.2 - 1) := by
  intro h1 h2
  obtain ⟨_, b2⟩ := blocks hd hm (le_refl (gridSize C.nblock))
  have q1 := b2 p (blk2 (owns C p)).1 (blk2 (owns C p)).2.2.1 ((blk2_iff hd hm _ _ _).2 (by omega))
  have q2 := b2 p (blk2 (owns C p)).2.1 (blk2 (owns C p)).2.2.2 ((blk2_iff hd hm _ _ _).2 (by omega))
  omega

/-- the regular algorithm on one process -/
private theorem regular_ok {c : Call V} {A B : Arr V} {d0 d1 : Int} (hl : MatmulLegal c A B d0 d1)
    (hm : d0 = c.aihi - c.ailo + 1) (hn : d1 = c.bjhi - c.bjlo + 1)
    {C : RegArray} (hd : C.dims = [d0, d1]) (hmap : MapOK C.nblock C.dims C.mapc) {ch : Chunks} (hp : ch.Pos) (p : Nat)
    (scaled : Bool) (old : Int → V) (fuel : Nat) (out : List (CAct V))
    (h : regular c A B d0 d1 (blk2 (owns C p)).1 (blk2 (owns C p)).2.1 (blk2 (owns C p)).2.2.1 (blk2 (owns C p)).2.2.2 ch scaled old
      fuel = some out) :
    out = ownActs c A B scaled ((blk2 (owns C p)).1 - 1) ((blk2 (owns C p)).2.1 - 1) ((blk2 (owns C p)).2.2.1 - 1)
      ((blk2 (owns C p)).2.2.2 - 1) (c.ajhi - c.ajlo + 1 - 1) ch := by
  have hb := blk_block hd hmap p
  have hg := matmul_good hl
  rw [← hm, ← hn] at hg
  obtain ⟨_, _, h3, h4⟩ := hl
  unfold regular at h
  generalize (blk2 (owns C p)).1 = l0 at *
  generalize (blk2 (owns C p)).2.1 = h0 at *
  generalize (blk2 (owns C p)).2.2.1 = l1 at *
  generalize (blk2 (owns C p)).2.2.2 = h1 at *
  have hempty : l0 > h0 ∨ l1 > h1 → ownActs c A B scaled (l0 - 1) (h0 - 1) (l1 - 1) (h1 - 1) (c.ajhi - c.ajlo + 1 - 1) ch = [] := by
    intro q
    unfold ownActs
    rcases q with q | q
    · rw [List.flatMap_eq_nil_iff]
      intro s _
      unfold pairActs
      rw [starts_eq hp.1, if_neg (by omega)]
      rfl
    · rw [starts_eq hp.2.1, if_neg (by omega)]
      rfl
  by_cases q : l0 > h0 ∨ l1 > h1
  · rw [if_pos q, Option.some.injEq] at h
    rw [hempty q, ← h]
  · rw [if_neg q] at h
    have b := hb (by omega) (by omega)
    have e1 : max c.cilo l0 = l0 := by omega
    have e2 : min c.cihi h0 = h0 := by omega
    have e3 : max c.cjlo l1 = l1 := by omega
    have e4 : min c.cjhi h1 = h1 := by omega
    simp only [e1, e2, e3, e4, if_neg q] at h
    rw [regDo_sound hg hp b scaled old fuel none out ⟨[], rfl⟩ h, pairs_none]
    rfl

end

section
variable {V : Type} [CommSemiring V] [DecidableEq V]

/-- **C60.** If the call returns, the patch of the result array holds `alpha op(A) op(B) + beta C`, computed with the old content, and
nothing else changed: for every size, distribution of the result, chunk sizes (at least 1; the same on all processes for the
irregular algorithm), choice of algorithm, content of the buffers and interleaving of the processes. The group of the arrays has
all `e.nnodes` processes; the inner extent is at least 1; the result array is not an operand. -/
theorem C60_matmul (e : MEnv) (c : Call V) (A B : Arr V) (C : RegArray) (d0 d1 : Int) (hd : C.dims = [d0, d1])
    (hmap : MapOK C.nblock C.dims C.mapc) (hgrid : gridSize C.nblock ≤ e.procs) (hpos : 0 < e.procs) (hgrp : e.nnodes = e.procs)
    (hch : ∀ p, 0 < (e.chunk p).i ∧ 0 < (e.chunk p).j ∧ 0 < (e.chunk p).k)
    (huni : IrregularCase e c d0 d1 → ∀ p, e.chunk p = e.chunk 0) (hk : c.ajlo ≤ c.ajhi)
    (old : Nat → Int → V) (f f' : Mat V) (h : matmul e c A B C old f f') :
    MatmulResult c.ta c.tb c.alpha c.beta (c.cihi - c.cilo + 1) (c.cjhi - c.cjlo + 1) (c.ajhi - c.ajlo + 1).toNat
      c.ailo c.ajlo c.bilo c.bjlo c.cilo c.cjlo A.f B.f f f' := by
  rw [matmul_cases hd] at h
  obtain ⟨hl, h⟩ := h
  have hg := matmul_good hl
  rcases h with ⟨hi, h⟩ | ⟨hr, fuel, h⟩ | ⟨h1, h2, h⟩
  · refine result_dealt hl (hch 0) hpos ?_ h
    intro p _
    rw [huni hi p, hgrp]
    exact irreg_ok hg (hch 0) rfl rfl rfl (old p)
  · refine result_own hl hk hr.2.1 hr.2.2.1 hd hmap hgrid hch ?_ h
    intro p hp
    obtain ⟨s, _, s2, _⟩ := h
    refine (s2 p hp).trans ?_
    congr 1
    exact regular_ok hl hr.2.1 hr.2.2.1 hd hmap (hch p) p _ _ _ _ (s2 p hp)
  · have hm : d0 = c.aihi - c.ailo + 1 := by
      by_contra q; exact h1 (Or.inr (Or.inl q))
    have hn : d1 = c.bjhi - c.bjlo + 1 := by
      by_contra q; exact h1 (Or.inr (Or.inr (Or.inl q)))
    refine result_own hl hk hm hn hd hmap hgrid hch ?_ h
    intro p _
    rw [← hm, ← hn] at hg
    exact shmem_ok hg (hch p) (blk_block hd hmap p) (by omega) rfl _ _

/-- **C60 (the call returns).** A call with patches that fit is executed to the end, if no process has 1024 or more chunks of rows in the
algorithm with task lists. -/
theorem C60_matmul_returns_partial (e : MEnv) (c : Call V) (A B : Arr V) (C : RegArray) (d0 d1 : Int) (hd : C.dims = [d0, d1])
    (hmap : MapOK C.nblock C.dims C.mapc) (hch : ∀ p, 0 < (e.chunk p).i ∧ 0 < (e.chunk p).j ∧ 0 < (e.chunk p).k)
    (hk : c.ajlo ≤ c.ajhi) (hl : MatmulLegal c A B d0 d1)
    (hn : RegularCase e c d0 d1 → ∀ p : Nat, p < e.procs → (blk2 (owns C p)).2.1 - (blk2 (owns C p)).1 + 1 ≤
      1023 * (e.chunk p).i)
    (old : Nat → Int → V) (f : Mat V) : ∃ f', matmul e c A B C old f f' := by
  have hg := matmul_good hl
  by_cases hi : IrregularCase e c d0 d1
  · obtain ⟨f', h⟩ := exec_exists (acts := fun p => irreg c A B d0 d1 (e.chunk p) e.nnodes p (old p))
      (fun p _ => ⟨_, irreg_ok hg (hch p) rfl rfl rfl (old p)⟩) (n := e.procs) (if c.beta ≠ 0 then scalePatch c f else fillPatch c f)
    exact ⟨f', (matmul_cases hd).2 ⟨hl, Or.inl ⟨hi, h⟩⟩⟩
  · have hm : d0 = c.aihi - c.ailo + 1 := by
      by_contra q; exact hi (Or.inr (Or.inl q))
    have hn' : d1 = c.bjhi - c.bjlo + 1 := by
      by_contra q; exact hi (Or.inr (Or.inr (Or.inl q)))
    rw [← hm, ← hn'] at hg
    by_cases hr : RegularCase e c d0 d1
    · -- enough passes for every process
      have one : ∀ p : Nat, p < e.procs → ∃ n0 : Nat, ∀ fuel, n0 ≤ fuel → ∃ out, regular c A B d0 d1 (blk2 (owns C p)).1 (blk2 (owns C p)).2.1
          (blk2 (owns C p)).2.2.1 (blk2 (owns C p)).2.2.2 (e.chunk p) (decide (c.beta ≠ 0)) (old p) fuel = some out := by
        intro p hp
        have hb := blk_block hd hmap p
        have hn0 := hn hr p hp
        obtain ⟨_, _, h3, h4⟩ := hl
        unfold regular
        generalize (blk2 (owns C p)).1 = l0 at *
        generalize (blk2 (owns C p)).2.1 = h0 at *
        generalize (blk2 (owns C p)).2.2.1 = l1 at *
        generalize (blk2 (owns C p)).2.2.2 = h1 at *
        by_cases q : l0 > h0 ∨ l1 > h1
        · exact ⟨0, fun fuel _ => ⟨[], by rw [if_pos q]⟩⟩
        · have b := hb (by omega) (by omega)
          have e1 : max c.cilo l0 = l0 := by omega
          have e2 : min c.cihi h0 = h0 := by omega
          have e3 : max c.cjlo l1 = l1 := by omega
          have e4 : min c.cjhi h1 = h1 := by omega
          simp only [e1, e2, e3, e4, if_neg q]
          refine ⟨_, fun fuel hf => regDo_ends hg (hch p) b _ (old p) ?_ fuel none ⟨[], rfl⟩ (Nat.lt_of_succ_le hf)⟩
          unfold nChunks maxChunks
          have p1 := (hch p).1
          have e5 : h0 - 1 - (l0 - 1) + 1 = h0 - l0 + 1 := by ring
          rw [e5]
          have r1 : (h0 - l0 + 1) / (e.chunk p).i ≤ 1023 := by
            have := Int.ediv_le_ediv p1 hn0
            rwa [Int.mul_ediv_cancel _ (by omega)] at this
          by_cases r2 : (h0 - l0 + 1) / (e.chunk p).i = 1023
          · have : (h0 - l0 + 1) % (e.chunk p).i = 0 := by
              have d1 := Int.emod_add_mul_ediv (h0 - l0 + 1) (e.chunk p).i
              have d2 := Int.emod_nonneg (h0 - l0 + 1) (by omega : (e.chunk p).i ≠ 0)
              rw [r2] at d1
              omega
            rw [if_neg (by simp [this]), r2]
            decide
          · split <;> omega
      have all : ∃ fuel, ∀ p, p < e.procs → ∃ out, regular c A B d0 d1 (blk2 (owns C p)).1 (blk2 (owns C p)).2.1
          (blk2 (owns C p)).2.2.1 (blk2 (owns C p)).2.2.2 (e.chunk p) (decide (c.beta ≠ 0)) (old p) fuel = some out := by
        have : ∀ n : Nat, n ≤ e.procs → ∃ n0, ∀ fuel, n0 ≤ fuel → ∀ p, p < n → ∃ out, regular c A B d0 d1 (blk2 (owns C p)).1
            (blk2 (owns C p)).2.1 (blk2 (owns C p)).2.2.1 (blk2 (owns C p)).2.2.2 (e.chunk p) (decide (c.beta ≠ 0)) (old p) fuel =
            some out := by
          intro n
          induction n with
          | zero => exact fun _ => ⟨0, fun _ _ p hp => absurd hp (by omega)⟩
          | succ n ih =>
            intro hle
            obtain ⟨n0, h0⟩ := ih (by omega)
            obtain ⟨n1, h1⟩ := one n (by omega)
            refine ⟨max n0 n1, fun fuel hf p hp => ?_⟩
            rcases Nat.lt_succ_iff_lt_or_eq.1 hp with hp | rfl
            · exact h0 fuel (by omega) p hp
            · exact h1 fuel (by omega)
        obtain ⟨n0, h0⟩ := this e.procs (le_refl _)
        exact ⟨n0, h0 n0 (le_refl _)⟩
      obtain ⟨fuel, hf⟩ := all
      obtain ⟨f', h⟩ := exec_exists hf (if decide (c.beta ≠ 0) = true then scalePatch c f else f)
      exact ⟨f', (matmul_cases hd).2 ⟨hl, Or.inr (Or.inl ⟨hr, fuel, h⟩)⟩⟩
    · obtain ⟨f', h⟩ := exec_exists (n := e.procs) (acts := fun p => shmem c A B d0 d1 (blk2 (owns C p)).1
        (blk2 (owns C p)).2.1 (blk2 (owns C p)).2.2.1 (blk2 (owns C p)).2.2.2 (e.chunk p) (decide (c.beta ≠ 0)) (old p))
        (fun p _ => ⟨_, shmem_ok hg (hch p) (blk_block hd hmap p) (by omega) rfl _ _⟩)
        (if decide (c.beta ≠ 0) = true then scalePatch c f else f)
      exact ⟨f', (matmul_cases hd).2 ⟨hl, Or.inr (Or.inr ⟨hi, hr, h⟩)⟩⟩

/-- **C60 (refusal).** Patches outside the arrays and extents that do not agree are refused. -/
theorem C60_matmul_refused (e : MEnv) (c : Call V) (A B : Arr V) (C : RegArray) (d0 d1 : Int) (hd : C.dims = [d0, d1])
    (hl : ¬ MatmulLegal c A B d0 d1) (old : Nat → Int → V) (f f' : Mat V) : ¬ matmul e c A B C old f f' := by
  intro h
  exact hl ((matmul_cases hd).1 h).1

/-- **C60 does not hold without the bound of `C60_matmul_returns_partial`.** In the algorithm with task lists, if a process has 1024 or more
chunks of rows, the call does not return: with 1024 chunks it loops for ever, with more it ends in an error. -/
theorem C60_regular_endless (e : MEnv) (c : Call V) (A B : Arr V) (C : RegArray) (d0 d1 : Int) (hd : C.dims = [d0, d1])
    (hmap : MapOK C.nblock C.dims C.mapc) (hch : ∀ p, 0 < (e.chunk p).i ∧ 0 < (e.chunk p).j ∧ 0 < (e.chunk p).k)
    (hk : c.ajlo ≤ c.ajhi) (hr : RegularCase e c d0 d1) (p : Nat) (hp : p < e.procs)
    (hn : 1023 * (e.chunk p).i < (blk2 (owns C p)).2.1 - (blk2 (owns C p)).1 + 1)
    (hne : (blk2 (owns C p)).2.2.1 ≤ (blk2 (owns C p)).2.2.2) (old : Nat → Int → V) (f f' : Mat V) :
    ¬ matmul e c A B C old f f' := by
  intro h
  obtain ⟨hl, h⟩ := (matmul_cases hd).1 h
  rcases h with ⟨hi, _⟩ | ⟨_, fuel, s, _, s2, _⟩ | ⟨_, h2, _⟩
  · obtain ⟨r1, r2, r3, r4, r5⟩ := hr
    rcases hi with q | q | q | q
    · simp [r1] at q
    · exact q r2
    · exact q r3
    · simp [r5] at q
  · have hs := s2 p hp
    have hb := blk_block hd hmap p
    have p1 := (hch p).1
    obtain ⟨_, _, h3, h4⟩ := hl
    obtain ⟨r1, r2, r3, r4, r5⟩ := hr
    dsimp only at hs
    unfold regular at hs
    generalize (blk2 (owns C p)).1 = l0 at *
    generalize (blk2 (owns C p)).2.1 = h0 at *
    generalize (blk2 (owns C p)).2.2.1 = l1 at *
    generalize (blk2 (owns C p)).2.2.2 = h1 at *
    have q : ¬ (l0 > h0 ∨ l1 > h1) := by omega
    have b := hb (by omega) (by omega)
    have e1 : max c.cilo l0 = l0 := by omega
    have e2 : min c.cihi h0 = h0 := by omega
    have e3 : max c.cjlo l1 = l1 := by omega
    have e4 : min c.cjhi h1 = h1 := by omega
    simp only [e1, e2, e3, e4, if_neg q] at hs
    have hge : maxChunks ≤ nChunks (l0 - 1) (h0 - 1) (e.chunk p).i := by
      unfold nChunks maxChunks
      have e5 : h0 - 1 - (l0 - 1) + 1 = h0 - l0 + 1 := by ring
      rw [e5]
      have d1 := Int.emod_add_mul_ediv (h0 - l0 + 1) (e.chunk p).i
      have d2 := Int.emod_nonneg (h0 - l0 + 1) (by omega : (e.chunk p).i ≠ 0)
      have d3 : 1023 ≤ (h0 - l0 + 1) / (e.chunk p).i := (Int.le_ediv_iff_mul_le p1).2 (by omega)
      by_cases d4 : (h0 - l0 + 1) % (e.chunk p).i = 0
      · rw [if_neg (by simp [d4])]
        have : (h0 - l0 + 1) / (e.chunk p).i ≠ 1023 := by
          intro d5
          rw [d5, d4] at d1
          omega
        omega
      · rw [if_pos d4]
        omega
    rcases Nat.eq_or_lt_of_le hge with he | hlt
    · rw [regDo_stuck (hch p) he.symm fuel none ⟨[], rfl⟩] at hs
      · simp at hs
      · rw [pairs_none, starts_eq (hch p).2.1, if_pos (by omega), List.flatMap_cons, starts_eq (hch p).2.2, if_pos (by omega)]
        simp [pairsK]
    · have : regDo c A B d0 d1 (l0 - 1) (h0 - 1) (l1 - 1) (h1 - 1) (c.ajhi - c.ajlo + 1 - 1) (e.chunk p) (decide (c.beta ≠ 0)) (old p)
          fuel none = none := by
        cases fuel with
        | zero => rfl
        | succ fuel =>
          rw [regDo]
          have : getTaskList (l0 - 1) (h0 - 1) (l1 - 1) (h1 - 1) (c.ajhi - c.ajlo + 1 - 1) (e.chunk p) none = none := by
            unfold getTaskList
            unfold nChunks at hlt
            simp only
            rw [if_pos hlt]
          simp only [this]
      rw [this] at hs
      simp at hs
  · exact h2 hr

/-- **C61.** `NGA_Matmul_patch` of matrices: if the call returns, the patch of the result array holds `alpha op(A) op(B) + beta C` and
nothing else changed, for all sizes, chunk sizes and interleavings; a legal call returns, an illegal call is refused.
The inner extent may be zero. Arrays with more than two dimensions are not covered. -/
theorem C61_matmul_patch (nproc : Nat) (hpos : 0 < nproc) (ch : Chunks) (hch : 0 < ch.i ∧ 0 < ch.j ∧ 0 < ch.k) (c : Call V)
    (A B : Arr V) (d0 d1 : Int) (old : Nat → Int → V) (f : Mat V) :
    (MatmulLegal c A B d0 d1 ↔ ∃ f', matmulPatch nproc ch c A B d0 d1 old f f') ∧
    ∀ f', matmulPatch nproc ch c A B d0 d1 old f f' →
      MatmulResult c.ta c.tb c.alpha c.beta (c.cihi - c.cilo + 1) (c.cjhi - c.cjlo + 1) (c.ajhi - c.ajlo + 1).toNat
        c.ailo c.ajlo c.bilo c.bjlo c.cilo c.cjlo A.f B.f f f' := by
  have key : ∀ f', matmulPatch nproc ch c A B d0 d1 old f f' ↔ MatmulLegal c A B d0 d1 ∧
      Exec nproc (fun p => (seqRun (paJ c A B d0 d1 (c.aihi - c.ailo + 1) (c.bjhi - c.bjlo + 1) (c.ajhi - c.ajlo + 1) ch nproc p)
        ⟨0, true, old p, old p, 0⟩ (starts 0 (c.bjhi - c.bjlo + 1 - 1) ch.j)).map (·.1))
        (if c.beta ≠ 0 then scalePatch c f else fillPatch c f) f' := by
    intro f'
    rw [matmul_legal]
    unfold matmulPatch
    simp only
    generalize hx : (patchBad c.ta A.d0 A.d1 c.ailo c.aihi c.ajlo c.ajhi || patchBad c.tb B.d0 B.d1 c.bilo c.bihi c.bjlo c.bjhi ||
      patchBad false d0 d1 c.cilo c.cihi c.cjlo c.cjhi) = bad
    cases bad with
    | true => simp
    | false =>
      simp only [Bool.false_eq_true, if_false, true_and]
      by_cases hy : c.cihi - c.cilo + 1 ≠ c.aihi - c.ailo + 1 ∨ c.cjhi - c.cjlo + 1 ≠ c.bjhi - c.bjlo + 1 ∨
        c.bihi - c.bilo + 1 ≠ c.ajhi - c.ajlo + 1
      · rw [if_pos hy]; simp only [hy, not_true_eq_false, false_and]
      · rw [if_neg hy]; simp only [hy, not_false_eq_true, true_and]
  refine ⟨⟨fun hl => ?_, fun ⟨f', h⟩ => ((key f').1 h).1⟩, fun f' h => ?_⟩
  · obtain ⟨f', h⟩ := exec_exists (n := nproc) (fun p _ => ⟨_, matmulPatch_acts (matmul_good hl) hch (nproc := nproc) (me := p) (old p)⟩)
      (if c.beta ≠ 0 then scalePatch c f else fillPatch c f)
    exact ⟨f', (key f').2 ⟨hl, h⟩⟩
  · obtain ⟨hl, h⟩ := (key f').1 h
    exact result_dealt hl hch hpos (fun p _ => matmulPatch_acts (matmul_good hl) hch (old p)) h

/-! ## examples and counterexamples -/

/-- a 2 x 2 array on two processes -/
def exMC : RegArray := ⟨[2, 2], [2, 1], [1, 2, 1], [0, 0]⟩

/-- a 2 x 3 matrix -/
def exMA : Arr Int := ⟨2, 3, fun i j => i + 10 * j⟩

/-- a 3 x 2 matrix -/
def exMB : Arr Int := ⟨3, 2, fun i j => 2 * i - j⟩

/-- the whole product -/
def exMCall : Call Int := ⟨false, false, 2, 3, 1, 2, 1, 3, 1, 3, 1, 2, 1, 2, 1, 2⟩

example : MapOK exMC.nblock exMC.dims exMC.mapc ∧ gridSize exMC.nblock ≤ 2 := by decide
example : MatmulLegal exMCall exMA exMB 2 2 := by simp [MatmulLegal, exMCall, exMA, exMB]

/-- each of the three algorithms runs on the example -/
example (nodes irr : Bool) (f : Mat Int) :
    ∃ f', matmul ⟨nodes, irr, false, fun _ => ⟨1, 2, 2⟩, 2, 2⟩ exMCall exMA exMB exMC (fun _ _ => 0) f f' :=
  C60_matmul_returns_partial ⟨nodes, irr, false, fun _ => ⟨1, 2, 2⟩, 2, 2⟩ exMCall exMA exMB exMC 2 2 rfl (by decide)
    (fun _ => by dsimp only; decide) (by decide) (by simp [MatmulLegal, exMCall, exMA, exMB]) (fun _ p hp => by
      have : p = 0 ∨ p = 1 := by dsimp only at hp; omega
      rcases this with rfl | rfl <;> dsimp only <;> decide) _ _

/-- the value of one element: `2 * ((11)(1) + (21)(3) + (31)(5)) + 3 * 7` -/
example (f' : Mat Int) (h : matmul ⟨true, false, false, fun _ => ⟨1, 2, 2⟩, 2, 2⟩ exMCall exMA exMB exMC (fun _ _ => 0) (fun _ _ => 7) f') :
    f' 1 1 = 479 := by
  have := (C60_matmul _ _ _ _ exMC 2 2 rfl (by decide) (by decide) (by decide) rfl (fun _ => by dsimp only; decide)
    (fun _ _ => rfl)
    (by decide) _ _ f' h).1 0 0 (by decide) (by decide) (by decide) (by decide)
  exact this.trans (by decide)

example : MatmulLegal ({ exMCall with ta := true, ailo := 1, aihi := 2, ajlo := 1, ajhi := 2, bilo := 2, bihi := 3 }) exMA exMB 2 2 := by
  simp [MatmulLegal, exMCall, exMA, exMB]

/-- the bound of `C60_regular_endless` is met by an array with 1024 rows and chunks of one row -/
example : RegularCase ⟨true, false, false, fun _ => ⟨1, 1, 1⟩, 1, 1⟩
    (⟨false, false, 1, 0, 1, 1024, 1, 1, 1, 1, 1, 1, 1, 1024, 1, 1⟩ : Call Int) 1024 1 ∧
    1023 * 1 < (blk2 (owns ⟨[1024, 1], [1, 1], [1, 1], [0, 0]⟩ 0)).2.1 - (blk2 (owns ⟨[1024, 1], [1, 1], [1, 1], [0, 0]⟩ 0)).1 + 1 := by
  constructor
  · simp [RegularCase]
  · decide

/-- **C60 does not hold for arrays of a group that is smaller than `GA_Nnodes()`:** the irregular algorithm deals the tasks out to
`GA_Nnodes()` processes, so some are never done. One process of two multiplies a row by a column of ones: the result is 2
instead of 3. -/
theorem C60_group_wrong : ∃ f' : Mat Int,
    matmul ⟨true, true, false, fun _ => ⟨1, 1, 2⟩, 1, 2⟩ ⟨false, false, 1, 0, 1, 1, 1, 3, 1, 3, 1, 1, 1, 1, 1, 1⟩ ⟨1, 3, fun _ _ => 1⟩
      ⟨3, 1, fun _ _ => 1⟩ ⟨[1, 1], [1, 1], [1, 1], [0, 0]⟩ (fun _ _ => 0) (fun _ _ => 0) f' ∧ f' 1 1 = 2 := by
  refine ⟨_, (matmul_cases (d0 := 1) (d1 := 1) rfl).2 ⟨by simp [MatmulLegal], Or.inl ⟨Or.inl rfl,
    [(0, ⟨false, 1, 1, 2⟩)], by simp, ?_, rfl⟩⟩, by decide⟩
  intro p hp
  have : p = 0 := by dsimp only at hp; omega
  subst this
  have h := irreg_ok (V := Int) (c := ⟨false, false, 1, 0, 1, 1, 1, 3, 1, 3, 1, 1, 1, 1, 1, 1⟩) (A := ⟨1, 3, fun _ _ => 1⟩)
    (B := ⟨3, 1, fun _ _ => 1⟩) (d0 := 1) (d1 := 1) (ch := ⟨1, 1, 2⟩) (matmul_good (by simp [MatmulLegal])) ⟨by decide, by decide, by decide⟩
    rfl rfl rfl (nproc := 2) (me := 0) (fun _ => 0)
  refine h.trans ?_
  rfl

/-- **C60 does not hold for an empty inner extent:** with `beta = 0` the patch should become zero, but stays as it was (one node). -/
theorem C60_empty_inner_wrong : ∃ f' : Mat Int,
    matmul ⟨false, false, false, fun _ => ⟨1, 1, 1⟩, 1, 1⟩ ⟨false, false, 1, 0, 1, 1, 1, 0, 1, 0, 1, 1, 1, 1, 1, 1⟩ ⟨1, 1, fun _ _ => 1⟩
      ⟨1, 1, fun _ _ => 1⟩ ⟨[1, 1], [1, 1], [1, 1], [0, 0]⟩ (fun _ _ => 0) (fun _ _ => 5) f' ∧ f' 1 1 = 5 := by
  refine ⟨_, (matmul_cases (d0 := 1) (d1 := 1) rfl).2 ⟨by simp [MatmulLegal], Or.inr (Or.inr ⟨by simp [IrregularCase],
    by simp [RegularCase], [], by simp, ?_, rfl⟩)⟩, by decide⟩
  intro p hp
  have : p = 0 := by dsimp only at hp; omega
  subst this
  rfl

end

end GA
