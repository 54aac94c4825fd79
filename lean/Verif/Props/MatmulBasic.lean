import Verif.Lemmas.MatmulBasic
import Verif.Lemmas.Elem
import Verif.Props.Matmul
import Verif.Props.Content

/-!
# C62: `GA_Dgemm` and `GA_Matmul_patch` with a block-cyclic or tiled result

`f`, `f'`: the result array before and after the call, for any interleaving of the processes.
-/

namespace GA
open Spec Model Matmul

section
variable {V : Type}

/-- the patches of a call are not empty -/
def NonEmpty (c : Call V) : Prop := c.ailo ≤ c.aihi ∧ c.ajlo ≤ c.ajhi ∧ c.bjlo ≤ c.bjhi

/-- no block of the array has fewer columns than rows, or the inner extent `k` is no larger than its number of columns -/
def BlocksFit (C : GArr) (k : Int) : Prop :=
  ∀ p, p < C.nproc → ∀ items, C.localIter p = some items → ∀ it ∈ items, ∀ l0 l1 h0 h1,
    it.lo = [l0, l1] → it.hi = [h0, h1] → min (h0 - l0 + 1) k ≤ h1 - l1 + 1

/-- some block of the array has fewer columns than both its number of rows and the inner extent -/
def BlockTooNarrow (C : GArr) (k : Int) : Prop :=
  ∃ p, p < C.nproc ∧ ∃ items, C.localIter p = some items ∧ ∃ it ∈ items, ∃ l0 l1 h0 h1,
    it.lo = [l0, l1] ∧ it.hi = [h0, h1] ∧ l1 ≤ h1 ∧ h1 - l1 + 1 < min (h0 - l0 + 1) k

variable [CommSemiring V]

/-- what is checked before any work is done -/
private theorem basic_cases {c : Call V} {A B : Arr V} {C : GArr} {d0 d1 : Int} (hd : C.dims = [d0, d1]) {old : Nat → Int → V}
    {f f' : Mat V} : matmulBasic c A B C old f f' ↔
      (c.ta = false ∧ c.tb = false) ∧ MatmulLegal c A B d0 d1 ∧ NonEmpty c ∧
      Exec C.nproc (fun p => (C.localIter p).bind fun items =>
        (mapOpt (fun it => basicBlock c A B d0 d1 (old p) (blk2 (it.lo, it.hi))) items).map List.flatten) (scalePatch c f) f' := by
  have e0 : C.dims.getD 0 0 = d0 := by rw [hd]; rfl
  have e1 : C.dims.getD 1 0 = d1 := by rw [hd]; rfl
  unfold matmulBasic
  dsimp only
  rw [e0, e1]
  cases hta : c.ta <;> cases htb : c.tb <;> simp only [Bool.or_true, Bool.or_false, Bool.false_eq_true, if_true, if_false,
    false_and, and_false, reduceCtorEq, true_and]
  by_cases hb : (patchBad false A.d0 A.d1 c.ailo c.aihi c.ajlo c.ajhi || patchBad false B.d0 B.d1 c.bilo c.bihi c.bjlo c.bjhi ||
    patchBad false d0 d1 c.cilo c.cihi c.cjlo c.cjhi) = true
  · rw [if_pos hb]
    simp only [false_iff, not_and]
    intro hl
    exfalso
    have := ((matmul_legal c A B d0 d1).1 hl).1
    rw [hta, htb, hb] at this
    exact absurd this (by decide)
  · rw [if_neg hb]
    have hb' : (patchBad c.ta A.d0 A.d1 c.ailo c.aihi c.ajlo c.ajhi || patchBad c.tb B.d0 B.d1 c.bilo c.bihi c.bjlo c.bjhi ||
      patchBad false d0 d1 c.cilo c.cihi c.cjlo c.cjhi) = false := by
      rw [hta, htb]; simpa using hb
    rw [matmul_legal, hb', NonEmpty]
    by_cases h1 : c.aihi < c.ailo ∨ c.ajhi < c.ajlo ∨ c.bihi < c.bilo ∨ c.bjhi < c.bjlo ∨ c.cihi < c.cilo ∨ c.cjhi < c.cjlo
    · rw [if_pos h1]
      simp only [false_iff, not_and, true_and]
      intro h2 h3
      omega
    · rw [if_neg h1]
      by_cases h2 : c.ajhi - c.ajlo + 1 ≠ c.bihi - c.bilo + 1 ∨ c.aihi - c.ailo + 1 ≠ c.cihi - c.cilo + 1 ∨
        c.bjhi - c.bjlo + 1 ≠ c.cjhi - c.cjlo + 1
      · rw [if_pos h2]
        simp only [false_iff, not_and, true_and]
        intro h3
        omega
      · rw [if_neg h2]
        constructor
        · intro h; exact ⟨⟨rfl, by omega⟩, by omega, h⟩
        · intro h; exact h.2.2

/-- **C62, partial.** With a block-cyclic or tiled result, the call stores `alpha*A*B + beta*C` in the whole result array under every
interleaving of the processes, and returns, if the whole array is the result patch, the rows of the first operand and the columns of
the second begin at 1, nothing is transposed, and no block is narrower than it is long (`BlocksFit`). Missing: the other calls, for
which it fails (`C62_refused`, `C62_overflow`, `C62_patch_ignored`, `C62_operand_shifted`). -/
theorem C62_matmul_blocks_partial {c : Call V} {A B : Arr V} {C : GArr} {d0 d1 : Int} (hC : Sound C) (hp : PtrOK C)
    (hd : C.dims = [d0, d1]) (hl : MatmulLegal c A B d0 d1) (hne : NonEmpty c) (ht : c.ta = false ∧ c.tb = false)
    (hw : (c.cilo = 1 ∧ c.cihi = d0) ∧ c.cjlo = 1 ∧ c.cjhi = d1) (hab : c.ailo = 1 ∧ c.bjlo = 1)
    (hfit : BlocksFit C (c.ajhi - c.ajlo + 1)) (old : Nat → Int → V) (f : Mat V) :
    (∃ f', matmulBasic c A B C old f f') ∧
    ∀ f', matmulBasic c A B C old f f' →
      MatmulResult false false c.alpha c.beta d0 d1 (c.ajhi - c.ajlo + 1).toNat
        c.ailo c.ajlo c.bilo c.bjlo c.cilo c.cjlo A.f B.f f f' := by
  obtain ⟨items, v, -⟩ := view_off hC hp
  have hg := matmul_good hl
  have hl' := hl
  obtain ⟨-, -, -, q1, q2, q3⟩ := hl'
  rw [show c.aihi - c.ailo + 1 = d0 by omega, show c.bjhi - c.bjlo + 1 = d1 by omega] at hg
  have hsh : ∀ p, p < C.nproc → ∀ it ∈ items p, ∃ l0 l1 h0 h1, it.lo = [l0, l1] ∧ it.hi = [h0, h1] := by
    intro p hp it hit
    obtain ⟨-, s1, s2, -⟩ := v.shape p hp it hit
    rw [hd] at s1 s2
    obtain ⟨l0, l1, e1⟩ := List.length_eq_two.1 s1
    obtain ⟨h0, h1, e2⟩ := List.length_eq_two.1 s2
    exact ⟨l0, l1, h0, h1, e1, e2⟩
  have hblk : ∀ p, p < C.nproc → ∀ it ∈ items p, ∃ l, basicBlock c A B d0 d1 (old p) (blk2 (it.lo, it.hi)) = some l ∧
      (∀ a ∈ l, a.put = false) ∧ ∀ i j, (l.map (wAt (c.cilo + i) (c.cjlo + j))).sum =
        if [1 + i, 1 + j] ∈ box it.lo it.hi then taskVal c A B 0 (c.ajhi - c.ajlo + 1 - 1) i j else 0 := by
    intro p hp it hit
    obtain ⟨l0, l1, h0, h1, e1, e2⟩ := hsh p hp it hit
    have hf := hfit p hp _ (v.iter p hp) it hit _ _ _ _ e1 e2
    obtain ⟨l, b1, b2, b3⟩ := basicBlock_ok (old p) (l0, h0, l1, h1) hg rfl (by omega) (by have := hne.2.1; omega) ht
      ⟨hab.1, hab.2, hw.1.1, hw.2.1⟩ (by
        dsimp only
        intro g1 g2
        have m1 : ∀ x y, l0 ≤ x → x ≤ h0 → l1 ≤ y → y ≤ h1 → (1 ≤ x ∧ x ≤ d0) ∧ 1 ≤ y ∧ y ≤ d1 := by
          intro x y x1 x2 y1 y2
          have : [x, y] ∈ box (onesL C.dims) C.dims := by
            refine v.cover.subset ?_
            rw [List.mem_flatMap]
            refine ⟨p, List.mem_range.2 hp, ?_⟩
            rw [List.mem_flatMap]
            refine ⟨it, hit, ?_⟩
            rw [e1, e2, mem_box]
            simp [InPatch]; omega
          rw [mem_box, hd] at this
          simpa [onesL, InPatch] using this
        have a1 := m1 l0 l1 (by omega) (by omega) (by omega) (by omega)
        have a2 := m1 h0 h1 (by omega) (by omega) (by omega) (by omega)
        omega) (by dsimp only; exact hf)
    rw [e1, e2]
    refine ⟨l, b1, b2, ?_⟩
    intro i j
    rw [b3]
    refine if_congr ?_ rfl rfl
    rw [mem_box]
    simp only [InPatch, and_true]
    omega
  have hchoose : ∃ g : Nat → LItem → List (CAct V), ∀ p, p < C.nproc → ∀ it ∈ items p,
      basicBlock c A B d0 d1 (old p) (blk2 (it.lo, it.hi)) = some (g p it) ∧
      (∀ a ∈ g p it, a.put = false) ∧ ∀ i j, ((g p it).map (wAt (c.cilo + i) (c.cjlo + j))).sum =
        if [1 + i, 1 + j] ∈ box it.lo it.hi then taskVal c A B 0 (c.ajhi - c.ajlo + 1 - 1) i j else 0 := by
    refine ⟨fun p it => (basicBlock c A B d0 d1 (old p) (blk2 (it.lo, it.hi))).getD [], ?_⟩
    intro p hp it hit
    obtain ⟨l, b1, b2, b3⟩ := hblk p hp it hit
    dsimp only
    rw [b1]
    exact ⟨rfl, b2, b3⟩
  obtain ⟨g, hg'⟩ := hchoose
  have hacts : ∀ p, p < C.nproc → ((C.localIter p).bind fun items =>
      (mapOpt (fun it => basicBlock c A B d0 d1 (old p) (blk2 (it.lo, it.hi))) items).map List.flatten) =
      some ((items p).flatMap (g p)) := by
    intro p hp
    rw [v.iter p hp, Option.bind_some, mapOpt_map fun it hit => (hg' p hp it hit).1, Option.map_some, List.flatMap_def]
  constructor
  · obtain ⟨f', h⟩ := exec_exists (acts := fun p => (C.localIter p).bind fun items =>
      (mapOpt (fun it => basicBlock c A B d0 d1 (old p) (blk2 (it.lo, it.hi))) items).map List.flatten)
      (fun p hp => ⟨_, hacts p hp⟩) (scalePatch c f)
    exact ⟨f', (basic_cases hd).2 ⟨ht, hl, hne, h⟩⟩
  · intro f' h
    obtain ⟨-, -, -, h⟩ := (basic_cases hd).1 h
    have hr := matmul_result (f := f) (f' := f') hl (by
      intro i j
      rw [exec_acc h hacts (by
        intro p hp a ha
        obtain ⟨it, hit, ha⟩ := List.mem_flatMap.1 ha
        exact (hg' p hp it hit).2.1 a ha)]
      have e : ((List.range C.nproc).map fun p => (((items p).flatMap (g p)).map (wAt (c.cilo + i) (c.cjlo + j))).sum).sum =
          if [1 + i, 1 + j] ∈ box (onesL C.dims) C.dims then taskVal c A B 0 (c.ajhi - c.ajlo + 1 - 1) i j else 0 := by
        rw [← sum_cover v]
        congr 1
        refine List.map_congr_left ?_
        intro p hp
        rw [sum_flatMap]
        congr 1
        refine List.map_congr_left ?_
        intro it hit
        exact (hg' p (List.mem_range.1 hp) it hit).2.2 i j
      rw [e]
      unfold scalePatch
      have hiff : [1 + i, 1 + j] ∈ box (onesL C.dims) C.dims ↔ (0 ≤ i ∧ i ≤ c.aihi - c.ailo) ∧ 0 ≤ j ∧ j ≤ c.bjhi - c.bjlo := by
        rw [mem_box, hd]
        simp only [onesL, List.map_cons, List.map_nil, InPatch, and_true]
        omega
      by_cases hi : (0 ≤ i ∧ i ≤ c.aihi - c.ailo) ∧ 0 ≤ j ∧ j ≤ c.bjhi - c.bjlo
      · rw [if_pos (hiff.2 hi), if_pos hi, if_pos (by omega), mul_comm]
      · rw [if_neg (fun h => hi (hiff.1 h)), if_neg hi, if_neg (by omega), add_zero])
    rw [ht.1, ht.2, show c.cihi - c.cilo + 1 = d0 by omega, show c.cjhi - c.cjlo + 1 = d1 by omega] at hr
    exact hr

/-- **C62, refused calls.** Transposed operands, patches that do not fit and empty patches: the call does not return. -/
theorem C62_refused {c : Call V} {A B : Arr V} {C : GArr} {d0 d1 : Int} (hd : C.dims = [d0, d1])
    (h : c.ta = true ∨ c.tb = true ∨ ¬ MatmulLegal c A B d0 d1 ∨ ¬ NonEmpty c) (old : Nat → Int → V) (f f' : Mat V) :
    ¬ matmulBasic c A B C old f f' := by
  intro hm
  obtain ⟨⟨h1, h2⟩, h3, h4, -⟩ := (basic_cases hd).1 hm
  rcases h with h | h | h | h
  · rw [h1] at h; cases h
  · rw [h2] at h; cases h
  · exact h h3
  · exact h h4

/-- **C62 does not hold if a block is narrower than it is long:** if some block has fewer columns than both its number of rows and the
inner extent, the section of the first operand does not fit into the buffer, which has the size of the block: the call
writes past its end. -/
theorem C62_overflow {c : Call V} {A B : Arr V} {C : GArr} {d0 d1 : Int} (hC : Sound C) (hptr : PtrOK C) (hd : C.dims = [d0, d1])
    (hw : c.cilo = 1) (hnar : BlockTooNarrow C (c.ajhi - c.ajlo + 1)) (old : Nat → Int → V) (f f' : Mat V) :
    ¬ matmulBasic c A B C old f f' := by
  intro hm
  obtain ⟨-, -, hne, s, -, hs, -⟩ := (basic_cases hd).1 hm
  obtain ⟨p, hp, items, e, it, hit, l0, l1, h0, h1, e1, e2, h3, h4⟩ := hnar
  have hl0 : 1 ≤ l0 := by
    obtain ⟨items', v, -⟩ := view_off hC hptr
    have hi' := v.iter p hp
    rw [e, Option.some.injEq] at hi'
    have : [l0, l1] ∈ box (onesL C.dims) C.dims := by
      refine v.cover.subset ?_
      rw [List.mem_flatMap]
      refine ⟨p, List.mem_range.2 hp, ?_⟩
      rw [List.mem_flatMap]
      refine ⟨it, hi' ▸ hit, ?_⟩
      rw [e1, e2, mem_box]
      simp [InPatch]; omega
    rw [mem_box, hd] at this
    simp [onesL, InPatch] at this
    omega
  have := hs p hp
  dsimp only at this
  rw [e, Option.bind_some, Option.map_eq_some_iff] at this
  obtain ⟨ls, this, -⟩ := this
  have hbl : ∃ l, basicBlock c A B d0 d1 (old p) (l0, h0, l1, h1) = some l := by
    have := List.forall₂_iff_get.1 (mapOpt_forall₂ this)
    obtain ⟨n, hn, rfl⟩ := List.getElem_of_mem hit
    have h5 := this.2 n hn (this.1 ▸ hn)
    simp only [List.get_eq_getElem, e1, e2, blk2] at h5
    exact ⟨_, h5⟩
  obtain ⟨l, hbl⟩ := hbl
  have hk : 0 < c.ajhi - c.ajlo + 1 := by have := hne.2.1; omega
  have hr : 0 < h0 - l0 + 1 := by omega
  unfold basicBlock at hbl
  dsimp only at hbl
  rw [if_neg (by omega), basic_num hk hr, Option.map_eq_some_iff] at hbl
  obtain ⟨ls, hbl, -⟩ := hbl
  have hN : 1 ≤ (c.ajhi - c.ajlo + 1 - 1 + (h0 - l0 + 1)) / (h0 - l0 + 1) := (Int.le_ediv_iff_mul_le hr).2 (by omega)
  have hI : 0 ≤ Int.tdiv (l0 - c.cilo) (h0 - l0 + 1) := Int.tdiv_nonneg (by omega) (by omega)
  generalize (c.ajhi - c.ajlo + 1 - 1 + (h0 - l0 + 1)) / (h0 - l0 + 1) = N at *
  generalize Int.tdiv (l0 - c.cilo) (h0 - l0 + 1) = I at *
  obtain ⟨N, rfl⟩ := Int.eq_ofNat_of_zero_le (show 0 ≤ N by omega)
  obtain ⟨I, rfl⟩ := Int.eq_ofNat_of_zero_le hI
  have h0m : 0 ∈ (List.range N).map fun nb => (I + nb) % N :=
    (rotate_perm I N).symm.subset (List.mem_range.2 (by omega))
  obtain ⟨nb, hnb, hz⟩ := List.mem_map.1 h0m
  have hst : ∃ l, basicStep c A B d0 d1 l0 h0 l1 h1 N I (old p) nb = some l := by
    have := List.forall₂_iff_get.1 (mapOpt_forall₂ hbl)
    have hnb' := List.mem_range.1 hnb
    have h5 := this.2 nb (by simpa using hnb') (by rw [← this.1]; simpa using hnb')
    simp only [List.get_eq_getElem, List.getElem_range] at h5
    exact ⟨_, h5⟩
  obtain ⟨l, hst⟩ := hst
  have hmod : Int.tmod ((I : Int) + nb) N = 0 := by
    rw [Int.tmod_eq_emod_of_nonneg (by omega)]
    exact_mod_cast hz
  unfold basicStep at hst
  dsimp only at hst
  rw [hmod, zero_mul, add_zero, if_pos] at hst
  · cases hst
  · left
    have : (h0 - l0 + 1) * (h1 - l1 + 1) < (h0 - l0 + 1) * (min c.ajhi (c.ajlo + (h0 - l0 + 1) - 1) - c.ajlo + 1) :=
      mul_lt_mul_of_pos_left (by omega) hr
    exact this

/-! ## the hypotheses are met, and two wrong results -/

/-- 3x4 in 1x2 blocks on 2 processes -/
def exMB2 : BArray := ⟨.cyclic, [3, 4], [1, 2], [3, 2], [], [], 2⟩

theorem exMB2_created : Created exMB2 := .cyclic 2 [3, 4] [1, 2] exMB2 (by decide) (by decide) rfl (by decide)

example : Sound (.blk exMB2) ∧ PtrOK (.blk exMB2) ∧ (GArr.blk exMB2).dims = [3, 4] :=
  ⟨⟨exMB2_created, by decide⟩, by simp only [PtrOK]; decide, rfl⟩

private theorem exMB2_fit : BlocksFit (.blk exMB2) 5 := by
  intro p hp items e it hit l0 l1 h0 h1 e1 e2
  have hall : ∀ p, p < 2 → ∀ it ∈ ((GArr.blk exMB2).localIter p).getD [], min (it.hi.getD 0 0 - it.lo.getD 0 0 + 1) 5 ≤
    it.hi.getD 1 0 - it.lo.getD 1 0 + 1 := by decide +kernel
  have := hall p hp it (by rw [e]; exact hit)
  rw [e1, e2] at this
  simpa using this

/-- product of columns 2 to 6 and rows 1 to 5 -/
def exMCall2 : Call Int := ⟨false, false, 2, 3, 1, 3, 2, 6, 1, 5, 1, 4, 1, 3, 1, 4⟩

example (f : Mat Int) : ∃ f', matmulBasic exMCall2 ⟨3, 6, fun i j => i + j⟩
    ⟨5, 7, fun i j => i * j⟩ (.blk exMB2) (fun _ _ => 0) f f' :=
  (C62_matmul_blocks_partial (c := exMCall2) (C := .blk exMB2) (d0 := 3) (d1 := 4) ⟨exMB2_created, by decide⟩ (by simp only [PtrOK]; decide) rfl
    (by simp [MatmulLegal, exMCall2]) (by simp [NonEmpty, exMCall2]) ⟨rfl, rfl⟩ ⟨⟨rfl, rfl⟩, rfl, rfl⟩ ⟨rfl, rfl⟩ exMB2_fit _ f).1

/-- 3x4 in 2x1 blocks: the blocks are too narrow for an inner extent of 2 -/
def exMB3 : BArray := ⟨.cyclic, [3, 4], [2, 1], [2, 4], [], [], 2⟩

example : Sound (.blk exMB3) ∧ PtrOK (.blk exMB3) ∧ BlockTooNarrow (.blk exMB3) 2 :=
  ⟨⟨.cyclic 2 [3, 4] [2, 1] exMB3 (by decide) (by decide) rfl (by decide), by decide⟩, by simp only [PtrOK]; decide,
    0, by decide, _, rfl, _, List.mem_cons_self .., 1, 1, 2, 1, by decide +kernel, by decide +kernel, by decide, by decide⟩

/-- **C62 does not hold for a patch of the result:** the patch is ignored. The 1x1 product of two patches of ones is added to an
element outside the result patch. -/
theorem C62_patch_ignored : ∃ f' : Mat Int,
    matmulBasic ⟨false, false, 1, 1, 1, 1, 1, 1, 1, 1, 1, 1, 1, 1, 1, 1⟩ ⟨2, 1, fun _ _ => 1⟩ ⟨1, 1, fun _ _ => 1⟩
      (.blk ⟨.cyclic, [2, 1], [1, 1], [2, 1], [], [], 1⟩) (fun _ _ => 0) (fun _ _ => 0) f' ∧ f' 2 1 = 1 := by
  refine ⟨_, (basic_cases (d0 := 2) (d1 := 1) rfl).2 ⟨⟨rfl, rfl⟩, by simp [MatmulLegal], by simp [NonEmpty],
    [(0, ⟨false, 1, 1, 1⟩), (0, ⟨false, 2, 1, 1⟩)], by simp [GArr.nproc], ?_, rfl⟩, by decide⟩
  intro p hp
  have : p = 0 := by simp only [GArr.nproc] at hp; omega
  subst this
  rfl

/-- **C62 does not hold if the rows of the first operand do not begin at 1:** the rows of the result are used as rows of the operand.
Row 2 of the operand holds 2, the product with 1 should be 2, but is 1. -/
theorem C62_operand_shifted : ∃ f' : Mat Int,
    matmulBasic ⟨false, false, 1, 1, 2, 2, 1, 1, 1, 1, 1, 1, 1, 1, 1, 1⟩ ⟨2, 1, fun i _ => i⟩ ⟨1, 1, fun _ _ => 1⟩
      (.blk ⟨.cyclic, [1, 1], [1, 1], [1, 1], [], [], 1⟩) (fun _ _ => 0) (fun _ _ => 0) f' ∧ f' 1 1 = 1 := by
  refine ⟨_, (basic_cases (d0 := 1) (d1 := 1) rfl).2 ⟨⟨rfl, rfl⟩, by simp [MatmulLegal], by simp [NonEmpty],
    [(0, ⟨false, 1, 1, 1⟩)], by simp [GArr.nproc], ?_, rfl⟩, by decide⟩
  intro p hp
  have : p = 0 := by simp only [GArr.nproc] at hp; omega
  subst this
  rfl

end

end GA
