import Verif.Lemmas.DpPatch

/-!
# C82: copies and dot products of patches called by every process for its part (ga_copy_patch_dp, ga_ddot_patch_dp)

Matrices with any partition into blocks, any numbers of processes in any order. The code copies the patch only if its first row and its first column are first in every block they meet.
-/

namespace GA

open DpPatch
open GA.Spec.Dp (Copied CopiedT dot Partition)

variable {V : Type}

/-- the first row and column of a patch are the first ones of every block that has elements of the patch -/
def Aligned (P : Nat) (blk : Nat → Reg) (a : Reg) : Prop := ∀ p < P, ∀ i j, mem a i j = true → mem (blk p) i j = true → a.ilo ≤ (blk p).ilo ∧ a.jlo ≤ (blk p).jlo

/-- What a copy does, for every patch: the element that is copied to `(i, j)` is not the corresponding one, but lies as far from the corner of the block as the corresponding one lies
from the corner of the intersection of the block and the patch. All other elements are kept. -/
theorem C82_copy_exact (P : Nat) (da db : Dims) (blk : Nat → Reg) (hp : Partition P da.m da.n fun p i j => mem (blk p) i j = true) (order : List Nat) (ho : ∀ p, p ∈ order ↔ p < P)
    (a b : Reg) (hok : copyOk da db a b = true) (A B : Int → Int → V) :
    ∃ B', copyPatch false A da db blk a b order B = some B' ∧ ∀ i j,
      (mem b i j = false → B' i j = B i j) ∧
      ∀ p < P, mem b i j = true → mem (blk p) (a.ilo + (i - b.ilo)) (a.jlo + (j - b.jlo)) = true →
        B' i j = A (a.ilo + (i - b.ilo) - (max a.ilo (blk p).ilo - (blk p).ilo)) (a.jlo + (j - b.jlo) - (max a.jlo (blk p).jlo - (blk p).jlo)) := by
  obtain ⟨ha, hb, e1, e2⟩ := (copyOk_iff _ _ _ _).1 hok
  obtain ⟨B', h1, h2⟩ := parts_spec false A db blk a b order B fun p _ r f hr => plan_inDims hr hb e1 e2 (fun h => absurd h (by simp))
  have hab : ∀ i j, mem b i j = mem a (a.ilo + (i - b.ilo)) (a.jlo + (j - b.jlo)) := fun i j => by
    rw [Bool.eq_iff_iff, mem_iff, mem_iff]; omega
  refine ⟨B', by unfold copyPatch; rw [if_pos hok]; exact h1, fun i j => ⟨fun hm => (h2 i j).1 fun p _ r f hr => ?_, fun p hpP hm hq => ?_⟩⟩
  · rw [Bool.eq_false_iff, ne_eq, (plan_n hr i j).1, ← hab, hm]; simp
  · obtain ⟨r, f, hr⟩ := plan_some false (A := A) b (by rw [← hab]; exact hm) hq
    rw [(h2 i j).2 p ((ho p).2 hpP) r f hr ((plan_n hr i j).1.2 ⟨by rw [← hab]; exact hm, hq⟩) fun q hqo r' f' hr' hm' => ?_]
    · exact (plan_n hr i j).2
    · have hm'' := ((plan_n hr' i j).1.1 hm').2
      rw [inDims_iff] at ha
      rw [hab, mem_iff] at hm
      obtain ⟨p0, _, _, hu⟩ := hp (a.ilo + (i - b.ilo)) (a.jlo + (j - b.jlo)) (by omega) (by omega) (by omega) (by omega)
      rw [hu q ((ho q).1 hqo) hm'', hu p hpP hq]

/-- A patch is copied, and nothing else is changed, if it is aligned. Missing: other patches, for which it is false, see below. -/
theorem C82_copy_partial (P : Nat) (da db : Dims) (blk : Nat → Reg) (hp : Partition P da.m da.n fun p i j => mem (blk p) i j = true) (order : List Nat) (ho : ∀ p, p ∈ order ↔ p < P)
    (a b : Reg) (hok : copyOk da db a b = true) (hal : Aligned P blk a) (A B : Int → Int → V) :
    ∃ B', copyPatch false A da db blk a b order B = some B' ∧ Copied A B B' a.ilo a.jlo b.ilo b.jlo (a.ihi - a.ilo + 1) (a.jhi - a.jlo + 1) := by
  obtain ⟨B', h1, h2⟩ := C82_copy_exact P da db blk hp order ho a b hok A B
  obtain ⟨ha, hb, e1, e2⟩ := (copyOk_iff _ _ _ _).1 hok
  refine ⟨B', h1, fun i j => ?_⟩
  split
  · rename_i h
    have hm : mem b i j = true := (mem_iff _ _ _).2 (by omega)
    have hma : mem a (a.ilo + (i - b.ilo)) (a.jlo + (j - b.jlo)) = true := (mem_iff _ _ _).2 (by omega)
    rw [inDims_iff] at ha
    obtain ⟨p, hpP, hpo, _⟩ := hp (a.ilo + (i - b.ilo)) (a.jlo + (j - b.jlo)) (by omega) (by omega) (by omega) (by omega)
    have := hal p hpP _ _ hma hpo
    rw [(h2 i j).2 p hpP hm hpo]
    congr 1 <;> omega
  · rename_i h
    refine (h2 i j).1 ?_
    rw [Bool.eq_false_iff, ne_eq, mem_iff]; omega

/-- The transpose of an aligned square patch is copied. Missing: patches that are not aligned or not square, for which it is false, see below. -/
theorem C82_transpose_partial (P : Nat) (da db : Dims) (blk : Nat → Reg) (hp : Partition P da.m da.n fun p i j => mem (blk p) i j = true) (order : List Nat) (ho : ∀ p, p ∈ order ↔ p < P)
    (a b : Reg) (hok : copyOk da db a b = true) (hal : Aligned P blk a) (hsq : a.ihi - a.ilo = a.jhi - a.jlo) (A B : Int → Int → V) :
    ∃ B', copyPatch true A da db blk a b order B = some B' ∧ CopiedT A B B' a.ilo a.jlo b.ilo b.jlo (a.ihi - a.ilo + 1) (a.jhi - a.jlo + 1) := by
  obtain ⟨ha, hb, e1, e2⟩ := (copyOk_iff _ _ _ _).1 hok
  obtain ⟨B', h1, h2⟩ := parts_spec true A db blk a b order B fun p _ r f hr => plan_inDims hr hb e1 e2 (fun _ => hsq)
  refine ⟨B', by unfold copyPatch; rw [if_pos hok]; exact h1, fun i j => ?_⟩
  split
  · rename_i h
    have hma : mem a (a.ilo + (j - b.jlo)) (a.jlo + (i - b.ilo)) = true := (mem_iff _ _ _).2 (by omega)
    rw [inDims_iff] at ha
    obtain ⟨p, hpP, hpo, hu⟩ := hp (a.ilo + (j - b.jlo)) (a.jlo + (i - b.ilo)) (by omega) (by omega) (by omega) (by omega)
    have := hal p hpP _ _ hma hpo
    obtain ⟨r, f, hr⟩ := plan_some true (A := A) b hma hpo
    rw [(h2 i j).2 p ((ho p).2 hpP) r f hr ((plan_t hr i j).1.2 ⟨hma, hpo⟩) fun q hqo r' f' hr' hm' => hu q ((ho q).1 hqo) ((plan_t hr' i j).1.1 hm').2]
    rw [(plan_t hr i j).2]
    congr 1 <;> omega
  · rename_i h
    refine (h2 i j).1 fun p _ r f hr => ?_
    rw [Bool.eq_false_iff, ne_eq, (plan_t hr i j).1, mem_iff]
    omega

/-- The results of all processes add up to the dot product of the patches, if the first one is aligned. Missing: other patches, for which it is false, see below. -/
theorem C82_dot_partial [Semiring V] (P : Nat) (da db : Dims) (blkA blkB : Nat → Reg) (hp : Partition P da.m da.n fun p i j => mem (blkA p) i j = true)
    (a b : Reg) (ha : inDims da a = true) (hb : inDims db b = true) (h1 : b.ihi - b.ilo = a.ihi - a.ilo) (h2 : b.jhi - b.jlo = a.jhi - a.jlo) (hal : Aligned P blkA a) (A B : Int → Int → V) :
    ∃ part : Nat → V, (∀ p < P, dotPart A B da db (blkA p) (blkB p) a b = some (part p)) ∧
      ∑ p ∈ Finset.range P, part p = dot A B a.ilo a.jlo b.ilo b.jlo (a.ihi - a.ilo + 1) (a.jhi - a.jlo + 1) := by
  refine ⟨fun p => _, fun p _ => dotPart_eq A B (blkB p) ha hb h1 h2, ?_⟩
  have e : ∀ p ∈ Finset.range P, (∑ y ∈ Finset.Icc (max a.jlo (blkA p).jlo) (min a.jhi (blkA p).jhi), ∑ x ∈ Finset.Icc (max a.ilo (blkA p).ilo) (min a.ihi (blkA p).ihi),
      A (x - (max a.ilo (blkA p).ilo - (blkA p).ilo)) (y - (max a.jlo (blkA p).jlo - (blkA p).jlo)) * B (b.ilo + (x - a.ilo)) (b.jlo + (y - a.jlo))) =
      ∑ y ∈ Finset.Icc (max a.jlo (blkA p).jlo) (min a.jhi (blkA p).jhi), ∑ x ∈ Finset.Icc (max a.ilo (blkA p).ilo) (min a.ihi (blkA p).ihi),
      A x y * B (b.ilo + (x - a.ilo)) (b.jlo + (y - a.jlo)) := fun p hpP => by
    refine Finset.sum_congr rfl fun y hy => Finset.sum_congr rfl fun x hx => ?_
    simp only [Finset.mem_Icc] at hx hy
    have := hal p (Finset.mem_range.1 hpP) x y ((mem_iff _ _ _).2 (by omega)) ((mem_iff _ _ _).2 (by omega))
    congr 2 <;> omega
  rw [Finset.sum_congr rfl e, sum_blocks P blkA da a ha hp fun x y => A x y * B (b.ilo + (x - a.ilo)) (b.jlo + (y - a.jlo))]
  unfold dot
  rw [sum_Ico_Icc a.jlo a.jhi fun j => ∑ i ∈ Finset.Ico 0 (a.ihi - a.ilo + 1), A (a.ilo + i) (a.jlo + j) * B (b.ilo + i) (b.jlo + j)]
  refine Finset.sum_congr rfl fun y _ => ?_
  rw [sum_Ico_Icc a.ilo a.ihi fun i => A (a.ilo + i) (a.jlo + (y - a.jlo)) * B (b.ilo + i) (b.jlo + (y - a.jlo))]
  refine Finset.sum_congr rfl fun x _ => ?_
  congr 2 <;> omega

/-! ## Where the claim is false -/

private theorem one_block (m n : Int) : Partition 1 m n fun p i j => mem ((fun _ => ⟨1, m, 1, n⟩ : Nat → Reg) p) i j = true :=
  fun i j h1 h2 h3 h4 => ⟨0, by omega, (mem_iff _ _ _).2 ⟨h1, h2, h3, h4⟩, fun q hq _ => by omega⟩

/-- With one process, a copy takes the elements from the corner of the matrix, wherever the patch is. -/
theorem C82_copy_corner (da db : Dims) (a b : Reg) (hok : copyOk da db a b = true) (A B : Int → Int → V) :
    ∃ B', copyPatch false A da db (fun _ => ⟨1, da.m, 1, da.n⟩) a b [0] B = some B' ∧ Copied A B B' 1 1 b.ilo b.jlo (a.ihi - a.ilo + 1) (a.jhi - a.jlo + 1) := by
  obtain ⟨B', h1, h2⟩ := C82_copy_exact 1 da db (fun _ => ⟨1, da.m, 1, da.n⟩) (one_block da.m da.n) [0] (by simp) a b hok A B
  obtain ⟨ha, hb, e1, e2⟩ := (copyOk_iff _ _ _ _).1 hok
  rw [inDims_iff] at ha
  refine ⟨B', h1, fun i j => ?_⟩
  split
  · rename_i h
    rw [(h2 i j).2 0 (by omega) ((mem_iff _ _ _).2 (by omega)) ((mem_iff _ _ _).2 (by dsimp only; omega))]
    dsimp only
    congr 1 <;> omega
  · rename_i h
    refine (h2 i j).1 ?_
    rw [Bool.eq_false_iff, ne_eq, mem_iff]; omega

/-- With one process, a dot product takes the elements of the first matrix from its corner, wherever the patch is. -/
theorem C82_dot_corner [Semiring V] (da db : Dims) (blkB a b : Reg) (ha : inDims da a = true) (hb : inDims db b = true) (h1 : b.ihi - b.ilo = a.ihi - a.ilo) (h2 : b.jhi - b.jlo = a.jhi - a.jlo) (A B : Int → Int → V) :
    dotPart A B da db ⟨1, da.m, 1, da.n⟩ blkB a b = some (dot A B 1 1 b.ilo b.jlo (a.ihi - a.ilo + 1) (a.jhi - a.jlo + 1)) := by
  rw [dotPart_eq A B blkB ha hb h1 h2]
  rw [inDims_iff] at ha
  dsimp only
  rw [show max a.jlo 1 = a.jlo from by omega, show max a.ilo 1 = a.ilo from by omega, show min a.jhi da.n = a.jhi from by omega, show min a.ihi da.m = a.ihi from by omega]
  congr 1
  unfold dot
  rw [sum_Ico_Icc a.jlo a.jhi fun j => ∑ i ∈ Finset.Ico 0 (a.ihi - a.ilo + 1), A (1 + i) (1 + j) * B (b.ilo + i) (b.jlo + j)]
  refine Finset.sum_congr rfl fun y _ => ?_
  rw [sum_Ico_Icc a.ilo a.ihi fun i => A (1 + i) (1 + (y - a.jlo)) * B (b.ilo + i) (b.jlo + (y - a.jlo))]
  refine Finset.sum_congr rfl fun x _ => ?_
  congr 2 <;> omega

/-- The transpose of a matrix with fewer rows than columns: the checks ask for a patch of the same shape, the copy writes the transposed shape. An element outside of the patch
is overwritten, or the program stops with an error. -/
theorem C82_transpose_shape (m n k : Int) (hm : 1 ≤ m) (hmn : m < n) (hk : n ≤ k) (A B : Int → Int → V) :
    (∃ B', copyPatch true A ⟨m, n⟩ ⟨k, n⟩ (fun _ => ⟨1, m, 1, n⟩) ⟨1, m, 1, n⟩ ⟨1, m, 1, n⟩ [0] B = some B' ∧ B' (m + 1) 1 = A 1 (m + 1) ∧ mem ⟨1, m, 1, n⟩ (m + 1) 1 = false) ∧
    copyPatch true A ⟨m, n⟩ ⟨m, n⟩ (fun _ => ⟨1, m, 1, n⟩) ⟨1, m, 1, n⟩ ⟨1, m, 1, n⟩ [0] B = none := by
  have hi : intersect ⟨1, m, 1, n⟩ ⟨1, m, 1, n⟩ = some ⟨1, m, 1, n⟩ := by
    unfold intersect
    dsimp only
    rw [if_neg (by omega), if_neg (by omega), if_neg (by omega), if_neg (by omega)]
    simp
  constructor
  · have hok : copyOk ⟨m, n⟩ ⟨k, n⟩ ⟨1, m, 1, n⟩ ⟨1, m, 1, n⟩ = true := by
      rw [copyOk_iff, inDims_iff, inDims_iff]; dsimp only; omega
    have hd : inDims ⟨k, n⟩ ⟨1 + (1 - 1), n + (1 - 1), 1 + (1 - 1), m + (1 - 1)⟩ = true := by rw [inDims_iff]; dsimp only; omega
    refine ⟨_, by unfold copyPatch; rw [if_pos hok]; simp only [copyParts, copyPart, hi, Bool.true_eq_false, if_false]; rw [put_inDims hd], ?_, ?_⟩
    · dsimp only
      rw [if_pos ((mem_iff _ _ _).2 (by dsimp only; omega))]
      unfold deref
      congr 1 <;> dsimp only <;> omega
    · rw [Bool.eq_false_iff, ne_eq, mem_iff]; dsimp only; omega
  · have hok : copyOk ⟨m, n⟩ ⟨m, n⟩ ⟨1, m, 1, n⟩ ⟨1, m, 1, n⟩ = true := by
      rw [copyOk_iff, inDims_iff]; dsimp only; omega
    have hd : ¬ inDims ⟨m, n⟩ ⟨1 + (1 - 1), n + (1 - 1), 1 + (1 - 1), m + (1 - 1)⟩ = true := by rw [inDims_iff]; dsimp only; omega
    unfold copyPatch
    rw [if_pos hok]
    simp only [copyParts, copyPart, hi, Bool.true_eq_false, if_false]
    unfold put
    rw [if_neg hd]

/-! ## Examples -/

/-- a 4 by 4 matrix on four processes, 2 by 2 blocks -/
private def ex82 : Nat → Reg
  | 0 => ⟨1, 2, 1, 2⟩
  | 1 => ⟨3, 4, 1, 2⟩
  | 2 => ⟨1, 2, 3, 4⟩
  | _ => ⟨3, 4, 3, 4⟩

private def ex82A : Int → Int → Int := fun i j => 10 * i + j

/-- rows 3 and 4, columns 1 to 4 are aligned -/
example : Aligned 4 ex82 ⟨3, 4, 1, 4⟩ := by
  intro p hp i j h1 h2
  rw [mem_iff] at h1 h2
  match p, hp with
  | 0, _ => simp only [ex82] at h1 h2 ⊢; omega
  | 1, _ => simp only [ex82] at h1 h2 ⊢; omega
  | 2, _ => simp only [ex82] at h1 h2 ⊢; omega
  | 3, _ => simp only [ex82] at h1 h2 ⊢; omega

example : Partition 4 4 4 fun p i j => mem (ex82 p) i j = true := by
  intro i j h1 h2 h3 h4
  have key : ∀ p < 4, mem (ex82 p) i j = true ↔ p = (if i ≤ 2 then 0 else 1) + (if j ≤ 2 then 0 else 2) := by
    intro p hp
    rw [mem_iff]
    match p, hp with
    | 0, _ => simp only [ex82]; split <;> split <;> omega
    | 1, _ => simp only [ex82]; split <;> split <;> omega
    | 2, _ => simp only [ex82]; split <;> split <;> omega
    | 3, _ => simp only [ex82]; split <;> split <;> omega
  refine ⟨(if i ≤ 2 then 0 else 1) + (if j ≤ 2 then 0 else 2), by split <;> split <;> omega, ?_, fun q hq h => (key q hq).1 h⟩
  exact (key _ (by split <;> split <;> omega)).2 rfl

/-- it is copied -/
example : (copyPatch false ex82A ⟨4, 4⟩ ⟨2, 4⟩ ex82 ⟨3, 4, 1, 4⟩ ⟨1, 2, 1, 4⟩ [2, 0, 3, 1] fun _ _ => 0).map (fun B => [B 1 1, B 1 2, B 1 3, B 1 4, B 2 1, B 2 2, B 2 3, B 2 4]) = some [31, 32, 33, 34, 41, 42, 43, 44] := by decide
/-- rows 2 and 3 are not: row 2 of the destination is right, row 1 is row 1 of the source -/
example : (copyPatch false ex82A ⟨4, 4⟩ ⟨2, 4⟩ ex82 ⟨2, 3, 1, 4⟩ ⟨1, 2, 1, 4⟩ [2, 0, 3, 1] fun _ _ => 0).map (fun B => [B 1 1, B 1 2, B 1 3, B 1 4, B 2 1, B 2 2, B 2 3, B 2 4]) = some [11, 12, 13, 14, 31, 32, 33, 34] := by decide
/-- parts of a dot product -/
example : (List.range 4).map (fun p => dotPart ex82A (fun i j => i - j) ⟨4, 4⟩ ⟨2, 4⟩ (ex82 p) (ex82 p) ⟨3, 4, 1, 4⟩ ⟨1, 2, 1, 4⟩) = [some 0, some 9, some 0, some (-299)] := by decide

end GA
