import Verif.Spec.CIface
import Verif.Model.CApi
import Verif.Lemmas.PutGet
import Mathlib.Data.List.Forall2

namespace GA
open Spec Model

theorem inPatch_iff_forall₂ {lo hi x : List Int} :
    InPatch lo hi x ↔ List.Forall₂ (· ≤ ·) lo x ∧ List.Forall₂ (· ≤ ·) x hi := by
  induction lo generalizing hi x with
  | nil => cases hi <;> cases x <;> simp [InPatch]
  | cons l lo ih =>
    cases hi <;> cases x <;> simp [InPatch]
    rw [ih]; tauto

theorem indexF2C_C2F (x : List Int) : indexF2C (indexC2F x) = x := by
  simp [indexF2C, indexC2F, Function.comp_def]

theorem indexC2F_F2C (x : List Int) : indexC2F (indexF2C x) = x := by
  simp [indexF2C, indexC2F, Function.comp_def]

theorem indexC2F_inj {x y : List Int} (h : indexC2F x = indexC2F y) : x = y := by
  rw [← indexF2C_C2F x, h, indexF2C_C2F]

@[simp] theorem indexC2F_length (x : List Int) : (indexC2F x).length = x.length := by simp [indexC2F]
@[simp] theorem indexF2C_length (x : List Int) : (indexF2C x).length = x.length := by simp [indexF2C]

theorem inPatch_C2F {lo hi x : List Int} : InPatch (indexC2F lo) (indexC2F hi) (indexC2F x) ↔ InPatch lo hi x := by
  rw [inPatch_iff_forall₂, inPatch_iff_forall₂]
  simp [indexC2F, List.forall₂_reverse_iff, List.forall₂_map_left_iff, List.forall₂_map_right_iff]

theorem inPatch_F2C {lo hi x : List Int} : InPatch (indexF2C lo) (indexF2C hi) x ↔ InPatch lo hi (indexC2F x) := by
  rw [← inPatch_C2F, indexC2F_F2C, indexC2F_F2C]

theorem inArray_C2F {dims x : List Int} : InArray (copyC2F dims) (indexC2F x) ↔ InArrayC dims x := by
  unfold InArray InArrayC
  rw [← inPatch_C2F (lo := dims.map fun _ => 0)]
  simp only [indexC2F, copyC2F, List.map_map, ← List.map_reverse, Function.comp_def, Int.sub_add_cancel, List.map_id', Int.zero_add]

theorem inArray_C2F' {dims x : List Int} : InArray dims (indexC2F x) ↔ InArrayC dims.reverse x := by
  rw [← inArray_C2F]
  simp [copyC2F]

theorem patchOK_C2F {dims lo hi : List Int} : PatchOK dims (indexC2F lo) (indexC2F hi) ↔ PatchOKC dims.reverse lo hi := by
  unfold PatchOK PatchOKC
  rw [inArray_C2F', inArray_C2F', inPatch_C2F]

/-! ## positions in the buffer -/

/-- the inner part of `bufPos`, with the position of the last dimension given -/
private def posIn : (lo ld x : List Int) → Int → Int
  | l :: lo, d :: ld, x :: xs, acc => (x - l) + d * posIn lo ld xs acc
  | _, _, _, acc => acc

private theorem bufPos_posIn {lo ld x : List Int} (l y : Int) (h1 : ld.length = lo.length) (h2 : x.length = lo.length) :
    bufPos (lo ++ [l]) ld (x ++ [y]) = posIn lo ld x (y - l) := by
  induction lo generalizing ld x with
  | nil =>
    match ld, x, h1, h2 with
    | [], [], _, _ => simp [bufPos, posIn]
  | cons a lo ih =>
    match ld, x, h1, h2 with
    | d :: ld, b :: x, h1, h2 =>
      simp only [List.cons_append, bufPos, posIn]
      rw [ih (by simpa using h1) (by simpa using h2)]

private theorem posIn_snoc {lo ld x : List Int} (l d y acc : Int) (h1 : ld.length = lo.length) (h2 : x.length = lo.length) :
    posIn (lo ++ [l]) (ld ++ [d]) (x ++ [y]) acc = posIn lo ld x ((y - l) + d * acc) := by
  induction lo generalizing ld x with
  | nil =>
    match ld, x, h1, h2 with
    | [], [], _, _ => simp [posIn]
  | cons a lo ih =>
    match ld, x, h1, h2 with
    | e :: ld, b :: x, h1, h2 =>
      simp only [List.cons_append, posIn]
      rw [ih (by simpa using h1) (by simpa using h2)]

private theorem rowStep_posIn {lo ld x : List Int} (acc : Int) (h1 : ld.length = lo.length) (h2 : x.length = lo.length) :
    posIn lo.reverse ld.reverse x.reverse acc = rowStep acc lo ld x := by
  induction lo generalizing ld x acc with
  | nil =>
    match ld, x, h1, h2 with
    | [], [], _, _ => simp [posIn, rowStep]
  | cons a lo ih =>
    match ld, x, h1, h2 with
    | d :: ld, b :: x, h1, h2 =>
      simp only [List.reverse_cons]
      rw [posIn_snoc _ _ _ _ (by simpa using h1) (by simpa using h2), ih _ (by simpa using h1) (by simpa using h2)]
      simp only [rowStep]
      congr 1; ring

private theorem bufPos_shift (lo ld x : List Int) :
    bufPos (lo.map fun v => v + 1) ld (x.map fun v => v + 1) = bufPos lo ld x := by
  induction lo generalizing ld x with
  | nil => simp [bufPos]
  | cons a lo ih =>
    match ld, x with
    | [], [] => simp [bufPos]
    | [], b :: x => simp [bufPos]
    | d :: ld, [] => simp [bufPos]
    | d :: ld, b :: x => simp only [List.map_cons, bufPos, ih]; ring

theorem bufPos_C2F {lo ld x : List Int} (h1 : ld.length + 1 = lo.length) (h2 : x.length = lo.length) :
    bufPos (indexC2F lo) (copyC2F ld) (indexC2F x) = rowPos lo ld x := by
  unfold indexC2F copyC2F
  rw [← List.map_reverse, ← List.map_reverse, bufPos_shift]
  match lo, x, h1, h2 with
  | l :: lo, y :: x, h1, h2 =>
    simp only [List.reverse_cons, rowPos]
    rw [bufPos_posIn _ _ (by simpa using h1) (by simpa using h2), rowStep_posIn _ (by simpa using h1) (by simpa using h2)]

/-! ## leading dimensions -/

private theorem ldOK_iff {lo hi ld : List Int} : LdOK lo hi ld ↔ lo ≠ [] ∧ hi.length = lo.length ∧
    List.Forall₂ (· ≤ ·) (edgeLens lo hi).dropLast ld := by
  induction lo generalizing hi ld with
  | nil => simp [LdOK]
  | cons l lo ih =>
    match lo, hi, ld with
    | [], [], _ => simp [LdOK]
    | [], [h], [] => simp [LdOK, edgeLens]
    | [], [h], d :: ld => simp [LdOK, edgeLens]
    | [], h :: h' :: hi, ld => cases ld <;> simp [LdOK]
    | l' :: lo, [], ld => simp [LdOK]
    | l' :: lo, [h], ld => cases ld <;> simp [LdOK]
    | l' :: lo, h :: h' :: hi, [] => simp [LdOK, edgeLens]
    | l' :: lo, h :: h' :: hi, d :: ld =>
      simp only [LdOK, ih (hi := h' :: hi)]
      simp [edgeLens]
      tauto

private theorem edgeLens_append {lo hi lo' hi' : List Int} (h : hi.length = lo.length) :
    edgeLens (lo ++ lo') (hi ++ hi') = edgeLens lo hi ++ edgeLens lo' hi' := by
  induction lo generalizing hi with
  | nil => cases hi <;> simp_all [edgeLens]
  | cons l lo ih =>
    cases hi with
    | nil => simp at h
    | cons k hi => simp only [List.cons_append, edgeLens]; rw [ih (by simpa using h)]

private theorem edgeLens_reverse {lo hi : List Int} (h : hi.length = lo.length) :
    edgeLens lo.reverse hi.reverse = (edgeLens lo hi).reverse := by
  induction lo generalizing hi with
  | nil => cases hi <;> simp_all [edgeLens]
  | cons l lo ih =>
    cases hi with
    | nil => simp at h
    | cons k hi =>
      simp only [List.reverse_cons, edgeLens]
      rw [edgeLens_append (by simpa using h), ih (by simpa using h)]
      simp [edgeLens]

private theorem edgeLens_shift (lo hi : List Int) : edgeLens (lo.map fun v => v + 1) (hi.map fun v => v + 1) = edgeLens lo hi := by
  induction lo generalizing hi with
  | nil => cases hi <;> simp [edgeLens]
  | cons l lo ih =>
    cases hi with
    | nil => simp [edgeLens]
    | cons h hi => simp only [List.map_cons, edgeLens, ih]; congr 1; ring

theorem numElems_C2F {lo hi : List Int} (h : hi.length = lo.length) : numElems (indexC2F lo) (indexC2F hi) = numElems lo hi := by
  have key : ∀ lo hi : List Int, numElems lo hi = (edgeLens lo hi).prod := by
    intro lo
    induction lo with
    | nil => intro hi; cases hi <;> simp [numElems, edgeLens]
    | cons l lo ih => intro hi; cases hi <;> simp [numElems, edgeLens, ih]
  unfold indexC2F
  rw [key, key, edgeLens_reverse (by simpa using h), edgeLens_shift, List.prod_reverse]

theorem ldOK_C2F {lo hi ld : List Int} : LdOK (indexC2F lo) (indexC2F hi) (copyC2F ld) ↔ LdOKC lo hi ld := by
  rw [ldOK_iff]
  unfold LdOKC
  refine and_congr (by simp [indexC2F]) ?_
  by_cases h : hi.length = lo.length
  · simp only [indexC2F_length, h, true_and]
    unfold indexC2F copyC2F
    rw [edgeLens_reverse (by simpa using h), edgeLens_shift, List.dropLast_reverse, List.forall₂_reverse_iff]
  · simp [h]

theorem Spec.LdOKC.length {lo hi ld : List Int} (h : LdOKC lo hi ld) : ld.length + 1 = lo.length := by
  have := (ldOK_C2F.2 h).length
  simp [copyC2F] at this
  omega

end GA
