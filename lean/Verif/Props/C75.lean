import Verif.Props.C74

/-!
# C75: products of sparse and dense arrays
-/

namespace GA
open Spec Model Spec.Sprs
open GA.Sprs

section
variable {V : Type} [Semiring V] {n : Nat} {idim kdim jdim : Int}

/-- **C75, sparse times dense (C interface).** A reachable sparse array with `kdim` columns and a dense array with `kdim` rows and columns: the call returns the
matrix product. Missing: dense arrays that are not square (see below). -/
theorem C75_sprsdns_partial {locA : Nat → Loc V} {A : List (Entry V)} (hA : C72_Reach n idim kdim locA A) {B : Dns V} (hd1 : B.d1 = kdim) (hd0 : B.d0 = kdim) :
    ∃ D, sprsdns idim kdim n locA B = some D ∧ D.d0 = B.d0 ∧ D.d1 = idim ∧
      ∀ i j, 0 ≤ i → i < idim → 0 ≤ j → j < B.d0 →
        C74_user true D.at' i j = ((List.range kdim.toNat).map fun k : Nat => elem A i k * C74_user true B.at' k j).sum := by
  obtain ⟨hn, hi, hk⟩ := C72_dims hA
  obtain ⟨g, hin⟩ := C72_good hA
  obtain ⟨D, h1, h2, h3, h4⟩ := sprsdns_eq hn hi hk hin g hd1 (by omega)
  refine ⟨D, h1, h2, h3, ?_⟩
  intro i j i0 i1 j0 j1
  have := h4 i j i0 i1 j0 j1
  rw [if_pos (by omega)] at this
  exact this

/-- **C75, negation: more columns.** If the dense array has more columns than rows, the columns of the result beyond that number are zero, whatever the
operands; the others are those of the product. -/
theorem C75_sprsdns_wide {locA : Nat → Loc V} {A : List (Entry V)} (hA : C72_Reach n idim kdim locA A) {B : Dns V} (hd1 : B.d1 = kdim) (hd0 : kdim < B.d0) :
    ∃ D, sprsdns idim kdim n locA B = some D ∧ D.d0 = B.d0 ∧ D.d1 = idim ∧
      (∀ i j, 0 ≤ i → i < idim → kdim ≤ j → j < B.d0 → C74_user true D.at' i j = 0) ∧
      ∀ i j, 0 ≤ i → i < idim → 0 ≤ j → j < kdim →
        C74_user true D.at' i j = ((List.range kdim.toNat).map fun k : Nat => elem A i k * C74_user true B.at' k j).sum := by
  obtain ⟨hn, hi, hk⟩ := C72_dims hA
  obtain ⟨g, hin⟩ := C72_good hA
  obtain ⟨D, h1, h2, h3, h4⟩ := sprsdns_eq hn hi hk hin g hd1 (by omega)
  refine ⟨D, h1, h2, h3, ?_, ?_⟩
  · intro i j i0 i1 j0 j1
    have := h4 i j i0 i1 (by omega) j1
    rw [if_neg (by omega)] at this
    exact this
  · intro i j i0 i1 j0 j1
    have := h4 i j i0 i1 j0 (by omega)
    rw [if_pos (by omega)] at this
    exact this

/-- **C75, negation: fewer columns.** If the dense array has fewer columns than rows, the call aborts, unless the sparse array has no entry at all. -/
theorem C75_sprsdns_narrow {locA : Nat → Loc V} {A : List (Entry V)} (hA : C72_Reach n idim kdim locA A) (hne : A ≠ []) {B : Dns V} (hd0 : B.d0 < kdim) :
    sprsdns idim kdim n locA B = none := by
  obtain ⟨hn, hi, hk⟩ := C72_dims hA
  obtain ⟨g, hin⟩ := C72_good hA
  obtain ⟨e, he⟩ := List.exists_mem_of_ne_nil _ hne
  obtain ⟨m1, m2, m3, m4⟩ := hin e he
  have hp : owner idim n e.row < n := owner_lt hn
  have hc : owner kdim n e.col < n := owner_lt hn
  obtain ⟨o1, o2⟩ := (owner_iff hi hp m1 m2).1 rfl
  obtain ⟨o3, o4⟩ := (owner_iff hk hc m3 m4).1 rfl
  obtain ⟨Bk, b1, b2, b3, b4, b5⟩ := g _ hp
  have hmem : owner kdim n e.col ∈ (locA (owner idim n e.row)).blkidx := by
    by_contra hno
    have h5 := b5 (owner kdim n e.col) (e.row - (locA (owner idim n e.row)).ilo).toNat hc (by simp only [Loc.nrows]; omega)
    rw [rowIn_empty hno] at h5
    have h6 : (e.col, e.val) ∈ rowPart A ((locA (owner idim n e.row)).ilo + (e.row - (locA (owner idim n e.row)).ilo).toNat)
        (bound kdim n (owner kdim n e.col : Nat)) (limHi kdim n (owner kdim n e.col)) := by
      refine List.mem_map.2 ⟨e, List.mem_filter.2 ⟨he, ?_⟩, rfl⟩
      rw [decide_eq_true_eq]
      omega
    rw [← h5.mem_iff] at h6
    cases h6
  have hok : ((List.range n).all fun p => sprsdnsOK kdim n B (locA p)) = false := by
    rw [List.all_eq_false]
    refine ⟨_, List.mem_range.2 hp, ?_⟩
    unfold sprsdnsOK
    rw [Bool.not_eq_true, List.all_eq_false]
    refine ⟨n - 1, List.mem_range.2 (by omega), ?_⟩
    rw [Bool.not_eq_true, List.all_eq_false]
    refine ⟨_, hmem, ?_⟩
    rw [decide_eq_true_eq]
    dsimp only [colDistribution]
    have : limHi kdim n (n - 1) = kdim - 1 := by rw [limHi, if_neg (by omega)]
    omega
  unfold sprsdns
  split
  · rfl
  · split
    · rfl
    · rw [if_pos (by simp [hok])]

omit [Semiring V] in
/-- different inner dimensions abort -/
theorem C75_sprsdns_dims [Zero V] [Add V] [Mul V] {B : Dns V} (h : kdim ≠ B.d1) (locA : Nat → Loc V) : sprsdns idim kdim n locA B = none := by
  unfold sprsdns
  rw [if_pos h]

/-- **C75, dense times sparse (C interface).** A dense array with `kdim` columns, at least as many rows as processes, and a reachable sparse array with `kdim` rows
and columns: the call returns the matrix product. Missing: sparse arrays that are not square (see below). -/
theorem C75_dnssprs_partial {locB : Nat → Loc V} {B : List (Entry V)} (hB : C72_Reach n kdim kdim locB B) {A : Dns V} (hd1 : (n : Int) ≤ A.d1) (hd0 : A.d0 = kdim) :
    ∃ D, dnssprs kdim kdim n A locB = some D ∧ D.d0 = kdim ∧ D.d1 = A.d1 ∧
      ∀ i j, 0 ≤ i → i < A.d1 → 0 ≤ j → j < kdim →
        C74_user true D.at' i j = ((List.range kdim.toNat).map fun k : Nat => C74_user true A.at' i k * elem B k j).sum := by
  obtain ⟨hn, hk, -⟩ := C72_dims hB
  obtain ⟨g, hin⟩ := C72_good hB
  exact dnssprs_eq hn hd1 hk hin g hd0

omit [Semiring V] in
/-- **C75, negation: sparse factor not square.** If the columns of the dense array are the rows of the sparse array, so that the product is defined, and
the sparse array is not square, the call aborts. -/
theorem C75_dnssprs_not_square [Zero V] [Add V] [Mul V] {A : Dns V} (hd0 : A.d0 = kdim) (h : kdim ≠ jdim) (locB : Nat → Loc V) :
    dnssprs kdim jdim n A locB = none := by
  unfold dnssprs
  rw [if_pos (by omega)]

/-- **C75, the two orders agree.** Two square arrays, the first dense as `A` and sparse as `locA`, the second dense as `B` and sparse as `locB`: the product
with the first one sparse and the product with the second one sparse have the same elements. -/
theorem C75_agree {locA locB : Nat → Loc V} {A' B' : List (Entry V)} (hA : C72_Reach n kdim kdim locA A') (hB : C72_Reach n kdim kdim locB B') {A B : Dns V}
    (a0 : A.d0 = kdim) (a1 : A.d1 = kdim) (b0 : B.d0 = kdim) (b1 : B.d1 = kdim) (rA : Represents kdim kdim (C74_user true A.at') A')
    (rB : Represents kdim kdim (C74_user true B.at') B') :
    ∃ D E, sprsdns kdim kdim n locA B = some D ∧ dnssprs kdim kdim n A locB = some E ∧
      ∀ i j, 0 ≤ i → i < kdim → 0 ≤ j → j < kdim → C74_user true D.at' i j = C74_user true E.at' i j := by
  obtain ⟨D, d1, -, -, d2⟩ := C75_sprsdns_partial hA b1 b0
  obtain ⟨E, e1, -, -, e2⟩ := C75_dnssprs_partial hB (by obtain ⟨-, h, -⟩ := C72_dims hA; omega) a0
  refine ⟨D, E, d1, e1, ?_⟩
  intro i j i0 i1 j0 j1
  rw [d2 i j i0 i1 j0 (by omega), e2 i j i0 (by omega) j0 j1]
  congr 1
  apply List.map_congr_left
  intro k hk
  have hk := List.mem_range.1 hk
  rw [C74_elem rA i0 i1 (by omega) (by omega), C74_elem rB (by omega) (by omega) j0 j1]

end

/-! ## concrete cases -/

/-- a dense matrix with four rows and columns, seen through C -/
def C75_ex : Dns Int := ⟨4, 4, fun x0 x1 => x0 + 10 * x1⟩

example : C72_Reach (V := Int) 2 4 4 C72_exLoc (C71_all 2 C72_ex) ∧ C75_ex.d1 = 4 ∧ C75_ex.d0 = 4 ∧
    (sprsdns 4 4 2 C72_exLoc C75_ex).map (fun D => (C74_user true D.at' 0 0, C74_user true D.at' 1 3, C74_user true D.at' 3 2)) = some (53, 334, 65) ∧
    (dnssprs 4 4 2 C75_ex C72_exLoc).map (fun D => (C74_user true D.at' 0 0, C74_user true D.at' 1 2, C74_user true D.at' 3 3)) = some (81, 361, 0) :=
  ⟨C72_ex_assembled, rfl, rfl, by decide +kernel, by decide +kernel⟩

/-- the hypotheses of the negations: a dense array with more columns, and the columns that are lost are not zero in the product -/
example : (sprsdns 4 4 2 C72_exLoc ⟨5, 4, fun x0 x1 => x0 + 10 * x1⟩).map (fun D => (C74_user true D.at' 0 3, C74_user true D.at' 0 4)) = some (62, 0) ∧
    ((List.range 4).map fun k : Nat => elem (C71_all 2 C72_ex) 0 k * (5 + 10 * ((k : Int) + 1))).sum = 65 := by decide +kernel

example : C71_all 2 C72_ex ≠ [] ∧ sprsdns 4 4 2 C72_exLoc ⟨3, 4, fun x0 x1 => x0 + 10 * x1⟩ = none :=
  ⟨by decide, C75_sprsdns_narrow C72_ex_assembled (by decide) (by decide)⟩

end GA
