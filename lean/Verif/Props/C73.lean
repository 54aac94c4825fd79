import Verif.Props.C72

/-!
# C73: products of sparse arrays
-/

namespace GA
open Spec Model Spec.Sprs
open GA.Sprs

section
variable {V : Type} [Semiring V] {idim kdim jdim : Int} {n : Nat}

/-- process `p` has a product: one of the elements in its rows of `A` meets an element of `B` -/
def C73_some (idim : Int) (n : Nat) (A B : List (Entry V)) (p : Nat) : Prop :=
  ∃ a ∈ A, ∃ b ∈ B, (rowDistribution idim n p p).1 ≤ a.row ∧ a.row ≤ (rowDistribution idim n p p).2 ∧ a.col = b.row

private theorem some_iff (hn : 0 < n) (hi : (n : Int) ≤ idim) {A B : List (Entry V)} (hinA : ∀ e ∈ A, e.In idim kdim) :
    (∀ p, p < n → C73_some idim n A B p) ↔ ∀ p, p < n → ∃ a ∈ A, ∃ b ∈ B, owner idim n a.row = p ∧ a.col = b.row := by
  refine forall_congr' fun p => forall_congr' fun hp => ?_
  unfold C73_some
  rw [C71_dist hn hi p]
  constructor
  · rintro ⟨a, ha, b, hb, h1, h2, h3⟩
    obtain ⟨m1, m2, -⟩ := hinA a ha
    exact ⟨a, ha, b, hb, (owner_iff hi hp m1 m2).2 ⟨h1, h2⟩, h3⟩
  · rintro ⟨a, ha, b, hb, h1, h3⟩
    obtain ⟨m1, m2, -⟩ := hinA a ha
    obtain ⟨h4, h5⟩ := (owner_iff hi hp m1 m2).1 h1
    exact ⟨a, ha, b, hb, h4, h5, h3⟩

/-- **C73.** Two reachable sparse arrays, the first with as many columns as the second has rows, whatever is in the memory that is allocated: there is a matrix
`C` that is their product. If every process has a product, the call returns, every process sees `C`, and the new array is reachable again; otherwise
the call does not return. Missing: the program has to abort when a process has no product (`C73_no_product`), more processes than rows or columns. -/
theorem C73_product_partial {locA locB : Nat → Loc V} {A B : List (Entry V)} (hA : C72_Reach n idim kdim locA A) (hB : C72_Reach n kdim jdim locB B)
    (raw : Nat → Raw V) (d0 : Nat → Nat → Entry V) :
    ∃ C, IsProduct kdim A B C ∧
      ((∀ p, p < n → C73_some idim n A B p) → ∃ o, matmat raw d0 kdim kdim jdim n locA locB = some o ∧
        ∃ loc : Nat → Loc V, (∀ p, p < n → o p = some (loc p)) ∧ C72_Reach n idim jdim loc C ∧ C71_Shows idim jdim n loc C) ∧
      ((¬ ∀ p, p < n → C73_some idim n A B p) → matmat raw d0 kdim kdim jdim n locA locB = none) := by
  obtain ⟨hn, hi, hk⟩ := C72_dims hA
  obtain ⟨-, -, hj⟩ := C72_dims hB
  obtain ⟨gA, inA⟩ := C72_good hA
  obtain ⟨gB, inB⟩ := C72_good hB
  obtain ⟨C, c1, c2, loc, c3, o, c4, c5⟩ := matmat_good raw d0 hn hi hk hj inA inB gA gB
  refine ⟨C, c1, fun h => ?_, fun h => ?_⟩
  · have h4 := c4.trans (if_pos ((some_iff hn hi inA).1 h))
    exact ⟨o, h4, loc, c5, .product hA hB raw d0 loc ⟨o, h4, c5⟩ C c1, C71_shows_of_good hi c3⟩
  · exact c4.trans (if_neg fun h' => h ((some_iff hn hi inA).2 h'))

/-- **C73, the product is unique.** Two matrices that are products of the same matrices have the same entries. -/
theorem C73_unique {A B C C' : List (Entry V)} (h : IsProduct kdim A B C) (h' : IsProduct kdim A B C') : C.Perm C' := h.perm h'

/-- **C73, negation: a process without products.** If the elements in the rows of some process meet no element of `B`, the call aborts: a diagonal of zeros is
not a legal matrix. -/
theorem C73_no_product {locA locB : Nat → Loc V} {A B : List (Entry V)} (hA : C72_Reach n idim kdim locA A) (hB : C72_Reach n kdim jdim locB B)
    (raw : Nat → Raw V) (d0 : Nat → Nat → Entry V) {p : Nat} (hp : p < n) (h : ¬ C73_some idim n A B p) :
    matmat raw d0 kdim kdim jdim n locA locB = none := by
  obtain ⟨C, -, -, h2⟩ := C73_product_partial hA hB raw d0
  exact h2 fun h' => h (h' p hp)

omit [Semiring V] in
/-- different inner dimensions abort -/
theorem C73_dims [Add V] [Mul V] {kdimA kdimB : Int} (h : kdimA ≠ kdimB) (raw : Nat → Raw V) (d0 : Nat → Nat → Entry V) (locA locB : Nat → Loc V) :
    matmat raw d0 kdimA kdimB jdim n locA locB = none := by
  unfold matmat
  rw [if_pos h]

/-- **C73, associativity.** However three reachable arrays are multiplied, the elements of the result are the same. -/
theorem C73_assoc {ldim : Int} {A B D AB BD L R : List (Entry V)} (h1 : IsProduct kdim A B AB) (h2 : IsProduct ldim AB D L) (h3 : IsProduct ldim B D BD)
    (h4 : IsProduct kdim A BD R) (i j : Int) : elem L i j = elem R i j := by
  rw [h2.value, h4.value]
  have e1 : ∀ k : Nat, elem AB i k * elem D k j = ((List.range kdim.toNat).map fun m : Nat => elem A i m * elem B m k * elem D k j).sum := by
    intro k
    rw [h1.value, ← List.sum_map_mul_right]
  have e2 : ∀ m : Nat, elem A i m * elem BD m j = ((List.range ldim.toNat).map fun k : Nat => elem A i m * elem B m k * elem D k j).sum := by
    intro m
    rw [h3.value, ← List.sum_map_mul_left]
    simp only [mul_assoc]
  simp only [e1, e2]
  generalize List.range ldim.toNat = X
  generalize List.range kdim.toNat = Y
  induction X with
  | nil => simp
  | cons x X ih =>
    rw [List.map_cons, List.sum_cons, ih]
    simp only [List.map_cons, List.sum_cons]
    rw [List.sum_map_add]

end

/-! ## a concrete product -/

/-- a reachable array: that of C72 -/
private theorem ex0 : C72_Reach (V := Int) 2 4 4 C72_exLoc (C71_all 2 C72_ex) := C72_ex_assembled

example : (∀ p, p < 2 → C73_some 4 2 (C71_all 2 C72_ex) (C71_all 2 C72_ex) p) ∧
    ∃ C, IsProduct 4 (C71_all 2 C72_ex) (C71_all 2 C72_ex) C ∧ elem C 0 1 = 10 ∧ elem C 0 2 = 14 ∧ elem C 1 2 = 91 ∧ elem C 3 1 = 10 := by
  refine ⟨by unfold C73_some; decide +kernel, ?_⟩
  obtain ⟨C, h, -⟩ := C73_product_partial ex0 ex0 C71_exRaw fun _ _ => ⟨8, 8, 8⟩
  refine ⟨C, h, ?_⟩
  rw [h.value, h.value, h.value, h.value]
  decide +kernel

/-- that product, computed by the model: row 1 on process 0 and row 3 on process 1 -/
example : (matmat C71_exRaw (fun _ _ => ⟨8, 8, 8⟩) 4 4 4 2 C72_exLoc C72_exLoc).bind (fun o => (o 0).bind fun l => (accessColBlock l 1).map fun w =>
      csrRow w.idx w.jdx w.val 1) = some [(2, 91)] ∧
    (matmat C71_exRaw (fun _ _ => ⟨8, 8, 8⟩) 4 4 4 2 C72_exLoc C72_exLoc).bind (fun o => (o 1).bind fun l => (accessColBlock l 0).map fun w =>
      csrRow w.idx w.jdx w.val 1) = some [(1, 10), (0, 5)] := by decide +kernel

end GA
