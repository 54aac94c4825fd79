import Verif.Lemmas.LuTrans
import Mathlib.Algebra.Order.Ring.Rat
import Mathlib.Algebra.Field.Rat
import Mathlib.Tactic.Linarith

/-!
# C76: linear equations

`roll = true` stands for a build in which one of the loops of the vector operations is compiled, `roll = false` for the distribution, in which neither is.
-/

namespace GA
open Spec Spec.Lu
open GA.Lu

section
variable {V : Type} [Field V] [LinearOrder V] [IsStrictOrderedRing V] {n : Nat}

/-- **C76, solution.** For every matrix that is not singular and all right hand sides the call succeeds, and each column of the result is the solution, and
the only one, of the equations with that column as right hand side. Missing: the build of the distribution (see `C76_not_compiled`), rounding. -/
theorem C76_solve_partial (hn : 0 < n) {a : Nat → Nat → V} (hs : ¬ Singular n a) (b : Nat → Nat → V) (ipvt0 : Nat → Nat) :
    ∃ x, luSolve true false n n a b ipvt0 = .ok x ∧ ∀ j y, Solves false n a (b j) y ↔ ∀ i, i < n → y i = x j i := by
  refine ⟨_, luSolve_regular false a b ipvt0 hn hs, fun j y => ?_⟩
  have hp := pivot_ne (ipvt0 := ipvt0) hs
  rw [dgesl_false]
  refine solve_iff a ipvt0 hn (fun j hj => hp j (by omega)) ?_ (b j) y
  rw [← pivot_last a ipvt0 hn]
  exact hp _ (by omega)

/-- **C76, singular matrices give no result.** If the matrix is singular the call does not return numbers as the solution, whatever the transposition. -/
theorem C76_singular (hn : 0 < n) {a : Nat → Nat → V} (hs : Singular n a) (trans : Bool) (m : Nat) (b : Nat → Nat → V) (ipvt0 : Nat → Nat) :
    luSolve true trans n m a b ipvt0 = .abort ∨ luSolve true trans n m a b ipvt0 = .div0 := by
  cases h : luSolve true trans n m a b ipvt0 with
  | abort => exact Or.inl rfl
  | div0 => exact Or.inr rfl
  | ok x =>
    exfalso
    obtain ⟨_, hp⟩ := luSolve_ok h
    obtain ⟨v, ⟨i, hi, hv⟩, h0⟩ := hs
    have key := solve_iff a ipvt0 hn (fun j hj => hp j (by omega)) (by
      rw [← pivot_last a ipvt0 hn]
      exact hp _ (by omega)) (fun _ => 0)
    have h1 := (key v).1 (by
      intro i hi
      simp only [Bool.false_eq_true, if_false]
      exact h0 i hi)
    have h2 := (key fun _ => 0).1 (by
      intro i _
      simp)
    apply hv
    rw [h1 i hi, ← h2 i hi]

/-- **C76, singular matrices are reported.** If the first column is not zero, a singular matrix makes the call end with an error. Missing: a first column of
zeros (see `C76_zero_column`). -/
theorem C76_singular_reported_partial {a : Nat → Nat → V} (hs : Singular n a) (h0 : ∃ i, i < n ∧ a 0 i ≠ 0) (trans : Bool) (m : Nat)
    (b : Nat → Nat → V) (ipvt0 : Nat → Nat) : luSolve true trans n m a b ipvt0 = .abort := by
  obtain ⟨i0, hi0, hne⟩ := h0
  have hn : 0 < n := by omega
  have hp0 : pivot n a ipvt0 0 ≠ 0 := by
    intro h
    have := (idamax_spec (n - 0) 0 ((after n a ipvt0 0).a 0) (by omega)).2 (by
      rw [Nat.add_comm]
      exact h) i0 (by omega)
    rw [Nat.zero_add] at this
    exact hne this
  have hex : ∃ k, k < n ∧ pivot n a ipvt0 k = 0 := by
    by_contra hc
    have hp : ∀ k, k < n → pivot n a ipvt0 k ≠ 0 := fun k hk h => hc ⟨k, hk, h⟩
    obtain ⟨v, ⟨i, hi, hv⟩, hz⟩ := hs
    have key := solve_iff a ipvt0 hn (fun j hj => hp j (by omega)) (by
      rw [← pivot_last a ipvt0 hn]
      exact hp _ (by omega)) (fun _ => 0)
    have h1 := (key v).1 (by
      intro i hi
      simp only [Bool.false_eq_true, if_false]
      exact hz i hi)
    have h2 := (key fun _ => 0).1 (by
      intro i _
      simp)
    apply hv
    rw [h1 i hi, ← h2 i hi]
  obtain ⟨k, hk, hkz⟩ := hex
  have hk0 : 0 < k := by
    rcases Nat.eq_zero_or_pos k with h | h
    · rw [h] at hkz
      exact absurd hkz hp0
    · exact h
  have hinfo : (dgefa true n a ipvt0).info ≠ 0 := by
    rw [(dgefa_eq a ipvt0).2.2]
    split
    · omega
    · next hl =>
      have : k ≠ n - 1 := by
        intro h
        rw [h] at hkz
        rw [pivot_last a ipvt0 hn] at hkz
        exact hl hkz
      have := info_pos a ipvt0 hk0 hkz (n - 1) (by omega)
      omega
  unfold luSolve
  split
  · rfl
  · dsimp only
    rw [if_neg hinfo]

/-- **C76, dimensions.** Right hand sides whose length is not the dimension of the matrix are rejected in every build. -/
theorem C76_dims (roll trans : Bool) {m : Nat} (h : n ≠ m) (a b : Nat → Nat → V) (ipvt0 : Nat → Nat) : luSolve roll trans n m a b ipvt0 = .abort := by
  unfold luSolve
  rw [if_pos h]

/-- **C76, transposed equations.** If the elements of the first column below the diagonal are zero, the call with `trans` returns the solution, and the only
one, of the transposed equations. Missing: all other matrices (see `C76_trans`). -/
theorem C76_trans_partial (hn : 0 < n) {a : Nat → Nat → V} (hs : ¬ Singular n a) (hc : ∀ i, 0 < i → i < n → a 0 i = 0) (b : Nat → Nat → V)
    (ipvt0 : Nat → Nat) : ∃ x, luSolve true true n n a b ipvt0 = .ok x ∧ ∀ j y, Solves true n a (b j) y ↔ ∀ i, i < n → y i = x j i := by
  refine ⟨_, luSolve_regular true a b ipvt0 hn hs, fun j y => ?_⟩
  have hx := dgesl_true a ipvt0 (b j) hn hs hc
  constructor
  · intro hy
    refine trans_unique (fun c => ?_) hx hy
    obtain ⟨x, _, h⟩ := C76_solve_partial hn hs (fun _ => c) ipvt0
    exact ⟨x 0, (h 0 (x 0)).2 fun _ _ => rfl⟩
  · intro hy k hk
    rw [← hx k hk]
    apply Finset.sum_congr rfl
    intro i hi
    rw [hy i (Finset.mem_range.1 hi)]

end

/-- a matrix of rational numbers given by its columns -/
def C76_mat (l : List (List ℚ)) (j i : Nat) : ℚ := (l.getD j []).getD i 0

/-- **C76, negation: the distribution.** With neither loop compiled the call returns, for a matrix with determinant 1, numbers that do not solve the
equations. -/
theorem C76_not_compiled : ∃ x, luSolve false false 2 2 (C76_mat [[1, 0], [1, 1]]) (C76_mat [[0, 1]]) (fun _ => 0) = .ok x ∧
    ¬ Solves false 2 (C76_mat [[1, 0], [1, 1]]) (C76_mat [[0, 1]] 0) (x 0) := by
  refine ⟨_, rfl, ?_⟩
  unfold Solves
  decide +kernel

/-- **C76, negation: a first column of zeros.** The matrix is singular, which is not reported: the call divides by zero. -/
theorem C76_zero_column : Singular 2 (C76_mat [[0, 0], [1, 1]]) ∧
    luSolve true false 2 2 (C76_mat [[0, 0], [1, 1]]) (C76_mat [[1, 1]]) (fun _ => 0) = .div0 := by
  refine ⟨⟨fun i => if i = 0 then 1 else 0, ⟨0, by omega, by simp⟩, ?_⟩, rfl⟩
  decide +kernel

/-- **C76, negation: transposed equations.** For a matrix with determinant 1 the call with `trans` returns numbers that do not solve the transposed
equations. -/
theorem C76_trans : ∃ x, luSolve true true 2 2 (C76_mat [[1, 1], [0, 1]]) (C76_mat [[1, 1]]) (fun _ => 0) = .ok x ∧
    ¬ Solves true 2 (C76_mat [[1, 1], [0, 1]]) (C76_mat [[1, 1]] 0) (x 0) := by
  refine ⟨_, rfl, ?_⟩
  unfold Solves
  decide +kernel

/-- the matrix with rows `0 2 1`, `1 1 0`, `3 0 1`, which needs row interchanges, is not singular -/
private theorem C76_ex_regular : ¬ Singular 3 (C76_mat [[0, 1, 3], [2, 1, 0], [1, 0, 1]]) := by
  rintro ⟨x, ⟨i, hi, hx⟩, h⟩
  have h0 := h 0 (by omega)
  have h1 := h 1 (by omega)
  have h2 := h 2 (by omega)
  simp only [Finset.sum_range_succ, Finset.sum_range_zero, C76_mat, List.getD_cons_zero, List.getD_cons_succ] at h0 h1 h2
  apply hx
  have e0 : x 0 = 0 := by linarith
  have e1 : x 1 = 0 := by linarith
  have e2 : x 2 = 0 := by linarith
  rcases i with _ | _ | _ | i
  · exact e0
  · exact e1
  · exact e2
  · omega

example : ∃ x, luSolve true false 3 3 (C76_mat [[0, 1, 3], [2, 1, 0], [1, 0, 1]]) (C76_mat [[7, 3, 6], [3, 2, 4]]) (fun _ => 0) = .ok x ∧
    x 0 0 = 1 ∧ x 0 1 = 2 ∧ x 0 2 = 3 ∧ x 1 0 = 1 ∧ x 1 1 = 1 ∧ x 1 2 = 1 := by
  refine ⟨_, luSolve_regular false _ _ _ (by omega) C76_ex_regular, ?_⟩
  decide +kernel

example : ∃ x, luSolve true false 3 3 (C76_mat [[0, 1, 3], [2, 1, 0], [1, 0, 1]]) (C76_mat [[7, 3, 6]]) (fun _ => 0) = .ok x ∧ ∀ j y,
    Solves false 3 (C76_mat [[0, 1, 3], [2, 1, 0], [1, 0, 1]]) (C76_mat [[7, 3, 6]] j) y ↔ ∀ i, i < 3 → y i = x j i :=
  C76_solve_partial (by omega) C76_ex_regular _ _

example : luSolve true true 2 2 (C76_mat [[1, 2], [2, 4]]) (C76_mat [[1, 1]]) (fun _ => 0) = .abort := by
  refine C76_singular_reported_partial ⟨fun i => if i = 0 then 2 else -1, ⟨0, by omega, by simp⟩, ?_⟩ ⟨0, by omega, by decide +kernel⟩ _ _ _ _
  decide +kernel

private theorem C76_ex_upper : ¬ Singular 3 (C76_mat [[2, 0, 0], [1, 1, 1], [0, 1, 3]]) := by
  rintro ⟨x, ⟨i, hi, hx⟩, h⟩
  have h0 := h 0 (by omega)
  have h1 := h 1 (by omega)
  have h2 := h 2 (by omega)
  simp only [Finset.sum_range_succ, Finset.sum_range_zero, C76_mat, List.getD_cons_zero, List.getD_cons_succ] at h0 h1 h2
  apply hx
  have e2 : x 2 = 0 := by linarith
  have e1 : x 1 = 0 := by linarith
  have e0 : x 0 = 0 := by linarith
  rcases i with _ | _ | _ | i
  · exact e0
  · exact e1
  · exact e2
  · omega

example : ∃ x, luSolve true true 3 3 (C76_mat [[2, 0, 0], [1, 1, 1], [0, 1, 3]]) (C76_mat [[2, 6, 11]]) (fun _ => 0) = .ok x ∧ ∀ j y,
    Solves true 3 (C76_mat [[2, 0, 0], [1, 1, 1], [0, 1, 3]]) (C76_mat [[2, 6, 11]] j) y ↔ ∀ i, i < 3 → y i = x j i := by
  refine C76_trans_partial (by omega) C76_ex_upper ?_ _ _
  intro i h1 h2
  have : i = 1 ∨ i = 2 := by omega
  rcases this with rfl | rfl <;> rfl

end GA
