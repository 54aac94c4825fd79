import Verif.Lemmas.Elem
import Mathlib.Algebra.Order.Field.Rat
import Mathlib.Analysis.SpecialFunctions.Sqrt

/-!
# C56, C57, C58: the functions on one element

Integer arithmetic without overflow; real and complex numbers over any linearly ordered field.
-/

namespace GA
open Spec Model

/-! ## integers -/

/-- **C57 (integer quotient).** The integer division of `GA_Elem_divide` is refused for the divisor zero and
is otherwise the quotient truncated towards zero. -/
theorem C57_div_int (a b : Int) :
    (divInt a b = none ↔ b = 0) ∧ ∀ q, divInt a b = some q → TruncQuot a b q := by
  unfold divInt
  constructor
  · by_cases h : b = 0 <;> simp [h]
  · intro q hq
    by_cases h : b = 0
    · simp [h] at hq
    · simp only [ne_eq, h, not_false_eq_true, if_true, Option.some.injEq] at hq
      subst hq
      have e : a - a.tdiv b * b = a.tmod b := by
        have := Int.tdiv_mul_add_tmod a b
        omega
      unfold TruncQuot
      rw [e]
      refine ⟨?_, fun ha => Int.tmod_nonneg b ha, fun ha => ?_⟩
      · rw [Int.natAbs_tmod]
        exact Nat.mod_lt _ (by omega)
      · have := Int.tmod_nonneg b (a := -a) (by omega)
        rw [Int.neg_tmod] at this
        omega

/-- **C56 (integer reciprocal).** The same for `GA_Recip`: the quotient of 1. -/
theorem C56_recip_int (x : Int) :
    (recipInt x = none ↔ x = 0) ∧ ∀ q, recipInt x = some q → TruncQuot 1 x q :=
  C57_div_int 1 x

/-! ## real and complex numbers -/

section
variable {K : Type} [Field K] [LinearOrder K] [IsStrictOrderedRing K]

/-- **C57 (real quotient).** -/
theorem C57_div_real (a b : K) :
    (divReal a b = none ↔ b = 0) ∧ ∀ q, divReal a b = some q → q * b = a := by
  unfold divReal
  by_cases h : b = 0
  · simp [h]
  · simp only [ne_eq, h, not_false_eq_true, if_true, reduceCtorEq, Option.some.injEq, true_and]
    rintro q rfl
    exact div_mul_cancel₀ a h

/-- **C56 (real reciprocal).** -/
theorem C56_recip_real (x : K) :
    (recipReal x = none ↔ x = 0) ∧ ∀ q, recipReal x = some q → q * x = 1 :=
  C57_div_real 1 x

private theorem one_sq_ne (x : K) : 1 + x * x ≠ 0 := by
  have : 0 ≤ x * x := mul_self_nonneg x
  linarith

private theorem zero_of_abs {x y : K} (h : |x| ≥ |y|) (hx : x = 0) : y = 0 := by
  subst hx
  rw [abs_zero] at h
  exact abs_eq_zero.1 (le_antisymm h (abs_nonneg y))

/-- **C57 (complex quotient).** The complex division of `GA_Elem_divide` (with scaling by the larger
component) is refused for the divisor zero; otherwise the result times the divisor is the dividend. -/
theorem C57_div_cpl (a b : Cx K) :
    (divCpl a b = none ↔ b.re = 0 ∧ b.im = 0) ∧
    ∀ q, divCpl a b = some q → cmulRe q.re q.im b.re b.im = a.re ∧ cmulIm q.re q.im b.re b.im = a.im := by
  unfold divCpl
  simp only [gaAbs_eq]
  by_cases h : |b.re| ≥ |b.im|
  · simp only [if_pos h]
    by_cases h0 : b.re = 0
    · simp only [h0, ne_eq, not_true_eq_false, if_false, true_and, true_iff, reduceCtorEq, false_implies, implies_true,
        and_true]
      exact zero_of_abs h h0
    · simp only [ne_eq, h0, not_false_eq_true, if_true, reduceCtorEq, false_and, true_and, Option.some.injEq]
      rintro q rfl
      have h1 := one_sq_ne (b.im / b.re)
      have h2 : b.re * b.re + b.im * b.im ≠ 0 := by
        have : 0 < b.re * b.re := mul_self_pos.2 h0
        have : 0 ≤ b.im * b.im := mul_self_nonneg _
        linarith
      have e : b.re * (1 + b.im / b.re * (b.im / b.re)) = (b.re * b.re + b.im * b.im) / b.re := by
        field_simp
      simp only [cmulRe, cmulIm, e]
      constructor <;> · field_simp; ring
  · simp only [if_neg h]
    have h0 : b.im ≠ 0 := by
      intro e
      apply h
      rw [e, abs_zero]
      exact abs_nonneg _
    simp only [reduceCtorEq, h0, and_false, Option.some.injEq, true_and]
    rintro q rfl
    have h2 : b.re * b.re + b.im * b.im ≠ 0 := by
      have : 0 < b.im * b.im := mul_self_pos.2 h0
      have : 0 ≤ b.re * b.re := mul_self_nonneg _
      linarith
    have e : b.im * (1 + b.re / b.im * (b.re / b.im)) = (b.re * b.re + b.im * b.im) / b.im := by
      field_simp
      ring
    simp only [cmulRe, cmulIm, e]
    constructor <;> · field_simp; ring

/-- **C56 (complex reciprocal).** The reciprocal of a complex number is refused for zero; otherwise the
result times the number is 1. -/
theorem C56_recip_cpl (z : Cx K) :
    (recipCpl z = none ↔ z.re = 0 ∧ z.im = 0) ∧
    ∀ q, recipCpl z = some q → cmulRe q.re q.im z.re z.im = 1 ∧ cmulIm q.re q.im z.re z.im = 0 := by
  unfold recipCpl
  simp only [gaAbs_eq]
  by_cases h : |z.re| ≥ |z.im|
  · simp only [if_pos h]
    by_cases h0 : z.re = 0
    · simp only [h0, abs_zero, ne_eq, not_true_eq_false, if_false, true_and, true_iff, reduceCtorEq, false_implies,
        implies_true, and_true]
      exact zero_of_abs h h0
    · simp only [ne_eq, abs_eq_zero, h0, not_false_eq_true, if_true, reduceCtorEq, false_and, true_and,
        Option.some.injEq]
      rintro q rfl
      have h2 : z.re * z.re + z.im * z.im ≠ 0 := by
        have : 0 < z.re * z.re := mul_self_pos.2 h0
        have : 0 ≤ z.im * z.im := mul_self_nonneg _
        linarith
      have e : (1 + z.im / z.re * (z.im / z.re)) * z.re = (z.re * z.re + z.im * z.im) / z.re := by
        field_simp
      simp only [cmulRe, cmulIm, e]
      constructor <;> · field_simp; ring
  · simp only [if_neg h]
    have h0 : z.im ≠ 0 := by
      intro e
      apply h
      rw [e, abs_zero]
      exact abs_nonneg _
    simp only [reduceCtorEq, h0, and_false, Option.some.injEq, true_and]
    rintro q rfl
    have h2 : z.re * z.re + z.im * z.im ≠ 0 := by
      have : 0 < z.im * z.im := mul_self_pos.2 h0
      have : 0 ≤ z.re * z.re := mul_self_nonneg _
      linarith
    have e : (1 + z.re / z.im * (z.re / z.im)) * z.im = (z.re * z.re + z.im * z.im) / z.im := by
      field_simp
      ring
    simp only [cmulRe, cmulIm, e]
    constructor <;> · field_simp; ring

/-- **C56 (complex absolute value).** With a function `root` that computes square roots, `GA_Abs_value`
replaces a complex number by the non-negative real number whose square is `re*re + im*im`. -/
theorem C56_abs_cpl (root : K → K) (hr : ∀ x, 0 ≤ x → 0 ≤ root x ∧ root x * root x = x) (z : Cx K) :
    (absCpl root z).im = 0 ∧ 0 ≤ (absCpl root z).re ∧
      (absCpl root z).re * (absCpl root z).re = z.re * z.re + z.im * z.im := by
  unfold absCpl
  simp only [gaAbs_eq]
  have pos : ∀ x : K, 0 ≤ 1 + x * x := fun x => by have := mul_self_nonneg x; linarith
  by_cases h : |z.re| ≥ |z.im|
  · simp only [if_pos h]
    by_cases h0 : z.re = 0
    · simp only [if_pos h0]
      have := zero_of_abs h h0
      simp [h0, this]
    · simp only [if_neg h0]
      obtain ⟨r1, r2⟩ := hr _ (pos (z.im / z.re))
      refine ⟨trivial, mul_nonneg (abs_nonneg _) r1, ?_⟩
      rw [show ∀ a b : K, a * b * (a * b) = a * a * (b * b) by intros; ring, r2, abs_mul_abs_self]
      field_simp
  · simp only [if_neg h]
    have h0 : z.im ≠ 0 := by
      intro e
      apply h
      rw [e, abs_zero]
      exact abs_nonneg _
    obtain ⟨r1, r2⟩ := hr _ (pos (z.re / z.im))
    refine ⟨trivial, mul_nonneg (abs_nonneg _) r1, ?_⟩
    rw [show ∀ a b : K, a * b * (a * b) = a * a * (b * b) by intros; ring, r2, abs_mul_abs_self]
    field_simp
    ring

private theorem scale_pos (a b : Cx K) (h : ¬ max (max |a.re| |a.im|) (max |b.re| |b.im|) = 0) :
    0 < max (max |a.re| |a.im|) (max |b.re| |b.im|) :=
  lt_of_le_of_ne (le_trans (abs_nonneg a.re) (le_trans (le_max_left _ _) (le_max_left _ _))) (Ne.symm h)

private theorem scale_eq (s x y : K) : x * s * (x * s) + y * s * (y * s) = (x * x + y * y) * (s * s) := by ring

private theorem zero_parts (a b : Cx K) (h : max (max |a.re| |a.im|) (max |b.re| |b.im|) = 0) :
    a.re = 0 ∧ a.im = 0 ∧ b.re = 0 ∧ b.im = 0 := by
  have h1 : |a.re| ≤ 0 := h ▸ le_trans (le_max_left _ _) (le_max_left _ _)
  have h2 : |a.im| ≤ 0 := h ▸ le_trans (le_max_right |a.re| _) (le_max_left _ _)
  have h3 : |b.re| ≤ 0 := h ▸ le_trans (le_max_left |b.re| |b.im|) (le_max_right _ _)
  have h4 : |b.im| ≤ 0 := h ▸ le_trans (le_max_right |b.re| |b.im|) (le_max_right _ _)
  exact ⟨abs_nonpos_iff.1 h1, abs_nonpos_iff.1 h2, abs_nonpos_iff.1 h3, abs_nonpos_iff.1 h4⟩

/-- **C57 (complex maximum).** `GA_Elem_maximum` of complex numbers returns one of the two operands, and
none has a larger absolute value. -/
theorem C57_max_cpl (a b : Cx K) :
    (maxCpl a b = a ∨ maxCpl a b = b) ∧
    a.re * a.re + a.im * a.im ≤ (maxCpl a b).re * (maxCpl a b).re + (maxCpl a b).im * (maxCpl a b).im ∧
    b.re * b.re + b.im * b.im ≤ (maxCpl a b).re * (maxCpl a b).re + (maxCpl a b).im * (maxCpl a b).im := by
  unfold maxCpl pickCpl
  simp only [gaMax_eq, gaAbs_eq, scale_eq]
  by_cases h : max (max |a.re| |a.im|) (max |b.re| |b.im|) = 0
  · simp only [if_pos h, true_or, le_refl, true_and]
    obtain ⟨h1, h2, h3, h4⟩ := zero_parts a b h
    simp [h1, h2, h3, h4]
  · simp only [if_neg h]
    have hp := scale_pos a b h
    generalize max (max |a.re| |a.im|) (max |b.re| |b.im|) = s at hp ⊢
    have hs : 0 < 1 / s * (1 / s) := by positivity
    by_cases hc : (a.re * a.re + a.im * a.im) * (1 / s * (1 / s)) > (b.re * b.re + b.im * b.im) * (1 / s * (1 / s))
    · simp only [decide_eq_true hc, if_true, true_or, le_refl, true_and]
      exact le_of_lt (lt_of_mul_lt_mul_right hc (le_of_lt hs))
    · simp only [decide_eq_false hc, Bool.false_eq_true, if_false, or_true, le_refl, true_and, and_true]
      exact le_of_mul_le_mul_right (le_of_not_gt hc) hs

/-- **C57 (complex minimum).** -/
theorem C57_min_cpl (a b : Cx K) :
    (minCpl a b = a ∨ minCpl a b = b) ∧
    (minCpl a b).re * (minCpl a b).re + (minCpl a b).im * (minCpl a b).im ≤ a.re * a.re + a.im * a.im ∧
    (minCpl a b).re * (minCpl a b).re + (minCpl a b).im * (minCpl a b).im ≤ b.re * b.re + b.im * b.im := by
  unfold minCpl pickCpl
  simp only [gaMax_eq, gaAbs_eq, scale_eq]
  by_cases h : max (max |a.re| |a.im|) (max |b.re| |b.im|) = 0
  · simp only [if_pos h, true_or, le_refl, true_and]
    obtain ⟨h1, h2, h3, h4⟩ := zero_parts a b h
    simp [h1, h2, h3, h4]
  · simp only [if_neg h]
    have hp := scale_pos a b h
    generalize max (max |a.re| |a.im|) (max |b.re| |b.im|) = s at hp ⊢
    have hs : 0 < 1 / s * (1 / s) := by positivity
    by_cases hc : (a.re * a.re + a.im * a.im) * (1 / s * (1 / s)) < (b.re * b.re + b.im * b.im) * (1 / s * (1 / s))
    · simp only [decide_eq_true hc, if_true, true_or, le_refl, true_and]
      exact le_of_lt (lt_of_mul_lt_mul_right hc (le_of_lt hs))
    · simp only [decide_eq_false hc, Bool.false_eq_true, if_false, or_true, le_refl, true_and, and_true]
      exact le_of_mul_le_mul_right (le_of_not_gt hc) hs

end

/-! ## median -/

private theorem between {V K : Type} [LinearOrder K] (key : V → K) {a b c v : V} (hv : v = a ∨ v = b ∨ v = c)
    (h : (key a ≤ key v ∧ key v ≤ key b ∧ v = c) ∨ (key b ≤ key v ∧ key v ≤ key a ∧ v = c) ∨
      (key a ≤ key v ∧ key v ≤ key c ∧ v = b) ∨ (key c ≤ key v ∧ key v ≤ key a ∧ v = b) ∨
      (key b ≤ key v ∧ key v ≤ key c ∧ v = a) ∨ (key c ≤ key v ∧ key v ≤ key b ∧ v = a)) : IsMedian key a b c v := by
  refine ⟨hv, ?_, ?_⟩
  all_goals
    simp only [List.filter_cons, List.filter_nil]
    rcases h with h | h | h | h | h | h <;> obtain ⟨h1, h2, rfl⟩ := h <;>
      simp only [h1, h2, le_refl, decide_true, if_true, List.length_cons] <;> (try split) <;> simp

/-- **C58 (median of three values).** -/
theorem C58_median3 {V K : Type} [LinearOrder K] (key : V → K) (a b c : V) :
    IsMedian key a b c (median3 key a b c) := by
  unfold median3 auxiMedian
  split_ifs with h1 h2 h3 h4 h5 h6
  all_goals refine between key (by simp) ?_
  · rcases le_total (key a) (key c) with h | h
    · exact Or.inr (Or.inr (Or.inr (Or.inr (Or.inl ⟨h1 ▸ le_refl _, h, rfl⟩))))
    · exact Or.inr (Or.inr (Or.inr (Or.inr (Or.inr ⟨h, h1 ▸ le_refl _, rfl⟩))))
  · exact Or.inr (Or.inr (Or.inr (Or.inr (Or.inr ⟨h3.1.le, h3.2.le, rfl⟩))))
  · exact Or.inl ⟨h4.1, h4.2, rfl⟩
  · refine Or.inr (Or.inr (Or.inl ⟨h2.le, ?_, rfl⟩))
    by_contra hc
    have hc := lt_of_not_ge hc
    by_cases h : key a ≤ key c
    · exact h4 ⟨h, hc.le⟩
    · exact h3 ⟨lt_of_not_ge h, h2⟩
  · exact Or.inr (Or.inr (Or.inr (Or.inl ⟨h5.1.le, h5.2.le, rfl⟩)))
  · exact Or.inr (Or.inl ⟨h6.1, h6.2, rfl⟩)
  · have hba : key b < key a := lt_of_le_of_ne (le_of_not_gt h2) (Ne.symm h1)
    refine Or.inr (Or.inr (Or.inr (Or.inr (Or.inl ⟨hba.le, ?_, rfl⟩))))
    by_contra hc
    have hc := lt_of_not_ge hc
    by_cases h : key b ≤ key c
    · exact h6 ⟨h, hc.le⟩
    · exact h5 ⟨lt_of_not_ge h, hba⟩

/-! ## Non-vacuity -/

/-- division truncates towards zero, complex division and reciprocal, maximum by absolute value -/
example : divInt (-7) 2 = some (-3) ∧ recipInt (-1) = some (-1) ∧ recipInt 5 = some 0 ∧ divInt 3 0 = none := by decide
example : divCpl (⟨1, 2⟩ : Cx Rat) ⟨3, -4⟩ = some ⟨-1/5, 2/5⟩ ∧ recipCpl (⟨0, 2⟩ : Cx Rat) = some ⟨0, -1/2⟩ ∧
    maxCpl (⟨1, 0⟩ : Cx Rat) ⟨0, -2⟩ = ⟨0, -2⟩ := by decide +kernel
example : median3 id 5 1 (3 : Int) = 3 := by decide
/-- a square root on the numbers that occur: the hypothesis of `C56_abs_cpl` holds for real numbers -/
example : ∀ x : ℝ, 0 ≤ x → 0 ≤ Real.sqrt x ∧ Real.sqrt x * Real.sqrt x = x :=
  fun x hx => ⟨Real.sqrt_nonneg x, Real.mul_self_sqrt hx⟩

end GA
