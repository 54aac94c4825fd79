import Verif.Model.StepMax
import Verif.Spec.StepMax
import Mathlib.Algebra.Order.Field.Basic
import Mathlib.Tactic.Linarith
import Mathlib.Data.List.MinMax

/-! # Lemmas about the largest step -/

namespace GA.StepMax
open Spec

/-- division rounds down for nonnegative numerators, and is odd in the denominator -/
structure DivOK {V : Type} [CommRing V] [LinearOrder V] (div : V → V → V) : Prop where
  le : ∀ a b s, 0 ≤ a → 0 < b → (s ≤ div a b ↔ s * b ≤ a)
  neg : ∀ a b, 0 ≤ a → 0 < b → div a (-b) = -(div a b)

/-- the division of real numbers -/
theorem divOK_field {V : Type} [Field V] [LinearOrder V] [IsStrictOrderedRing V] : DivOK (fun a b : V => a / b) :=
  ⟨fun a b s _ hb => le_div_iff₀ hb, fun a b _ _ => div_neg a⟩

/-- the division of integers in C -/
theorem divOK_int : DivOK (fun a b : Int => Int.tdiv a b) := by
  constructor
  · intro a b s ha hb
    rw [Int.tdiv_eq_ediv_of_nonneg ha]
    exact Int.le_ediv_iff_mul_le hb
  · intro a b _ _
    exact Int.tdiv_neg a b

section
variable {V ι : Type} [CommRing V] [LinearOrder V] [IsStrictOrderedRing V]

theorem DivOK.nonneg {div : V → V → V} (h : DivOK div) {a b : V} (ha : 0 ≤ a) (hb : 0 < b) : 0 ≤ div a b := by
  rw [h.le a b 0 ha hb, zero_mul]
  exact ha

theorem DivOK.zero {div : V → V → V} (h : DivOK div) {b : V} (hb : 0 < b) : div 0 b = 0 := by
  refine le_antisymm ?_ (h.nonneg le_rfl hb)
  have := (h.le 0 b (div 0 b) le_rfl hb).1 le_rfl
  by_contra hc
  have := mul_pos (not_le.1 hc) hb
  linarith

theorem gaAbs_neg {r : V} (h : r ≤ 0) : gaAbs r = -r := by
  unfold gaAbs
  split
  · next h' => rw [le_antisymm h h', neg_zero]
  · rfl

theorem gaAbs_pos {r : V} (h : 0 ≤ r) : gaAbs r = r := if_pos h

/-- one component of `GA_Step_max` -/
theorem comp_max {div : V → V → V} (h : DivOK div) {inf a b : V} (hp : 0 < a → 0 < b → 0 < div a b) (hi : 0 < inf) (ha : 0 ≤ a) :
    stepMaxElem inf (stepDivide div inf a b) = if b < 0 then -(div a (-b)) else -inf := by
  unfold stepMaxElem stepDivide
  by_cases hb : b < 0
  · have hb' : 0 < -b := by linarith
    rw [if_pos hb]
    by_cases ha0 : a = 0
    · subst ha0
      rw [if_pos rfl, if_neg (not_le.2 hb), if_neg (lt_irrefl _), h.zero hb', neg_zero]
    · rw [if_neg ha0, if_pos hb.ne]
      have := h.neg a (-b) ha hb'
      rw [neg_neg] at this
      rw [this, if_neg]
      have := h.nonneg ha hb'
      linarith
  · rw [if_neg hb]
    rw [not_lt] at hb
    by_cases ha0 : a = 0
    · rw [if_pos ha0, if_pos hb, if_pos hi]
    · rw [if_neg ha0]
      by_cases hb0 : b = 0
      · rw [if_neg (not_not.2 hb0), if_pos hi]
      · rw [if_pos hb0, if_pos]
        exact hp (lt_of_le_of_ne ha (Ne.symm ha0)) (lt_of_le_of_ne hb (Ne.symm hb0))

theorem largest_max {div : V → V → V} (h : DivOK div) {inf : V} (hi : 0 < inf) {a b : ι → V} {l : List ι} (hp : ∀ i ∈ l, 0 < a i → 0 < b i → 0 < div (a i) (b i)) (ha : ∀ i ∈ l, 0 ≤ a i) {m : V}
    (hm : (l.map fun i => stepMaxElem inf (stepDivide div inf (a i) (b i))).max? = some m) : Step.IsLargest (fun s => ∀ i ∈ l, 0 ≤ a i + s * b i) inf (gaAbs m) := by
  rw [List.max?_eq_some_iff] at hm
  obtain ⟨hm1, hm2⟩ := hm
  obtain ⟨i, hil, hi1⟩ := List.mem_map.1 hm1
  have hc : ∀ i ∈ l, stepMaxElem inf (stepDivide div inf (a i) (b i)) = if b i < 0 then -(div (a i) (-(b i))) else -inf := fun i hil => comp_max h (hp i hil) hi (ha i hil)
  have hneg : m ≤ 0 := by
    rw [← hi1, hc i hil]
    split
    · next hb =>
      have := h.nonneg (ha i hil) (b := -(b i)) (by linarith)
      linarith
    · linarith
  rw [gaAbs_neg hneg]
  refine ⟨by linarith, ?_, ?_⟩
  · intro s hs hsm j hj
    have h1 := hm2 _ (List.mem_map_of_mem hj)
    rw [hc j hj] at h1
    by_cases hb : b j < 0
    · rw [if_pos hb] at h1
      have := (h.le (a j) (-(b j)) s (ha j hj) (by linarith)).1 (by linarith)
      linarith
    · have := mul_nonneg hs (not_lt.1 hb)
      have := ha j hj
      linarith
  · intro hinf s hs hall
    rw [hc i hil] at hi1
    by_cases hb : b i < 0
    · rw [if_pos hb] at hi1
      have h1 := (not_congr (h.le (a i) (-(b i)) s (ha i hil) (by linarith))).1 (by rw [not_le]; linarith)
      have := hall i hil
      linarith
    · rw [if_neg hb] at hi1
      linarith

/-- `do_stepb_divide` -/
theorem stepb_eq {div : V → V → V} (h : DivOK div) {inf a b : V} (hb : 0 ≤ b) : stepbDivide div inf a b = if 0 < b then div a b else inf := by
  unfold stepbDivide
  by_cases hb0 : 0 < b
  · rw [if_pos hb0, if_pos hb0, if_pos hb0.ne']
    by_cases ha : a = 0
    · rw [if_pos ha, ha, h.zero hb0]
    · rw [if_neg ha]
  · rw [if_neg hb0, if_neg hb0, if_neg (not_not.2 (le_antisymm (not_lt.1 hb0) hb))]
    split <;> rfl

theorem max_zero {v : V} : 0 < max v 0 ↔ 0 < v := by
  rw [lt_max_iff]
  exact ⟨fun h => h.resolve_right (lt_irrefl _), Or.inl⟩

theorem abs_min {v : V} : gaAbs (min v 0) = if v < 0 then -v else 0 := by
  split
  · next h => rw [min_eq_left h.le, gaAbs_neg h.le]
  · next h => rw [min_eq_right (not_lt.1 h), gaAbs_pos le_rfl]

theorem comp_upper {div : V → V → V} (h : DivOK div) {inf x v xu : V} : stepbDivide div inf (xu - x) (max v 0) = if 0 < v then div (xu - x) v else inf := by
  rw [stepb_eq h (le_max_right _ _)]
  by_cases hv : 0 < v
  · rw [if_pos (max_zero.2 hv), if_pos hv, max_eq_left hv.le]
  · rw [if_neg (fun h => hv (max_zero.1 h)), if_neg hv]

theorem comp_lower {div : V → V → V} (h : DivOK div) {inf x v xl : V} : stepbDivide div inf (x - xl) (gaAbs (min v 0)) = if v < 0 then div (x - xl) (-v) else inf := by
  rw [abs_min]
  by_cases hv : v < 0
  · rw [if_pos hv, if_pos hv, stepb_eq h (by linarith), if_pos (by linarith)]
  · rw [if_neg hv, if_neg hv, stepb_eq h le_rfl, if_neg (lt_irrefl _)]

/-- the largest step for one component, without the mask -/
theorem comp_largest {div : V → V → V} (h : DivOK div) {inf x v xl xu : V} (hi : 0 < inf) (h1 : xl ≤ x) (h2 : x ≤ xu) :
    Step.IsLargest (fun s => xl ≤ x + s * v ∧ x + s * v ≤ xu) inf (min (if v < 0 then div (x - xl) (-v) else inf) (if 0 < v then div (xu - x) v else inf)) := by
  constructor
  · refine le_min ?_ ?_
    · split
      · exact h.nonneg (by linarith) (by linarith)
      · exact hi.le
    · split
      · next hv => exact h.nonneg (by linarith) hv
      · exact hi.le
  · intro s hs hle
    rw [le_min_iff] at hle
    rcases lt_trichotomy v 0 with hv | hv | hv
    · rw [if_pos hv] at hle
      have h3 := (h.le _ _ _ (by linarith) (by linarith)).1 hle.1
      have h4 := mul_nonneg hs (show 0 ≤ -v by linarith)
      constructor <;> linarith
    · subst hv
      rw [mul_zero, add_zero]
      exact ⟨h1, h2⟩
    · rw [if_pos hv] at hle
      have h3 := (h.le _ _ _ (by linarith) hv).1 hle.2
      have h4 := mul_nonneg hs hv.le
      constructor <;> linarith
  · intro hlt s hs hok
    rw [min_lt_iff] at hlt hs
    rcases lt_trichotomy v 0 with hv | hv | hv
    · rw [if_pos hv, if_neg (not_lt.2 hv.le)] at hs
      rw [if_pos hv, if_neg (not_lt.2 hv.le)] at hlt
      have hlt' := hlt.resolve_right (lt_irrefl _)
      have h5 : div (x - xl) (-v) < s := by
        rcases hs with hs | hs
        · exact hs
        · exact lt_trans hlt' hs
      have h3 := (not_congr (h.le (x - xl) (-v) s (by linarith) (by linarith))).1 (not_le.2 h5)
      linarith [hok.1]
    · subst hv
      rw [if_neg (lt_irrefl _)] at hlt
      rw [if_neg (lt_irrefl _)] at hlt
      rcases hlt with h | h <;> exact lt_irrefl _ h
    · rw [if_pos hv, if_neg (not_lt.2 hv.le)] at hs
      rw [if_pos hv, if_neg (not_lt.2 hv.le)] at hlt
      have hlt' := hlt.resolve_left (lt_irrefl _)
      have h5 : div (xu - x) v < s := by
        rcases hs with hs | hs
        · exact lt_trans hlt' hs
        · exact hs
      have h3 := (not_congr (h.le (xu - x) v s (by linarith) hv)).1 (not_le.2 h5)
      linarith [hok.2]

/-- the mask -/
theorem mask_zero {x v xl xu : V} (h1 : xl ≤ x) (h2 : x ≤ xu) : gaAbs v + (x - xl) * (xu - x) = 0 ↔ v = 0 ∧ (x = xl ∨ x = xu) := by
  have hm := mul_nonneg (show 0 ≤ x - xl by linarith) (show 0 ≤ xu - x by linarith)
  constructor
  · intro h
    have hv : v = 0 := by
      unfold gaAbs at h
      split at h
      · next hv => linarith
      · next hv =>
        rw [not_le] at hv
        linarith
    refine ⟨hv, ?_⟩
    subst hv
    rw [gaAbs_pos le_rfl, zero_add, mul_eq_zero] at h
    rcases h with h | h
    · left; linarith
    · right; linarith
  · rintro ⟨rfl, rfl | rfl⟩
    · simp [gaAbs]
    · simp [gaAbs]

/-- the smallest of the largest steps is the largest step for all -/
theorem largest_all {inf : V} {ok : ι → V → Prop} {t : ι → V} {l : List ι} (h : ∀ i ∈ l, Step.IsLargest (ok i) inf (t i)) {i : ι} (hi : i ∈ l) (hm : ∀ j ∈ l, t i ≤ t j) :
    Step.IsLargest (fun s => ∀ j ∈ l, ok j s) inf (t i) :=
  ⟨(h i hi).nonneg, fun s hs hle j hj => (h j hj).all s hs (le_trans hle (hm j hj)), fun hlt s hs hall => (h i hi).sharp hlt s hs (hall i hi)⟩

end

section
variable {V ι : Type} [CommRing V] [LinearOrder V]

theorem hasNegative_false {inP : ι → Bool} {f : ι → V} {bs : List (List ι)} (h : ∀ b ∈ bs, ∀ i ∈ b, 0 ≤ f i) : hasNegative inP f bs = false := by
  unfold hasNegative
  have hb : ∀ b ∈ bs, blockNegative inP f b = false := by
    intro b hb
    unfold blockNegative
    rw [List.any_eq_false]
    intro i hi
    simp [not_lt.2 (h b hb i hi)]
  have : ∀ (l : List (List ι)), (∀ b ∈ l, blockNegative inP f b = false) → l.foldl (fun _ blk => blockNegative inP f blk) false = false := by
    intro l
    induction l with
    | nil => intro _; rfl
    | cons b l ih =>
      intro hl
      rw [List.foldl_cons, hl b List.mem_cons_self]
      exact ih fun c hc => hl c (List.mem_cons_of_mem _ hc)
  exact this _ fun b hbm => hb b (List.mem_filter.1 hbm).1

/-- on a process with at most one block -/
theorem hasNegative_one {inP : ι → Bool} {f : ι → V} {bs : List (List ι)} (h : bs.length ≤ 1) : hasNegative inP f bs = true ↔ ∃ b ∈ bs, ∃ i ∈ b, inP i = true ∧ f i < 0 := by
  match bs, h with
  | [], _ => simp [hasNegative]
  | [b], _ =>
    unfold hasNegative
    by_cases hb : b.any inP = true
    · simp [hb, blockNegative]
    · simp only [List.filter_cons, hb, Bool.false_eq_true, if_false, List.filter_nil, List.foldl_nil, List.mem_singleton, exists_eq_left, false_iff]
      rintro ⟨i, hi, hp, _⟩
      exact hb (List.any_eq_true.2 ⟨i, hi, hp⟩)

end

end GA.StepMax
