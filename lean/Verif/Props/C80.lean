import Verif.Model.StepMax
import Verif.Spec.StepMax
import Verif.Lemmas.StepMax
import Mathlib.Algebra.Order.Ring.Rat
import Mathlib.Data.Rat.Defs
import Mathlib.Tactic.NormNum

/-!
# C80: GA_Step_max and GA_Step_bound_info return the largest steps
-/

namespace GA
open StepMax Spec

section
variable {V ι : Type} [CommRing V] [LinearOrder V] [IsStrictOrderedRing V]

private theorem mem_all {procs : List (List (List ι))} {bs : List (List ι)} {b : List ι} {i : ι} (h1 : bs ∈ procs) (h2 : b ∈ bs) (h3 : i ∈ b) : i ∈ procs.flatten.flatten :=
  List.mem_flatten.2 ⟨b, List.mem_flatten.2 ⟨bs, h1, h2⟩, h3⟩

private theorem no_negative {procs : List (List (List ι))} {inP : ι → Bool} {f : ι → V} (h : ∀ i ∈ procs.flatten.flatten, 0 ≤ f i) : procs.any (hasNegative inP f) = false := by
  rw [List.any_eq_false]
  intro bs hbs
  rw [hasNegative_false fun b hb i hi => h i (mem_all hbs hb hi)]
  exact Bool.false_ne_true

private theorem max_some {l : List V} (h : l ≠ []) : ∃ m, l.max? = some m := by
  cases hm : l.max? with
  | none => exact absurd (List.max?_eq_none_iff.1 hm) h
  | some m => exact ⟨m, rfl⟩

private theorem min_some {l : List V} (h : l ≠ []) : ∃ m, l.min? = some m := by
  cases hm : l.min? with
  | none => exact absurd (List.min?_eq_none_iff.1 hm) h
  | some m => exact ⟨m, rfl⟩

/-- C80: for real numbers, `GA_Step_max` of a nonnegative array `a` and a direction `b` returns the largest step for which `a + step * b` has no negative element, for every distribution.
(Not for integers and not for a patch that is not the whole array: see `C80_int` and `C80_patch`.) -/
theorem C80_step_max_partial {K : Type} [Field K] [LinearOrder K] [IsStrictOrderedRing K] {inf : K} (hi : 0 < inf) (procs : List (List (List ι))) (hne : procs.flatten.flatten ≠ []) (a b junk : ι → K)
    (ha : ∀ i ∈ procs.flatten.flatten, 0 ≤ a i) :
    ∃ r, stepMax (fun x y => x / y) inf procs (fun _ => true) false a b junk = some r ∧ Step.IsLargest (fun s => ∀ i ∈ procs.flatten.flatten, 0 ≤ a i + s * b i) inf r := by
  obtain ⟨m, hm⟩ := max_some (l := procs.flatten.flatten.map fun i => stepMaxElem inf (stepDivide (fun x y => x / y) inf (a i) (b i))) (fun h => hne (List.map_eq_nil_iff.1 h))
  refine ⟨gaAbs m, ?_, largest_max divOK_field hi (fun i _ ha hb => div_pos ha hb) ha hm⟩
  unfold stepMax
  rw [if_neg Bool.false_ne_true, no_negative ha, if_neg Bool.false_ne_true]
  simp only [if_true, hm, Option.map_some]

/-- C80: the same for integers, provided every positive element of `b` is at most the element of `a` -/
theorem C80_step_max_int_partial {inf : Int} (hi : 0 < inf) (procs : List (List (List ι))) (hne : procs.flatten.flatten ≠ []) (a b junk : ι → Int)
    (ha : ∀ i ∈ procs.flatten.flatten, 0 ≤ a i) (hb : ∀ i ∈ procs.flatten.flatten, 0 < b i → b i ≤ a i) :
    ∃ r, stepMax (fun x y => Int.tdiv x y) inf procs (fun _ => true) false a b junk = some r ∧ Step.IsLargest (fun s => ∀ i ∈ procs.flatten.flatten, 0 ≤ a i + s * b i) inf r := by
  obtain ⟨m, hm⟩ := max_some (l := procs.flatten.flatten.map fun i => stepMaxElem inf (stepDivide (fun x y => Int.tdiv x y) inf (a i) (b i))) (fun h => hne (List.map_eq_nil_iff.1 h))
  refine ⟨gaAbs m, ?_, largest_max divOK_int hi (fun i hil ha hb' => ?_) ha hm⟩
  · unfold stepMax
    rw [if_neg Bool.false_ne_true, no_negative ha, if_neg Bool.false_ne_true]
    simp only [if_true, hm, Option.map_some]
  · have := (divOK_int.le (a i) (b i) 1 ha.le hb').2 (by rw [one_mul]; exact hb i hil hb')
    exact lt_of_lt_of_le one_pos this

/-- C80: two times the same array -/
theorem C80_step_max_same (div : V → V → V) {inf : V} (hi : 0 < inf) (procs : List (List (List ι))) (inP : ι → Bool) (a junk : ι → V) (ha : ∀ i ∈ procs.flatten.flatten, 0 ≤ a i) :
    ∃ r, stepMax div inf procs inP true a a junk = some r ∧ Step.IsLargest (fun s => ∀ i ∈ procs.flatten.flatten, 0 ≤ a i + s * a i) inf r := by
  refine ⟨inf, rfl, hi.le, fun s hs _ i hil => ?_, fun h => absurd h (lt_irrefl _)⟩
  have := mul_nonneg hs (ha i hil)
  have := ha i hil
  linarith

/-- C80: with a regular distribution (at most one block on each process), negative elements in the patch are reported -/
theorem C80_negative_partial (div : V → V → V) (inf : V) (procs : List (List (List ι))) (hreg : ∀ bs ∈ procs, bs.length ≤ 1) (inP : ι → Bool) (a b junk : ι → V) {i : ι}
    (hi : i ∈ procs.flatten.flatten) (hp : inP i = true) (hneg : a i < 0) : stepMax div inf procs inP false a b junk = none := by
  unfold stepMax
  rw [if_neg Bool.false_ne_true, if_pos]
  obtain ⟨blk, hb, hib⟩ := List.mem_flatten.1 hi
  obtain ⟨bs, hbs, hbb⟩ := List.mem_flatten.1 hb
  exact List.any_eq_true.2 ⟨bs, hbs, (hasNegative_one (hreg bs hbs)).2 ⟨blk, hbb, i, hib, hp, hneg⟩⟩

/-- C80: `GA_Step_bound_info`, for real numbers and integers. `x` lies between the bounds `xl` and `xu`, `v` is a direction. There are steps `t i` for the elements such that
`t i` is the largest step that keeps element `i` within its bounds, except that it is 0 if the element is at a bound and does not move, and infinite if it does not move otherwise; `boundmin` and
`boundmax` are the smallest and the largest of them; and `wolfemin` is the largest step that keeps all elements within their bounds. -/
theorem C80_bound_info_partial {div : V → V → V} (hdiv : DivOK div) {inf : V} (hi : 0 < inf) (procs : List (List (List ι))) (hne : procs.flatten.flatten ≠ []) (x v xl xu junk : ι → V)
    (hl : ∀ i ∈ procs.flatten.flatten, xl i ≤ x i) (hu : ∀ i ∈ procs.flatten.flatten, x i ≤ xu i) :
    ∃ (r : Bounds V) (t : ι → V), boundInfo div inf procs (fun _ => true) x v xl xu junk = some r ∧
      (∀ i ∈ procs.flatten.flatten, v i ≠ 0 → Step.IsLargest (fun s => xl i ≤ x i + s * v i ∧ x i + s * v i ≤ xu i) inf (t i)) ∧
      (∀ i ∈ procs.flatten.flatten, v i = 0 → t i = if x i = xl i ∨ x i = xu i then 0 else inf) ∧
      (∃ i ∈ procs.flatten.flatten, r.boundmin = t i) ∧ (∀ i ∈ procs.flatten.flatten, r.boundmin ≤ t i) ∧
      (∃ i ∈ procs.flatten.flatten, r.boundmax = t i) ∧ (∀ i ∈ procs.flatten.flatten, t i ≤ r.boundmax) ∧
      Step.IsLargest (fun s => ∀ i ∈ procs.flatten.flatten, xl i ≤ x i + s * v i ∧ x i + s * v i ≤ xu i) inf r.wolfemin := by
  have hlne : ∀ f : ι → V, procs.flatten.flatten.map f ≠ [] := fun f h => hne (List.map_eq_nil_iff.1 h)
  obtain ⟨T, hT⟩ : ∃ T : ι → V, T = fun i => if 0 < v i then div (xu i - x i) (v i) else inf := ⟨_, rfl⟩
  obtain ⟨R, hR⟩ : ∃ R : ι → V, R = fun i => if v i < 0 then div (x i - xl i) (-(v i)) else inf := ⟨_, rfl⟩
  obtain ⟨t, ht⟩ : ∃ t : ι → V, t = fun i => stepMask (gaAbs (v i) + (x i - xl i) * (xu i - x i)) (min (R i) (T i)) := ⟨_, rfl⟩
  obtain ⟨mT, hmT⟩ := min_some (hlne T)
  obtain ⟨mR, hmR⟩ := min_some (hlne R)
  obtain ⟨lo, hlo⟩ := min_some (hlne t)
  obtain ⟨hg, hhg⟩ := max_some (hlne t)
  have hrun : boundInfo div inf procs (fun _ => true) x v xl xu junk = some ⟨lo, gaAbs (min mT mR), hg⟩ := by
    unfold boundInfo
    simp only [if_true]
    rw [no_negative (fun i hil => by have := hu i hil; linarith), if_neg Bool.false_ne_true, no_negative (fun i hil => by have := hl i hil; linarith), if_neg Bool.false_ne_true]
    simp only [comp_upper hdiv, comp_lower hdiv]
    rw [← hT, ← hR]
    have e : (fun i => stepMask (gaAbs (v i) + (x i - xl i) * (xu i - x i)) (min (if v i < 0 then div (x i - xl i) (-(v i)) else inf) (if 0 < v i then div (xu i - x i) (v i) else inf))) = t := by
      rw [ht, hT, hR]
    rw [e, hmT, hmR, hlo, hhg]
  have hcomp : ∀ i ∈ procs.flatten.flatten, Step.IsLargest (fun s => xl i ≤ x i + s * v i ∧ x i + s * v i ≤ xu i) inf (min (R i) (T i)) := by
    intro i hil
    rw [hT, hR]
    exact comp_largest hdiv hi (hl i hil) (hu i hil)
  rw [List.min?_eq_some_iff] at hmT hmR hlo
  rw [List.max?_eq_some_iff] at hhg
  refine ⟨_, t, hrun, ?_, ?_, ?_, ?_, ?_, ?_, ?_⟩
  · intro i hil hv
    have : t i = min (R i) (T i) := by
      rw [ht]
      unfold stepMask
      refine if_pos ?_
      intro h0
      exact hv ((mask_zero (hl i hil) (hu i hil)).1 h0).1
    rw [this]
    exact hcomp i hil
  · intro i hil hv
    rw [ht]
    unfold stepMask
    dsimp only
    by_cases hx : x i = xl i ∨ x i = xu i
    · rw [if_pos hx, if_neg (not_not.2 ((mask_zero (hl i hil) (hu i hil)).2 ⟨hv, hx⟩))]
    · rw [if_neg hx, if_pos (show gaAbs (v i) + (x i - xl i) * (xu i - x i) ≠ 0 from fun h0 => hx ((mask_zero (hl i hil) (hu i hil)).1 h0).2), hT, hR]
      simp [hv]
  · obtain ⟨i, hil, h⟩ := List.mem_map.1 hlo.1
    exact ⟨i, hil, h.symm⟩
  · exact fun i hil => hlo.2 _ (List.mem_map_of_mem hil)
  · obtain ⟨i, hil, h⟩ := List.mem_map.1 hhg.1
    exact ⟨i, hil, h.symm⟩
  · exact fun i hil => hhg.2 _ (List.mem_map_of_mem hil)
  · have hTn : ∀ i ∈ procs.flatten.flatten, min mT mR ≤ min (R i) (T i) := fun i hil =>
      le_min (le_trans (min_le_right _ _) (hmR.2 _ (List.mem_map_of_mem hil))) (le_trans (min_le_left _ _) (hmT.2 _ (List.mem_map_of_mem hil)))
    obtain ⟨i, hil, hmi⟩ : ∃ i ∈ procs.flatten.flatten, min (R i) (T i) = min mT mR := by
      rcases le_total mT mR with h | h
      · obtain ⟨i, hil, hi1⟩ := List.mem_map.1 hmT.1
        refine ⟨i, hil, le_antisymm ?_ (hTn i hil)⟩
        rw [min_eq_left h, ← hi1]
        exact min_le_right _ _
      · obtain ⟨i, hil, hi1⟩ := List.mem_map.1 hmR.1
        refine ⟨i, hil, le_antisymm ?_ (hTn i hil)⟩
        rw [min_eq_right h, ← hi1]
        exact min_le_left _ _
    have := largest_all hcomp hil (fun j hj => by rw [hmi]; exact hTn j hj)
    rw [hmi] at this
    show Step.IsLargest _ inf (gaAbs (min mT mR))
    rw [gaAbs_pos this.nonneg]
    exact this

/-- C80 fails for a part of the array: `GA_Step_bound_info_patch` returns 0 for `wolfemin`, whatever the arrays contain, as soon as there is an element outside the patch -/
theorem C80_bound_info_patch {div : V → V → V} (hdiv : DivOK div) {inf : V} (hi : 0 < inf) (procs : List (List (List ι))) (inP : ι → Bool) (x v xl xu junk : ι → V)
    (hl : ∀ i ∈ procs.flatten.flatten, xl i ≤ x i) (hu : ∀ i ∈ procs.flatten.flatten, x i ≤ xu i) {i : ι} (hil : i ∈ procs.flatten.flatten) (ho : inP i = false) {r : Bounds V}
    (hr : boundInfo div inf procs inP x v xl xu junk = some r) : r.wolfemin = 0 := by
  unfold boundInfo at hr
  dsimp only at hr
  split at hr
  · nomatch hr
  · split at hr
    · nomatch hr
    · split at hr
      · next mT mR lo hg hT hR _ _ =>
        injection hr with hr
        subst hr
        show gaAbs (min mT mR) = 0
        rw [List.min?_eq_some_iff] at hT hR
        have h1 : 0 ≤ mT := by
          obtain ⟨j, hjl, hj⟩ := List.mem_map.1 hT.1
          rw [← hj]
          split
          · next hp =>
            rw [comp_upper hdiv]
            split
            · next hv => exact hdiv.nonneg (by have := hu j hjl; linarith) hv
            · exact hi.le
          · exact le_max_right _ _
        have h2 : 0 ≤ mR := by
          obtain ⟨j, hjl, hj⟩ := List.mem_map.1 hR.1
          rw [← hj]
          split
          · next hp =>
            rw [comp_lower hdiv]
            split
            · next hv => exact hdiv.nonneg (by have := hl j hjl; linarith) (by linarith)
            · exact hi.le
          · rw [abs_min]
            split
            · linarith
            · exact le_rfl
        have h3 : mT ≤ max (v i) 0 := by
          have := hT.2 _ (List.mem_map_of_mem hil)
          rwa [ho, if_neg Bool.false_ne_true] at this
        have h4 : mR ≤ gaAbs (min (v i) 0) := by
          have := hR.2 _ (List.mem_map_of_mem hil)
          rwa [ho, if_neg Bool.false_ne_true] at this
        have h5 : min mT mR = 0 := by
          refine le_antisymm ?_ (le_min h1 h2)
          by_cases hv : v i < 0
          · rw [max_eq_right hv.le] at h3
            exact le_trans (min_le_left _ _) h3
          · rw [abs_min, if_neg hv] at h4
            exact le_trans (min_le_right _ _) h4
        rw [h5, gaAbs_pos le_rfl]
      · nomatch hr

end

/-- C80 fails for integers: with `a = 1` and `b = 2` every step is admissible, but the result is 0 -/
theorem C80_int : stepMax (fun x y : Int => Int.tdiv x y) 2147483647 [[[()]]] (fun _ => true) false (fun _ => 1) (fun _ => 2) (fun _ => 0) = some 0 ∧ ∀ s : Int, 0 ≤ s → 0 ≤ 1 + s * 2 :=
  ⟨by decide, fun s hs => by omega⟩

/-- C80 fails for a patch: the result depends on what a temporary array contained outside the patch. Whatever nonnegative number this is, it can be the result. -/
theorem C80_patch {inf : Rat} (hi : 0 < inf) {j : Rat} (hj : 0 ≤ j) :
    stepMax (fun x y : Rat => x / y) inf [[[true]], [[false]]] (fun i => i) false (fun _ => 1) (fun _ => 1) (fun _ => j) = some j ∧ ∀ s : Rat, 0 ≤ s → 0 ≤ 1 + s * 1 := by
  refine ⟨?_, fun s hs => by linarith⟩
  have h1 : stepMaxElem inf (stepDivide (fun x y : Rat => x / y) inf 1 1) = -inf := by
    rw [comp_max divOK_field (fun _ _ => by norm_num) hi (by norm_num), if_neg (by norm_num)]
  unfold stepMax
  simp only [List.any_cons, List.any_nil, hasNegative, blockNegative, h1, List.flatten_cons, List.flatten_nil, List.append_nil, List.map_cons, List.map_nil, List.cons_append, List.nil_append]
  have h2 : max (-inf) j = j := max_eq_right (by linarith)
  simp [List.max?, h2, gaAbs_pos hj]

/-- C80 fails for block-cyclic distributions: of the blocks of a process only the last one is searched for negative elements. Here an element of `a` is -1 and decreases, yet a step of 1 is returned. -/
theorem C80_negative_missed : ∃ a b : Bool → Rat, stepMax (fun x y => x / y) (10 ^ 307) [[[true], [false]]] (fun _ => true) false a b (fun _ => 0) = some 1 ∧ ∀ s : Rat, 0 ≤ s → a true + s * b true < 0 := by
  refine ⟨fun i => if i then -1 else 1, fun _ => -1, by decide +kernel, fun s hs => ?_⟩
  simp only [if_true]
  linarith

/-- two processes with two blocks each, and elements of all kinds -/
private def exA : Nat → Rat := fun i => [4, 0, 3, 2].getD i 0
private def exB : Nat → Rat := fun i => [-1, 1, 2, -2].getD i 0

example : stepMax (fun x y : Rat => x / y) 1000 [[[0], [2]], [[1], [3]]] (fun _ => true) false exA exB (fun _ => 0) = some 1 := by decide +kernel
example : ∀ i ∈ [[[0], [2]], [[1], [3]]].flatten.flatten, 0 ≤ exA i := by decide +kernel
example : stepMax (fun x y : Int => Int.tdiv x y) 1000 [[[0], [1]], [[2]]] (fun _ => true) false (fun i => [5, 4, 0].getD i 0) (fun i => [-2, 3, 0].getD i 0) (fun _ => 0) = some 2 := by decide +kernel
/-- a negative element, regular distribution -/
example : stepMax (fun x y : Rat => x / y) 1000 [[[0, 2]], [[1, 3]], []] (fun _ => true) false (fun i => exB i) exA (fun _ => 0) = none := by decide +kernel
/-- elements that move up, move down, stay, and stay at a bound -/
example : boundInfo (fun x y : Rat => x / y) 1000 [[[0], [2]], [[1], [3]]] (fun _ => true) (fun i => [1, 1, 1, 0].getD i 0) (fun i => [1, -2, 0, 0].getD i 0) (fun _ => 0) (fun _ => 4) (fun _ => 0) =
    some ⟨0, 1 / 2, 1000⟩ := by decide +kernel
/-- the same for the patch of the first element: the largest step is 3 -/
example : boundInfo (fun x y : Rat => x / y) 1000 [[[0], [2]], [[1], [3]]] (fun i => i == 0) (fun i => [1, 1, 1, 0].getD i 0) (fun i => [1, -2, 0, 0].getD i 0) (fun _ => 0) (fun _ => 4) (fun _ => 0) =
    some ⟨0, 0, 3⟩ := by decide +kernel

end GA
