import Verif.Props.AddDot

/-!
# C35, C51, C53: calls with wrong arguments are refused

An execution of copy, copy_patch, add_patch or dot_patch exists only if the arguments are legal: the
error checks reject all other calls before anything is moved.
-/

namespace GA
open Model Spec

variable {V : Type} {a b c : Nat} {A B C : GArr} {alo ahi blo bhi clo chi : List Int}

/-- the patch has as many bounds as the array has dimensions and none lies outside -/
def Inside (dims lo hi : List Int) : Prop := ∀ x, InPatch lo hi x → InArray dims x

theorem inside_of {dims lo hi : List Int} (h1 : lo.length = dims.length) (h2 : hi.length = dims.length)
    (h : outOfRange lo hi dims = false) : Inside dims lo hi := by
  intro x hx
  unfold InArray
  induction dims generalizing lo hi x with
  | nil =>
    obtain rfl := List.length_eq_zero_iff.1 h1
    obtain rfl := List.length_eq_zero_iff.1 h2
    exact hx
  | cons d ds ih =>
    cases lo with
    | nil => simp at h1
    | cons l ls =>
    cases hi with
    | nil => simp at h2
    | cons u us =>
    cases x with
    | nil => simp [InPatch] at hx
    | cons x xs =>
    simp only [outOfRange, Bool.or_eq_false_iff, decide_eq_false_iff_not] at h
    simp only [InPatch] at hx
    simp only [List.map_cons, InPatch]
    exact ⟨by omega, ih (by simpa using h1) (by simpa using h2) h.2 xs hx.2⟩

private theorem compPatch_eq : ∀ {alo ahi blo bhi : List Int}, ahi.length = alo.length → bhi.length = blo.length →
    alo.length = blo.length → compPatch alo ahi blo bhi = true → alo = blo ∧ ahi = bhi
  | [], ahi, blo, bhi, h1, h2, h3, _ => by
    obtain rfl := List.length_eq_zero_iff.1 h1
    obtain rfl := List.length_eq_zero_iff.1 h3.symm
    obtain rfl := List.length_eq_zero_iff.1 h2
    exact ⟨rfl, rfl⟩
  | _ :: _, [], _, _, h1, _, _, _ => by simp at h1
  | _ :: _, _ :: _, [], _, _, _, h3, _ => by simp at h3
  | _ :: _, _ :: _, _ :: _, [], _, h2, _, _ => by simp at h2
  | x :: alo, y :: ahi, z :: blo, w :: bhi, h1, h2, h3, h => by
    simp only [compPatch, Bool.and_eq_true, decide_eq_true_eq] at h
    obtain ⟨e1, e2⟩ := compPatch_eq (by simpa using h1) (by simpa using h2) (by simpa using h3) h.2
    rw [h.1.1, h.1.2, e1, e2]
    exact ⟨rfl, rfl⟩

private theorem testShape_eq : ∀ {alo ahi blo bhi : List Int}, testShape alo ahi blo bhi = true →
    minusL ahi alo = minusL bhi blo
  | [], [], [], [], _ => rfl
  | x :: alo, y :: ahi, z :: blo, w :: bhi, h => by
    simp only [testShape, Bool.and_eq_true, decide_eq_true_eq] at h
    simp only [minusL]
    rw [testShape_eq h.2, h.1]
  | [], [], _ :: _, _, h | [], [], [], _ :: _, h | [], _ :: _, _, _, h | _ :: _, [], _, _, h
  | _ :: _, _ :: _, [], _, h | _ :: _, _ :: _, _ :: _, [], h => by simp [testShape] at h

private theorem par_some {n : Nat} {acts : Nat → Option (List LAct)} {g : List V → V} {m m' : Loc → V}
    (hn : 0 < n) (h : Par n acts g m m') : ∃ bs, acts 0 = some bs := by
  obtain ⟨l, _, e, _, _⟩ := h
  have := mapOpt_forall₂ e
  obtain ⟨k, rfl⟩ : ∃ k, n = k + 1 := ⟨n - 1, by omega⟩
  rw [List.range_succ_eq_map] at this
  cases this with
  | cons h _ => exact ⟨_, h⟩

/-- **C35 (copy refused).** If `GA_Copy` returns, the arrays are different and have the same extents. -/
theorem C35_copy_refused [Inhabited V] (hn : 0 < copyProcs A B) (E : Nat → List Int → Env) (m m' : Loc → V)
    (h : Par (copyProcs A B) (copyActs E a A b B) moveVal m m') : a ≠ b ∧ A.dims = B.dims := by
  obtain ⟨bs, h⟩ := par_some hn h
  unfold copyActs at h
  by_cases e : a = b
  · rw [if_pos e] at h; cases h
  · rw [if_neg e] at h
    refine ⟨e, ?_⟩
    by_contra e2
    rw [if_pos e2] at h; cases h

/-- **C53 (refused).** If `NGA_Copy_patch` returns, then either the two patches are the same one and nothing
has changed, or both lie inside their arrays, have the same number of elements, do not overlap if
they are in the same array, and have the same shape (and are not transposed) if an array is
block-cyclic. -/
theorem C53_refused [Inhabited V] {tr : Bool} (hn : 0 < copyProcs A B) (hAB : a = b → A = B)
    (l1 : alo.length = A.dims.length) (l2 : ahi.length = A.dims.length) (l3 : blo.length = B.dims.length)
    (l4 : bhi.length = B.dims.length) (K : CopyEnv) (m m' : Loc → V)
    (h : copyRun K tr a A alo ahi b B blo bhi m m') :
    (a = b ∧ alo = blo ∧ ahi = bhi ∧ m' = m) ∨
    (Inside A.dims alo ahi ∧ Inside B.dims blo bhi ∧ prodI (extents alo ahi) = prodI (extents blo bhi) ∧
      (a = b → ∀ x, ¬(InPatch alo ahi x ∧ InPatch blo bhi x)) ∧
      (A.isBlk = true ∨ B.isBlk = true → tr = false ∧ minusL ahi alo = minusL bhi blo)) := by
  obtain ⟨bs, h0⟩ := par_some hn h
  unfold copyPatchActs at h0
  by_cases c1 : a = b ∧ compPatch alo ahi blo bhi = true
  · left
    have e := hAB c1.1
    obtain ⟨e1, e2⟩ := compPatch_eq (by rw [l2, l1]) (by rw [l4, l3]) (by rw [l1, l3, e]) c1.2
    refine ⟨c1.1, e1, e2, ?_⟩
    obtain ⟨l, sched, q1, q2, rfl⟩ := h
    have : ∀ L ∈ l, L = [] := by
      intro L hL
      obtain ⟨i, hi, e⟩ := List.getElem_of_mem hL
      have f2 := mapOpt_forall₂ q1
      have hi' : i < (List.range (copyProcs A B)).length := by rw [f2.length_eq]; exact hi
      have := (List.forall₂_iff_get.1 f2).2 i hi' hi
      unfold copyPatchActs at this
      rw [if_pos c1] at this
      simp only [List.get_eq_getElem, Option.some.injEq] at this
      rw [← e, ← this]
    rw [List.flatten_eq_nil_iff.2 this, List.perm_nil] at q2
    rw [q2]
    rfl
  right
  rw [if_neg c1] at h0
  by_cases c2 : a = b ∧ (patchIntersect alo ahi blo bhi).isSome = true
  · rw [if_pos c2] at h0; cases h0
  rw [if_neg c2] at h0
  by_cases c3 : (outOfRange alo ahi A.dims || outOfRange blo bhi B.dims) = true
  · rw [if_pos c3] at h0; cases h0
  rw [if_neg c3] at h0
  by_cases c4 : prodI (extents alo ahi) ≠ prodI (extents blo bhi)
  · rw [if_pos c4] at h0; cases h0
  rw [if_neg c4] at h0
  by_cases c5 : ((A.isBlk || B.isBlk) && (tr || !testShape alo ahi blo bhi)) = true
  · rw [if_pos c5] at h0; cases h0
  simp only [Bool.or_eq_true, not_or, Bool.not_eq_true] at c3
  refine ⟨inside_of l1 l2 c3.1, inside_of l3 l4 c3.2, not_not.1 c4, ?_, ?_⟩
  · intro e x hx
    have : patchIntersect alo ahi blo bhi = none := by
      cases hq : patchIntersect alo ahi blo bhi with
      | none => rfl
      | some q => exact absurd ⟨e, by rw [hq]; rfl⟩ c2
    have e' := hAB e
    rw [← e'] at l3 l4
    exact patchIntersect_none (by omega) (by omega) (by omega) this hx.1 hx.2
  · intro hb
    have hb' : (A.isBlk || B.isBlk) = true := by simpa using hb
    rw [hb', Bool.true_and, Bool.not_eq_true, Bool.or_eq_false_iff, Bool.not_eq_false'] at c5
    exact ⟨c5.1, testShape_eq c5.2⟩

/-- **C51 (add_patch refused).** If `NGA_Add_patch` returns, the patches lie inside their arrays and have the same number
of elements. -/
theorem C51_add_refused [CommSemiring V] [Inhabited V] (l1 : alo.length = A.dims.length) (l2 : ahi.length = A.dims.length)
    (l3 : blo.length = B.dims.length) (l4 : bhi.length = B.dims.length) (l5 : clo.length = C.dims.length)
    (l6 : chi.length = C.dims.length) (K1 K2 : CopyEnv) (alpha beta : V) (t1 t2 : Nat) (m m' : Loc → V)
    (h : addPatchRun K1 K2 alpha beta a A alo ahi b B blo bhi c C clo chi t1 t2 m m') :
    Inside A.dims alo ahi ∧ Inside B.dims blo bhi ∧ Inside C.dims clo chi ∧
      prodI (extents alo ahi) = prodI (extents clo chi) ∧ prodI (extents blo bhi) = prodI (extents clo chi) := by
  unfold addPatchRun at h
  by_cases c1 : (outOfRange alo ahi A.dims || outOfRange blo bhi B.dims || outOfRange clo chi C.dims) = true
  · rw [if_pos c1] at h; cases h
  rw [if_neg c1] at h
  by_cases c2 : prodI (extents alo ahi) ≠ prodI (extents clo chi) ∨ prodI (extents blo bhi) ≠ prodI (extents clo chi)
  · rw [if_pos c2] at h; cases h
  simp only [Bool.or_eq_true, not_or, Bool.not_eq_true] at c1
  rw [not_or, not_not, not_not] at c2
  exact ⟨inside_of l1 l2 c1.1.1, inside_of l3 l4 c1.1.2, inside_of l5 l6 c1.2, c2.1, c2.2⟩

/-- **C51 (dot_patch refused).** If `NGA_Dot_patch` returns, the patches lie inside their arrays and have the same number
of elements, and no transposition was asked for with a block-cyclic array. -/
theorem C51_dot_refused [CommSemiring V] [Inhabited V] {ta tb : Bool} (l1 : alo.length = A.dims.length)
    (l2 : ahi.length = A.dims.length) (l3 : blo.length = B.dims.length) (l4 : bhi.length = B.dims.length) (K : CopyEnv)
    (t : Nat) (m m' : Loc → V) (v : V) (h : dotPatchRun K ta tb a A alo ahi b B blo bhi t m m' v) :
    Inside A.dims alo ahi ∧ Inside B.dims blo bhi ∧ prodI (extents alo ahi) = prodI (extents blo bhi) ∧
      (A.isBlk = true ∨ B.isBlk = true → ta = false ∧ tb = false) := by
  unfold dotPatchRun at h
  by_cases c1 : (outOfRange alo ahi A.dims || outOfRange blo bhi B.dims) = true
  · rw [if_pos c1] at h; cases h
  rw [if_neg c1] at h
  by_cases c2 : prodI (extents alo ahi) ≠ prodI (extents blo bhi)
  · rw [if_pos c2] at h; cases h
  rw [if_neg c2] at h
  by_cases c3 : ((A.isBlk || B.isBlk) && (ta || tb)) = true
  · rw [if_pos c3] at h; cases h
  simp only [Bool.or_eq_true, not_or, Bool.not_eq_true] at c1
  refine ⟨inside_of l1 l2 c1.1, inside_of l3 l4 c1.2, not_not.1 c2, ?_⟩
  intro hb
  have hb' : (A.isBlk || B.isBlk) = true := by simpa using hb
  rw [hb', Bool.true_and, Bool.not_eq_true, Bool.or_eq_false_iff] at c3
  exact c3

/-! Non-vacuity: a legal call is not refused (`C53_copy_patch_partial`, `C51_add_patch_partial`, ... give its
execution), an illegal one has no execution. -/

example : ¬ Inside [4] [2] [5] := fun h => by
  have := h [5] (by simp [InPatch])
  simp [InArray, InPatch] at this

/-- `NGA_Copy_patch` from `[1:2]` to `[2:3]` of one array has no execution -/
example (K : CopyEnv) (m m' : Loc → Int) :
    ¬ copyRun K false 0 (.reg ⟨[4], [1], [1], [0]⟩ 1) [1] [2] 0 (.reg ⟨[4], [1], [1], [0]⟩ 1) [2] [3] m m' := by
  intro h
  rcases C53_refused (A := .reg ⟨[4], [1], [1], [0]⟩ 1) (B := .reg ⟨[4], [1], [1], [0]⟩ 1) (by decide)
    (alo := [1]) (ahi := [2]) (blo := [2]) (bhi := [3]) (fun _ => rfl) rfl rfl rfl rfl K m m' h with h | h
  · exact absurd h.2.1 (by decide)
  · exact h.2.2.2.1 rfl [2] ⟨by simp [InPatch], by simp [InPatch]⟩

end GA
