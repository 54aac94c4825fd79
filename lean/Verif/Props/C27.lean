import Verif.Model.Types
import Mathlib.Data.List.Basic

/-! # C27: registration of user types -/

namespace GA.Types

/-- identifier to size, as the table has it -/
def absT (tbl : List Entry) : Tbl := fun i =>
  if i ≥ mtBase ∧ i < mtBase + typesMax ∧ (tbl.getD (i - mtBase).toNat noEntry).active = true then
    some (tbl.getD (i - mtBase).toNat noEntry).size
  else none

private theorem scan_spec (tbl : List Entry) (n i : Nat) :
    i ≤ scan tbl n i ∧ scan tbl n i ≤ i + n ∧
    (∀ j, i ≤ j → j < scan tbl n i → (tbl.getD j noEntry).active = true) ∧
    (scan tbl n i < i + n → (tbl.getD (scan tbl n i) noEntry).active = false) := by
  induction n generalizing i with
  | zero => simp only [scan]; refine ⟨by omega, by omega, fun j h1 h2 => by omega, fun h => by omega⟩
  | succ n ih =>
    unfold scan
    split
    · rename_i ha
      obtain ⟨h1, h2, h3, h4⟩ := ih (i + 1)
      refine ⟨by omega, by omega, fun j hj1 hj2 => ?_, fun h => h4 (by omega)⟩
      by_cases e : j = i
      · subst e; exact ha
      · exact h3 j (by omega) hj2
    · rename_i ha
      refine ⟨by omega, by omega, fun j h1 h2 => by omega, fun _ => by simpa using ha⟩

private theorem getD_set (tbl : List Entry) (i j : Nat) (e : Entry) (hi : i < tbl.length) :
    (tbl.set i e).getD j noEntry = if j = i then e else tbl.getD j noEntry := by
  simp only [List.getD_eq_getElem?_getD, List.getElem?_set]
  by_cases h : i = j
  · subst h; simp [hi]
  · have : ¬ j = i := fun x => h x.symm
    simp [h, this]

private theorem absT_set (tbl : List Entry) (i : Nat) (e : Entry) (hi : i < tbl.length)
    (hl : tbl.length = typesMax) :
    absT (tbl.set i e) = upd (absT tbl) ((i : Int) + mtBase) (if e.active then some e.size else none) := by
  funext x
  unfold absT upd
  rw [getD_set _ _ _ _ hi]
  have hM : (typesMax : Int) = 256 := rfl
  have hB : mtBase = 1000 := rfl
  rw [hl] at hi
  have hi' : i < 256 := hi
  by_cases hx : x = (i : Int) + mtBase
  · have e1 : (x - mtBase).toNat = i := by omega
    rw [if_pos hx, if_pos e1]
    have e2 : x ≥ mtBase := by omega
    have e3 : x < mtBase + typesMax := by omega
    simp only [e2, e3, true_and]
  · rw [if_neg hx]
    by_cases hr : x ≥ mtBase ∧ x < mtBase + typesMax
    · have e1 : ¬ (x - mtBase).toNat = i := by omega
      rw [if_neg e1]
    · have h1 : ∀ P : Prop, ¬ (x ≥ mtBase ∧ x < mtBase + typesMax ∧ P) := fun P hp => hr ⟨hp.1, hp.2.1⟩
      rw [if_neg (h1 _)]
      beta_reduce
      rw [if_neg (h1 _)]

private theorem absT_at (tbl : List Entry) (i : Nat) (hi : i < typesMax) :
    absT tbl ((i : Int) + mtBase) =
      if (tbl.getD i noEntry).active = true then some (tbl.getD i noEntry).size else none := by
  unfold absT
  have hM : (typesMax : Int) = 256 := rfl
  have hB : mtBase = 1000 := rfl
  have hi' : i < 256 := hi
  have e : ((i : Int) + mtBase - mtBase).toNat = i := by omega
  rw [e]
  have e2 : (i : Int) + mtBase ≥ mtBase := by omega
  have e3 : (i : Int) + mtBase < mtBase + typesMax := by omega
  simp only [e2, e3, true_and]

private theorem step_ok (tbl : List Entry) (hl : tbl.length = typesMax) (o : Op)
    (ho : ∀ i, o = .deregister i → i < mtBase + typesMax) :
    TStep mtBase typesReserved typesMax (absT tbl) o (step tbl o).1 (absT (step tbl o).2) ∧
      (step tbl o).2.length = typesMax := by
  have hM : (typesMax : Int) = 256 := rfl
  have hB : mtBase = 1000 := rfl
  have hR : (typesReserved : Int) = 17 := rfl
  cases o with
  | register b =>
    obtain ⟨h1, h2, h3, h4⟩ := scan_spec tbl (typesMax - typesReserved) typesReserved
    simp only [step, register]
    have h2' : scan tbl (typesMax - typesReserved) typesReserved ≤ typesMax := h2
    have h1' : 17 ≤ scan tbl (typesMax - typesReserved) typesReserved := h1
    generalize hs : scan tbl (typesMax - typesReserved) typesReserved = i at *
    by_cases e : i = typesMax
    · simp only [e, if_true]
      refine ⟨.registerFull (fun x hx => ?_), hl⟩
      obtain ⟨hx1, hx2⟩ := hx
      obtain ⟨j, rfl⟩ : ∃ j : Nat, x = (j : Int) + mtBase := ⟨(x - mtBase).toNat, by omega⟩
      have hj : j < 256 := by omega
      rw [absT_at tbl j hj, if_pos (h3 j (show 17 ≤ j by omega) (by rw [e]; exact hj))]
      simp
    · simp only [e, if_false]
      have hi : i < typesMax := by omega
      have hi' : i < 256 := hi
      refine ⟨?_, by simp [hl]⟩
      have := absT_set tbl i ⟨true, b⟩ (by rw [hl]; exact hi) hl
      rw [this]
      refine .register _ ⟨by omega, by omega⟩ ?_
      rw [absT_at tbl i hi, if_neg]
      rw [h4 hi]; simp
  | deregister t =>
    have ht := ho t rfl
    simp only [step, deregister]
    by_cases h1 : t - mtBase < (typesReserved : Int)
    · simp only [h1, if_true]
      exact ⟨.deregisterReserved (by omega), hl⟩
    · simp only [h1, if_false]
      obtain ⟨j, rfl⟩ : ∃ j : Nat, t = (j : Int) + mtBase := ⟨(t - mtBase).toNat, by omega⟩
      have hj : j < 256 := by omega
      have e : ((j : Int) + mtBase - mtBase).toNat = j := by omega
      rw [e]
      have hu : User mtBase typesReserved typesMax ((j : Int) + mtBase) := ⟨by omega, by omega⟩
      cases ha : (tbl.getD j noEntry).active with
      | false =>
        simp only [if_true]
        refine ⟨.deregisterFree hu ?_, hl⟩
        rw [absT_at tbl j hj, ha]; simp
      | true =>
        simp only [Bool.true_eq_false, if_false]
        have := absT_set tbl j ⟨false, 0⟩ (by rw [hl]; exact hj) hl
        rw [this]
        refine ⟨.deregister hu ?_, by simp [hl]⟩
        rw [absT_at tbl j hj, ha]; simp
  | query t =>
    simp only [step, query]
    refine ⟨?_, hl⟩
    split
    · rename_i h
      refine .query ?_
      unfold absT; rw [if_pos h]
    · rename_i h
      refine .queryBad ?_
      unfold absT; rw [if_neg h]

private theorem run_ok (tbl : List Entry) (hl : tbl.length = typesMax) (os : List Op) :
    TRun mtBase typesReserved typesMax (absT tbl) os (run tbl os) := by
  induction os generalizing tbl with
  | nil => exact .nil
  | cons o os ih =>
    by_cases ho : ∀ i, o = .deregister i → i < mtBase + typesMax
    · obtain ⟨h1, h2⟩ := step_ok tbl hl o ho
      exact .cons h1 (ih _ h2)
    · have ⟨i, hi⟩ : ∃ i, o = .deregister i ∧ ¬ i < mtBase + typesMax := by
        by_contra hc
        exact ho (fun i hi => by
          by_contra h'
          exact hc ⟨i, hi, h'⟩)
      rw [hi.1]
      exact .outside (by omega)

/-- **C27.** For every history of registering, deregistering and using types, whatever the sizes of
the 17 predefined types: the answers are those of a table from identifiers to sizes. An identifier is
never given out while in use, is beyond the predefined ones, keeps its size until deregistered,
registration fails only when all 239 identifiers are in use, and deregistering frees the identifier. -/
theorem C27_types (sizes : Nat → Int) (os : List Op) :
    TRun 1000 17 256 (fun i => if 1000 ≤ i ∧ i < 1017 then some (sizes (i - 1000).toNat) else none) os
      (run (table0 sizes) os) := by
  have h := run_ok (table0 sizes) (by
    simp only [table0, List.length_append, List.length_map, List.length_range, List.length_replicate]
    rfl) os
  have e : absT (table0 sizes) =
      fun i => if 1000 ≤ i ∧ i < 1017 then some (sizes (i - 1000).toNat) else none := by
    funext i
    have hM : (typesMax : Int) = 256 := rfl
    have hB : mtBase = 1000 := rfl
    unfold absT
    by_cases h0 : i ≥ mtBase ∧ i < mtBase + typesMax
    · obtain ⟨j, rfl⟩ : ∃ j : Nat, i = (j : Int) + 1000 := ⟨(i - 1000).toNat, by omega⟩
      have e1 : ((j : Int) + 1000 - mtBase).toNat = j := by omega
      have e2 : ((j : Int) + 1000 - 1000).toNat = j := by omega
      rw [e1, e2]
      have hj : j < 256 := by omega
      by_cases hj2 : j < 17
      · have : (table0 sizes).getD j noEntry = ⟨true, sizes j⟩ := by
          simp [table0, List.getD_eq_getElem?_getD, List.getElem?_append, typesReserved, hj2,
            List.getElem?_range hj2]
        rw [this, if_pos ⟨h0.1, h0.2, rfl⟩, if_pos ⟨by omega, by omega⟩]
      · have : (table0 sizes).getD j noEntry = noEntry := by
          simp [table0, List.getD_eq_getElem?_getD, List.getElem?_append, typesReserved, hj2,
            List.getElem?_replicate]
          split <;> rfl
        rw [this, if_neg (by simp [noEntry]), if_neg (by omega)]
    · rw [if_neg (fun hp => h0 ⟨hp.1, hp.2.1⟩), if_neg (by omega)]
  rw [e] at h
  exact h

/-- a history with reuse -/
example : run (table0 (fun _ => 8)) [.register 24, .register 40, .query 1017, .deregister 1017, .query 1017,
      .register 7, .query 1017, .query 1018, .deregister 1016, .query 1016] =
    [.num 1017, .num 1018, .size 24, .num 0, .invalid, .num 1017, .size 7, .size 40, .num (-1), .size 8] := by
  decide

end GA.Types
