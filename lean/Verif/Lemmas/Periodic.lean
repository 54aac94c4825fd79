import Verif.Spec.Periodic
import Verif.Model.Periodic
import Verif.Lemmas.RegIter
import Verif.Props.C07

/-! # Lemmas about periodic access -/

namespace GA
open Spec Model

/-! ## the odometer -/

theorem periCarry_fix {nums c : List Nat} (hne : nums ≠ []) (h : CoordOK nums c) :
    periCarry nums c = some c := by
  induction nums generalizing c with
  | nil => simp at hne
  | cons n ns ih =>
    cases c with
    | nil => simp [CoordOK] at h
    | cons c cs =>
      simp only [CoordOK] at h
      cases ns with
      | nil =>
        cases cs with
        | nil => rw [periCarry, if_neg (by omega)]
        | cons => simp [CoordOK] at h
      | cons n' ns =>
        cases cs with
        | nil => simp [CoordOK] at h
        | cons c' cs =>
          rw [periCarry, if_neg (by omega), ih (by simp) h.2]; rfl

theorem periCarry_succ {nums : List Nat} (hne : nums ≠ []) {k : Nat} (hk : k < gridSize nums) :
    periCarry nums (inc1 (digits nums k))
      = if k + 1 < gridSize nums then some (digits nums (k + 1)) else none := by
  induction nums generalizing k with
  | nil => simp at hne
  | cons n ns ih =>
    have hn : 0 < n := by
      rcases Nat.eq_zero_or_pos n with h | h
      · subst h; simp [gridSize] at hk
      · exact h
    cases ns with
    | nil =>
      simp only [gridSize, Nat.mul_one] at hk
      simp only [digits, inc1, periCarry, gridSize, Nat.mul_one, Nat.mod_eq_of_lt hk]
      by_cases h : k + 1 = n
      · rw [if_pos h, if_neg (by omega)]
      · rw [if_neg h, if_pos (by omega), Nat.mod_eq_of_lt (by omega)]
    | cons n' ns =>
      have hk' : k / n < gridSize (n' :: ns) := Nat.div_lt_of_lt_mul (by simpa only [gridSize] using hk)
      have ih' := ih (by simp) hk'
      have hm := Nat.mod_lt k hn
      have hdm := Nat.div_add_mod k n
      obtain ⟨c', cs, hc⟩ : ∃ c' cs, digits (n' :: ns) (k / n) = c' :: cs := ⟨_, _, rfl⟩
      rw [digits, hc, inc1, periCarry]
      have hgs : gridSize (n :: n' :: ns) = n * gridSize (n' :: ns) := rfl
      rw [hgs] at hk ⊢
      split
      · rename_i hge
        rw [hc, inc1] at ih'
        have e2 : k + 1 = n * (k / n + 1) := by rw [Nat.mul_add]; omega
        have e1 : (k + 1) % n = 0 := by rw [e2]; exact Nat.mul_mod_right ..
        have e3 : (k + 1) / n = k / n + 1 := by rw [e2, Nat.mul_div_cancel_left _ hn]
        have e4 : digits (n :: n' :: ns) (k + 1) = 0 :: digits (n' :: ns) (k / n + 1) := by
          rw [digits, e1, e3]
        rw [ih', e4]
        by_cases hl : k / n + 1 < gridSize (n' :: ns)
        · rw [if_pos hl, if_pos]
          · rfl
          · rw [e2]; exact Nat.mul_lt_mul_of_pos_left hl hn
        · rw [if_neg hl, if_neg]
          · rfl
          · rw [e2]; intro hlt; exact hl (Nat.lt_of_mul_lt_mul_left hlt)
      · rename_i hlt
        rw [← hc, periCarry_fix (by simp) (digits_ok hk')]
        have e1 : (k + 1) % n = k % n + 1 := by
          conv_lhs => rw [← hdm, Nat.add_assoc, Nat.mul_add_mod]
          exact Nat.mod_eq_of_lt (by omega)
        have e3 : (k + 1) / n = k / n := by
          have e5 : (k % n + 1) / n = 0 := Nat.div_eq_of_lt (by omega)
          have e6 : k + 1 = n * (k / n) + (k % n + 1) := by omega
          rw [e6, Nat.mul_add_div hn, e5]; rfl
        have e4 : digits (n :: n' :: ns) (k + 1) = (k % n + 1) :: digits (n' :: ns) (k / n) := by
          rw [digits, e1, e3]
        rw [if_pos, e4]
        · rfl
        · have : n * (k / n + 1) ≤ n * gridSize (n' :: ns) := Nat.mul_le_mul_left _ hk'
          rw [Nat.mul_add] at this; omega

theorem periVisit_from {nums : List Nat} (hne : nums ≠ []) (fuel k : Nat)
    (hk : k < gridSize nums) (hf : gridSize nums - k ≤ fuel) :
    periVisit nums fuel (digits nums k)
      = some ((List.range' k (gridSize nums - k)).map (digits nums)) := by
  induction fuel generalizing k with
  | zero => omega
  | succ fuel ih =>
    rw [periVisit, periCarry_succ hne hk]
    by_cases h : k + 1 < gridSize nums
    · rw [if_pos h]
      simp only
      rw [ih (k + 1) h (by omega)]
      have : gridSize nums - k = (gridSize nums - (k + 1)) + 1 := by omega
      rw [this, List.range'_succ]
      rfl
    · rw [if_neg h]
      have : gridSize nums - k = 1 := by omega
      rw [this]; rfl

theorem digits_zero {nums : List Nat} : digits nums 0 = nums.map fun _ => 0 := by
  induction nums with
  | nil => rfl
  | cons n ns ih => simp [digits, ih]

theorem periVisit_all {nums : List Nat} (hne : nums ≠ []) (hpos : 0 < gridSize nums) :
    periVisit nums (gridSize nums) (nums.map fun _ => 0)
      = some ((List.range (gridSize nums)).map (digits nums)) := by
  rw [← digits_zero, periVisit_from hne _ 0 hpos (by omega), List.range_eq_range', Nat.sub_zero]

/-- all selections of one range per axis, first axis fastest -/
def axesProd : List (List ARange) → List (List ARange)
  | [] => [[]]
  | a :: as => (axesProd as).flatMap fun r => a.map fun x => x :: r

theorem sel_eq_prod (axes : List (List ARange)) :
    (List.range (gridSize (axes.map List.length))).map
      (fun k => selRanges axes (digits (axes.map List.length) k)) = axesProd axes := by
  induction axes with
  | nil => rfl
  | cons a as ih =>
    simp only [List.map_cons, gridSize, axesProd]
    rw [range_mul_map, ← ih, List.flatMap_map]
    apply List.flatMap_congr
    intro q _
    apply List.ext_getElem
    · simp
    · intro i h1 h2
      simp only [List.length_map, List.length_range] at h1
      simp only [List.getElem_map, List.getElem_range, digits, selRanges]
      rw [Nat.add_mul_mod_self_left, Nat.mod_eq_of_lt h1, Nat.add_mul_div_left _ _ (by omega),
        Nat.div_eq_of_lt h1, Nat.zero_add]
      simp [h1]

/-! ## geometry of one selection -/

/-- the part of the requested patch served by a selection -/
def rawBox : (lo : List Int) → (r : List ARange) → List Int × List Int
  | l :: lo, a :: r =>
    ((l + a.off) :: (rawBox lo r).1, (l + a.off + (a.hi - a.lo)) :: (rawBox lo r).2)
  | _, _ => ([], [])

/-- every range of the selection is a translate by whole periods and lies inside the array -/
def SelOK : (dims lo : List Int) → (r : List ARange) → Prop
  | d :: dims, l :: lo, a :: r => (d ∣ (a.lo - a.off - l) ∧ 1 ≤ a.lo ∧ a.hi ≤ d) ∧ SelOK dims lo r
  | [], [], [] => True
  | _, _, _ => False

theorem wrap_eq {d x y : Int} (h1 : 1 ≤ y) (h2 : y ≤ d) (h : d ∣ y - x) : (x - 1) % d + 1 = y := by
  obtain ⟨k, hk⟩ := h
  have e : x - 1 = (y - 1) + d * (-k) := by rw [Int.mul_neg]; omega
  rw [e, Int.add_mul_emod_self_left, Int.emod_eq_of_lt (by omega) (by omega)]
  omega

theorem sel_wrap {dims lo : List Int} {r : List ARange} {x : List Int} (h : SelOK dims lo r)
    (hx : InPatch (rawBox lo r).1 (rawBox lo r).2 x) :
    InPatch (r.map (·.lo)) (r.map (·.hi)) (wrap dims x) := by
  induction dims generalizing lo r x with
  | nil =>
    match lo, r, h with
    | [], [], _ => cases x <;> simp_all [rawBox, InPatch, wrap]
  | cons d dims ih =>
    match lo, r, h with
    | l :: lo, a :: r, h =>
      cases x with
      | nil => simp [rawBox, InPatch] at hx
      | cons x xs =>
        simp only [SelOK] at h
        simp only [rawBox, InPatch] at hx
        simp only [List.map_cons, wrap, InPatch]
        refine ⟨?_, ih h.2 hx.2⟩
        obtain ⟨⟨hd, h1, h2⟩, _⟩ := h
        rw [wrap_eq (y := x - l - a.off + a.lo) (by omega) (by omega)]
        · omega
        · have : x - l - a.off + a.lo - x = a.lo - a.off - l := by omega
          rw [this]; exact hd

theorem myOffset_scale (r : List ARange) (ld : List Int) (p : Int) :
    myOffset r ld p = p * myOffset r ld 1 := by
  induction r generalizing ld p with
  | nil => simp [myOffset]
  | cons a r ih =>
    cases ld with
    | nil => cases r <;> simp [myOffset, Int.mul_comm]
    | cons d ld =>
      simp only [myOffset]
      rw [ih ld (p * d), ih ld (1 * d)]
      ring

theorem sel_bufPos {dims lo ld : List Int} {r : List ARange} {x : List Int} (h : SelOK dims lo r)
    (hld : ld.length + 1 = lo.length)
    (hx : InPatch (rawBox lo r).1 (rawBox lo r).2 x) :
    bufPos lo ld x = bufPos (r.map (·.lo)) ld (wrap dims x) + myOffset r ld 1 := by
  induction dims generalizing lo r x ld with
  | nil =>
    match lo, r, h with
    | [], [], _ => simp at hld
  | cons d dims ih =>
    match lo, r, h with
    | l :: lo, a :: r, h =>
      cases x with
      | nil => simp [rawBox, InPatch] at hx
      | cons x xs =>
        simp only [SelOK] at h
        simp only [rawBox, InPatch] at hx
        simp only [List.map_cons, wrap]
        obtain ⟨⟨hd, h1, h2⟩, hh⟩ := h
        have ew : (x - 1) % d + 1 = x - l - a.off + a.lo := by
          apply wrap_eq (by omega) (by omega)
          have : x - l - a.off + a.lo - x = a.lo - a.off - l := by omega
          rw [this]; exact hd
        rw [ew]
        cases ld with
        | nil =>
          simp only [List.length_nil, List.length_cons] at hld
          have hlo : lo = [] := List.length_eq_zero_iff.1 (by omega)
          subst hlo
          match dims, r, hh with
          | [], [], _ => simp only [bufPos, myOffset]; omega
        | cons e ld =>
          simp only [bufPos, myOffset]
          rw [ih hh (by simpa using hld) hx.2, myOffset_scale r ld (1 * e)]
          ring

theorem sel_surj {dims lo : List Int} {r : List ARange} {y : List Int} (h : SelOK dims lo r)
    (hy : InPatch (r.map (·.lo)) (r.map (·.hi)) y) :
    ∃ x, InPatch (rawBox lo r).1 (rawBox lo r).2 x ∧ wrap dims x = y := by
  induction dims generalizing lo r y with
  | nil =>
    match lo, r, h with
    | [], [], _ =>
      cases y with
      | nil => exact ⟨[], by simp [rawBox, InPatch], by simp [wrap]⟩
      | cons => simp [InPatch] at hy
  | cons d dims ih =>
    match lo, r, h with
    | l :: lo, a :: r, h =>
      cases y with
      | nil => simp [InPatch] at hy
      | cons y ys =>
        simp only [SelOK] at h
        simp only [List.map_cons, InPatch] at hy
        obtain ⟨xs, h1, h2⟩ := ih h.2 hy.2
        refine ⟨(y - a.lo + l + a.off) :: xs, ?_, ?_⟩
        · simp only [rawBox, InPatch]
          exact ⟨by omega, h1⟩
        · simp only [wrap, h2]
          congr 1
          apply wrap_eq (by omega) (by omega)
          have : y - (y - a.lo + l + a.off) = a.lo - a.off - l := by omega
          rw [this]; exact h.1.1

/-! ## ranges of one axis -/

theorem shiftDown_spec {d lo hi : Int} (hd : 1 ≤ d) : ∃ s, d ∣ s ∧
    (shiftDown d lo hi).1 = lo + s ∧ (shiftDown d lo hi).2.1 = hi + s ∧
    ((shiftDown d lo hi).2.2 = false → s = 0) ∧
    (lo ≤ d → s = 0) ∧ (d < lo → 0 ≤ lo + s ∧ lo + s < d) := by
  unfold shiftDown
  by_cases h : lo > d
  · simp only [h, if_true]
    have e1 : lo.tmod d = lo % d := Int.tmod_eq_emod_of_nonneg (by omega)
    have e2 : (lo - lo % d).tdiv d = lo / d := by
      have := Int.mul_ediv_add_emod lo d
      have e3 : lo - lo % d = d * (lo / d) := by omega
      rw [e3, Int.mul_tdiv_cancel_left _ (by omega)]
    rw [e1, e2]
    have e3 := Int.mul_ediv_add_emod lo d
    have e4 := Int.emod_nonneg lo (b := d) (by omega)
    have e5 := Int.emod_lt_of_pos lo (b := d) (by omega)
    rw [Int.mul_comm] at e3
    refine ⟨-(lo / d * d), ⟨-(lo / d), by ring⟩, by omega, by omega, ?_, by omega, by omega⟩
    intro h0
    simp only [bne_eq_false_iff_eq] at h0
    rw [h0]; simp
  · simp only [h, if_false]
    exact ⟨0, by simp, by simp, by simp, by simp, by simp, by simp⟩

theorem shiftUp_spec {d lo hi : Int} (hd : 1 ≤ d) : ∃ s, d ∣ s ∧
    (shiftUp d lo hi).1 = lo + s ∧ (shiftUp d lo hi).2.1 = hi + s ∧
    ((shiftUp d lo hi).2.2 = false → s = 0) ∧
    (1 ≤ hi → s = 0) ∧ (hi < 1 → -d < hi → s = d) := by
  unfold shiftUp
  by_cases h : hi < 1
  · simp only [h, if_true]
    refine ⟨((hi + (-hi).tmod d).tdiv d + 1) * d, ⟨(hi + (-hi).tmod d).tdiv d + 1, by ring⟩, rfl,
      rfl, ?_, by omega, ?_⟩
    · intro h0
      simp only [bne_eq_false_iff_eq] at h0
      rw [h0]; simp
    · intro _ h2
      have e1 : (-hi).tmod d = -hi := by
        rw [Int.tmod_eq_emod_of_nonneg (by omega), Int.emod_eq_of_lt (by omega) (by omega)]
      rw [e1]
      have : hi + -hi = 0 := by omega
      rw [this]; simp
  · simp only [h, if_false]
    exact ⟨0, by simp, by simp, by simp, by simp, by simp, by simp⟩

theorem periShift_spec {d lo hi : Int} (hd : 1 ≤ d) : ∃ s, d ∣ s ∧
    (periShift d lo hi).1 = lo + s ∧ (periShift d lo hi).2.1 = hi + s ∧
    ((periShift d lo hi).2.2 = false → s = 0) := by
  obtain ⟨s, h1, h2, h3, h4, _⟩ := shiftDown_spec (lo := lo) (hi := hi) hd
  obtain ⟨t, k1, k2, k3, k4, _⟩ := shiftUp_spec (lo := (shiftDown d lo hi).1)
    (hi := (shiftDown d lo hi).2.1) hd
  refine ⟨s + t, Int.dvd_add h1 k1, ?_, ?_, ?_⟩
  · simp only [periShift]; omega
  · simp only [periShift]; omega
  · simp only [periShift, Bool.or_eq_false_iff]
    rintro ⟨a, b⟩
    rw [h4 a, k4 b]; rfl

/-- a narrow request that is not far below the array ends up overlapping the array -/
theorem periShift_narrow {d lo hi : Int} (hd : 1 ≤ d) (hw : lo ≤ hi) (hn : hi - lo + 1 ≤ d)
    (hb : -d < hi) :
    1 - d ≤ (periShift d lo hi).1 ∧ (periShift d lo hi).1 ≤ d ∧ 1 ≤ (periShift d lo hi).2.1 ∧
      (periShift d lo hi).2.1 ≤ 2 * d := by
  obtain ⟨s, h1, h2, h3, h4, h5, h6⟩ := shiftDown_spec (lo := lo) (hi := hi) hd
  obtain ⟨t, k1, k2, k3, k4, k5, k6⟩ := shiftUp_spec (lo := (shiftDown d lo hi).1)
    (hi := (shiftDown d lo hi).2.1) hd
  simp only [periShift]
  rw [k2, k3, h2, h3]
  rw [h3] at k5 k6
  by_cases hlo : lo ≤ d
  · have hs := h5 hlo
    subst hs
    by_cases hh : 1 ≤ hi
    · have := k5 (by omega); omega
    · have := k6 (by omega) (by omega); omega
  · have hs := h6 (by omega)
    by_cases hh : 1 ≤ hi + s
    · have := k5 hh; omega
    · have := k6 (by omega) (by omega); omega

theorem periRanges_part {d lo hi lo0 s : Int} (hs : lo = lo0 + s)
    (hb : ∀ a ∈ periRanges d lo hi, a.lo ≤ a.hi) :
    ((periRanges d lo hi).flatMap fun a =>
      irange (lo0 + a.off) (lo0 + a.off + (a.hi - a.lo))) = irange lo0 (hi - s) := by
  unfold periRanges at *
  by_cases h1 : lo < 1 <;> by_cases h2 : hi > d <;>
    simp only [h1, h2, if_true, if_false, List.cons_append, List.nil_append,
      List.mem_cons, List.not_mem_nil, or_false, List.append_nil, forall_eq_or_imp, forall_eq,
      List.flatMap_cons, List.flatMap_nil] at *
  · have e1 : irange (lo0 + (lo - lo)) (lo0 + (lo - lo) + (0 + d - (lo + d))) = irange lo0 (-s) := by
      congr 1 <;> omega
    have e2 : irange (lo0 + (1 - lo)) (lo0 + (1 - lo) + (d - 1)) = irange (-s + 1) (d - s) := by
      congr 1 <;> omega
    have e3 : irange (lo0 + (d + 1 - lo)) (lo0 + (d + 1 - lo) + (hi - d - (d + 1 - d)))
        = irange (d - s + 1) (hi - s) := by
      congr 1 <;> omega
    rw [e1, e2, e3, ← irange_append (by omega) (by omega), ← irange_append (by omega) (by omega)]
  · have e1 : irange (lo0 + (lo - lo)) (lo0 + (lo - lo) + (0 + d - (lo + d))) = irange lo0 (-s) := by
      congr 1 <;> omega
    have e2 : irange (lo0 + (1 - lo)) (lo0 + (1 - lo) + (hi - 1)) = irange (-s + 1) (hi - s) := by
      congr 1 <;> omega
    rw [e1, e2, ← irange_append (by omega) (by omega)]
  · have e2 : irange (lo0 + (lo - lo)) (lo0 + (lo - lo) + (d - lo)) = irange lo0 (d - s) := by
      congr 1 <;> omega
    have e3 : irange (lo0 + (d + 1 - lo)) (lo0 + (d + 1 - lo) + (hi - d - (d + 1 - d)))
        = irange (d - s + 1) (hi - s) := by
      congr 1 <;> omega
    rw [e2, e3, ← irange_append (by omega) (by omega)]
  · congr 1 <;> omega

theorem periRanges_dvd {d lo hi lo0 s : Int} (hs : lo = lo0 + s) (hd : d ∣ s) :
    ∀ a ∈ periRanges d lo hi, d ∣ (a.lo - a.off - lo0) := by
  obtain ⟨k, hk⟩ := hd
  intro a ha
  simp only [periRanges, List.mem_append, List.mem_cons, List.not_mem_nil, or_false] at ha
  rcases ha with ha | rfl | ha
  · split at ha
    · simp only [List.mem_cons, List.not_mem_nil, or_false] at ha
      subst ha
      exact ⟨k + 1, by simp only [Int.mul_add]; omega⟩
    · simp at ha
  · exact ⟨k, by dsimp only; omega⟩
  · split at ha
    · simp only [List.mem_cons, List.not_mem_nil, or_false] at ha
      subst ha
      exact ⟨k - 1, by simp only [Int.mul_sub]; omega⟩
    · simp at ha

theorem periRanges_in {d lo hi : Int} (hd : 1 ≤ d) (h0 : lo ≤ hi) (h1 : 1 - d ≤ lo) (h2 : lo ≤ d)
    (h3 : 1 ≤ hi) (h4 : hi ≤ 2 * d) :
    ∀ a ∈ periRanges d lo hi, 1 ≤ a.lo ∧ a.lo ≤ a.hi ∧ a.hi ≤ d := by
  intro a ha
  simp only [periRanges, List.mem_append, List.mem_cons, List.not_mem_nil, or_false] at ha
  rcases ha with ha | rfl | ha
  · split at ha
    · simp only [List.mem_cons, List.not_mem_nil, or_false] at ha
      subst ha; dsimp only; omega
    · simp at ha
  · dsimp only; split <;> split <;> omega
  · split at ha
    · simp only [List.mem_cons, List.not_mem_nil, or_false] at ha
      subst ha; dsimp only; omega
    · simp at ha

theorem periRanges_width {d lo hi : Int} (h0 : lo ≤ hi) (h2 : lo ≤ d) (h3 : 1 ≤ hi) :
    ∀ a ∈ periRanges d lo hi, a.hi - a.lo ≤ hi - lo := by
  intro a ha
  simp only [periRanges, List.mem_append, List.mem_cons, List.not_mem_nil, or_false] at ha
  rcases ha with ha | rfl | ha
  · split at ha
    · simp only [List.mem_cons, List.not_mem_nil, or_false] at ha
      subst ha; dsimp only; omega
    · simp at ha
  · dsimp only; split <;> split <;> omega
  · split at ha
    · simp only [List.mem_cons, List.not_mem_nil, or_false] at ha
      subst ha; dsimp only; omega
    · simp at ha

/-! ## all selections -/

/-- what the ranges of all axes must satisfy -/
def AxesOK : (dims lo hi : List Int) → (axes : List (List ARange)) → Prop
  | d :: dims, l :: lo, h :: hi, a :: axes =>
    ((∀ x ∈ a, d ∣ (x.lo - x.off - l) ∧ 1 ≤ x.lo ∧ x.hi ≤ d) ∧
      (a.flatMap fun x => irange (l + x.off) (l + x.off + (x.hi - x.lo))) = irange l h) ∧
      AxesOK dims lo hi axes
  | [], [], [], [] => True
  | _, _, _, _ => False

theorem AxesOK.nil_inv {dims lo hi : List Int} (h : AxesOK dims lo hi []) :
    dims = [] ∧ lo = [] ∧ hi = [] := by
  cases dims <;> cases lo <;> cases hi <;> simp_all [AxesOK]

theorem AxesOK.cons_inv {dims lo hi : List Int} {a : List ARange} {axes : List (List ARange)}
    (h : AxesOK dims lo hi (a :: axes)) : ∃ d dims' l lo' hh hi', dims = d :: dims' ∧
      lo = l :: lo' ∧ hi = hh :: hi' := by
  cases dims <;> cases lo <;> cases hi <;> simp_all [AxesOK]

theorem AxesOK.sel {dims lo hi : List Int} {axes : List (List ARange)} (h : AxesOK dims lo hi axes)
    {r : List ARange} (hr : r ∈ axesProd axes) : SelOK dims lo r := by
  induction axes generalizing dims lo hi r with
  | nil =>
    obtain ⟨rfl, rfl, rfl⟩ := h.nil_inv
    simp only [axesProd, List.mem_singleton] at hr; subst hr; trivial
  | cons a axes ih =>
    obtain ⟨d, dims, l, lo, hh, hi, rfl, rfl, rfl⟩ := h.cons_inv
    simp only [axesProd, List.mem_flatMap, List.mem_map] at hr
    obtain ⟨r, hr, x, hx, rfl⟩ := hr
    exact ⟨h.1.1 x hx, ih h.2 hr⟩

theorem AxesOK.cover {dims lo hi : List Int} {axes : List (List ARange)}
    (h : AxesOK dims lo hi axes) :
    ((axesProd axes).flatMap fun r => box (rawBox lo r).1 (rawBox lo r).2).Perm (box lo hi) := by
  have key : ∃ ivs, AxesPart ivs lo hi ∧
      gridProd ivs = (axesProd axes).map fun r => rawBox lo r := by
    induction axes generalizing dims lo hi with
    | nil =>
      obtain ⟨rfl, rfl, rfl⟩ := h.nil_inv
      exact ⟨[], trivial, rfl⟩
    | cons a axes ih =>
      obtain ⟨d, dims, l, lo, hh, hi, rfl, rfl, rfl⟩ := h.cons_inv
      obtain ⟨ivs, h1, h2⟩ := ih h.2
      refine ⟨(a.map fun x => (l + x.off, l + x.off + (x.hi - x.lo))) :: ivs, ⟨?_, h1⟩, ?_⟩
      · rw [List.flatMap_map, h.1.2]
      · simp only [gridProd, axesProd, h2, List.flatMap_map, List.map_flatMap, List.map_map]
        rfl
  obtain ⟨ivs, h1, h2⟩ := key
  have := gridProd_perm h1
  rwa [h2, List.flatMap_map] at this

theorem axesProd_mem {axes : List (List ARange)} (hne : ∀ a ∈ axes, a ≠ []) {i : Nat}
    (hi : i < axes.length) {x : ARange} (hx : x ∈ axes[i]) :
    ∃ r ∈ axesProd axes, r[i]? = some x := by
  induction axes generalizing i with
  | nil => simp at hi
  | cons a axes ih =>
    have hex : ∃ r, r ∈ axesProd axes := by
      clear ih hx hi
      have hne' : ∀ a ∈ axes, a ≠ [] := fun a ha => hne a (by simp [ha])
      clear hne
      induction axes with
      | nil => exact ⟨[], by simp [axesProd]⟩
      | cons b axes ih =>
        obtain ⟨r, hr⟩ := ih fun a ha => hne' a (by simp [ha])
        obtain ⟨y, hy⟩ := List.exists_mem_of_ne_nil b (hne' b (by simp))
        exact ⟨y :: r, by simp only [axesProd, List.mem_flatMap, List.mem_map]; exact ⟨r, hr, y, hy, rfl⟩⟩
    cases i with
    | zero =>
      obtain ⟨r, hr⟩ := hex
      refine ⟨x :: r, ?_, rfl⟩
      simp only [axesProd, List.mem_flatMap, List.mem_map]
      exact ⟨r, hr, x, hx, rfl⟩
    | succ i =>
      obtain ⟨r, hr, h1⟩ := ih (fun a ha => hne a (by simp [ha])) (by simpa using hi) hx
      obtain ⟨y, hy⟩ := List.exists_mem_of_ne_nil a (hne a (by simp))
      refine ⟨y :: r, ?_, by simpa using h1⟩
      simp only [axesProd, List.mem_flatMap, List.mem_map]
      exact ⟨r, hr, y, hy, rfl⟩

theorem axesMap_length {α} (f : Int → Int → Int → α) {dims lo hi : List Int}
    (h1 : lo.length = dims.length) (h2 : hi.length = dims.length) :
    (axesMap f dims lo hi).length = dims.length := by
  induction dims generalizing lo hi with
  | nil => cases lo <;> cases hi <;> simp_all [axesMap]
  | cons d dims ih =>
    match lo, hi, h1, h2 with
    | l :: lo, h :: hi, h1, h2 => simp [axesMap, ih (by simpa using h1) (by simpa using h2)]

/-- the ranges of the request, as computed by the code -/
def reqAxes (dims lo hi : List Int) : List (List ARange) :=
  axesMap periRanges dims ((axesMap periShift dims lo hi).map (·.1))
    ((axesMap periShift dims lo hi).map (·.2.1))

theorem reqAxes_ne (dims lo hi : List Int) : ∀ a ∈ reqAxes dims lo hi, a ≠ [] := by
  unfold reqAxes
  generalize (axesMap periShift dims lo hi).map (·.1) = l
  generalize (axesMap periShift dims lo hi).map (·.2.1) = h
  induction dims generalizing l h with
  | nil => simp [axesMap]
  | cons d dims ih =>
    cases l <;> cases h <;> simp only [axesMap, List.not_mem_nil, List.mem_cons, false_implies,
      implies_true, forall_eq_or_imp]
    exact ⟨by simp [periRanges], ih _ _⟩

/-- if every range issued is inside the array, the axes are as they should be -/
theorem reqAxes_ok {dims lo hi : List Int} (hd : ∀ d ∈ dims, 1 ≤ d) (h1 : lo.length = dims.length)
    (h2 : hi.length = dims.length)
    (hb : ∀ i (h : i < (reqAxes dims lo hi).length) (hd : i < dims.length),
      ∀ a ∈ (reqAxes dims lo hi)[i], 1 ≤ a.lo ∧ a.lo ≤ a.hi ∧ a.hi ≤ dims[i]) :
    AxesOK dims lo hi (reqAxes dims lo hi) := by
  induction dims generalizing lo hi with
  | nil => cases lo <;> cases hi <;> simp_all [reqAxes, axesMap, AxesOK]
  | cons d dims ih =>
    match lo, hi, h1, h2 with
    | l :: lo, h :: hi, h1, h2 =>
      have e : reqAxes (d :: dims) (l :: lo) (h :: hi)
        = periRanges d (periShift d l h).1 (periShift d l h).2.1 :: reqAxes dims lo hi := rfl
      rw [e] at hb ⊢
      obtain ⟨s, s1, s2, s3, _⟩ := periShift_spec (lo := l) (hi := h) (hd d (by simp))
      have hb0 := hb 0 (by simp) (by simp)
      simp only [List.getElem_cons_zero] at hb0
      refine ⟨⟨?_, ?_⟩, ?_⟩
      · intro x hx
        have := hb0 x hx
        exact ⟨periRanges_dvd s2 s1 x hx, by omega, by omega⟩
      · rw [periRanges_part s2 (fun a ha => (hb0 a ha).2.1), s3]
        congr 1; omega
      · apply ih (fun d hd' => hd d (by simp [hd'])) (by simpa using h1) (by simpa using h2)
        intro i hi1 hi2 a ha
        have := hb (i + 1) (by simpa using hi1) (by simpa using hi2) a (by simpa using ha)
        simpa using this

/-- narrow requests near the array only produce ranges inside the array -/
theorem reqAxes_in {dims lo hi : List Int} (hd : ∀ d ∈ dims, 1 ≤ d) (hn : Narrow dims lo hi)
    (hf : NotFarBelow dims hi) (hw : InPatch lo hi lo) :
    ∀ i (h : i < (reqAxes dims lo hi).length) (hd : i < dims.length) (hl : i < lo.length)
      (hh : i < hi.length), ∀ a ∈ (reqAxes dims lo hi)[i],
      (1 ≤ a.lo ∧ a.lo ≤ a.hi ∧ a.hi ≤ dims[i]) ∧ a.hi - a.lo ≤ hi[i] - lo[i] := by
  induction dims generalizing lo hi with
  | nil => simp
  | cons d dims ih =>
    match lo, hi, hn, hf, hw with
    | l :: lo, h :: hi, hn, hf, hw =>
      have e : reqAxes (d :: dims) (l :: lo) (h :: hi)
        = periRanges d (periShift d l h).1 (periShift d l h).2.1 :: reqAxes dims lo hi := rfl
      rw [e]
      simp only [Narrow, NotFarBelow, InPatch] at hn hf hw
      have hd1 := hd d (by simp)
      have := periShift_narrow hd1 (by omega) hn.1 hf.1
      obtain ⟨s, s1, s2, s3, _⟩ := periShift_spec (lo := l) (hi := h) hd1
      intro i
      cases i with
      | zero =>
        intro _ _ _ _ a ha
        simp only [List.getElem_cons_zero] at ha ⊢
        refine ⟨periRanges_in hd1 (by omega) this.1 this.2.1 this.2.2.1 this.2.2.2 a ha, ?_⟩
        have := periRanges_width (by omega) this.2.1 this.2.2.1 a ha
        omega
      | succ i =>
        intro q1 q2 q3 q4 a ha
        simp only [List.getElem_cons_succ] at ha ⊢
        exact ih (fun d hd' => hd d (by simp [hd'])) hn.2 hf.2 hw.2 i (by simpa using q1)
          (by simpa using q2) (by simpa using q3) (by simpa using q4) a ha

/-! ## regular patches -/

theorem regular_inArray {dims lo hi : List Int} (hd : ∀ d ∈ dims, 1 ≤ d)
    (h1 : lo.length = dims.length) (h2 : hi.length = dims.length)
    (hr : periGetRange dims lo hi = .regular) : PatchOK dims lo hi := by
  unfold periGetRange at hr
  split at hr
  · rename_i hw
    simp only at hr
    split at hr
    · rename_i hc
      clear hr
      simp only [Bool.and_eq_true, Bool.not_eq_true', List.any_eq_false, List.all_eq_true, id] at hw hc
      obtain ⟨ho, hs⟩ := hc
      induction dims generalizing lo hi with
      | nil => cases lo <;> cases hi <;> simp_all [PatchOK, InArray, InPatch]
      | cons d dims ih =>
        match lo, hi, h1, h2 with
        | l :: lo, h :: hi, h1, h2 =>
          simp only [axesMap, List.map_cons, List.mem_cons, forall_eq_or_imp] at hw ho hs
          have := ih (fun d hd' => hd d (by simp [hd'])) (by simpa using h1) (by simpa using h2)
            hw.2 ho.2 hs.2
          obtain ⟨s, s1, s2, s3, s4⟩ := periShift_spec (lo := l) (hi := h) (hd d (by simp))
          have s0 := s4 (Bool.eq_false_of_not_eq_true hs.1)
          have ho1 := ho.1
          have hw1 := hw.1
          rw [s2, s3, s0] at ho1
          simp only [periOutside, periWidthOK, Bool.or_eq_true, decide_eq_true_eq, not_or,
            Bool.not_eq_true', Bool.or_eq_false_iff, decide_eq_false_iff_not] at ho1 hw1
          simp only [PatchOK, InArray, List.map_cons, InPatch] at this ⊢
          exact ⟨⟨by omega, this.1⟩, ⟨by omega, this.2.1⟩, by omega, this.2.2⟩
    · simp at hr
  · simp at hr

theorem wrap_of_inArray {dims x : List Int} (h : InArray dims x) : wrap dims x = x := by
  induction dims generalizing x with
  | nil => cases x <;> simp_all [InArray, InPatch, wrap]
  | cons d dims ih =>
    cases x with
    | nil => simp [InArray, InPatch] at h
    | cons x xs =>
      simp only [InArray, List.map_cons, InPatch] at h
      simp only [wrap, ih h.2]
      rw [wrap_eq (y := x) (by omega) (by omega) (by simp)]

/-! ## sequences of disjoint updates -/

/-- the pieces update disjoint sets of keys, each key once -/
theorem chain {X K V P : Type} [DecidableEq K] (xs : P → List X) (key : X → K) (h : X → V → V)
    (step : P → (K → V) → (K → V) → Prop)
    (hs : ∀ p s s', step p s s' → (∀ x ∈ xs p, s' (key x) = h x (s (key x))) ∧
      ∀ i, (∀ x ∈ xs p, key x ≠ i) → s' i = s i)
    (run : List P → (K → V) → (K → V) → Prop)
    (hnil : ∀ s s', run [] s s' → s' = s)
    (hcons : ∀ p ps s s', run (p :: ps) s s' → ∃ t, step p s t ∧ run ps t s')
    (ps : List P) (s s' : K → V) (hr : run ps s s') (hnd : ((ps.flatMap xs).map key).Nodup) :
    (∀ x ∈ ps.flatMap xs, s' (key x) = h x (s (key x))) ∧
      ∀ i, (∀ x ∈ ps.flatMap xs, key x ≠ i) → s' i = s i := by
  induction ps generalizing s with
  | nil => rw [hnil _ _ hr]; simp
  | cons p ps ih =>
    obtain ⟨t, h1, h2⟩ := hcons _ _ _ _ hr
    rw [List.flatMap_cons, List.map_append, List.nodup_append] at hnd
    obtain ⟨ih1, ih2⟩ := ih t h2 hnd.2.1
    obtain ⟨a1, a2⟩ := hs _ _ _ h1
    rw [List.flatMap_cons]
    constructor
    · intro x hx
      rcases List.mem_append.1 hx with hx | hx
      · rw [ih2 (key x), a1 x hx]
        intro y hy e
        exact hnd.2.2 (key x) (List.mem_map_of_mem hx) (key y) (List.mem_map_of_mem hy) e.symm
      · rw [ih1 x hx, a2 (key x)]
        intro y hy e
        exact hnd.2.2 (key y) (List.mem_map_of_mem hy) (key x) (List.mem_map_of_mem hx) e
    · intro i hi
      rw [ih2 i fun x hx => hi x (List.mem_append.2 (.inr hx)),
        a2 i fun x hx => hi x (List.mem_append.2 (.inl hx))]

end GA
