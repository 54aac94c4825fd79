import Verif.Spec.Patch
import Verif.Model.Index
import Mathlib.Tactic.Ring
import Mathlib.Data.List.Nodup
import Mathlib.Data.List.Perm.Basic

/-! # Lemmas about index arithmetic, odometers and box enumerations -/

namespace GA
open Spec Model

/-- Horner form of the mixed radix index. -/
def horner : (sub dims : List Int) → Int
  | s :: ss, d :: ds => s + d * horner ss ds
  | _, _ => 0

theorem computeIndexLoop_eq (sub dims : List Int) (i f : Int) :
    computeIndexLoop sub dims i f = i + f * horner sub dims := by
  induction sub generalizing dims i f with
  | nil => cases dims <;> simp [computeIndexLoop, horner]
  | cons s ss ih =>
    cases dims with
    | nil => simp [computeIndexLoop, horner]
    | cons d ds => simp only [computeIndexLoop, horner, ih]; ring

theorem computeIndex_eq (sub dims : List Int) : computeIndex sub dims = horner sub dims := by
  simp [computeIndex, computeIndexLoop_eq]

/-- Integers `l..h`. -/
def irange (l h : Int) : List Int := (List.range (h + 1 - l).toNat).map (fun i : Nat => l + i)

theorem mem_irange {l h x : Int} : x ∈ irange l h ↔ l ≤ x ∧ x ≤ h := by
  simp only [irange, List.mem_map, List.mem_range]
  constructor
  · rintro ⟨a, ha, rfl⟩; omega
  · intro hx; exact ⟨(x - l).toNat, by omega, by omega⟩

theorem nodup_irange (l h : Int) : (irange l h).Nodup := by
  unfold irange
  refine List.Nodup.map ?_ List.nodup_range
  intro a b hab; simp only at hab; omega

/-- All subscripts of a patch, first component fastest. -/
def box : (lo hi : List Int) → List (List Int)
  | [], [] => [[]]
  | l :: lo, h :: hi => (box lo hi).flatMap fun r => (irange l h).map (· :: r)
  | _, _ => []

theorem mem_box {lo hi x : List Int} : x ∈ box lo hi ↔ InPatch lo hi x := by
  induction lo generalizing hi x with
  | nil => cases hi <;> cases x <;> simp [box, InPatch]
  | cons l lo ih =>
    cases hi with
    | nil => cases x <;> simp [box, InPatch]
    | cons h hi =>
      cases x with
      | nil => simp [box, InPatch]
      | cons x xs =>
        simp only [box, List.mem_flatMap, List.mem_map, InPatch, ih, List.cons.injEq, mem_irange]
        constructor
        · rintro ⟨a, ha, b, hb, rfl, rfl⟩; exact ⟨hb, ha⟩
        · rintro ⟨h1, h2⟩; exact ⟨xs, h2, x, h1, rfl, rfl⟩

theorem nodup_box (lo hi : List Int) : (box lo hi).Nodup := by
  induction lo generalizing hi with
  | nil => cases hi <;> simp [box]
  | cons l lo ih =>
    cases hi with
    | nil => simp [box]
    | cons h hi =>
      simp only [box]
      rw [List.nodup_flatMap]
      refine ⟨fun x _ => (nodup_irange l h).map (by intro a b hab; simpa using hab), ?_⟩
      refine (ih hi).imp ?_
      intro a b hab
      simp only [Function.onFun, List.disjoint_left, List.mem_map]
      rintro x ⟨_, _, rfl⟩ ⟨_, _, h2⟩
      simp at h2; exact hab h2.2.symm

theorem loopFrom_append (lo hi : List Int) (m n : Nat) (s : List Int) :
    loopFrom lo hi (m + n) s =
      loopFrom lo hi m s ++ loopFrom lo hi n ((fun t => updateSubscript t lo hi)^[m] s) := by
  induction m generalizing s with
  | zero => simp [loopFrom]
  | succ m ih =>
    rw [Nat.succ_add_eq_add_succ, Nat.add_succ]
    simp only [loopFrom, ih, Function.iterate_succ, Function.comp, List.cons_append]

/-- one row of the odometer -/
theorem loop_row {l h : Int} {lo hi r : List Int} (k : Nat) (x : Int) (hx : x + k = h) :
    loopFrom (l :: lo) (h :: hi) (k + 1) (x :: r) = (irange x h).map (· :: r) ∧
    (fun t => updateSubscript t (l :: lo) (h :: hi))^[k + 1] (x :: r)
      = l :: updateSubscript r lo hi := by
  induction k generalizing x with
  | zero =>
    have : x = h := by omega
    subst this
    refine ⟨?_, by simp [updateSubscript]⟩
    have : (x + 1 - x).toNat = 1 := by omega
    simp [loopFrom, irange, this]
  | succ k ih =>
    have hlt : x < h := by omega
    obtain ⟨h1, h2⟩ := ih (x + 1) (by omega)
    constructor
    · rw [loopFrom]
      simp only [updateSubscript, hlt, if_true, h1]
      have : irange x h = x :: irange (x + 1) h := by
        unfold irange
        have e : (h + 1 - x).toNat = (h + 1 - (x + 1)).toNat + 1 := by omega
        rw [e, List.range_succ_eq_map]
        simp only [List.map_cons, List.map_map]
        congr 1
        · simp
        · apply List.map_congr_left; intro a _; simp only [Function.comp]; push_cast; ring
      simp [this]
    · rw [Function.iterate_succ]
      simp only [Function.comp, updateSubscript, hlt, if_true]
      exact h2

theorem loopFrom_cons {l h : Int} {lo hi : List Int} (hlh : l ≤ h) (n : Nat) (r : List Int) :
    loopFrom (l :: lo) (h :: hi) ((h - l + 1).toNat * n) (l :: r)
      = (loopFrom lo hi n r).flatMap fun r => (irange l h).map (· :: r) := by
  obtain ⟨k, hk⟩ : ∃ k : Nat, l + k = h := ⟨(h - l).toNat, by omega⟩
  have e : (h - l + 1).toNat = k + 1 := by omega
  rw [e]
  induction n generalizing r with
  | zero => simp [loopFrom]
  | succ n ih =>
    have e2 : (k + 1) * (n + 1) = (k + 1) + (k + 1) * n := by ring
    obtain ⟨h1, h2⟩ := loop_row (l := l) (lo := lo) (hi := hi) (r := r) k l hk
    rw [e2, loopFrom_append, h1, h2, ih]
    simp [loopFrom]

theorem initLoopElems_nonneg {lo hi : List Int} (h : ∃ x, InPatch lo hi x) :
    0 ≤ initLoopElems lo hi := by
  induction lo generalizing hi with
  | nil => cases hi <;> simp [initLoopElems]
  | cons l lo ih =>
    cases hi with
    | nil => simp [initLoopElems]
    | cons hh hi =>
      obtain ⟨x, hx⟩ := h
      cases x with
      | nil => simp [InPatch] at hx
      | cons x xs =>
        simp only [InPatch] at hx
        simp only [initLoopElems]
        have := ih ⟨xs, hx.2⟩
        exact Int.mul_nonneg (by omega) this

/-- The loop idiom visits exactly the subscripts of the patch, each once, in index order. -/
theorem loopAll_eq_box {lo hi : List Int} (h : ∃ x, InPatch lo hi x) :
    loopAll lo hi = box lo hi := by
  unfold loopAll
  induction lo generalizing hi with
  | nil =>
    obtain ⟨x, hx⟩ := h
    cases hi with
    | nil => simp [initLoopElems, loopFrom, box]
    | cons => cases x <;> simp [InPatch] at hx
  | cons l lo ih =>
    obtain ⟨x, hx⟩ := h
    cases hi with
    | nil => cases x <;> simp [InPatch] at hx
    | cons hh hi =>
      cases x with
      | nil => simp [InPatch] at hx
      | cons x xs =>
        simp only [InPatch] at hx
        have h' : ∃ x, InPatch lo hi x := ⟨xs, hx.2⟩
        have hnn := initLoopElems_nonneg h'
        simp only [initLoopElems]
        rw [Int.toNat_mul (by omega) hnn, loopFrom_cons (by omega), ih h']
        simp [box]

end GA
