import Verif.Lemmas.Index

/-! # Product partitions of boxes and mixed radix counting -/

namespace GA
open Spec

theorem flatMap_swap {α β γ} (l : List α) (m : List β) (f : α → β → List γ) :
    (l.flatMap fun a => m.flatMap fun b => f a b).Perm
      (m.flatMap fun b => l.flatMap fun a => f a b) := by
  induction l with
  | nil => simp
  | cons a l ih =>
    simp only [List.flatMap_cons]
    exact (List.Perm.append_left _ ih).trans (List.flatMap_append_perm m _ _)

/-- All combinations of per-dimension intervals, first dimension fastest. -/
def gridProd : List (List (Int × Int)) → List (List Int × List Int)
  | [] => [([], [])]
  | a :: as => (gridProd as).flatMap fun r => a.map fun iv => (iv.1 :: r.1, iv.2 :: r.2)

/-- per-dimension partitions -/
def AxesPart : List (List (Int × Int)) → List Int → List Int → Prop
  | [], [], [] => True
  | a :: as, l :: ls, h :: hs =>
    (a.flatMap fun iv => irange iv.1 iv.2).Perm (irange l h) ∧ AxesPart as ls hs
  | _, _, _ => False

theorem gridProd_perm {ivs : List (List (Int × Int))} {lo hi : List Int} (h : AxesPart ivs lo hi) :
    ((gridProd ivs).flatMap fun r => box r.1 r.2).Perm (box lo hi) := by
  induction ivs generalizing lo hi with
  | nil => cases lo <;> cases hi <;> simp_all [AxesPart, gridProd, box]
  | cons a as ih =>
    cases lo with
    | nil => simp [AxesPart] at h
    | cons l lo =>
      cases hi with
      | nil => simp [AxesPart] at h
      | cons hh hi =>
        simp only [AxesPart] at h
        simp only [gridProd, box, List.flatMap_assoc, List.flatMap_map]
        have step1 : ((gridProd as).flatMap fun r => a.flatMap fun iv =>
            (box r.1 r.2).flatMap fun t => (irange iv.1 iv.2).map (· :: t)).Perm
            ((gridProd as).flatMap fun r => (box r.1 r.2).flatMap fun t =>
              (irange l hh).map (· :: t)) := by
          apply List.Perm.flatMap_left
          intro r _
          refine (flatMap_swap _ _ _).trans ?_
          apply List.Perm.flatMap_left
          intro t _
          have := h.1.map (· :: t)
          rwa [List.map_flatMap] at this
        refine step1.trans ?_
        have := (ih h.2).flatMap_right (fun t => (irange l hh).map (· :: t))
        rwa [List.flatMap_assoc] at this

/-- counting in mixed radix -/
theorem range_mul_map {α} (d P : Nat) (f : Nat → α) :
    (List.range (d * P)).map f
      = (List.range P).flatMap fun q => (List.range d).map fun r => f (r + d * q) := by
  induction P with
  | zero => simp
  | succ P ih =>
    rw [Nat.mul_succ, List.range_add, List.map_append, ih, List.range_succ, List.flatMap_append]
    simp [Nat.add_comm, Function.comp_def]

theorem irange_eq_map (l h : Int) :
    irange l h = (List.range (h + 1 - l).toNat).map (fun i : Nat => l + i) := rfl

theorem irange_length (l h : Int) : (irange l h).length = (h + 1 - l).toNat := by
  simp [irange]

theorem irange_append {l m h : Int} (h1 : l ≤ m + 1) (h2 : m ≤ h) :
    irange l h = irange l m ++ irange (m + 1) h := by
  unfold irange
  have e : (h + 1 - l).toNat = (m + 1 - l).toNat + (h + 1 - (m + 1)).toNat := by omega
  rw [e, List.range_add, List.map_append, List.map_map]
  congr 1
  apply List.map_congr_left
  intro a ha
  simp only [Function.comp]
  push_cast
  omega

theorem irange_empty {l h : Int} (hh : h < l) : irange l h = [] := by
  unfold irange
  have : (h + 1 - l).toNat = 0 := by omega
  rw [this]; rfl

/-- cutting an interval of length `n` into pieces of length `b` (the last may be shorter) -/
theorem irange_chop (lo hi b : Int) (hb : 0 < b) (k : Nat) (hk : hi + 1 - lo ≤ k * b)
    (hk' : ∀ j : Nat, j < k → lo + j * b ≤ hi) :
    ((List.range k).flatMap fun (j : Nat) =>
      irange (lo + j * b) (if lo + j * b + b - 1 < hi then lo + j * b + b - 1 else hi))
      = irange lo hi := by
  induction k generalizing lo with
  | zero => simp at hk; rw [irange_empty (by omega)]; rfl
  | succ k ih =>
    rw [List.range_succ_eq_map, List.flatMap_cons, List.flatMap_map]
    have e : ∀ j : Nat, lo + ((j + 1 : Nat) : Int) * b = (lo + b) + j * b := by
      intro j; push_cast; ring
    have h0 := hk' 0 (by omega)
    simp only [Nat.succ_eq_add_one, e]
    by_cases hk0 : k = 0
    · subst hk0
      simp only [List.range_zero, List.flatMap_nil, List.append_nil]
      simp at hk h0 ⊢
      have : (if lo + b - 1 < hi then lo + b - 1 else hi) = hi := by split <;> omega
      rw [this]
    · rw [ih (lo + b)]
      · have h1 := hk' 1 (by omega)
        have : lo + b - 1 < hi := by push_cast at h1; omega
        simp only [Nat.cast_zero, zero_mul, add_zero, this, if_true]
        rw [irange_append (l := lo) (m := lo + b - 1) (h := hi) (by omega) (by omega)]
        simp
      · push_cast at hk; have : ((k:Int) + 1) * b = k * b + b := by ring
        omega
      · intro j hj
        have := hk' (j + 1) (by omega)
        rw [e] at this; exact this

end GA
