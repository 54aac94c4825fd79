import Verif.Model.Stamp
import Mathlib.Data.Nat.Cast.Basic

namespace GA.Model.Stamp

variable {len D : Nat} {m : Int → Nat} {data : Nat → Nat}

theorem store4_in (m : Int → Nat) (p : Int) {j : Nat} (hj : j < 4) : store4 m p (p + j) = stampByte j := by
  rw [store4, if_pos (by omega)]
  congr 1
  omega

theorem store4_out (m : Int → Nat) {p x : Int} (h : x < p ∨ p + 4 ≤ x) : store4 m p x = m x := by
  rw [store4, if_neg (by omega)]

theorem fold_out (m : Int → Nat) {x : Int} : ∀ {n : Nat}, (∀ k < n, x < D + 1024 + 1024 * (k : Int) ∨ D + 1024 + 1024 * (k : Int) + 4 ≤ x) →
    (List.range n).foldl (fun (m : Int → Nat) (k : Nat) => store4 m (D + 1024 + 1024 * (k : Int))) m x = m x := by
  intro n
  induction n with
  | zero => intro _; rfl
  | succ n ih =>
    intro h
    rw [List.range_succ, List.foldl_append, List.foldl_cons, List.foldl_nil, store4_out _ (h n (by omega))]
    exact ih fun k hk => h k (by omega)

theorem fold_in (m : Int → Nat) {k j : Nat} (hj : j < 4) : ∀ {n : Nat}, k < n →
    (List.range n).foldl (fun (m : Int → Nat) (k : Nat) => store4 m (D + 1024 + 1024 * (k : Int))) m (D + 1024 + 1024 * (k : Int) + j) = stampByte j := by
  intro n
  induction n with
  | zero => intro h; omega
  | succ n ih =>
    intro h
    rw [List.range_succ, List.foldl_append, List.foldl_cons, List.foldl_nil]
    by_cases hk : k = n
    · rw [hk]
      exact store4_in _ _ hj
    · rw [store4_out _ (by omega)]
      exact ih (by omega)

theorem lastSent_eq : lastSent len D = lastPos len D := by
  unfold lastSent lastPos dataStart
  split <;> simp

theorem num_iff {k : Nat} : k < numStamps len D ↔ D + 1024 + 1024 * (k : Int) < lastPos len D := by
  unfold numStamps
  rw [lastSent_eq]
  omega

/-- an arrived byte does not matter for a place behind it -/
theorem arrived_out {a : Nat} (m : Int → Nat) {x : Int} (h : (dataStart len D : Int) + a ≤ x) : arrived len D data a m x = m x := by
  rw [arrived, if_neg (by omega)]

theorem isStamp_of (m : Int → Nat) {p : Int} (h : ∀ j < 4, m (p + (j : Nat)) = stampByte j) : isStamp m p = true := by
  have h0 : m p = stampByte 0 := by simpa using h 0 (by omega)
  have h1 : m (p + 1) = stampByte 1 := h 1 (by omega)
  have h2 : m (p + 2) = stampByte 2 := h 2 (by omega)
  have h3 : m (p + 3) = stampByte 3 := h 3 (by omega)
  simp [isStamp, h0, h1, h2, h3]

/-- a stamp that has not been reached is still there -/
theorem stamp_mid {a k : Nat} (hk : D + 1024 + 1024 * (k : Int) < lastPos len D) (ha : (dataStart len D : Int) + a ≤ D + 1024 + 1024 * (k : Int)) :
    isStamp (arrived len D data a (stamped len D m)) (D + 1024 + 1024 * (k : Int)) = true := by
  refine isStamp_of _ fun j hj => ?_
  rw [arrived_out _ (by omega), stamped, fold_in _ hj (num_iff.2 hk)]

theorem stamp_last {a : Nat} (hno : ∀ k : Nat, D + 1024 + 1024 * (k : Int) < lastPos len D → D + 1024 + 1024 * (k : Int) + 4 ≤ lastPos len D)
    (ha : (dataStart len D : Int) + a ≤ lastPos len D) : isStamp (arrived len D data a (stamped len D m)) (lastPos len D) = true := by
  refine isStamp_of _ fun j hj => ?_
  rw [arrived_out _ (by omega), stamped, lastSent_eq, fold_out, store4_in _ _ hj]
  intro k hk
  have := hno k (num_iff.1 hk)
  omega

/-- values of `*bytes_done` between calls -/
def Good (len D done : Nat) : Prop := done = 0 ∨ ∃ k : Nat, (dataStart len D : Int) + done = D + 1024 * ((k : Int) + 1)

/-- the next place to look at -/
theorem next_ptr {done : Nat} (hD : D < 1024) (hg : Good len D done) : ∃ k : Nat,
    (D : Int) + 1024 + 4 * ((Int.tdiv (dataStart len D + done - (D + 1024)) 4 + 256).tdiv 256 * 256) = D + 1024 + 1024 * (k : Int) ∧
    0 ≤ (Int.tdiv (dataStart len D + done - (D + 1024)) 4 + 256).tdiv 256 * 256 ∧ (dataStart len D : Int) + done < D + 1024 + 1024 * (k : Int) := by
  rcases hg with rfl | ⟨k, hk⟩
  · refine ⟨0, ?_⟩
    have hs : dataStart len D ≤ D := by unfold dataStart; split <;> omega
    have h0 : (Int.tdiv (dataStart len D + (0 : Nat) - ((D : Int) + 1024)) 4 + 256).tdiv 256 = 0 := by
      rw [show (dataStart len D : Int) + (0 : Nat) - ((D : Int) + 1024) = -((D - dataStart len D + 1024 : Nat) : Int) by omega, Int.neg_tdiv,
        Int.tdiv_eq_ediv_of_nonneg (show (0 : Int) ≤ ((D - dataStart len D + 1024 : Nat) : Int) by omega)]
      have h1 : ((D - dataStart len D + 1024 : Nat) : Int) / 4 ≤ 511 := by omega
      have h2 : 256 ≤ ((D - dataStart len D + 1024 : Nat) : Int) / 4 := by omega
      generalize ((D - dataStart len D + 1024 : Nat) : Int) / 4 = q at h1 h2
      rw [show -q + 256 = -(q - 256) by omega, Int.neg_tdiv, Int.tdiv_eq_ediv_of_nonneg (by omega)]
      omega
    rw [h0]
    omega
  · refine ⟨k + 1, ?_⟩
    have h0 : (Int.tdiv (dataStart len D + done - ((D : Int) + 1024)) 4 + 256).tdiv 256 = (k : Int) + 1 := by
      rw [hk, show (D : Int) + 1024 * ((k : Int) + 1) - (D + 1024) = 1024 * k by omega, Int.tdiv_eq_ediv_of_nonneg (show (0 : Int) ≤ 1024 * (k : Int) by omega),
        Int.tdiv_eq_ediv_of_nonneg (by omega)]
      omega
    rw [h0]
    push_cast
    omega

end GA.Model.Stamp
