import Verif.Model.SprsArray
import Mathlib.Tactic.Linarith
import Mathlib.Tactic.Ring

/-! # Lemmas: row and column limits of sparse arrays -/

namespace GA.Sprs
open GA.Model

/-- the quotient is characterised by the multiples -/
theorem ediv_iff {a d p : Int} (hd : 0 < d) : a / d = p ↔ d * p ≤ a ∧ a < d * (p + 1) := by
  constructor
  · rintro rfl
    have h1 := Int.mul_ediv_self_le (x := a) (k := d) (by omega)
    have h2 := Int.lt_mul_ediv_self_add (x := a) (k := d) hd
    exact ⟨h1, by rw [Int.mul_add, Int.mul_one]; exact h2⟩
  · rintro ⟨h1, h2⟩
    apply Int.le_antisymm
    · exact Int.lt_add_one_iff.1 (Int.ediv_lt_of_lt_mul hd (by rw [Int.mul_comm]; exact h2))
    · exact Int.le_ediv_of_mul_le hd (by rw [Int.mul_comm]; exact h1)

/-- `bound` is the quotient `dim*p/n` rounded up -/
theorem bound_spec {dim : Int} {n : Nat} {p : Int} (hn : 0 < n) (hd : (n : Int) ≤ dim) :
    dim * p ≤ bound dim n p * n ∧ bound dim n p * n < dim * p + n := by
  have hdim : 0 < dim := by omega
  have hn' : (0 : Int) < n := by omega
  obtain ⟨l1, l2⟩ := (ediv_iff (a := dim * p) (d := n) (p := dim * p / n) hn').1 rfl
  generalize hl : dim * p / (n : Int) = l at l1 l2
  have hval : ∀ b : Int, dim * p ≤ b * n → b * n < dim * p + n → b * n / dim = p := fun b h1 h2 => (ediv_iff hdim).2 ⟨h1, by
    rw [Int.mul_add, Int.mul_one]
    omega⟩
  have hup : ∃ b, stepUp dim n p (dim.toNat + 1) l = b ∧ dim * p ≤ b * n ∧ b * n < dim * p + n := by
    obtain ⟨f, hf⟩ : ∃ f, dim.toNat + 1 = f + 2 := ⟨dim.toNat - 1, by omega⟩
    rw [hf]
    by_cases he : l * n = dim * p
    · refine ⟨l, ?_, by omega, by omega⟩
      have := hval l (by omega) (by omega)
      simp [stepUp, this]
    · have e1 : (n : Int) * l = l * n := Int.mul_comm _ _
      have e2 : (n : Int) * (l + 1) = l * n + n := by ring
      have e3 : (l + 1) * (n : Int) = l * n + n := by ring
      have h1 : l * n / dim < p := Int.ediv_lt_of_lt_mul hdim (by rw [Int.mul_comm p dim]; omega)
      have h2 := hval (l + 1) (by omega) (by omega)
      refine ⟨l + 1, ?_, by omega, by omega⟩
      simp [stepUp, h1, h2]
  obtain ⟨b, hb, h1, h2⟩ := hup
  have : bound dim n p = b := by
    unfold bound
    rw [hl, hb]
    have := hval b h1 h2
    simp [stepDown, this]
  rw [this]
  exact ⟨h1, h2⟩

theorem bound_value {dim : Int} {n : Nat} {p : Int} (hn : 0 < n) (hd : (n : Int) ≤ dim) : bound dim n p * n / dim = p := by
  obtain ⟨h1, h2⟩ := bound_spec (p := p) hn hd
  exact (ediv_iff (by omega)).2 ⟨h1, by rw [Int.mul_add, Int.mul_one]; omega⟩

theorem ownLo_eq {dim : Int} {n p : Nat} (hn : 0 < n) (hd : (n : Int) ≤ dim) : ownLo dim n p = bound dim n p := by
  simp [ownLo, bound_value hn hd]

theorem bound_le_iff {dim : Int} {n : Nat} {p x : Int} (hn : 0 < n) (hd : (n : Int) ≤ dim) : bound dim n p ≤ x ↔ dim * p ≤ x * n := by
  obtain ⟨h1, h2⟩ := bound_spec (p := p) hn hd
  have hn' : (0 : Int) < n := by omega
  constructor
  · intro h
    nlinarith
  · intro h
    by_contra hlt
    have h3 : (x + 1) * n ≤ bound dim n p * n := Int.mul_le_mul_of_nonneg_right (by omega) (by omega)
    have h4 : (x + 1) * (n : Int) = x * n + n := by ring
    omega

theorem owner_lt {dim : Int} {n : Nat} {x : Int} (hn : 0 < n) : owner dim n x < n := by
  simp only [owner]
  split <;> omega

/-- a row or column belongs to the process that has it inside its limits -/
theorem owner_iff {dim : Int} {n p : Nat} {x : Int} (hd : (n : Int) ≤ dim) (hp : p < n) (h0 : 0 ≤ x) (h1 : x < dim) :
    owner dim n x = p ↔ bound dim n p ≤ x ∧ x ≤ limHi dim n p := by
  have hn : 0 < n := by omega
  have hdim : 0 < dim := by omega
  have hlt : x * n / dim < n := Int.ediv_lt_of_lt_mul hdim (by
    rw [Int.mul_comm (n : Int)]
    exact Int.mul_lt_mul_of_pos_right h1 (by omega))
  have hge : 0 ≤ x * n / dim := Int.ediv_nonneg (Int.mul_nonneg h0 (by omega)) (by omega)
  have h2 : owner dim n x = p ↔ x * n / dim = p := by
    simp only [owner]
    rw [if_neg (by omega)]
    omega
  rw [h2, ediv_iff hdim, bound_le_iff hn hd]
  refine and_congr_right fun _ => ?_
  simp only [limHi]
  split
  · rename_i h3
    have h4 := bound_le_iff (p := ((p : Int) + 1)) (x := x) hn hd
    omega
  · have : (p : Int) + 1 = n := by omega
    rw [this]
    have : x * (n : Int) < dim * n := Int.mul_lt_mul_of_pos_right h1 (by omega)
    constructor
    · intro _
      omega
    · intro _
      exact this

theorem bound_nonneg {dim : Int} {n p : Nat} (hn : 0 < n) (hd : (n : Int) ≤ dim) : 0 ≤ bound dim n p := by
  have h := (bound_le_iff (p := (p : Int)) (x := -1) hn hd).not
  have : ¬ (dim * (p : Int) ≤ -1 * (n : Int)) := by
    have : 0 ≤ dim * (p : Int) := Int.mul_nonneg (by omega) (by omega)
    omega
  have := h.2 this
  omega

theorem limHi_lt {dim : Int} {n p : Nat} (hp : p < n) (hd : (n : Int) ≤ dim) : limHi dim n p < dim := by
  simp only [limHi]
  split
  · have := (bound_le_iff (dim := dim) (n := n) (p := ((p : Int) + 1)) (x := dim) (by omega) hd).2 (by
      exact Int.mul_le_mul_of_nonneg_left (by omega) (by omega))
    omega
  · omega

/-- every process has at least one row -/
theorem limits_nonempty {dim : Int} {n p : Nat} (hp : p < n) (hd : (n : Int) ≤ dim) : bound dim n p ≤ limHi dim n p := by
  have hn : 0 < n := by omega
  obtain ⟨h1, h2⟩ := bound_spec (p := (p : Int)) hn hd
  have hdp : dim * ((p : Int) + 1) ≤ dim * n := Int.mul_le_mul_of_nonneg_left (by omega) (by omega)
  have hdp' : dim * ((p : Int) + 1) = dim * p + dim := by ring
  have hb : bound dim n p < dim := by
    by_contra hlt
    have : dim * n ≤ bound dim n p * n := Int.mul_le_mul_of_nonneg_right (by omega) (by omega)
    omega
  have h0 : 0 ≤ bound dim n p := bound_nonneg hn hd
  refine ((owner_iff hd hp h0 hb).1 ?_).2
  simp only [owner]
  rw [bound_value hn hd, if_neg (by omega)]
  omega

end GA.Sprs
