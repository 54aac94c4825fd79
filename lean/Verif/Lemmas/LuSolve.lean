import Verif.Model.LuSolve
import Verif.Spec.LuSolve
import Mathlib.Algebra.BigOperators.Ring.Finset
import Mathlib.Algebra.Order.AbsoluteValue.Basic
import Mathlib.Tactic.Ring
import Mathlib.Tactic.FieldSimp

/-! # Lemmas: Gaussian elimination -/

namespace GA.Lu
open GA.Spec.Lu Finset

variable {V : Type} [Field V]

theorem daxpy_true (lo n : Nat) (da : V) (dx dy : Nat → V) (i : Nat) [LinearOrder V] :
    daxpy true lo n da dx dy i = if lo ≤ i ∧ i < lo + n then dy i + da * dx i else dy i := by
  unfold daxpy
  by_cases h : n = 0
  · rw [if_pos h, if_neg (by omega)]
  · rw [if_neg h]
    by_cases h' : da = 0
    · rw [if_pos h', h']
      simp
    · rw [if_neg h', if_pos rfl]

theorem dscal_true (lo n : Nat) (da : V) (dx : Nat → V) (i : Nat) [LinearOrder V] :
    dscal true lo n da dx i = if lo ≤ i ∧ i < lo + n then da * dx i else dx i := by
  unfold dscal
  by_cases h : n = 0
  · rw [if_pos h, if_neg (by omega)]
  · rw [if_neg h, if_pos rfl]

theorem ddot_true (lo n : Nat) (dx dy : Nat → V) [LinearOrder V] : ddot true lo n dx dy = ∑ i ∈ range n, dx (lo + i) * dy (lo + i) := by
  have h : ∀ m (t : V), (List.range m).foldl (fun t i => t + dx (lo + i) * dy (lo + i)) t = t + ∑ i ∈ range m, dx (lo + i) * dy (lo + i) := by
    intro m
    induction m with
    | zero => intro t; simp
    | succ m ih =>
      intro t
      rw [List.range_succ, List.foldl_append, ih, sum_range_succ, List.foldl_cons, List.foldl_nil, add_assoc]
  unfold ddot
  by_cases hn : n = 0
  · rw [if_pos hn, hn]
    simp
  · rw [if_neg hn, if_pos rfl, h, zero_add]

/-- the row that takes the place of row `i` -/
def tr (l k i : Nat) : Nat := if i = k then l else if i = l then k else i

theorem swapIf_apply (l k : Nat) (c : Nat → V) (i : Nat) : swapIf l k c i = c (tr l k i) := by
  unfold swapIf tr
  by_cases h : l = k
  · subst h
    rw [if_neg (by simp)]
    by_cases hi : i = l
    · simp [hi]
    · simp [hi]
  · rw [if_pos h]
    unfold set
    by_cases hi : i = k
    · simp [hi]
    · by_cases hi' : i = l
      · simp [hi', h]
      · simp [hi, hi']

theorem tr_lt {l k n i : Nat} (hl : l < n) (hk : k < n) (hi : i < n) : tr l k i < n := by
  unfold tr
  split
  · exact hl
  · split
    · exact hk
    · exact hi

theorem tr_tr (l k i : Nat) : tr l k (tr l k i) = i := by
  unfold tr
  split <;> split <;> (try split) <;> omega

section
variable [LinearOrder V] {n : Nat}

theorem forward_apply (s : Fac V) (b : Nat → V) (k i : Nat) :
    forwardStep true n s b k i = if k + 1 ≤ i ∧ i < n then b (tr (s.ipvt k) k i) + b (s.ipvt k) * s.a k i else b (tr (s.ipvt k) k i) := by
  unfold forwardStep
  rw [daxpy_true, swapIf_apply]
  have : (k + 1 ≤ i ∧ i < k + 1 + (n - (k + 1))) ↔ (k + 1 ≤ i ∧ i < n) := by omega
  simp only [this]

/-- the pass depends on the elements of `b` below `n` only -/
theorem forward_congr {s : Fac V} {b b' : Nat → V} {k : Nat} (hk : k < n) (hl : s.ipvt k < n) (h : ∀ i, i < n → b i = b' i) (i : Nat) (hi : i < n) :
    forwardStep true n s b k i = forwardStep true n s b' k i := by
  rw [forward_apply, forward_apply, h _ hl, h _ (tr_lt hl hk hi)]

/-- the pass can be undone -/
theorem forward_inj {s : Fac V} {b b' : Nat → V} {k : Nat} (hk : k < n) (hl : s.ipvt k < n)
    (h : ∀ i, i < n → forwardStep true n s b k i = forwardStep true n s b' k i) (i : Nat) (hi : i < n) : b i = b' i := by
  have h0 : b (s.ipvt k) = b' (s.ipvt k) := by
    have := h k hk
    rw [forward_apply, forward_apply, if_neg (by omega), if_neg (by omega)] at this
    simpa [tr] using this
  have hj := tr_lt hl hk hi
  have := h _ hj
  rw [forward_apply, forward_apply, tr_tr, h0] at this
  split at this
  · exact add_right_cancel this
  · exact this

/-- the matrix in the middle of the elimination: the multipliers are not part of it -/
def act (k : Nat) (a : Nat → Nat → V) (j i : Nat) : V := if j < k ∧ j < i then 0 else a j i

/-- the product of a matrix, given by columns, and a vector -/
def app (n : Nat) (M : Nat → Nat → V) (x : Nat → V) (i : Nat) : V := ∑ j ∈ range n, M j i * x j

/-- one step with a pivot that is not zero is one pass on every column -/
theorem step_col {s : Fac V} {k : Nat} (hk : k + 1 < n) {l : Nat} (hl : idamax (n - k) k (s.a k) + k = l) (hp : s.a k l ≠ 0) {j i : Nat} (hj : j < n)
    (hi : i < n) : act (k + 1) (dgefaStep true n s k).a j i = forwardStep true n (dgefaStep true n s k) (act k s.a j) k i := by
  have hkl : k ≤ l := by omega
  have hs : dgefaStep true n s k = Fac.mk (fun j =>
        if j = k then dscal true (k + 1) (n - (k + 1)) (-1 / swapIf l k (s.a k) k) (swapIf l k (s.a k))
        else if k < j ∧ j < n then daxpy true (k + 1) (n - (k + 1)) (s.a j l)
          (dscal true (k + 1) (n - (k + 1)) (-1 / swapIf l k (s.a k) k) (swapIf l k (s.a k))) (swapIf l k (s.a j))
        else s.a j)
      (fun x => if x = k then l else s.ipvt x) s.info := by
    unfold dgefaStep
    dsimp only
    rw [hl, if_pos hp]
  have hpv : (dgefaStep true n s k).ipvt k = l := by
    rw [hs]
    exact if_pos rfl
  have hak : (dgefaStep true n s k).a k = dscal true (k + 1) (n - (k + 1)) (-1 / swapIf l k (s.a k) k) (swapIf l k (s.a k)) := by
    rw [hs]
    exact if_pos rfl
  have hlow : j < k → (dgefaStep true n s k).a j = s.a j := by
    intro h
    rw [hs]
    exact (if_neg (by omega)).trans (if_neg (by omega))
  have hup : k < j → (dgefaStep true n s k).a j = daxpy true (k + 1) (n - (k + 1)) (s.a j l) ((dgefaStep true n s k).a k) (swapIf l k (s.a j)) := by
    intro h
    rw [hak, hs]
    exact (if_neg (by omega)).trans (if_pos ⟨h, hj⟩)
  clear hs
  rw [forward_apply, hpv]
  have hin : (k + 1 ≤ i ∧ i < k + 1 + (n - (k + 1))) ↔ (k + 1 ≤ i ∧ i < n) := by omega
  have hck : swapIf l k (s.a k) k = s.a k l := by
    rw [swapIf_apply]
    simp [tr]
  rcases Nat.lt_trichotomy j k with hjk | hjk | hjk
  · -- a column that is done
    have e0 : act k s.a j l = 0 := by
      unfold act
      rw [if_pos ⟨hjk, by omega⟩]
    rw [e0]
    simp only [zero_mul, add_zero, ite_self]
    unfold act
    rw [hlow hjk]
    unfold tr
    by_cases h1 : j < i
    · rw [if_pos ⟨by omega, h1⟩, if_pos ⟨hjk, by split <;> (try split) <;> omega⟩]
    · rw [if_neg (by omega)]
      have : (if i = k then l else if i = l then k else i) = i := by
        rw [if_neg (by omega), if_neg (by omega)]
      rw [this, if_neg (by omega)]
  · -- the column of the pivot
    subst hjk
    have e1 : ∀ i, act j s.a j i = s.a j i := by
      intro i
      unfold act
      rw [if_neg (by omega)]
    rw [e1, e1, hak, dscal_true, hck, swapIf_apply]
    unfold act
    by_cases h1 : j < i
    · rw [if_pos ⟨by omega, h1⟩, if_pos ⟨h1, hi⟩, if_pos (hin.2 ⟨h1, hi⟩)]
      field_simp
      ring
    · rw [if_neg (by omega), if_neg (by omega), hak, dscal_true, if_neg (by omega), swapIf_apply]
  · have e1 : ∀ i, act k s.a j i = s.a j i := by
      intro i
      unfold act
      rw [if_neg (by omega)]
    rw [e1, e1]
    unfold act
    rw [if_neg (by omega), hup hjk, daxpy_true, swapIf_apply]
    simp only [hin]

/-- a pass is linear -/
theorem forward_sum (s : Fac V) (M : Nat → Nat → V) (x : Nat → V) (k i : Nat) :
    forwardStep true n s (app n M x) k i = ∑ j ∈ range n, forwardStep true n s (M j) k i * x j := by
  rw [forward_apply]
  unfold app
  split
  · next h =>
    rw [sum_mul, ← sum_add_distrib]
    apply sum_congr rfl
    intro j _
    rw [forward_apply, if_pos h]
    ring
  · next h =>
    apply sum_congr rfl
    intro j _
    rw [forward_apply, if_neg h]

theorem step_app {s : Fac V} {k : Nat} (hk : k + 1 < n) (hp : s.a k (idamax (n - k) k (s.a k) + k) ≠ 0) (x : Nat → V) {i : Nat}
    (hi : i < n) : app n (act (k + 1) (dgefaStep true n s k).a) x i = forwardStep true n (dgefaStep true n s k) (app n (act k s.a) x) k i := by
  rw [forward_sum]
  unfold app
  apply sum_congr rfl
  intro j hj
  rw [step_col hk rfl hp (mem_range.1 hj) hi]

/-- later steps change neither the columns nor the pivots before them -/
theorem step_keep (s : Fac V) {k j : Nat} (hj : j < k) : (dgefaStep true n s k).a j = s.a j ∧ (dgefaStep true n s k).ipvt j = s.ipvt j := by
  unfold dgefaStep
  dsimp only
  split
  · dsimp only
    rw [if_neg (by omega), if_neg (by omega), if_neg (by omega)]
    exact ⟨rfl, rfl⟩
  · dsimp only
    rw [if_neg (by omega)]
    exact ⟨rfl, rfl⟩

/-- the state after `k` steps -/
def after (n : Nat) (a : Nat → Nat → V) (ipvt0 : Nat → Nat) (k : Nat) : Fac V := (List.range k).foldl (dgefaStep true n) ⟨a, ipvt0, 0⟩

theorem after_succ (a : Nat → Nat → V) (ipvt0 : Nat → Nat) (k : Nat) : after n a ipvt0 (k + 1) = dgefaStep true n (after n a ipvt0 k) k := by
  unfold after
  rw [List.range_succ, List.foldl_append]
  rfl

theorem after_keep (a : Nat → Nat → V) (ipvt0 : Nat → Nat) {k m j : Nat} (hj : j < k) (hm : k ≤ m) :
    (after n a ipvt0 m).a j = (after n a ipvt0 k).a j ∧ (after n a ipvt0 m).ipvt j = (after n a ipvt0 k).ipvt j := by
  induction m with
  | zero =>
    have : k = 0 := by omega
    omega
  | succ m ih =>
    by_cases h : k = m + 1
    · rw [h]
      exact ⟨rfl, rfl⟩
    · obtain ⟨h1, h2⟩ := ih (by omega)
      obtain ⟨h3, h4⟩ := step_keep (n := n) (after n a ipvt0 m) (k := m) (j := j) (by omega)
      rw [after_succ]
      exact ⟨h3.trans h1, h4.trans h2⟩

/-- the pivot of step `k` -/
def pivot (n : Nat) (a : Nat → Nat → V) (ipvt0 : Nat → Nat) (k : Nat) : V :=
  (after n a ipvt0 k).a k (idamax (n - k) k ((after n a ipvt0 k).a k) + k)

/-- a pass of the solution with the state `t` is one with the state `s` if both have the same column and pivot -/
theorem forward_state {s t : Fac V} {k : Nat} (h1 : s.a k = t.a k) (h2 : s.ipvt k = t.ipvt k) (b : Nat → V) : forwardStep true n s b k = forwardStep true n t b k := by
  unfold forwardStep
  rw [h1, h2]

end

section
variable [LinearOrder V] [IsStrictOrderedRing V] {n : Nat}

theorem idamax_spec (m lo : Nat) (dx : Nat → V) (hm : 0 < m) :
    idamax m lo dx < m ∧ (dx (lo + idamax m lo dx) = 0 → ∀ i, i < m → dx (lo + i) = 0) := by
  unfold idamax
  by_cases h1 : m = 1
  · rw [if_pos h1]
    refine ⟨by omega, fun h i hi => ?_⟩
    have : i = 0 := by omega
    rw [this]
    exact h
  · rw [if_neg h1]
    have key : ∀ k, let s := (List.range k).foldl (fun s i => if s.2 < |dx (lo + (i + 1))| then (i + 1, |dx (lo + (i + 1))|) else s) (0, |dx lo|)
        s.1 < k + 1 ∧ s.2 = |dx (lo + s.1)| ∧ ∀ i, i < k + 1 → |dx (lo + i)| ≤ s.2 := by
      intro k
      induction k with
      | zero =>
        refine ⟨by simp, by simp, ?_⟩
        intro i hi
        have : i = 0 := by omega
        simp [this]
      | succ k ih =>
        rw [List.range_succ, List.foldl_append, List.foldl_cons, List.foldl_nil]
        revert ih
        dsimp only
        generalize (List.range k).foldl (fun s i => if s.2 < |dx (lo + (i + 1))| then (i + 1, |dx (lo + (i + 1))|) else s) (0, |dx lo|) = s
        rintro ⟨i1, i2, i3⟩
        by_cases hc : s.2 < |dx (lo + (k + 1))|
        · rw [if_pos hc]
          refine ⟨by simp, rfl, fun i hi => ?_⟩
          dsimp only
          by_cases hik : i = k + 1
          · rw [hik]
          · exact (i3 i (by omega)).trans hc.le
        · rw [if_neg hc]
          refine ⟨by omega, i2, fun i hi => ?_⟩
          by_cases hik : i = k + 1
          · rw [hik]
            exact not_lt.1 hc
          · exact i3 i (by omega)
    obtain ⟨k1, k2, k3⟩ := key (m - 1)
    refine ⟨by omega, fun h i hi => ?_⟩
    have := k3 i (by omega)
    rw [k2, h, abs_zero] at this
    exact abs_eq_zero.1 (le_antisymm this (abs_nonneg _))

theorem piv_lt (s : Fac V) {k : Nat} (hk : k < n) : (dgefaStep true n s k).ipvt k < n := by
  have := (idamax_spec (n - k) k (s.a k) (by omega)).1
  unfold dgefaStep
  dsimp only
  split <;> (dsimp only; rw [if_pos rfl]; omega)

/-- the passes up to `k` with the final pivots and multipliers -/
def passes (n : Nat) (s : Fac V) (b : Nat → V) (k : Nat) : Nat → V := (List.range k).foldl (forwardStep true n s) b

omit [IsStrictOrderedRing V] in
theorem passes_succ (s : Fac V) (b : Nat → V) (k : Nat) : passes n s b (k + 1) = forwardStep true n s (passes n s b k) k := by
  unfold passes
  rw [List.range_succ, List.foldl_append]
  rfl

theorem after_piv (a : Nat → Nat → V) (ipvt0 : Nat → Nat) {k m : Nat} (hk : k < m) (hn : k < n) : (after n a ipvt0 m).ipvt k < n := by
  rw [(after_keep a ipvt0 (Nat.lt_succ_self k) hk).2, after_succ]
  exact piv_lt _ hn

/-- the passes take the product with the matrix to the product with the eliminated matrix -/
theorem passes_app (a : Nat → Nat → V) (ipvt0 : Nat → Nat) (x : Nat → V) {m : Nat} : ∀ k, k + 1 ≤ n → k ≤ m → (∀ j, j < k → pivot n a ipvt0 j ≠ 0) →
    ∀ i, i < n → passes n (after n a ipvt0 m) (app n a x) k i = app n (act k (after n a ipvt0 k).a) x i := by
  intro k
  induction k with
  | zero =>
    intro _ _ _ i _
    have : act 0 (after n a ipvt0 0).a = a := by
      funext j i
      unfold act
      rw [if_neg (by omega)]
      rfl
    rw [this]
    rfl
  | succ k ih =>
    intro h1 h2 h3 i hi
    have ih := ih (by omega) (by omega) fun j hj => h3 j (by omega)
    rw [passes_succ, forward_congr (by omega) (after_piv a ipvt0 (by omega) (by omega)) ih i hi, after_succ]
    rw [step_app h1 (h3 k (by omega)) x hi]
    have := after_keep (n := n) a ipvt0 (Nat.lt_succ_self k) h2
    rw [after_succ] at this
    rw [forward_state this.1 this.2]

theorem passes_inj (a : Nat → Nat → V) (ipvt0 : Nat → Nat) (b b' : Nat → V) {m : Nat} : ∀ k, k ≤ n → k ≤ m →
    (∀ i, i < n → passes n (after n a ipvt0 m) b k i = passes n (after n a ipvt0 m) b' k i) → ∀ i, i < n → b i = b' i := by
  intro k
  induction k with
  | zero => intro _ _ h; exact h
  | succ k ih =>
    intro h1 h2 h3
    apply ih (by omega) (by omega)
    intro i hi
    refine forward_inj (s := after n a ipvt0 m) (k := k) (by omega) (after_piv a ipvt0 (by omega) (by omega)) ?_ i hi
    intro i hi
    have := h3 i hi
    rw [passes_succ, passes_succ] at this
    exact this

theorem passes_congr (a : Nat → Nat → V) (ipvt0 : Nat → Nat) {b b' : Nat → V} {m : Nat} (hb : ∀ i, i < n → b i = b' i) : ∀ k, k ≤ n → k ≤ m →
    ∀ i, i < n → passes n (after n a ipvt0 m) b k i = passes n (after n a ipvt0 m) b' k i := by
  intro k
  induction k with
  | zero => intro _ _; exact hb
  | succ k ih =>
    intro h1 h2 i hi
    rw [passes_succ, passes_succ]
    exact forward_congr (by omega) (after_piv a ipvt0 (by omega) (by omega)) (ih (by omega) (by omega)) i hi

theorem passes_zero (a : Nat → Nat → V) (ipvt0 : Nat → Nat) {m : Nat} : ∀ k, k ≤ n → k ≤ m →
    ∀ i, i < n → passes n (after n a ipvt0 m) (fun _ => 0) k i = 0 := by
  intro k
  induction k with
  | zero => intro _ _ i _; rfl
  | succ k ih =>
    intro h1 h2 i hi
    rw [passes_succ, forward_congr (by omega) (after_piv a ipvt0 (by omega) (by omega)) (ih (by omega) (by omega)) i hi, forward_apply]
    simp

end

section
variable [LinearOrder V]

/-- the passes from `m-1` down to 0 -/
def backs (s : Fac V) : Nat → (Nat → V) → Nat → V
  | 0, b => b
  | m + 1, b => backs s m (backStep true s b m)

theorem backs_fold (s : Fac V) (n : Nat) (b : Nat → V) : (List.range n).foldl (fun y kb => backStep true s y (n - (kb + 1))) b = backs s n b := by
  induction n generalizing b with
  | zero => rfl
  | succ n ih =>
    rw [List.range_succ_eq_map, List.foldl_cons, List.foldl_map]
    show _ = backs s n (backStep true s b n)
    rw [← ih]
    have : ∀ (y : Nat → V) (kb : Nat), backStep true s y (n + 1 - (kb.succ + 1)) = backStep true s y (n - (kb + 1)) := by
      intro y kb
      congr 1
      omega
    simp only [this]
    rfl

theorem back_apply (s : Fac V) (b : Nat → V) (k i : Nat) :
    backStep true s b k i = if i = k then b k / s.a k k else if i < k then b i - s.a k i * (b k / s.a k k) else b i := by
  unfold backStep
  rw [daxpy_true]
  unfold set
  by_cases h : i = k
  · subst h
    simp
  · rw [if_neg h, if_neg h, if_pos rfl]
    by_cases h' : i < k
    · rw [if_pos ⟨by omega, by omega⟩, if_pos h']
      ring
    · rw [if_neg (by omega), if_neg h']

theorem backs_ge (s : Fac V) (m : Nat) (b : Nat → V) (i : Nat) (hi : m ≤ i) : backs s m b i = b i := by
  induction m generalizing b with
  | zero => rfl
  | succ m ih =>
    show backs s m (backStep true s b m) i = b i
    rw [ih _ (by omega), back_apply, if_neg (by omega), if_neg (by omega)]

/-- back substitution solves the triangular system, and only its result does -/
theorem backs_iff (s : Fac V) (x : Nat → V) (m : Nat) (hd : ∀ k, k < m → s.a k k ≠ 0) (b : Nat → V) :
    (∀ i, i < m → ∑ j ∈ range m, (if j < i then 0 else s.a j i) * x j = b i) ↔ ∀ i, i < m → x i = backs s m b i := by
  induction m generalizing b with
  | zero => simp
  | succ m ih =>
    have ih := ih (fun k hk => hd k (by omega)) (backStep true s b m)
    have hm := hd m (by omega)
    have hlast : (∑ j ∈ range (m + 1), (if j < m then 0 else s.a j m) * x j = b m) ↔ x m = b m / s.a m m := by
      rw [sum_range_succ, sum_eq_zero, zero_add, if_neg (by omega)]
      · constructor
        · intro h
          rw [← h]
          field_simp
        · intro h
          rw [h]
          field_simp
      · intro j hj
        rw [if_pos (mem_range.1 hj), zero_mul]
    have hval : backs s (m + 1) b m = b m / s.a m m := by
      show backs s m (backStep true s b m) m = _
      rw [backs_ge _ _ _ _ (Nat.le_refl m), back_apply, if_pos rfl]
    constructor
    · intro h
      have hx := hlast.1 (h m (by omega))
      have h2 := ih.1 (by
        intro i hi
        have := h i (by omega)
        rw [sum_range_succ, if_neg (by omega)] at this
        rw [back_apply, if_neg (by omega), if_pos hi, ← hx, ← this]
        ring)
      intro i hi
      by_cases him : i = m
      · rw [him, hval, hx]
      · exact h2 i (by omega)
    · intro h
      have hx : x m = b m / s.a m m := by rw [h m (by omega), hval]
      have h2 := ih.2 fun i hi => h i (by omega)
      intro i hi
      by_cases him : i = m
      · rw [him]
        exact hlast.2 hx
      · have := h2 i (by omega)
        rw [back_apply, if_neg him, if_pos (by omega), ← hx] at this
        rw [sum_range_succ, if_neg (by omega), this]
        ring

end

section
variable [LinearOrder V] [IsStrictOrderedRing V] {n : Nat}

/-- the diagonal after a step with a pivot that is not zero -/
theorem diag_step (a : Nat → Nat → V) (ipvt0 : Nat → Nat) {k m : Nat} (hm : k < m) (hp : pivot n a ipvt0 k ≠ 0) :
    (after n a ipvt0 m).a k k = pivot n a ipvt0 k := by
  rw [(after_keep a ipvt0 (Nat.lt_succ_self k) hm).1, after_succ]
  unfold pivot at hp ⊢
  unfold dgefaStep
  dsimp only
  rw [if_pos hp]
  dsimp only
  rw [if_pos rfl, dscal_true, if_neg (by omega), swapIf_apply]
  simp [tr]

theorem diag_skip (a : Nat → Nat → V) (ipvt0 : Nat → Nat) {k m : Nat} (hn : k < n) (hm : k < m) (hp : pivot n a ipvt0 k = 0) :
    (after n a ipvt0 m).a k k = 0 := by
  rw [(after_keep a ipvt0 (Nat.lt_succ_self k) hm).1, after_succ]
  have h0 := (idamax_spec (n - k) k ((after n a ipvt0 k).a k) (by omega)).2 (by
    rw [Nat.add_comm]
    exact hp) 0 (by omega)
  unfold pivot at hp
  unfold dgefaStep
  dsimp only
  rw [if_neg (not_not.2 hp)]
  exact h0

/-- a column without a pivot: the matrix is singular -/
theorem singular_of (a : Nat → Nat → V) (ipvt0 : Nat → Nat) {k : Nat} (hn : k < n) (h : ∀ j, j < k → pivot n a ipvt0 j ≠ 0)
    (hz : ∀ i, k ≤ i → i < n → (after n a ipvt0 k).a k i = 0) : Singular n a := by
  have hd : ∀ j, j < k → (after n a ipvt0 k).a j j ≠ 0 := fun j hj => by
    rw [diag_step a ipvt0 hj (h j hj)]
    exact h j hj
  let y := backs (after n a ipvt0 k) k fun i => -(after n a ipvt0 k).a k i
  have hy := (backs_iff (after n a ipvt0 k) y k hd fun i => -(after n a ipvt0 k).a k i).2 fun i _ => rfl
  let x : Nat → V := fun i => if i < k then y i else if i = k then 1 else 0
  refine ⟨x, ⟨k, hn, ?_⟩, ?_⟩
  · show (if k < k then y k else if k = k then (1 : V) else 0) ≠ 0
    rw [if_neg (by omega), if_pos rfl]
    exact one_ne_zero
  · have key : ∀ i, i < n → app n a x i = (fun _ => (0 : V)) i := by
      refine passes_inj (m := k) a ipvt0 _ _ k (by omega) (Nat.le_refl k) fun i hi => ?_
      rw [passes_app a ipvt0 x k (by omega) (Nat.le_refl k) h i hi, passes_zero a ipvt0 k (by omega) (Nat.le_refl k) i hi]
      unfold app
      have hsplit : ∑ j ∈ range n, act k (after n a ipvt0 k).a j i * x j = ∑ j ∈ range (k + 1), act k (after n a ipvt0 k).a j i * x j := by
        symm
        apply sum_subset (range_mono (by omega))
        intro j _ hj
        have hj : ¬ j < k + 1 := fun h => hj (mem_range.2 h)
        show _ * (if j < k then y j else if j = k then (1 : V) else 0) = 0
        rw [if_neg (by omega), if_neg (by omega), mul_zero]
      rw [hsplit, sum_range_succ]
      have hxk : x k = 1 := by
        show (if k < k then y k else if k = k then (1 : V) else 0) = 1
        rw [if_neg (by omega), if_pos rfl]
      have hxj : ∀ j ∈ range k, act k (after n a ipvt0 k).a j i * x j = (if j < i then 0 else (after n a ipvt0 k).a j i) * y j := by
        intro j hj
        have hj := mem_range.1 hj
        have : x j = y j := by
          show (if j < k then y j else if j = k then (1 : V) else 0) = y j
          rw [if_pos hj]
        rw [this]
        unfold act
        by_cases hji : j < i
        · rw [if_pos ⟨hj, hji⟩, if_pos hji]
        · rw [if_neg (by omega), if_neg hji]
      have hak : act k (after n a ipvt0 k).a k i = (after n a ipvt0 k).a k i := by
        unfold act
        rw [if_neg (by omega)]
      rw [sum_congr rfl hxj, hxk, mul_one, hak]
      by_cases hik : i < k
      · rw [hy i hik]
        ring
      · rw [hz i (by omega) hi, add_zero]
        apply sum_eq_zero
        intro j hj
        have hj := mem_range.1 hj
        rw [if_pos (by omega), zero_mul]
    exact key

/-- with pivots that are not zero the equations are those of the triangular matrix -/
theorem solve_iff (a : Nat → Nat → V) (ipvt0 : Nat → Nat) (hn : 0 < n) (h : ∀ j, j + 1 < n → pivot n a ipvt0 j ≠ 0)
    (hlast : (after n a ipvt0 (n - 1)).a (n - 1) (n - 1) ≠ 0) (b x : Nat → V) :
    Solves false n a b x ↔ ∀ i, i < n → x i = backs (after n a ipvt0 (n - 1)) n (passes n (after n a ipvt0 (n - 1)) b (n - 1)) i := by
  have hd : ∀ k, k < n → (after n a ipvt0 (n - 1)).a k k ≠ 0 := fun k hk => by
    by_cases hk1 : k = n - 1
    · rw [hk1]
      exact hlast
    · rw [diag_step a ipvt0 (by omega) (h k (by omega))]
      exact h k (by omega)
  rw [← backs_iff _ x n hd]
  have hU : ∀ i, i < n → passes n (after n a ipvt0 (n - 1)) (app n a x) (n - 1) i =
      ∑ j ∈ range n, (if j < i then 0 else (after n a ipvt0 (n - 1)).a j i) * x j := by
    intro i hi
    rw [passes_app a ipvt0 x (n - 1) (by omega) (Nat.le_refl _) (fun j hj => h j (by omega)) i hi]
    unfold app
    apply sum_congr rfl
    intro j _
    congr 1
    unfold act
    by_cases hji : j < i
    · rw [if_pos ⟨by omega, hji⟩, if_pos hji]
    · rw [if_neg (by omega), if_neg hji]
  have hS : Solves false n a b x ↔ ∀ i, i < n → app n a x i = b i := by
    unfold Solves app
    simp only [Bool.false_eq_true, if_false]
  rw [hS]
  constructor
  · intro hx i hi
    rw [← hU i hi]
    exact passes_congr a ipvt0 hx (n - 1) (by omega) (Nat.le_refl _) i hi
  · intro hx
    refine passes_inj (m := n - 1) a ipvt0 _ _ (n - 1) (by omega) (Nat.le_refl _) fun i hi => ?_
    rw [hU i hi, hx i hi]

end

end GA.Lu
