import Verif.Lemmas.LuSolve
import Mathlib.Algebra.BigOperators.Group.Finset.Sigma

/-! # Lemmas: the transposed system and the calls -/

namespace GA.Lu
open GA.Spec.Lu Finset

variable {V : Type} [Field V] [LinearOrder V] {n : Nat}

/-- the product of two vectors -/
def dot (n : Nat) (x c : Nat → V) : V := ∑ i ∈ range n, x i * c i

omit [LinearOrder V] in
theorem sum_tail (k n : Nat) (hk : k < n) (f : Nat → V) :
    ∑ i ∈ range n, (if k + 1 ≤ i ∧ i < n then f i else 0) = ∑ i ∈ range (n - (k + 1)), f (k + 1 + i) := by
  obtain ⟨m, rfl⟩ : ∃ m, n = k + 1 + m := ⟨n - (k + 1), by omega⟩
  rw [sum_range_add, sum_eq_zero, zero_add, Nat.add_sub_cancel_left]
  · apply sum_congr rfl
    intro i hi
    have := mem_range.1 hi
    rw [if_pos ⟨by omega, by omega⟩]
  · intro i hi
    have := mem_range.1 hi
    rw [if_neg (by omega)]

omit [LinearOrder V] in
theorem sum_tr {l k : Nat} (hl : l < n) (hk : k < n) (f g : Nat → V) :
    ∑ i ∈ range n, f (tr l k i) * g i = ∑ i ∈ range n, f i * g (tr l k i) := by
  refine sum_bij' (fun i _ => tr l k i) (fun i _ => tr l k i) ?_ ?_ ?_ ?_ ?_
  · intro i hi
    exact mem_range.2 (tr_lt hl hk (mem_range.1 hi))
  · intro i hi
    exact mem_range.2 (tr_lt hl hk (mem_range.1 hi))
  · intro i _
    exact tr_tr l k i
  · intro i _
    exact tr_tr l k i
  · intro i _
    rw [tr_tr]

/-- a pass of the transposed solution is the transpose of a pass -/
theorem backT_dot (s : Fac V) {k : Nat} (hk : k < n) (hl : s.ipvt k < n) (x c : Nat → V) :
    dot n (backT true n s x k) c = dot n x (forwardStep true n s c k) := by
  unfold dot backT
  have h1 : ∀ i, swapIf (s.ipvt k) k (set x k (x k + ddot true (k + 1) (n - (k + 1)) (s.a k) x)) i =
      set x k (x k + ddot true (k + 1) (n - (k + 1)) (s.a k) x) (tr (s.ipvt k) k i) := fun i => swapIf_apply _ _ _ _
  simp only [h1]
  rw [sum_tr hl hk, ddot_true]
  have h2 : ∀ i ∈ range n, set x k (x k + ∑ i ∈ range (n - (k + 1)), s.a k (k + 1 + i) * x (k + 1 + i)) i * c (tr (s.ipvt k) k i) =
      x i * c (tr (s.ipvt k) k i) + if i = k then (∑ i ∈ range (n - (k + 1)), s.a k (k + 1 + i) * x (k + 1 + i)) * c (s.ipvt k) else 0 := by
    intro i _
    unfold set
    by_cases h : i = k
    · rw [if_pos h, if_pos h, h]
      have : tr (s.ipvt k) k k = s.ipvt k := by simp [tr]
      rw [this]
      ring
    · rw [if_neg h, if_neg h, add_zero]
  rw [sum_congr rfl h2, sum_add_distrib, sum_ite_eq', if_pos (mem_range.2 hk)]
  have h3 : ∀ i ∈ range n, x i * forwardStep true n s c k i =
      x i * c (tr (s.ipvt k) k i) + if k + 1 ≤ i ∧ i < n then x i * (c (s.ipvt k) * s.a k i) else 0 := by
    intro i _
    rw [forward_apply]
    split
    · ring
    · ring
  rw [sum_congr rfl h3, sum_add_distrib, sum_tail k n hk, sum_mul]
  congr 1
  apply sum_congr rfl
  intro i _
  ring

/-- the passes from `m` down to 1 -/
def backsT (n : Nat) (s : Fac V) : Nat → (Nat → V) → Nat → V
  | 0, b => b
  | m + 1, b => backsT n s m (backT true n s b (m + 1))

theorem backsT_fold (s : Fac V) (m : Nat) (b : Nat → V) :
    (List.range m).foldl (fun y i => backT true n s y (m + 2 - (i + 1 + 1))) b = backsT n s m b := by
  induction m generalizing b with
  | zero => rfl
  | succ m ih =>
    rw [List.range_succ_eq_map, List.foldl_cons, List.foldl_map]
    show _ = backsT n s m (backT true n s b (m + 1))
    rw [← ih]
    have : ∀ (y : Nat → V) (i : Nat), backT true n s y (m + 1 + 2 - (i.succ + 1 + 1)) = backT true n s y (m + 2 - (i + 1 + 1)) := by
      intro y i
      congr 1
      omega
    simp only [this]
    rfl

theorem backsT_dot (s : Fac V) (c : Nat → V) (h0 : forwardStep true n s c 0 = c) (m : Nat) (hm : m < n) (hl : ∀ k, k ≤ m → s.ipvt k < n) (x : Nat → V) :
    dot n (backsT n s m x) c = dot n x (passes n s c (m + 1)) := by
  induction m generalizing x with
  | zero =>
    show dot n x c = dot n x (forwardStep true n s c 0)
    rw [h0]
  | succ m ih =>
    show dot n (backsT n s m (backT true n s x (m + 1))) c = _
    rw [ih (by omega) fun k hk => hl k (by omega), backT_dot s hm (hl _ (Nat.le_refl _)), passes_succ (k := m + 1)]

/-- the forward substitution with the transposed triangle -/
theorem forwardT_spec (s : Fac V) (b : Nat → V) (m : Nat) (hd : ∀ k, k < m → s.a k k ≠ 0) :
    (∀ k, k < m → ∑ j ∈ range (k + 1), s.a k j * (List.range m).foldl (forwardT true s) b j = b k) ∧
      ∀ i, m ≤ i → (List.range m).foldl (forwardT true s) b i = b i := by
  induction m with
  | zero => exact ⟨by omega, fun _ _ => rfl⟩
  | succ m ih =>
    obtain ⟨h1, h2⟩ := ih fun k hk => hd k (by omega)
    rw [List.range_succ, List.foldl_append, List.foldl_cons, List.foldl_nil]
    generalize (List.range m).foldl (forwardT true s) b = z at h1 h2 ⊢
    have hz : ∀ j, j ≠ m → forwardT true s z m j = z j := fun j hj => if_neg hj
    have hzm : forwardT true s z m m = (z m - ∑ j ∈ range m, s.a m j * z j) / s.a m m := by
      unfold forwardT set
      rw [if_pos rfl, ddot_true]
      simp
    refine ⟨fun k hk => ?_, fun i hi => (hz i (by omega)).trans (h2 i (by omega))⟩
    by_cases hkm : k = m
    · subst hkm
      have hne := hd k (by omega)
      rw [sum_range_succ, hzm, h2 k (Nat.le_refl k)]
      have : ∑ j ∈ range k, s.a k j * forwardT true s z k j = ∑ j ∈ range k, s.a k j * z j := by
        apply sum_congr rfl
        intro j hj
        have := mem_range.1 hj
        rw [hz j (by omega)]
      rw [this]
      field_simp
      ring
    · rw [← h1 k (by omega)]
      apply sum_congr rfl
      intro j hj
      have := mem_range.1 hj
      rw [hz j (by omega)]

section
variable [IsStrictOrderedRing V]

/-- the factorization -/
theorem dgefa_eq (a : Nat → Nat → V) (ipvt0 : Nat → Nat) : (dgefa true n a ipvt0).a = (after n a ipvt0 (n - 1)).a ∧
    (∀ k, k + 1 < n → (dgefa true n a ipvt0).ipvt k = (after n a ipvt0 (n - 1)).ipvt k) ∧
    (dgefa true n a ipvt0).info = if (after n a ipvt0 (n - 1)).a (n - 1) (n - 1) = 0 then n - 1 else (after n a ipvt0 (n - 1)).info := by
  refine ⟨rfl, fun k hk => ?_, rfl⟩
  show (if k = n - 1 then n - 1 else _) = _
  rw [if_neg (by omega)]
  rfl

omit [IsStrictOrderedRing V] in
theorem backs_state {s t : Fac V} (h : s.a = t.a) (m : Nat) (b : Nat → V) : backs s m b = backs t m b := by
  induction m generalizing b with
  | zero => rfl
  | succ m ih =>
    show backs s m (backStep true s b m) = backs t m (backStep true t b m)
    rw [ih]
    unfold backStep
    rw [h]

omit [IsStrictOrderedRing V] in
theorem passes_state {s t : Fac V} (h : s.a = t.a) (m : Nat) (h' : ∀ k, k < m → s.ipvt k = t.ipvt k) (b : Nat → V) : passes n s b m = passes n t b m := by
  induction m with
  | zero => rfl
  | succ m ih => rw [passes_succ, passes_succ, ih fun k hk => h' k (by omega), forward_state (congrFun h m) (h' m (by omega))]

theorem dgesl_false (a : Nat → Nat → V) (ipvt0 : Nat → Nat) (b : Nat → V) :
    dgesl true n (dgefa true n a ipvt0) b false = backs (after n a ipvt0 (n - 1)) n (passes n (after n a ipvt0 (n - 1)) b (n - 1)) := by
  obtain ⟨h1, h2, _⟩ := dgefa_eq (n := n) a ipvt0
  unfold dgesl
  rw [if_pos (by simp), backs_fold, backs_state h1]
  congr 1
  exact passes_state h1 _ (fun k hk => h2 k (by omega)) b

theorem pivot_ne {a : Nat → Nat → V} {ipvt0 : Nat → Nat} (hs : ¬ Singular n a) : ∀ k, k < n → pivot n a ipvt0 k ≠ 0 := by
  intro k
  induction k using Nat.strong_induction_on with
  | _ k ih =>
    intro hk h
    apply hs
    refine singular_of a ipvt0 hk (fun j hj => ih j hj (by omega)) fun i h1 h2 => ?_
    have := (idamax_spec (n - k) k ((after n a ipvt0 k).a k) (by omega)).2 (by
      rw [Nat.add_comm]
      exact h) (i - k) (by omega)
    rwa [show k + (i - k) = i by omega] at this

/-- the last pivot is the last element of the diagonal -/
theorem pivot_last (a : Nat → Nat → V) (ipvt0 : Nat → Nat) (hn : 0 < n) : pivot n a ipvt0 (n - 1) = (after n a ipvt0 (n - 1)).a (n - 1) (n - 1) := by
  have := (idamax_spec (n - (n - 1)) (n - 1) ((after n a ipvt0 (n - 1)).a (n - 1)) (by omega)).1
  unfold pivot
  congr 1
  omega

theorem diag_eq (a : Nat → Nat → V) (ipvt0 : Nat → Nat) {k : Nat} (hk : k < n) : (after n a ipvt0 (n - 1)).a k k = pivot n a ipvt0 k := by
  by_cases h : k = n - 1
  · rw [h, pivot_last a ipvt0 (by omega)]
  · by_cases h0 : pivot n a ipvt0 k = 0
    · rw [diag_skip a ipvt0 hk (by omega) h0, h0]
    · rw [diag_step a ipvt0 (by omega) h0]

omit [IsStrictOrderedRing V] in
theorem info_step (s : Fac V) (k : Nat) : (dgefaStep true n s k).info = if s.a k (idamax (n - k) k (s.a k) + k) ≠ 0 then s.info else k := by
  unfold dgefaStep
  dsimp only
  split <;> rfl

omit [IsStrictOrderedRing V] in
theorem info_zero (a : Nat → Nat → V) (ipvt0 : Nat → Nat) (m : Nat) (h : ∀ k, k < m → pivot n a ipvt0 k ≠ 0) : (after n a ipvt0 m).info = 0 := by
  induction m with
  | zero => rfl
  | succ m ih =>
    have hm := h m (by omega)
    unfold pivot at hm
    rw [after_succ, info_step, if_pos hm]
    exact ih fun k hk => h k (by omega)

omit [IsStrictOrderedRing V] in
theorem info_pos (a : Nat → Nat → V) (ipvt0 : Nat → Nat) {k : Nat} (hk : 0 < k) (h : pivot n a ipvt0 k = 0) : ∀ m, k < m → 0 < (after n a ipvt0 m).info := by
  intro m
  induction m with
  | zero => omega
  | succ m ih =>
    intro hm
    rw [after_succ, info_step]
    by_cases hkm : k = m
    · subst hkm
      unfold pivot at h
      rw [if_neg (not_not.2 h)]
      exact hk
    · split
      · exact ih (by omega)
      · omega

/-- with all pivots the call solves every column -/
theorem luSolve_regular (trans : Bool) (a b : Nat → Nat → V) (ipvt0 : Nat → Nat) (hn : 0 < n) (hs : ¬ Singular n a) :
    luSolve true trans n n a b ipvt0 = .ok fun j => dgesl true n (dgefa true n a ipvt0) (b j) trans := by
  have hp := pivot_ne (ipvt0 := ipvt0) hs
  obtain ⟨h1, _, h3⟩ := dgefa_eq (n := n) a ipvt0
  have hi : (dgefa true n a ipvt0).info = 0 := by
    rw [h3, if_neg (by rw [diag_eq a ipvt0 (by omega)]; exact hp _ (by omega)), info_zero a ipvt0 _ fun k hk => hp k (by omega)]
  have hd : ((List.range n).any fun k => decide ((dgefa true n a ipvt0).a k k = 0)) = false := by
    rw [List.any_eq_false]
    intro k hk
    have hk := List.mem_range.1 hk
    rw [h1, decide_eq_true_eq, diag_eq a ipvt0 hk]
    exact hp k hk
  unfold luSolve
  rw [if_neg (by simp)]
  dsimp only
  rw [if_pos hi, hd]
  rfl

/-- the pivots of a call that reports nothing -/
theorem luSolve_ok {trans : Bool} {a b : Nat → Nat → V} {ipvt0 : Nat → Nat} {m : Nat} {x : Nat → Nat → V} (h : luSolve true trans n m a b ipvt0 = .ok x) :
    n = m ∧ ∀ k, k < n → pivot n a ipvt0 k ≠ 0 := by
  unfold luSolve at h
  by_cases hm : n ≠ m
  · rw [if_pos hm] at h
    nomatch h
  · rw [if_neg hm] at h
    dsimp only at h
    refine ⟨not_not.1 hm, fun k hk h0 => ?_⟩
    have hd : ((List.range n).any fun k => decide ((dgefa true n a ipvt0).a k k = 0)) = true := by
      rw [List.any_eq_true]
      refine ⟨k, List.mem_range.2 hk, ?_⟩
      rw [decide_eq_true_eq]
      exact (diag_eq a ipvt0 hk).trans h0
    rw [hd] at h
    split at h
    · simp at h
    · nomatch h

/-- the first pass does nothing if the first column is that of an upper triangle -/
theorem first_id (a : Nat → Nat → V) (ipvt0 : Nat → Nat) (h2 : 2 ≤ n) (h0 : a 0 0 ≠ 0) (hz : ∀ i, 0 < i → i < n → a 0 i = 0) (c : Nat → V) :
    forwardStep true n (after n a ipvt0 (n - 1)) c 0 = c := by
  have hl : idamax n 0 (a 0) = 0 := by
    unfold idamax
    rw [if_neg (by omega)]
    have : ∀ m, m < n → (List.range m).foldl (fun s i => if s.2 < |a 0 (0 + (i + 1))| then (i + 1, |a 0 (0 + (i + 1))|) else s) (0, |a 0 0|) = (0, |a 0 0|) := by
      intro m
      induction m with
      | zero => intro _; rfl
      | succ m ih =>
        intro hm
        rw [List.range_succ, List.foldl_append, ih (by omega), List.foldl_cons, List.foldl_nil]
        dsimp only
        rw [hz (0 + (m + 1)) (by omega) (by omega), abs_zero, if_neg (not_lt.2 (abs_nonneg _))]
    rw [this _ (by omega)]
  have hk := after_keep (n := n) (k := 1) (m := n - 1) (j := 0) a ipvt0 (by omega) (by omega)
  have e1 : (after n a ipvt0 1).ipvt 0 = 0 ∧ ∀ i, 0 < i → i < n → (after n a ipvt0 1).a 0 i = 0 := by
    rw [after_succ]
    show (dgefaStep true n ⟨a, ipvt0, 0⟩ 0).ipvt 0 = 0 ∧ ∀ i, 0 < i → i < n → (dgefaStep true n ⟨a, ipvt0, 0⟩ 0).a 0 i = 0
    unfold dgefaStep
    simp only [Nat.sub_zero, hl, Nat.add_zero]
    rw [if_pos h0]
    dsimp only
    refine ⟨if_pos rfl, fun i h1 h2 => ?_⟩
    rw [if_pos rfl, dscal_true, if_pos ⟨by omega, by omega⟩, swapIf_apply, swapIf_apply]
    have : tr 0 0 i = i := by
      unfold tr
      rw [if_neg (by omega), if_neg (by omega)]
    rw [this, hz i h1 h2, mul_zero]
  funext i
  rw [forward_apply, hk.1, hk.2, e1.1]
  have : tr 0 0 i = i := by
    unfold tr
    split
    · omega
    · rfl
  rw [this]
  split
  · rw [e1.2 i (by omega) (by omega), mul_zero, add_zero]
  · rfl

/-- the transposed system -/
theorem dgesl_true (a : Nat → Nat → V) (ipvt0 : Nat → Nat) (b : Nat → V) (hn : 0 < n) (hs : ¬ Singular n a)
    (hc : ∀ i, 0 < i → i < n → a 0 i = 0) : Solves true n a b (dgesl true n (dgefa true n a ipvt0) b true) := by
  have hp := pivot_ne (ipvt0 := ipvt0) hs
  obtain ⟨e1, e2, _⟩ := dgefa_eq (n := n) a ipvt0
  have hd : ∀ k, k < n → (dgefa true n a ipvt0).a k k ≠ 0 := fun k hk => by
    rw [e1, diag_eq a ipvt0 hk]
    exact hp k hk
  have hz := (forwardT_spec (dgefa true n a ipvt0) b n hd).1
  have hx : dgesl true n (dgefa true n a ipvt0) b true =
      (List.range (n - 2)).foldl (fun y i => backT true n (dgefa true n a ipvt0) y (n - (i + 1 + 1))) ((List.range n).foldl (forwardT true (dgefa true n a ipvt0)) b) := by
    unfold dgesl
    rw [if_neg (by simp)]
  rw [hx]
  generalize (List.range n).foldl (forwardT true (dgefa true n a ipvt0)) b = z at hz ⊢
  have hadj : ∀ c, dot n ((List.range (n - 2)).foldl (fun y i => backT true n (dgefa true n a ipvt0) y (n - (i + 1 + 1))) z) c =
      dot n z (passes n (after n a ipvt0 (n - 1)) c (n - 1)) := by
    intro c
    by_cases h1 : n = 1
    · subst h1
      rfl
    · have h0 : a 0 0 ≠ 0 := by
        intro h0
        apply hs
        refine singular_of a ipvt0 hn (fun j hj => by omega) fun i _ hi => ?_
        show a 0 i = 0
        by_cases hi0 : i = 0
        · rw [hi0, h0]
        · exact hc i (by omega) hi
      have hst : ∀ c m, m ≤ n - 1 → passes n (dgefa true n a ipvt0) c m = passes n (after n a ipvt0 (n - 1)) c m :=
        fun c m hm => passes_state e1 _ (fun k hk => e2 k (by omega)) c
      have hf := backsT_fold (n := n) (dgefa true n a ipvt0) (n - 2) z
      rw [show n - 2 + 2 = n by omega] at hf
      rw [hf, backsT_dot _ c ?_ (n - 2) (by omega), show n - 2 + 1 = n - 1 by omega, hst c _ (Nat.le_refl _)]
      · intro k hk
        rw [e2 k (by omega)]
        exact after_piv a ipvt0 (by omega) (by omega)
      · have := hst c 1 (by omega)
        show passes n (dgefa true n a ipvt0) c 1 = c
        rw [this]
        exact first_id a ipvt0 (by omega) h0 hc c
  intro k hk
  simp only [if_true]
  have h1 : ∀ w : Nat → V, (∑ j ∈ range n, a k j * w j) = dot n w (a k) := by
    intro w
    unfold dot
    apply sum_congr rfl
    intro j _
    ring
  rw [h1, hadj, ← hz k hk]
  have hcol : ∀ i, i < n → passes n (after n a ipvt0 (n - 1)) (a k) (n - 1) i = if k < i then 0 else (dgefa true n a ipvt0).a k i := by
    intro i hi
    have := passes_app (m := n - 1) a ipvt0 (fun j => if j = k then 1 else 0) (n - 1) (by omega) (Nat.le_refl _) (fun j hj => hp j (by omega)) i hi
    have e : app n a (fun j => if j = k then 1 else 0) = fun i => a k i := by
      funext i
      unfold app
      simp [hk]
    rw [e] at this
    rw [this]
    unfold app
    simp only [mul_ite, mul_one, mul_zero, sum_ite_eq', mem_range, hk, if_true]
    unfold act
    rw [e1]
    by_cases hki : k < i
    · rw [if_pos ⟨by omega, hki⟩, if_pos hki]
    · rw [if_neg (by omega), if_neg hki]
  unfold dot
  have : ∑ j ∈ range (k + 1), (dgefa true n a ipvt0).a k j * z j = ∑ j ∈ range n, if k < j then 0 else (dgefa true n a ipvt0).a k j * z j := by
    have e : ∑ j ∈ range (k + 1), (dgefa true n a ipvt0).a k j * z j = ∑ j ∈ range (k + 1), if k < j then 0 else (dgefa true n a ipvt0).a k j * z j := by
      apply sum_congr rfl
      intro j hj
      have := mem_range.1 hj
      rw [if_neg (by omega)]
    rw [e]
    apply sum_subset (range_mono (by omega))
    intro j _ hj
    have hj : ¬ j < k + 1 := fun h => hj (mem_range.2 h)
    rw [if_pos (by omega)]
  rw [this]
  apply sum_congr rfl
  intro j hj
  rw [hcol j (mem_range.1 hj)]
  split <;> ring

/-- a matrix with solutions for all right hand sides: the solution of the transposed system is unique -/
theorem trans_unique {a : Nat → Nat → V} (hs : ∀ b, ∃ w, Solves false n a b w) {b x y : Nat → V} (hx : Solves true n a b x) (hy : Solves true n a b y) :
    ∀ i, i < n → y i = x i := by
  intro p hp
  obtain ⟨w, hw⟩ := hs fun i => if i = p then 1 else 0
  have key : ∀ x, Solves true n a b x → x p = ∑ j ∈ range n, w j * b j := by
    intro x hx
    have e1 : x p = ∑ i ∈ range n, x i * (if i = p then 1 else 0) := by
      simp [hp]
    rw [e1]
    have e2 : ∀ i ∈ range n, x i * (if i = p then (1 : V) else 0) = ∑ j ∈ range n, w j * (a j i * x i) := by
      intro i hi
      have := hw i (mem_range.1 hi)
      simp only [Bool.false_eq_true, if_false] at this
      rw [← this, mul_sum]
      apply sum_congr rfl
      intro j _
      ring
    rw [sum_congr rfl e2, sum_comm]
    apply sum_congr rfl
    intro j hj
    have := hx j (mem_range.1 hj)
    simp only [if_true] at this
    rw [← this, mul_sum]
  rw [key x hx, key y hy]

end
end GA.Lu
