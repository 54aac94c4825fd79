import Verif.Spec.Bin
import Mathlib.Algebra.BigOperators.Ring.List
import Mathlib.Algebra.Order.BigOperators.Group.List
import Mathlib.Tactic.Ring
import Mathlib.Data.Nat.Init

/-! # Lemmas about the offsets computed along the process tree -/

namespace GA.Bin

theorem hasLeft_iff {n r : Nat} : hasLeft n r = true ↔ 2 * r + 1 < n := by simp [hasLeft]
theorem hasRight_iff {n r : Nat} : hasRight n r = true ↔ 2 * r + 2 < n := by simp [hasRight]

/-- uniform equation -/
theorem upSum_succ (n : Nat) (x : Nat → Int) (f r : Nat) :
    upSum n x (f + 1) r = (if 2 * r + 1 < n then upSum n x f (2 * r + 1) else 0) +
      (if 2 * r + 2 < n then upSum n x f (2 * r + 2) else 0) + x r := by
  simp only [upSum, hasLeft_iff, hasRight_iff]
  by_cases h2 : 2 * r + 2 < n
  · have h1 : 2 * r + 1 < n := by omega
    simp only [h1, h2, and_self, if_true]; omega
  · by_cases h1 : 2 * r + 1 < n
    · simp only [h1, h2, false_and, if_false, if_true]; omega
    · simp only [h1, h2, false_and, if_false]; omega

theorem upSum_fuel (n : Nat) (x : Nat → Int) (f g r : Nat) (hr : r < n) (hf : n ≤ f + r)
    (hg : n ≤ g + r) : upSum n x f r = upSum n x g r := by
  induction f generalizing g r with
  | zero => omega
  | succ f ih =>
    obtain ⟨g, rfl⟩ : ∃ g', g = g' + 1 := ⟨g - 1, by omega⟩
    rw [upSum_succ, upSum_succ]
    congr 2
    · split
      · exact ih g _ (by omega) (by omega) (by omega)
      · rfl
    · split
      · exact ih g _ (by omega) (by omega) (by omega)
      · rfl

/-- ranks of a subtree: left subtree, right subtree, root -/
def post (n : Nat) : (fuel : Nat) → (r : Nat) → List Nat
  | 0, _ => []
  | f + 1, r =>
    (if 2 * r + 1 < n then post n f (2 * r + 1) else []) ++
      ((if 2 * r + 2 < n then post n f (2 * r + 2) else []) ++ [r])

theorem sum_post (n : Nat) (x : Nat → Int) (f r : Nat) :
    ((post n f r).map x).sum = upSum n x f r := by
  induction f generalizing r with
  | zero => rfl
  | succ f ih =>
    rw [upSum_succ]
    simp only [post, List.map_append, List.sum_append, List.map_cons, List.map_nil, List.sum_cons,
      List.sum_nil]
    have e1 : ((if 2 * r + 1 < n then post n f (2 * r + 1) else []).map x).sum =
        if 2 * r + 1 < n then upSum n x f (2 * r + 1) else 0 := by
      split
      · exact ih _
      · rfl
    have e2 : ((if 2 * r + 2 < n then post n f (2 * r + 2) else []).map x).sum =
        if 2 * r + 2 < n then upSum n x f (2 * r + 2) else 0 := by
      split
      · exact ih _
      · rfl
    rw [e1, e2]
    omega

theorem mem_post_lt (n : Nat) (f r s : Nat) (hr : r < n) (h : s ∈ post n f r) : s < n := by
  induction f generalizing r with
  | zero => simp [post] at h
  | succ f ih =>
    simp only [post, List.mem_append, List.mem_singleton] at h
    rcases h with h | h | h
    · split at h
      · exact ih _ (by omega) h
      · simp at h
    · split at h
      · exact ih _ (by omega) h
      · simp at h
    · omega

theorem mem_post_pow (n : Nat) (f r s : Nat) (h : s ∈ post n f r) :
    ∃ d, (s + 1) / 2 ^ d = r + 1 := by
  induction f generalizing r with
  | zero => simp [post] at h
  | succ f ih =>
    simp only [post, List.mem_append, List.mem_singleton] at h
    rcases h with h | h | h
    · split at h
      · obtain ⟨d, hd⟩ := ih _ h
        refine ⟨d + 1, ?_⟩
        rw [Nat.pow_succ, ← Nat.div_div_eq_div_mul, hd]; omega
      · simp at h
    · split at h
      · obtain ⟨d, hd⟩ := ih _ h
        refine ⟨d + 1, ?_⟩
        rw [Nat.pow_succ, ← Nat.div_div_eq_div_mul, hd]; omega
      · simp at h
    · exact ⟨0, by simp [h]⟩

theorem pow_anc {s a b d e : Nat} (hd : (s + 1) / 2 ^ d = a) (he : (s + 1) / 2 ^ e = b)
    (hde : d < e) : b ≤ a / 2 := by
  obtain ⟨k, rfl⟩ : ∃ k, e = d + 1 + k := ⟨e - (d + 1), by omega⟩
  rw [Nat.pow_add, Nat.pow_succ, ← Nat.div_div_eq_div_mul, ← Nat.div_div_eq_div_mul, hd] at he
  rw [← he]
  exact Nat.div_le_self _ _

theorem post_nodup (n : Nat) (f r : Nat) : (post n f r).Nodup := by
  induction f generalizing r with
  | zero => simp [post]
  | succ f ih =>
    simp only [post]
    rw [List.nodup_append, List.nodup_append]
    refine ⟨?_, ⟨?_, by simp, ?_⟩, ?_⟩
    · split
      · exact ih _
      · simp
    · split
      · exact ih _
      · simp
    · intro a ha b hb hab
      rw [List.mem_singleton] at hb
      subst hb hab
      split at ha
      · obtain ⟨d, hd⟩ := mem_post_pow _ _ _ _ ha
        have := Nat.div_le_self (a + 1) (2 ^ d)
        omega
      · simp at ha
    · intro a ha b hb hab
      subst hab
      split at ha
      · obtain ⟨d, hd⟩ := mem_post_pow _ _ _ _ ha
        rw [List.mem_append, List.mem_singleton] at hb
        rcases hb with hb | hb
        · split at hb
          · obtain ⟨e, he⟩ := mem_post_pow _ _ _ _ hb
            rcases Nat.lt_trichotomy d e with h | h | h
            · have := pow_anc hd he h; omega
            · subst h; omega
            · have := pow_anc he hd h; omega
          · simp at hb
        · have := Nat.div_le_self (a + 1) (2 ^ d)
          omega
      · simp at ha

/-- with enough fuel the children of a member are members -/
theorem post_child (n : Nat) (f r s c : Nat) (hf : n ≤ f + r) (hs : s ∈ post n f r) (hc : c < n)
    (h : c = 2 * s + 1 ∨ c = 2 * s + 2) : c ∈ post n f r := by
  induction f generalizing r with
  | zero => simp [post] at hs
  | succ f ih =>
    simp only [post, List.mem_append, List.mem_singleton] at hs ⊢
    have self : ∀ r, r < n → n ≤ f + r → r ∈ post n f r := by
      intro r hr hfr
      obtain ⟨g, rfl⟩ : ∃ g, f = g + 1 := ⟨f - 1, by omega⟩
      simp [post]
    rcases hs with hs | hs | hs
    · split at hs
      · left; rw [if_pos (by assumption)]; exact ih _ (by omega) hs
      · simp at hs
    · split at hs
      · right; left; rw [if_pos (by assumption)]; exact ih _ (by omega) hs
      · simp at hs
    · subst hs
      rcases h with h | h
      · left
        rw [if_pos (by omega), h]
        exact self _ (by omega) (by omega)
      · right; left
        rw [if_pos (by omega), h]
        exact self _ (by omega) (by omega)

theorem mem_post_root (n : Nat) (s : Nat) (hs : s < n) : s ∈ post n n 0 := by
  induction s using Nat.strongRecOn with
  | _ s ih =>
    by_cases h0 : s = 0
    · subst h0
      obtain ⟨g, rfl⟩ : ∃ g, n = g + 1 := ⟨n - 1, by omega⟩
      simp [post]
    · exact post_child n n 0 ((s - 1) / 2) s (by omega) (ih _ (by omega) (by omega)) hs (by omega)

theorem post_perm (n : Nat) (hn : 0 < n) : (post n n 0).Perm (List.range n) := by
  apply (List.perm_ext_iff_of_nodup (post_nodup _ _ _) List.nodup_range).2
  intro s
  rw [List.mem_range]
  exact ⟨mem_post_lt n n 0 s hn, mem_post_root n s⟩

/-! ## the offsets are prefix sums along this order -/

/-- `off` lays out the members of `L` one after the other, starting at `base` -/
def Layout (x off : Nat → Int) : (base : Int) → List Nat → Prop
  | _, [] => True
  | base, s :: t => off s = base ∧ Layout x off (base + x s) t

theorem layout_append (x off : Nat → Int) (base : Int) (l m : List Nat) :
    Layout x off base (l ++ m) ↔ Layout x off base l ∧ Layout x off (base + (l.map x).sum) m := by
  induction l generalizing base with
  | nil => simp [Layout]
  | cons a l ih =>
    simp only [List.cons_append, Layout, ih, List.map_cons, List.sum_cons, and_assoc, Int.add_assoc]

theorem downVal_fuel (n : Nat) (x w : Nat → Int) (f g r : Nat) (hf : r < f) (hg : r < g) :
    downVal n x w f r = downVal n x w g r := by
  induction f generalizing g r with
  | zero => omega
  | succ f ih =>
    obtain ⟨g, rfl⟩ : ∃ g', g = g' + 1 := ⟨g - 1, by omega⟩
    simp only [downVal]
    by_cases h0 : r = 0
    · simp [h0]
    · rw [if_neg h0, if_neg h0, ih g ((r - 1) / 2) (by omega) (by omega)]

/-- the value received by `r` -/
def down (n : Nat) (x w : Nat → Int) (r : Nat) : Int := downVal n x w (r + 1) r

theorem down_root (n : Nat) (x w : Nat → Int) : down n x w 0 = upSum n x n 0 := by
  simp [down, downVal]

theorem down_right (n : Nat) (x w : Nat → Int) (r : Nat) :
    down n x w (2 * r + 2) = down n x w r - x r := by
  unfold down
  rw [downVal]
  simp only [show (2 * r + 2 - 1) / 2 = r by omega, if_neg (show ¬ 2 * r + 2 = 0 by omega), if_true]
  rw [downVal_fuel n x w (2 * r + 2) (r + 1) r (by omega) (by omega)]

theorem down_left (n : Nat) (x w : Nat → Int) (r : Nat) :
    down n x w (2 * r + 1) = down n x w r - x r - workR n x w r := by
  unfold down
  rw [downVal]
  simp only [show (2 * r + 1 - 1) / 2 = r by omega, if_neg (show ¬ 2 * r + 1 = 0 by omega),
    if_neg (show ¬ 2 * r + 1 = 2 * r + 2 by omega)]
  rw [downVal_fuel n x w (2 * r + 1) (r + 1) r (by omega) (by omega)]

/-- stale `workR` entries which are used are zero -/
def Clean (n : Nat) (w : Nat → Int) : Prop := ∀ r, 2 * r + 2 = n → w r = 0

theorem layout_post (n : Nat) (x w : Nat → Int) (hw : Clean n w) (f r : Nat) (hr : r < n)
    (hf : n ≤ f + r) :
    Layout x (binOffset n x w) (down n x w r - upSum n x f r) (post n f r) := by
  induction f generalizing r with
  | zero => omega
  | succ f ih =>
    simp only [post]
    rw [layout_append, layout_append]
    rw [upSum_succ]
    have eR : workR n x w r = if 2 * r + 2 < n then upSum n x f (2 * r + 2) else w r := by
      unfold workR
      simp only [hasRight_iff]
      split
      · exact upSum_fuel n x n f _ (by omega) (by omega) (by omega)
      · rfl
    have e1 : ((if 2 * r + 1 < n then post n f (2 * r + 1) else []).map x).sum =
        if 2 * r + 1 < n then upSum n x f (2 * r + 1) else 0 := by
      split
      · exact sum_post _ _ _ _
      · rfl
    have e2 : ((if 2 * r + 2 < n then post n f (2 * r + 2) else []).map x).sum =
        if 2 * r + 2 < n then upSum n x f (2 * r + 2) else 0 := by
      split
      · exact sum_post _ _ _ _
      · rfl
    rw [e1, e2]
    refine ⟨?_, ?_, ?_, trivial⟩
    · split
      · rename_i h
        have := ih (2 * r + 1) h (by omega)
        rw [down_left, eR] at this
        convert this using 1
        split
        · omega
        · rename_i h2
          rw [hw r (by omega)]; omega
      · trivial
    · by_cases h : 2 * r + 2 < n
      · have := ih (2 * r + 2) h (by omega)
        rw [down_right] at this
        simp only [if_pos h, if_pos (show 2 * r + 1 < n by omega)]
        convert this using 1
        omega
      · simp only [if_neg h]; trivial
    · unfold binOffset
      show down n x w r - x r = _
      omega

theorem Layout.facts {x off : Nat → Int} (hx : ∀ r, 0 ≤ x r) {base : Int} {l : List Nat}
    (h : Layout x off base l) :
    (∀ s ∈ l, base ≤ off s ∧ off s + x s ≤ base + (l.map x).sum) ∧
    l.Pairwise (fun s t => off s + x s ≤ off t) ∧
    (∀ k, base ≤ k → k < base + (l.map x).sum → ∃ s ∈ l, off s ≤ k ∧ k < off s + x s) ∧
    0 ≤ (l.map x).sum := by
  induction l generalizing base with
  | nil =>
    refine ⟨by simp, by simp, ?_, by simp⟩
    intro k h1 h2; simp at h2; omega
  | cons a l ih =>
    obtain ⟨h1, h2⟩ := h
    obtain ⟨i1, i2, i3, i4⟩ := ih h2
    have := hx a
    simp only [List.map_cons, List.sum_cons]
    refine ⟨?_, ?_, ?_, by omega⟩
    · intro s hs
      rcases List.mem_cons.1 hs with e | hs
      · subst e; omega
      · have := i1 s hs; omega
    · rw [List.pairwise_cons]
      refine ⟨fun t ht => ?_, i2⟩
      have := i1 t ht; omega
    · intro k k1 k2
      by_cases hk : k < base + x a
      · exact ⟨a, List.mem_cons_self .., by omega, by omega⟩
      · obtain ⟨s, s1, s2⟩ := i3 k (by omega) (by omega)
        exact ⟨s, List.mem_cons_of_mem _ s1, s2⟩

theorem sum_perm {l m : List Int} (h : l.Perm m) : l.sum = m.sum := by
  induction h with
  | nil => rfl
  | cons a _ ih => simp [ih]
  | swap a b l => simp only [List.sum_cons]; omega
  | trans _ _ ih1 ih2 => exact ih1.trans ih2

theorem pairwise_or {l : List Nat} {R : Nat → Nat → Prop} (h : l.Pairwise R) {s t : Nat}
    (hs : s ∈ l) (ht : t ∈ l) (hne : s ≠ t) : R s t ∨ R t s := by
  induction l with
  | nil => simp at hs
  | cons a l ih =>
    rw [List.pairwise_cons] at h
    rcases List.mem_cons.1 hs with e | hs'
    · rcases List.mem_cons.1 ht with e' | ht'
      · exact absurd (e.trans e'.symm) hne
      · subst e; exact Or.inl (h.1 t ht')
    · rcases List.mem_cons.1 ht with e' | ht'
      · subst e'; exact Or.inr (h.1 s hs')
      · exact ih h.2 hs' ht'

theorem layout_of_clean (n : Nat) (x w : Nat → Int) (hn : 0 < n) (hw : Clean n w) :
    Layout x (binOffset n x w) 0 (post n n 0) := by
  have h := layout_post n x w hw n 0 hn (by omega)
  rwa [down_root, Int.sub_self] at h

theorem total_post (n : Nat) (x : Nat → Int) (hn : 0 < n) :
    total n x = ((post n n 0).map x).sum := (sum_perm ((post_perm n hn).map x)).symm

theorem fills_of_layout (n : Nat) (x off : Nat → Int) (hx : ∀ r, 0 ≤ x r) (hn : 0 < n)
    (h : Layout x off 0 (post n n 0)) : Fills n x off (total n x) := by
  obtain ⟨a, b, c, _⟩ := h.facts hx
  have ht := total_post n x hn
  rw [Int.zero_add, ← ht] at a c
  refine ⟨fun r hr => a r (mem_post_root n r hr), fun r s hr hs hne => ?_, fun k k1 k2 => ?_⟩
  · exact pairwise_or b (mem_post_root n r hr) (mem_post_root n s hs) hne
  · obtain ⟨s, s1, s2⟩ := c k k1 k2
    exact ⟨s, mem_post_lt n n 0 s hn s1, s2⟩

/-! ## chunks -/

theorem chunkLoop_done (n nbin : Nat) (x : Nat → Nat → Int) (f i : Nat) (s : ChunkSt)
    (h : nbin ≤ i) : chunkLoop n nbin x f i s = s := by
  cases f with
  | zero => rfl
  | succ f => simp only [chunkLoop]; rw [if_neg (by omega)]

theorem chunkLoop_odd (n nbin : Nat) (hodd : n % 2 = 1) (x : Nat → Nat → Int)
    (f i : Nat) (s : ChunkSt) (hf : nbin ≤ f + i)
    (b : Nat) (hb : b < nbin)
    (hdone : b < i → Layout (fun r => x r b) (fun r => s.off r b) 0 (post n n 0)) :
    Layout (fun r => x r b) (fun r => (chunkLoop n nbin x f i s).off r b) 0 (post n n 0) := by
  induction f generalizing i s with
  | zero => exact hdone (by omega)
  | succ f ih =>
    simp only [chunkLoop]
    by_cases hi : i < nbin
    · rw [if_pos hi]
      apply ih
      · unfold nwork; omega
      · intro hlt
        unfold chunkStep
        simp only
        by_cases hbi : b < i
        · simp only [show ¬ (i ≤ b ∧ b < i + (if i + nwork < nbin then nwork else nbin - i)) by omega,
            if_false]
          exact hdone hbi
        · simp only [show (i ≤ b ∧ b < i + (if i + nwork < nbin then nwork else nbin - i)) by
            constructor
            · omega
            · split <;> omega, if_true]
          exact layout_of_clean n _ _ (by omega) (fun r hr => by omega)
    · rw [if_neg hi]
      exact hdone (by omega)

theorem offsets_single (n nbin : Nat) (hsmall : nbin ≤ nwork) (x : Nat → Nat → Int)
    (w : Work) (b : Nat) (hb : b < nbin) (r : Nat) :
    (offsets n nbin x w).off r b = binOffset n (fun q => x q b) (fun q => w q b) r := by
  unfold offsets
  obtain ⟨f, rfl⟩ : ∃ f, nbin = f + 1 := ⟨nbin - 1, by omega⟩
  simp only [chunkLoop]
  rw [if_pos (by omega), chunkLoop_done _ _ _ _ _ _ (by omega)]
  unfold chunkStep
  simp only [if_neg (show ¬ (0 + nwork < f + 1) by omega)]
  rw [if_pos (by omega)]
  simp

theorem offsets_layout (n nbin : Nat) (hn : 0 < n) (x : Nat → Nat → Int) (w : Work)
    (hw : WorkOK n nbin w) (b : Nat) (hb : b < nbin) :
    Layout (fun r => x r b) (fun r => (offsets n nbin x w).off r b) 0 (post n n 0) := by
  rcases hw with hodd | ⟨hs, hz⟩
  · exact chunkLoop_odd n nbin hodd x nbin 0 _ (by omega) b hb (fun h => by omega)
  · simp only [offsets_single n nbin hs x w b hb]
    exact layout_of_clean n _ _ hn (fun r hr => hz r hr b hb)

/-! ## groups of equal bin numbers -/

theorem sorted_run (l : List Int) (a : Int) (t : List Int) (hl : l = a :: t)
    (hs : l.Pairwise (· ≤ ·)) :
    ∃ rest, l = List.replicate (l.count a) a ++ rest ∧ (∀ c ∈ rest, a < c) := by
  induction t generalizing l with
  | nil => subst hl; exact ⟨[], by simp, by simp⟩
  | cons c t ih =>
    subst hl
    rw [List.pairwise_cons] at hs
    by_cases h : c = a
    · subst h
      obtain ⟨rest, e, h2⟩ := ih (c :: t) rfl hs.2
      refine ⟨rest, ?_, h2⟩
      rw [List.count_cons_self, List.replicate_succ, List.cons_append, ← e]
    · refine ⟨c :: t, ?_, ?_⟩
      · have : (c :: t).count a = 0 := by
          rw [List.count_eq_zero]
          intro hm
          have h1 := hs.1 c (List.mem_cons_self ..)
          rcases List.mem_cons.1 hm with e | hm
          · exact h e.symm
          · have := (List.pairwise_cons.1 hs.2).1 a hm
            omega
        rw [List.count_cons_self, this]
        rfl
      · intro d hd
        have h1 := hs.1 c (List.mem_cons_self ..)
        rcases List.mem_cons.1 hd with e | hd
        · omega
        · have := (List.pairwise_cons.1 hs.2).1 d hd
          omega

theorem valuesFor_none {V : Type} (subs : List Int) (vals : List V) (a : Int) (h : a ∉ subs) :
    valuesFor ⟨subs, vals⟩ a = [] := by
  unfold valuesFor
  rw [List.map_eq_nil_iff, List.filter_eq_nil_iff]
  intro p hp hpa
  have := (List.of_mem_zip hp).1
  simp only [beq_iff_eq] at hpa
  exact h (hpa ▸ this)

theorem valuesFor_run {V : Type} (pre rest : List Int) (k : Nat) (a : Int) (vals : List V)
    (h1 : a ∉ pre) (h2 : a ∉ rest) :
    valuesFor ⟨pre ++ (List.replicate k a ++ rest), vals⟩ a = (vals.drop pre.length).take k := by
  induction pre generalizing vals with
  | nil =>
    simp only [List.nil_append, List.length_nil, List.drop_zero]
    induction k generalizing vals with
    | zero => simpa using valuesFor_none rest vals a h2
    | succ k ih =>
      cases vals with
      | nil => simp [valuesFor]
      | cons v vs =>
        have := ih vs
        simp only [valuesFor] at this ⊢
        rw [List.replicate_succ, List.cons_append, List.zip_cons_cons, List.filter_cons_of_pos (by simp),
          List.map_cons, this, List.take_succ_cons]
  | cons c pre ih =>
    cases vals with
    | nil => simp [valuesFor]
    | cons v vs =>
      have hca : c ≠ a := fun e => h1 (by simp [e])
      have := ih vs (fun h => h1 (by simp [h]))
      simp only [valuesFor] at this ⊢
      rw [List.cons_append, List.zip_cons_cons, List.filter_cons_of_neg (by simpa using hca), this]
      simp

/-- where the group of bin `b` of this process goes -/
def groupPut {V : Type} (goff : Int → Int) (off : Nat → Int) (inp : Input V) (b : Int) : Put V :=
  ⟨goff b + (off (b - 1).toNat + 1), valuesFor inp b⟩

theorem putLoop_spec {V : Type} (nbin : Nat) (goff : Int → Int) (off : Nat → Int) (inp : Input V)
    (f : Nat) (pre rem : List Int) (hsub : inp.subs = pre ++ rem)
    (hlt : ∀ p ∈ pre, ∀ q ∈ rem, p < q) (hs : rem.Pairwise (· ≤ ·)) (hf : rem.length ≤ f)
    (hpos : ∀ b ∈ rem, 1 ≤ b)
    (hb : ∀ b ∈ rem, 1 ≤ goff b + (off (b - 1).toNat + 1) ∧
      goff b + (off (b - 1).toNat + 1) + (inp.subs.count b : Nat) - 1 ≤ (nbin : Int)) :
    (putLoop nbin goff (contrib inp.subs) off inp f pre.length).2 = true ∧
    ∀ p, p ∈ (putLoop nbin goff (contrib inp.subs) off inp f pre.length).1 ↔
      ∃ b ∈ rem, p = groupPut goff off inp b := by
  induction f generalizing pre rem with
  | zero =>
    have : rem = [] := List.length_eq_zero_iff.1 (by omega)
    subst this
    simp [putLoop]
  | succ f ih =>
    cases hr : rem with
    | nil =>
      subst hr
      simp [putLoop, hsub]
    | cons a t =>
      have hlen : pre.length < inp.subs.length := by rw [hsub, hr]; simp
      have hget : inp.subs.getD pre.length 0 = a := by rw [hsub, hr]; simp [List.getD]
      obtain ⟨rest, e, hrest⟩ := sorted_run rem a t hr hs
      have ham : a ∈ rem := by rw [hr]; exact List.mem_cons_self ..
      have hapre : a ∉ pre := fun h => by have := hlt a h a ham; omega
      have hcount : inp.subs.count a = rem.count a := by
        rw [hsub, List.count_append, List.count_eq_zero.2 hapre, Nat.zero_add]
      have hcpos : 0 < rem.count a := List.count_pos_iff.2 ham
      have harest : a ∉ rest := fun h => by have := hrest a h; omega
      have ha1 := hpos a ham
      have hcontr : contrib inp.subs (a - 1).toNat = (rem.count a : Nat) := by
        unfold contrib
        rw [show (((a - 1).toNat : Int) + 1) = a by omega, hcount]
      have hba := hb a ham
      rw [hcount] at hba
      have hval : valuesFor inp a = (inp.vals.drop pre.length).take (rem.count a) := by
        have : inp = ⟨pre ++ (List.replicate (rem.count a) a ++ rest), inp.vals⟩ := by
          rw [← e, ← hsub]
        rw [this]
        exact valuesFor_run pre rest _ a _ hapre harest
      have ihh := ih (pre ++ List.replicate (rem.count a) a) rest
        (by rw [hsub, List.append_assoc, ← e])
        (by
          intro p hp q hq
          rcases List.mem_append.1 hp with hp | hp
          · exact hlt p hp q (by rw [e]; exact List.mem_append_right _ hq)
          · rw [List.eq_of_mem_replicate hp]; exact hrest q hq)
        (by rw [e] at hs; exact (List.pairwise_append.1 hs).2.1)
        (by
          have := congrArg List.length e
          simp only [List.length_append, List.length_replicate] at this
          omega)
        (fun b hbm => hpos b (by rw [e]; exact List.mem_append_right _ hbm))
        (fun b hbm => hb b (by rw [e]; exact List.mem_append_right _ hbm))
      have hpl : (pre ++ List.replicate (rem.count a) a).length = pre.length + rem.count a := by simp
      rw [hpl] at ihh
      rw [← hr]
      simp only [putLoop]
      rw [if_pos hlen, hget]
      simp only [hcontr, Int.toNat_natCast]
      rw [if_neg (by omega)]
      refine ⟨?_, ?_⟩
      · simp only [ihh.1, Bool.and_true, decide_eq_true_eq]
        exact hba
      · intro p
        simp only [List.mem_cons, ihh.2 p]
        rw [show (⟨goff a + (off (a - 1).toNat + 1), List.take (rem.count a)
          (List.drop pre.length inp.vals)⟩ : Put V) = groupPut goff off inp a by
            rw [groupPut, hval]]
        constructor
        · rintro (h | ⟨b, hbm, h⟩)
          · exact ⟨a, ham, h⟩
          · exact ⟨b, by rw [e]; exact List.mem_append_right _ hbm, h⟩
        · rintro ⟨b, hbm, h⟩
          rw [e] at hbm
          rcases List.mem_append.1 hbm with hbm | hbm
          · rw [List.eq_of_mem_replicate hbm] at h; exact Or.inl h
          · exact Or.inr ⟨b, hbm, h⟩

theorem valuesFor_length {V : Type} (inp : Input V) (b : Int)
    (h : inp.subs.length = inp.vals.length) : (valuesFor inp b).length = inp.subs.count b := by
  obtain ⟨subs, vals⟩ := inp
  simp only at h
  unfold valuesFor
  simp only [List.length_map]
  induction subs generalizing vals with
  | nil => simp
  | cons c subs ih =>
    cases vals with
    | nil => simp at h
    | cons v vs =>
      simp only [List.length_cons, Nat.add_right_cancel_iff] at h
      rw [List.zip_cons_cons, List.filter_cons, List.count_cons]
      by_cases hc : c = b
      · simp [hc, ih vs h]
      · simp [hc, ih vs h]

/-! ## effect of the puts -/

/-- subscripts written by a put -/
def Put.Covers {V : Type} (p : Put V) (g : Int) : Prop := p.lo ≤ g ∧ g < p.lo + (p.vals.length : Nat)

theorem apply_not {V : Type} (p : Put V) (a : Int → V) (g : Int) (h : ¬ p.Covers g) :
    p.apply a g = a g := by
  unfold Put.apply
  unfold Put.Covers at h
  split
  · rw [List.getElem?_eq_none (by omega)]; rfl
  · rfl

theorem apply_at {V : Type} (p : Put V) (a : Int → V) (g : Int) (k : Nat) (h : g = p.lo + k)
    (hk : k < p.vals.length) : p.apply a g = p.vals[k] := by
  unfold Put.apply
  rw [if_pos (by omega), show (g - p.lo).toNat = k by omega, List.getElem?_eq_getElem hk]
  rfl

theorem apply_cov {V : Type} (p : Put V) (a b : Int → V) (g : Int) (h : p.Covers g) :
    p.apply a g = p.apply b g := by
  unfold Put.apply
  unfold Put.Covers at h
  rw [if_pos h.1, if_pos h.1, List.getElem?_eq_getElem (by omega)]
  rfl

theorem foldl_not {V : Type} (l : List (Put V)) (a : Int → V) (g : Int)
    (h : ∀ p ∈ l, ¬ p.Covers g) : l.foldl (fun a p => p.apply a) a g = a g := by
  induction l generalizing a with
  | nil => rfl
  | cons p l ih =>
    rw [List.foldl_cons, ih _ (fun q hq => h q (List.mem_cons_of_mem _ hq)),
      apply_not _ _ _ (h p (List.mem_cons_self ..))]

theorem foldl_cov {V : Type} (l : List (Put V)) (a : Int → V) (g : Int) (p : Put V)
    (hp : p ∈ l) (hc : p.Covers g) (huniq : ∀ q ∈ l, q.Covers g → q = p) :
    l.foldl (fun a p => p.apply a) a g = p.apply a g := by
  induction l generalizing a with
  | nil => simp at hp
  | cons q l ih =>
    rw [List.foldl_cons]
    by_cases hm : p ∈ l
    · rw [ih _ hm (fun q hq => huniq q (List.mem_cons_of_mem _ hq))]
      exact apply_cov p _ _ g hc
    · have hpq : p = q := by
        rcases List.mem_cons.1 hp with e | e
        · exact e
        · exact absurd e hm
      subst hpq
      rw [foldl_not]
      intro q hq hcq
      exact hm (huniq q (List.mem_cons_of_mem _ hq) hcq ▸ hq)

theorem readList_add {V : Type} (a : Int → V) (g : Int) (j k : Nat) :
    elements a g (j + k) = elements a g j ++ elements a (g + j) k := by
  unfold elements
  rw [List.range_add, List.map_append, List.map_map]
  congr 1
  apply List.map_congr_left
  intro i _
  simp only [Function.comp_apply]
  congr 1
  push_cast
  omega

theorem readList_layout {V : Type} (a : Int → V) (g : Int) (v : Nat → List V) (x off : Nat → Int)
    (hx : ∀ r, x r = (v r).length) (base : Int) (l : List Nat) (h : Layout x off base l)
    (hr : ∀ s ∈ l, elements a (g + off s) (v s).length = v s) :
    elements a (g + base) ((l.map x).sum).toNat = l.flatMap v := by
  induction l generalizing base with
  | nil => rfl
  | cons s l ih =>
    obtain ⟨h1, h2⟩ := h
    have hnn : 0 ≤ (l.map x).sum := by
      apply List.sum_nonneg
      intro y hy
      obtain ⟨r, _, e⟩ := List.mem_map.1 hy
      rw [← e, hx r]; omega
    rw [List.map_cons, List.sum_cons, List.flatMap_cons]
    have e : (x s + (l.map x).sum).toNat = (v s).length + ((l.map x).sum).toNat := by
      rw [hx s]; omega
    rw [e, readList_add]
    congr 1
    · have := hr s (List.mem_cons_self ..)
      rwa [h1] at this
    · have := ih (base + x s) h2 (fun t ht => hr t (List.mem_cons_of_mem _ ht))
      rw [← this]
      congr 1
      rw [hx s]; omega

end GA.Bin
