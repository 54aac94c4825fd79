import Verif.Lemmas.HSort

/-!
# C13: the index sort keeps index/value tuples together

The tuples of the arrays are compared through `List.zip`: the list of tuples after sorting is a
permutation of the list of tuples before, and the keys are in non-decreasing order.
-/

namespace GA
open Model

variable {β : Type} [Inhabited β]

/-- tuples `(key, value, i, j)` of the arrays -/
def scatTuples {β : Type} (s : ScatArrays β) : List (Int × β × Int × Int) :=
  s.base.zip (s.v.zip (s.i.zip s.j))

/-- all arrays have `n` entries -/
def ScatLen {β : Type} (n : Nat) (s : ScatArrays β) : Prop :=
  s.base.length = n ∧ s.v.length = n ∧ s.i.length = n ∧ s.j.length = n

instance {β : Type} (n : Nat) (s : ScatArrays β) : Decidable (ScatLen n s) := by
  unfold ScatLen; infer_instance

/-- non-decreasing -/
def Ascending (l : List Int) : Prop := l.Pairwise (· ≤ ·)

theorem ascending_of {l : List Int} {n : Nat} (hl : l.length = n)
    (h : ∀ a b, 1 ≤ a → a ≤ b → b ≤ n → l.getD (a - 1) 0 ≤ l.getD (b - 1) 0) : Ascending l := by
  unfold Ascending
  rw [List.pairwise_iff_getElem]
  intro i j hi hj hij
  have := h (i + 1) (j + 1) (by omega) (by omega) (by omega)
  simpa [List.getD_eq_getElem?_getD, hi, hj] using this

/-- position view of the four arrays -/
def scatView (s : ScatArrays β) (p : Nat) : Int × β × Int × Int :=
  (s.base.getD (p - 1) default, s.v.getD (p - 1) default, s.i.getD (p - 1) default,
    s.j.getD (p - 1) default)

theorem scatTuples_eq {n : Nat} {s : ScatArrays β} (h : ScatLen n s) :
    (List.range n).map (fun k => scatView s (k + 1)) = scatTuples s := by
  obtain ⟨h1, h2, h3, h4⟩ := h
  apply List.ext_getElem
  · simp [scatTuples, h1, h2, h3, h4]
  · intro k hk hk'
    simp at hk
    simp [scatTuples, scatView, List.getD_eq_getElem?_getD, h1, h2, h3, h4, hk]

theorem scat_law (n : Nat) : SwapLaw (ScatLen (β := β) n) (fun s p => s.base.getD (p - 1) 0)
    scatSwap scatView (fun t => t.1) n where
  keyEq := fun _ _ _ _ _ => rfl
  inv := by
    rintro s a b ⟨h1, h2, h3, h4⟩ _ _ _ _
    simp [ScatLen, scatSwap, hswapAt_length, h1, h2, h3, h4]
  swap := by
    rintro s a b ⟨h1, h2, h3, h4⟩ ha ha' hb hb' hab x hx hx'
    simp only [scatView, scatSwap]
    rw [hswapAt_getD s.base ha (by omega) hb (by omega) hab x hx,
      hswapAt_getD s.v ha (by omega) hb (by omega) hab x hx,
      hswapAt_getD s.i ha (by omega) hb (by omega) hab x hx,
      hswapAt_getD s.j ha (by omega) hb (by omega) hab x hx]
    split
    · rfl
    · split <;> rfl

/-- C13 for `ga_sort_scat` (all value types but `int`). -/
theorem C13_sort_scat (n : Nat) (s : ScatArrays β) (h : ScatLen n s) :
    ScatLen n (sortScat n s) ∧ Ascending (sortScat n s).base ∧
      (scatTuples (sortScat n s)).Perm (scatTuples s) := by
  obtain ⟨h1, h2, h3⟩ := indexSort_spec (scat_law n) s h
  refine ⟨h1, ascending_of h1.1 h2, ?_⟩
  have := perm_of_permTo h3
  rwa [scatTuples_eq h, scatTuples_eq h1] at this

/-- C13 for `gai_hsort`: the sorted list is a permutation of the input. -/
theorem C13_hsort (l : List Int) :
    Ascending (hsort l.length l) ∧ (hsort l.length l).Perm l := by
  have L : SwapLaw (fun l' : List Int => l'.length = l.length) (fun l p => l.getD (p - 1) 0)
      (fun l a b => hswapAt l a b) (fun l p => l.getD (p - 1) default) id l.length :=
    { keyEq := fun _ _ _ _ _ => rfl
      inv := by intro s a b h _ _ _ _; simpa [hswapAt_length] using h
      swap := by
        intro s a b h ha ha' hb hb' hab x hx hx'
        exact hswapAt_getD s ha (by omega) hb (by omega) hab x hx }
  obtain ⟨h1, h2, h3⟩ := indexSort_spec L l rfl
  refine ⟨ascending_of h1 h2, ?_⟩
  have := perm_of_permTo h3
  have e : ∀ l' : List Int, l'.length = l.length →
      (List.range l.length).map (fun k => l'.getD (k + 1 - 1) default) = l' := by
    intro l' hl
    apply List.ext_getElem
    · simp [hl]
    · intro k hk hk'
      simp [List.getD_eq_getElem?_getD, hk']
  rwa [e _ h1, e _ rfl] at this

/-- C13 for `ga_sort_permutation`: keys ascending, the index array carried along. -/
theorem C13_sort_permutation (n : Nat) (base index : List Int) (hb : base.length = n)
    (hi : index.length = n) :
    let r := sortPermutation n (base, index)
    r.1.length = n ∧ r.2.length = n ∧ Ascending r.1 ∧ (r.1.zip r.2).Perm (base.zip index) := by
  have L : SwapLaw (fun s : List Int × List Int => s.1.length = n ∧ s.2.length = n)
      (fun s p => s.1.getD (p - 1) 0) (fun s a b => (hswapAt s.1 a b, hswapAt s.2 a b))
      (fun s p => (s.1.getD (p - 1) default, s.2.getD (p - 1) default)) (fun t => t.1) n :=
    { keyEq := fun _ _ _ _ _ => rfl
      inv := by rintro s a b ⟨h1, h2⟩ _ _ _ _; simp [hswapAt_length, h1, h2]
      swap := by
        rintro s a b ⟨h1, h2⟩ ha ha' hb hb' hab x hx hx'
        simp only
        rw [hswapAt_getD s.1 ha (by omega) hb (by omega) hab x hx,
          hswapAt_getD s.2 ha (by omega) hb (by omega) hab x hx]
        split
        · rfl
        · split <;> rfl }
  obtain ⟨h1, h2, h3⟩ := indexSort_spec L (base, index) ⟨hb, hi⟩
  refine ⟨h1.1, h1.2, ascending_of h1.1 h2, ?_⟩
  have := perm_of_permTo h3
  have e : ∀ s : List Int × List Int, s.1.length = n ∧ s.2.length = n →
      (List.range n).map (fun k => (s.1.getD (k + 1 - 1) default, s.2.getD (k + 1 - 1) default)) =
        s.1.zip s.2 := by
    intro s ⟨g1, g2⟩
    apply List.ext_getElem
    · simp [g1, g2]
    · intro k hk hk'
      simp at hk
      simp [List.getD_eq_getElem?_getD, g1, g2, hk]
  rwa [e _ h1, e _ ⟨hb, hi⟩] at this

/-- C13 for `ga_sort_gath`: keys ascending, both subscript arrays carried along. -/
theorem C13_sort_gath (n : Nat) (base i j : List Int) (hb : base.length = n) (hi : i.length = n)
    (hj : j.length = n) :
    let r := sortGath n (base, i, j)
    r.1.length = n ∧ r.2.1.length = n ∧ r.2.2.length = n ∧ Ascending r.1 ∧
      (r.1.zip (r.2.1.zip r.2.2)).Perm (base.zip (i.zip j)) := by
  have L : SwapLaw (fun s : List Int × List Int × List Int =>
        s.1.length = n ∧ s.2.1.length = n ∧ s.2.2.length = n)
      (fun s p => s.1.getD (p - 1) 0)
      (fun s a b => (hswapAt s.1 a b, hswapAt s.2.1 a b, hswapAt s.2.2 a b))
      (fun s p => (s.1.getD (p - 1) default, s.2.1.getD (p - 1) default,
        s.2.2.getD (p - 1) default)) (fun t => t.1) n :=
    { keyEq := fun _ _ _ _ _ => rfl
      inv := by rintro s a b ⟨h1, h2, h3⟩ _ _ _ _; simp [hswapAt_length, h1, h2, h3]
      swap := by
        rintro s a b ⟨h1, h2, h3⟩ ha ha' hb hb' hab x hx hx'
        simp only
        rw [hswapAt_getD s.1 ha (by omega) hb (by omega) hab x hx,
          hswapAt_getD s.2.1 ha (by omega) hb (by omega) hab x hx,
          hswapAt_getD s.2.2 ha (by omega) hb (by omega) hab x hx]
        split
        · rfl
        · split <;> rfl }
  obtain ⟨h1, h2, h3⟩ := indexSort_spec L (base, i, j) ⟨hb, hi, hj⟩
  refine ⟨h1.1, h1.2.1, h1.2.2, ascending_of h1.1 h2, ?_⟩
  have := perm_of_permTo h3
  have e : ∀ s : List Int × List Int × List Int,
      s.1.length = n ∧ s.2.1.length = n ∧ s.2.2.length = n →
      (List.range n).map (fun k => (s.1.getD (k + 1 - 1) default, s.2.1.getD (k + 1 - 1) default,
        s.2.2.getD (k + 1 - 1) default)) = s.1.zip (s.2.1.zip s.2.2) := by
    intro s ⟨g1, g2, g3⟩
    apply List.ext_getElem
    · simp [g1, g2, g3]
    · intro k hk hk'
      simp at hk
      simp [List.getD_eq_getElem?_getD, g1, g2, g3, hk]
  rwa [e _ h1, e _ ⟨hb, hi, hj⟩] at this

/-! ## the `int` variant -/

/-- representable as `int` -/
def FitsInt (x : Int) : Prop := -2147483648 ≤ x ∧ x < 2147483648

theorem int32_id {x : Int} (h : FitsInt x) : int32 x = x := by
  unfold FitsInt at h; unfold int32; omega

theorem getD_fits {l : List Int} (h : ∀ x ∈ l, FitsInt x) (k : Nat) : FitsInt (l.getD k 0) := by
  rw [List.getD_eq_getElem?_getD]
  cases e : l[k]? with
  | none => simp [FitsInt]
  | some a => exact h a (List.mem_of_getElem? e)

theorem hswapAtInt_eq {l : List Int} (h : ∀ x ∈ l, FitsInt x) (a b : Nat) :
    hswapAtInt l a b = hswapAt l a b := by
  unfold hswapAtInt hswapAt
  rw [int32_id (getD_fits h _)]
  rfl

theorem hswapAt_fits {l : List Int} (h : ∀ x ∈ l, FitsInt x) (a b : Nat) :
    ∀ x ∈ hswapAt l a b, FitsInt x := by
  intro x hx
  unfold hswapAt at hx
  have h0 : ∀ k, FitsInt (l.getD k default) := getD_fits h
  rcases List.mem_or_eq_of_mem_set hx with hx | rfl
  · rcases List.mem_or_eq_of_mem_set hx with hx | rfl
    · exact h x hx
    · exact h0 _
  · exact h0 _

/-- C13 for `ga_sort_scat` on `int` values, as far as it is true: keys and subscripts must be
representable as `int` because the exchange goes through an `int` temporary. -/
theorem C13_sort_scat_int_partial (n : Nat) (s : ScatArrays Int) (h : ScatLen n s)
    (hb : ∀ x ∈ s.base, FitsInt x) (hi : ∀ x ∈ s.i, FitsInt x) (hj : ∀ x ∈ s.j, FitsInt x) :
    ScatLen n (sortScatInt n s) ∧ Ascending (sortScatInt n s).base ∧
      (scatTuples (sortScatInt n s)).Perm (scatTuples s) := by
  let I : ScatArrays Int → Prop := fun s => ScatLen n s ∧ (∀ x ∈ s.base, FitsInt x) ∧
    (∀ x ∈ s.i, FitsInt x) ∧ (∀ x ∈ s.j, FitsInt x)
  have hsw : ∀ s, I s → ∀ a b, scatSwapInt s a b = scatSwap s a b := by
    rintro s ⟨-, g1, g2, g3⟩ a b
    simp only [scatSwapInt, scatSwap, hswapAtInt_eq g1, hswapAtInt_eq g2, hswapAtInt_eq g3]
  have L : SwapLaw I (fun s p => s.base.getD (p - 1) 0) scatSwapInt scatView (fun t => t.1) n :=
    { keyEq := fun _ _ _ _ _ => rfl
      inv := by
        intro s a b hs ha ha' hb hb'
        rw [hsw s hs]
        exact ⟨(scat_law n).inv s a b hs.1 ha ha' hb hb', hswapAt_fits hs.2.1 a b,
          hswapAt_fits hs.2.2.1 a b, hswapAt_fits hs.2.2.2 a b⟩
      swap := by
        intro s a b hs ha ha' hb hb' hab x hx hx'
        rw [hsw s hs]
        exact (scat_law n).swap s a b hs.1 ha ha' hb hb' hab x hx hx' }
  obtain ⟨h1, h2, h3⟩ := indexSort_spec L s ⟨h, hb, hi, hj⟩
  refine ⟨h1.1, ascending_of h1.1.1 h2, ?_⟩
  have := perm_of_permTo h3
  rwa [scatTuples_eq h, scatTuples_eq h1.1] at this

/-- Without that restriction C13 is false of the code: the subscript 2^32+1 of the second element
is turned into 1, i.e. the update goes to a different array element. -/
theorem C13_sort_scat_int_truncates :
    ∃ s : ScatArrays Int, ScatLen 2 s ∧ ¬ (scatTuples (sortScatInt 2 s)).Perm (scatTuples s) ∧
      (sortScatInt 2 s).i = [7, 1] :=
  ⟨⟨[1, 0], [10, 20], [4294967297, 7], [3, 4]⟩, by decide, by decide, by decide⟩

/-- Non-trivial instances. -/
example : ScatLen 5 (⟨[3, 1, 2, 1, 0], [30, 11, 20, 12, 0], [1, 2, 3, 4, 5], [9, 8, 7, 6, 5]⟩ :
    ScatArrays Int) ∧
    sortScat 5 (⟨[3, 1, 2, 1, 0], [30, 11, 20, 12, 0], [1, 2, 3, 4, 5], [9, 8, 7, 6, 5]⟩ :
      ScatArrays Int) = ⟨[0, 1, 1, 2, 3], [0, 11, 12, 20, 30], [5, 2, 4, 3, 1], [5, 8, 6, 7, 9]⟩ := by
  decide

example : hsort 7 [5, 3, 9, 3, -1, 12, 0] = [-1, 0, 3, 3, 5, 9, 12] := by decide

end GA
