import Verif.Lemmas.Distr

/-!
# C01: every element has exactly one owner; C02: the floating point guess does not matter

`NGA_Locate` is `Model.locate`, `NGA_Distribution` is `Model.owns`.
-/

namespace GA
open Spec Model

/-- Subscript `x` lies in the block that `NGA_Distribution` reports for process `p`. -/
def OwnedBy (A : RegArray) (p : Int) (x : List Int) : Prop :=
  InPatch (owns A p).1 (owns A p).2 x

instance (A : RegArray) (p : Int) (x : List Int) : Decidable (OwnedBy A p x) := by
  unfold OwnedBy; infer_instance

theorem ownedBy_iff {A : RegArray} (hne : A.dims ≠ []) (hm : MapOK A.nblock A.dims A.mapc)
    {p : Int} {x : List Int} :
    OwnedBy A p x ↔ (0 ≤ p ∧ p < gridSize A.nblock) ∧
      InPatch (coordLo A.nblock A.mapc (digits A.nblock p.toNat))
        (coordHi A.nblock A.dims A.mapc (digits A.nblock p.toNat)) x := by
  unfold OwnedBy owns
  by_cases hp : p > (gridSize A.nblock : Int) - 1 ∨ p < 0
  · simp only [hp, if_true]
    constructor
    · intro h
      exfalso
      cases hA : A.nblock with
      | nil =>
        rw [hA] at hm
        cases hd : A.dims with
        | nil => exact hne hd
        | cons => rw [hd] at hm; simp [MapOK] at hm
      | cons n ns =>
        rw [hA] at h
        cases x with
        | nil => simp [InPatch] at h
        | cons x xs =>
          simp only [List.map_cons, InPatch] at h
          omega
    · rintro ⟨h, _⟩; omega
  · simp only [hp, if_false, ownsLo_eq, ownsHi_eq]
    constructor
    · intro h; exact ⟨by omega, h⟩
    · exact fun h => h.2

/-- **C01.** For a well-formed distribution map and any candidate guesses: an in-range subscript
is located on exactly one process, the located process owns it according to the distribution
query, and no other process does; an out-of-range subscript is rejected and owned by nobody. -/
theorem C01_unique_owner (A : RegArray) (hne : A.dims ≠ []) (hm : MapOK A.nblock A.dims A.mapc)
    (cand : List Nat) (hc : CandOK A.nblock cand) (x : List Int) (hl : x.length = A.dims.length) :
    (InArray A.dims x →
      ∃ p, locate A cand x = some p ∧ 0 ≤ p ∧ p < gridSize A.nblock ∧ OwnedBy A p x ∧
        ∀ q, OwnedBy A q x → q = p) ∧
    (¬ InArray A.dims x → locate A cand x = none ∧ ∀ q, ¬ OwnedBy A q x) := by
  constructor
  · intro hx
    obtain ⟨h1, h2⟩ := findblocks_ok hm hc hx
    refine ⟨(undigits A.nblock (findblocks A.nblock A.mapc cand x) : Nat), ?_, by omega, ?_, ?_, ?_⟩
    · unfold locate
      rw [if_pos ((subscriptOK_iff hl).2 hx), computeIndex_eq, horner_cast]
    · exact_mod_cast undigits_lt h1
    · rw [ownedBy_iff hne hm]
      refine ⟨⟨by omega, by exact_mod_cast undigits_lt h1⟩, ?_⟩
      simpa [digits_undigits h1] using h2
    · intro q hq
      rw [ownedBy_iff hne hm] at hq
      obtain ⟨⟨q0, q1⟩, hq⟩ := hq
      have hlt : q.toNat < gridSize A.nblock := by omega
      have := coord_unique hm (digits_ok hlt) h1 hq h2
      have e := undigits_digits hlt
      rw [this] at e
      omega
  · intro hx
    constructor
    · unfold locate
      rw [if_neg]
      rwa [subscriptOK_iff hl]
    · intro q hq
      rw [ownedBy_iff hne hm] at hq
      obtain ⟨⟨q0, q1⟩, hq⟩ := hq
      exact hx (coord_inArray hm (digits_ok (by omega)) hq)

/-- **C02.** The block search finds the block whose interval contains the element, whatever
candidate the floating point guess yields (any value from `0` to the number of blocks). -/
theorem C02_guess_irrelevant (starts : List Int) (d e : Int) (cand cand' : Nat)
    (hs : AxisOK d starts) (he : 1 ≤ e) (hed : e ≤ d)
    (hc : cand ≤ starts.length) (hc' : cand' ≤ starts.length) :
    let b := findblock starts starts.length cand e
    findblock starts starts.length cand' e = b ∧ b < starts.length ∧ starts.getD b 0 ≤ e ∧
      (if b + 1 < starts.length then e < starts.getD (b + 1) 0 else e ≤ d) := by
  have hne : 0 < starts.length := by
    cases starts with
    | nil => simp [AxisOK] at hs
    | cons => simp
  have ht : starts.take starts.length = starts := List.take_length
  have h0 : starts.getD 0 0 ≤ e := by
    rw [AxisOK.start hne (by rw [ht]; exact hs)]; exact he
  have h1 := findblock_spec hne hc h0
  have h2 := findblock_spec hne hc' h0
  refine ⟨BlockOf.unique (d := d) (by rw [ht]; exact hs) (le_refl _) h2 h1, h1.1, h1.2.1, ?_⟩
  split
  · exact h1.2.2 ‹_›
  · exact hed

/-! Non-vacuity: a 2-dimensional 10 x 7 array on a 3 x 2 grid with an empty block. -/

/-- example array: 10 x 7, blocks 1..4, 5..5, 5..10 (second block of dim 0 is `5..4`, empty) -/
def exA : RegArray := ⟨[10, 7], [3, 2], [1, 5, 5, 1, 4], [0, 0]⟩

example : MapOK exA.nblock exA.dims exA.mapc := by decide
example : CandOK exA.nblock [3, 0] := by simp [CandOK, exA]
example : InArray exA.dims [10, 4] ∧ locate exA [3, 0] [10, 4] = some 5 ∧ OwnedBy exA 5 [10, 4] := by
  decide
example : locate exA [3, 0] [11, 4] = none := by decide
example : AxisOK 10 [1, 5, 5] ∧ findblock [1, 5, 5] 3 0 5 = 2 ∧ findblock [1, 5, 5] 3 3 4 = 0 := by
  decide

end GA
