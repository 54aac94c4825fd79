import Verif.Lemmas.Strided

/-!
# C16: the ARMCI stride iterator enumerates each segment once
-/

namespace GA
open Spec Model

variable {V : Type}

/-- C16: for every descriptor that meets the documented conditions (positive counts, non
overlapping strides) no assertion fails, exactly `Π count[1..]` segments are visited, the segment
visited at step `packPos counts is` is the one with index vector `is` (so each index vector is
visited once, in index order), and different visited segments are disjoint. -/
theorem C16_iterator (strides : List Int) (c0 : Nat) (counts : List Nat)
    (hl : strides.length = counts.length) (hc0 : 0 < c0) (hpos : ∀ c ∈ counts, 0 < c)
    (hfit : StrideFit c0 strides counts) :
    ∃ offs, stridedSegs strides c0 counts = some offs ∧
      offs.length = prodNat counts ∧
      (∀ is, IdxOK counts is → offs[packPos counts is]? = some (strideSum strides is)) ∧
      (∀ k, k < offs.length → ∃ is, IdxOK counts is ∧ packPos counts is = k) ∧
      offs.Pairwise (fun o o' => o + (c0 : Int) ≤ o' ∨ o' + (c0 : Int) ≤ o) := by
  refine ⟨_, stridedSegs_eq hl hc0 hpos hfit, ?_, ?_, ?_, blockOffs_sep hl hfit⟩
  · simp [blockOffs_eq _ _ hl]
  · intro is his; exact blockOffs_getElem? hl his
  · intro k hk
    rw [blockOffs_eq _ _ hl] at hk
    simp only [List.length_map, List.length_range] at hk
    rw [← gridSize_eq] at hk
    exact ⟨digits counts k, (idxOK_iff _ _).2 (digits_ok hk), by
      rw [packPos_eq, undigits_digits hk]⟩

/-- A descriptor whose strides overlap or whose segment is empty is refused. -/
theorem C16_rejects (strides : List Int) (c0 : Nat) (counts : List Nat)
    (hl : strides.length = counts.length)
    (h : c0 = 0 ∨ (∃ c ∈ counts, c = 0) ∨ ¬ StrideFit c0 strides counts) :
    stridedSegs strides c0 counts = none := by
  unfold stridedSegs strideInit
  rcases h with h | h | h
  · simp [h]
  · obtain ⟨c, hc, rfl⟩ := h
    have : n1dim counts = 0 := by
      rw [n1dim_eq]
      exact prodNat_zero fun h => absurd (h 0 hc) (by omega)
    simp [this]
  · have : strideAsserts c0 strides counts = false := by
      rw [← Bool.not_eq_true, strideAsserts_iff hl]; exact h
    simp [this]

/-- C16: reading a buffer that was written from a strided region restores the region at any
place with any accepted strides, and touches nothing else. -/
theorem C16_roundtrip [Inhabited V] (src dst : Int → V) (sbase dbase : Int) (sstr dstr : List Int)
    (c0 : Nat) (counts : List Nat) (hs : sstr.length = counts.length)
    (hd : dstr.length = counts.length) {msg : List V} {dst' : Int → V}
    (hw : writeStrided src sbase sstr c0 counts = some msg)
    (hr : readStrided (fun i => msg.getD i default) dst dbase dstr c0 counts = some dst') :
    (∀ idx, IdxOK (c0 :: counts) idx →
      dst' (dbase + strAddr dstr idx) = src (sbase + strAddr sstr idx)) ∧
    (∀ x, (∀ idx, IdxOK (c0 :: counts) idx → dbase + strAddr dstr idx ≠ x) → dst' x = dst x) := by
  have ok : ∀ str : List Int, str.length = counts.length →
      (∃ o, stridedSegs str c0 counts = some o) →
      0 < c0 ∧ (∀ c ∈ counts, 0 < c) ∧ StrideFit c0 str counts := by
    intro str hl ⟨o, ho⟩
    by_contra hcon
    have := C16_rejects str c0 counts hl (by
      by_cases h1 : c0 = 0
      · exact Or.inl h1
      by_cases h2 : ∀ c ∈ counts, 0 < c
      · right; right
        intro h3
        exact hcon ⟨by omega, h2, h3⟩
      · right; left
        simp only [not_forall] at h2
        obtain ⟨c, hc, h⟩ := h2
        exact ⟨c, hc, by omega⟩)
    rw [this] at ho
    cases ho
  unfold writeStrided at hw
  unfold readStrided at hr
  rw [Option.map_eq_some_iff] at hw hr
  obtain ⟨o1, ho1, rfl⟩ := hw
  obtain ⟨o2, ho2, rfl⟩ := hr
  obtain ⟨a1, a2, a3⟩ := ok sstr hs ⟨_, ho1⟩
  obtain ⟨-, -, b3⟩ := ok dstr hd ⟨_, ho2⟩
  rw [stridedSegs_eq hs a1 a2 a3, Option.some.injEq] at ho1
  rw [stridedSegs_eq hd a1 a2 b3, Option.some.injEq] at ho2
  subst ho1 ho2
  obtain ⟨h1, h2⟩ := unpack_spec
    (fun i => (pack src sbase sstr c0 counts).getD i default) dst dbase c0 hd b3
  refine ⟨?_, h2⟩
  intro idx hidx
  have e := h1 idx hidx
  have := (pack_spec src sbase c0 hs).2 idx hidx
  simp only [List.getD_eq_getElem?_getD] at e
  rw [this] at e
  exact e

/-- Non-trivial instance: all hypotheses hold and the iterator visits 6 segments. -/
example : StrideFit (4 : Nat) [5, 20] [3, 2] ∧
    stridedSegs [5, 20] 4 [3, 2] = some [0, 5, 10, 20, 25, 30] := by decide

example : stridedSegs [5, 14] 4 [3, 2] = none := by decide

example : ∃ msg, writeStrided (fun i => i) 0 [5, 20] 4 [3, 2] = some msg ∧
    (readStrided (fun i => msg.getD i 0) (fun _ => 0) 7 [4, 12] 4 [3, 2]).isSome = true := by
  refine ⟨_, rfl, ?_⟩
  decide

end GA
