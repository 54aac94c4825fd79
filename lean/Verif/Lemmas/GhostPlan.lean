import Verif.Lemmas.GhostWin
import Verif.Lemmas.GhostRun
import Verif.Spec.Periodic

/-!
# The message plan of the ghost cell update
-/

namespace GA.Ghost
open Spec Model

variable {A : RegArray}

/-! ## windows -/

section win
variable (A : RegArray) (flag : Bool) (idx : Nat) (pos : Bool) (c : List Nat)

/-- extent minus one -/
def ee (i : Nat) : Int := bh A c i - bl A c i

def wlo (i : Nat) : Int := if flag ∧ i < idx then 0 else wd A i
def whi (i : Nat) : Int := if flag ∧ i < idx then ee A c i + 2 * wd A i else ee A c i + wd A i

def sLo (i : Nat) : Int := if i = idx then (if pos then ee A c i + 1 else wd A i) else wlo A flag idx i
def sHi (i : Nat) : Int :=
  if i = idx then (if pos then ee A c i + wd A i else 2 * wd A i - 1) else whi A flag idx c i
def rLo (i : Nat) : Int := if i = idx then (if pos then 0 else ee A c i + wd A i + 1) else wlo A flag idx i
def rHi (i : Nat) : Int :=
  if i = idx then (if pos then wd A i - 1 else ee A c i + 2 * wd A i) else whi A flag idx c i

def n_ : Nat := A.dims.length

/-- send and receive window -/
def SL : List Int := tab A.dims.length (sLo A flag idx pos c)
def SH : List Int := tab A.dims.length (sHi A flag idx pos c)
def RL : List Int := tab A.dims.length (rLo A flag idx pos c)
def RH : List Int := tab A.dims.length (rHi A flag idx pos c)

/-- leading dimensions of the block with its ghost cells -/
def bld : List Int := ldRem (coordLo A.nblock A.mapc c) (coordHi A.nblock A.dims A.mapc c) A.width
def bD : List Int := locD (coordLo A.nblock A.mapc c) (coordHi A.nblock A.dims A.mapc c) A.width

/-- address of the cell `y` of the box -/
def adr (y : List Int) : Int := horner y (bD A c)

/-- the record of the plan -/
def msgOf : Msg :=
  ⟨(undigits A.nblock (nb A pos idx c) : Nat), (undigits A.nblock (nb A (!pos) idx c) : Nat),
   adr A c (SL A flag idx pos c), adr A c (RL A flag idx pos c), bld A c,
   natEdges (RL A flag idx pos c) (RH A flag idx pos c),
   prodNat (natEdges (RL A flag idx pos c) (RH A flag idx pos c))⟩

end win

theorem wd_nonneg (A : RegArray) (i : Nat) : 0 ≤ wd A i := by unfold wd; omega

theorem win_eq (hA : ArrOK A) (flag : Bool) (idx : Nat) (pos : Bool) (c : List Nat) :
    (if pos then winPos flag idx (coordLo A.nblock A.mapc c) (coordHi A.nblock A.dims A.mapc c) A.width
      else winNeg flag idx (coordLo A.nblock A.mapc c) (coordHi A.nblock A.dims A.mapc c) A.width) =
    ((SL A flag idx pos c, SH A flag idx pos c), (RL A flag idx pos c, RH A flag idx pos c)) := by
  have hw := hA.width
  unfold SL SH RL RH
  cases pos
  · simp only [Bool.false_eq_true, if_false, winNeg, hw]
    congr 2 <;>
    · apply tab_congr
      intro i hi
      have h0 := wd_nonneg A i
      simp only [sLo, sHi, rLo, rHi, wlo, whi, ee, Bool.false_eq_true, if_false, incr, bl, bh, wd]
      by_cases a : i = idx
      · have b : ¬ i < idx := by omega
        simp only [a, lt_irrefl, decide_false, Bool.and_false, Bool.false_eq_true, if_false, if_true]
      · by_cases b : i < idx
        · cases flag <;> simp only [a, b, decide_true, Bool.and_self, Bool.false_and, and_self, true_and,
            Bool.false_eq_true, false_and, if_false, if_true] <;> split_ifs <;> omega
        · simp only [a, b, decide_false, Bool.and_false, Bool.false_eq_true, and_false, if_false, if_true]
  · simp only [if_true, winPos, hw]
    congr 2 <;>
    · apply tab_congr
      intro i hi
      have h0 := wd_nonneg A i
      simp only [sLo, sHi, rLo, rHi, wlo, whi, ee, if_true, incr, bl, bh, wd]
      by_cases a : i = idx
      · have b : ¬ i < idx := by omega
        simp only [a, lt_irrefl, decide_false, Bool.and_false, Bool.false_eq_true, if_false, if_true]
      · by_cases b : i < idx
        · cases flag <;> simp only [a, b, decide_true, Bool.and_self, Bool.false_and, and_self, true_and,
            Bool.false_eq_true, false_and, if_false, if_true] <;> split_ifs <;> omega
        · simp only [a, b, decide_false, Bool.and_false, Bool.false_eq_true, and_false, if_false, if_true]

theorem natEdges_tab {n : Nat} {a b a' b' : Nat → Int} (h : ∀ i, i < n → b i - a i = b' i - a' i) :
    natEdges (tab n a) (tab n b) = natEdges (tab n a') (tab n b') := by
  unfold natEdges
  congr 1
  apply list_ext
  · rw [edges_length (by simp [tab_length]), edges_length (by simp [tab_length])]; simp [tab_length]
  · intro i hi
    rw [edges_length (by simp [tab_length]), tab_length] at hi
    rw [edges_getD (by simp [tab_length]) (by simpa [tab_length]),
      edges_getD (by simp [tab_length]) (by simpa [tab_length]), tab_getD _ hi, tab_getD _ hi,
      tab_getD _ hi, tab_getD _ hi]
    have := h i hi; omega

theorem natEdges_self (A : RegArray) (flag : Bool) (idx : Nat) (pos : Bool) (c : List Nat) :
    natEdges (SL A flag idx pos c) (SH A flag idx pos c) =
      natEdges (RL A flag idx pos c) (RH A flag idx pos c) := by
  apply natEdges_tab
  intro i _
  unfold sLo sHi rLo rHi
  by_cases h : i = idx
  · simp only [h, if_true]; cases pos <;> simp <;> omega
  · simp only [h, if_false]

theorem ee_nb (hA : ArrOK A) {c : List Nat} (hc : CoordOK A.nblock c) (pos : Bool) {idx i : Nat}
    (hidx : idx < A.dims.length) (hi : i < A.dims.length) (h : i ≠ idx) :
    ee A (nb A pos idx c) i = ee A c i := by
  unfold ee
  rw [(nb_other hA hc pos hidx hi h).1, (nb_other hA hc pos hidx hi h).2]

/-- all messages of a round have the shape the receiver expects -/
theorem natEdges_nb (hA : ArrOK A) {c : List Nat} (hc : CoordOK A.nblock c) (flag : Bool) {idx : Nat}
    (pos q : Bool) (hidx : idx < A.dims.length) :
    natEdges (RL A flag idx pos (nb A q idx c)) (RH A flag idx pos (nb A q idx c)) =
      natEdges (RL A flag idx pos c) (RH A flag idx pos c) := by
  apply natEdges_tab
  intro i hi
  unfold rLo rHi
  by_cases h : i = idx
  · simp only [h, if_true]; cases pos <;> simp <;> omega
  · simp only [h, if_false, wlo, whi, ee_nb hA hc q hidx hi h]

section good
variable (hA : ArrOK A) (hW : WideC A)
include hA hW

theorem blen_eq {c : List Nat} (hc : CoordOK A.nblock c) :
    (coordLo A.nblock A.mapc c).length = A.dims.length ∧
    (coordHi A.nblock A.dims A.mapc c).length = A.dims.length ∧ (coordLo A.nblock A.mapc c) ≠ [] := by
  obtain ⟨h1, h2⟩ := owns_length hA hc
  refine ⟨h1, h2, ?_⟩
  intro h
  rw [h] at h1
  exact hA.ne (List.length_eq_zero_iff.1 (by simpa using h1.symm))

theorem bD_len {c : List Nat} (hc : CoordOK A.nblock c) : (bD A c).length = A.dims.length := by
  obtain ⟨h1, h2, h3⟩ := blen_eq hA hW hc
  unfold bD
  rw [locD_length (by omega) (by rw [hA.width]; omega)]; exact h1

theorem bD_getD {c : List Nat} (hc : CoordOK A.nblock c) {i : Nat} (hi : i < A.dims.length) :
    (bD A c).getD i 0 = ee A c i + 1 + 2 * wd A i := by
  obtain ⟨h1, h2, h3⟩ := blen_eq hA hW hc
  unfold bD
  rw [locD_getD (by omega) (by rw [hA.width]; omega) (by omega)]
  rfl

theorem bD_split {c : List Nat} (hc : CoordOK A.nblock c) : ∃ d, bD A c = bld A c ++ [d] := by
  obtain ⟨h1, h2, h3⟩ := blen_eq hA hW hc
  exact locD_dropLast (by omega) (by rw [hA.width]; omega) h3

/-- bounds of the windows -/
theorem win_bounds {c : List Nat} (hc : CoordOK A.nblock c) (flag : Bool) {idx : Nat} (pos : Bool)
    (hw : A.width.getD idx 0 ≠ 0) {i : Nat} (hi : i < A.dims.length) :
    (0 ≤ sLo A flag idx pos c i ∧ sLo A flag idx pos c i ≤ sHi A flag idx pos c i ∧
      sHi A flag idx pos c i ≤ ee A c i + 2 * wd A i) ∧
    (0 ≤ rLo A flag idx pos c i ∧ rLo A flag idx pos c i ≤ rHi A flag idx pos c i ∧
      rHi A flag idx pos c i ≤ ee A c i + 2 * wd A i) := by
  have h1 := hW c hc i hi
  have h2 := wd_nonneg A i
  have h3 : 0 ≤ ee A c i := by unfold ee; omega
  have h4 : wd A i ≤ ee A c i + 1 := by unfold ee; omega
  unfold sLo sHi rLo rHi wlo whi
  by_cases h : i = idx
  · have h5 : 1 ≤ wd A i := by rw [h]; unfold wd; omega
    simp only [h, if_true] at *
    cases pos <;> simp <;> omega
  · simp only [h, if_false]
    split <;> omega

theorem win_ne {c : List Nat} (hc : CoordOK A.nblock c) (flag : Bool) {idx : Nat} (pos : Bool)
    (hw : A.width.getD idx 0 ≠ 0) :
    InPatch (SL A flag idx pos c) (SH A flag idx pos c) (SL A flag idx pos c) ∧
    InPatch (RL A flag idx pos c) (RH A flag idx pos c) (RL A flag idx pos c) := by
  constructor <;>
  · refine inPatch_tab.2 ⟨tab_length _ _, fun i hi => ?_⟩
    first | unfold SL | unfold RL
    rw [tab_getD _ hi]
    have := win_bounds hA hW hc flag pos hw hi
    omega

theorem win_ld {c : List Nat} (hc : CoordOK A.nblock c) (flag : Bool) {idx : Nat} (pos : Bool)
    (hw : A.width.getD idx 0 ≠ 0) :
    LdOK (SL A flag idx pos c) (SH A flag idx pos c) (bld A c) ∧
    LdOK (RL A flag idx pos c) (RH A flag idx pos c) (bld A c) := by
  obtain ⟨h1, h2, h3⟩ := blen_eq hA hW hc
  constructor <;>
  · refine ldok_rem h3 (by omega) (by rw [hA.width]; omega) (by rw [h1]; exact tab_length _ _)
      (by rw [h1]; exact tab_length _ _) ?_
    intro i hi
    rw [h1] at hi
    have hb := bD_getD hA hW hc hi
    unfold bD at hb
    rw [hb]
    first | unfold SL SH | unfold RL RH
    rw [tab_getD _ hi, tab_getD _ hi]
    have := win_bounds hA hW hc flag pos hw hi
    omega

theorem roundMsg_eq {cand : List Int → List Nat} (hcand : ∀ x, CandOK A.nblock (cand x))
    {c : List Nat} (hc : CoordOK A.nblock c) (flag : Bool) {idx : Nat} (pos : Bool)
    (hidx : idx < A.dims.length) (hw : A.width.getD idx 0 ≠ 0) :
    roundMsg A flag cand (undigits A.nblock c) idx pos = some (msgOf A flag idx pos c) := by
  obtain ⟨l1, l2, l3⟩ := located hA hW hcand hc hidx hw
  obtain ⟨h1, h2, h3⟩ := blen_eq hA hW hc
  have hwin := win_eq hA flag idx pos c
  have n1 := win_ne hA hW hc flag pos hw
  unfold roundMsg
  simp only
  rw [owns_of_coord hc] at *
  simp only at *
  rw [hwin]
  have g : ∀ y, y.length = A.dims.length → ghostLoc y (coordLo A.nblock A.mapc c)
      (coordHi A.nblock A.dims A.mapc c) A.width 0 1 = adr A c y := by
    intro y hy
    rw [ghostLoc_eq _ _ _ _ _ _ (by omega)]
    unfold adr bD; omega
  have e : countElems (SL A flag idx pos c) (SH A flag idx pos c) =
      prodNat (natEdges (RL A flag idx pos c) (RH A flag idx pos c)) := by
    rw [countElems_eq, ← natEdges_self, prodNat_natEdges n1.1]
  cases pos
  · simp only [Bool.false_eq_true, if_false, l1, l3]
    rw [g (SL A flag idx _ c) (tab_length _ _), g (RL A flag idx _ c) (tab_length _ _), e]
    rfl
  · simp only [if_true, l2, l3]
    rw [g (SL A flag idx _ c) (tab_length _ _), g (RL A flag idx _ c) (tab_length _ _), e]
    rfl

end good

end GA.Ghost
