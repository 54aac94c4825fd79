import Verif.Lemmas.GhostPlan

/-!
# Effect of one round of the ghost cell update, and of all rounds
-/

namespace GA.Ghost
open Spec Model

variable {A : RegArray} {V : Type} [Inhabited V]

/-! ## one round -/

def bufAt (A : RegArray) (flag : Bool) (idx : Nat) (pos : Bool) (M : Nat → Int → V) (p : Nat) : List V :=
  let m := msgOf A flag idx pos (digits A.nblock p)
  match m.count with
  | c0 :: cs => (writeStrided (M p) m.sndOff (setstride 1 m.ld) c0 cs).getD []
  | [] => []

def srcOf (A : RegArray) (idx : Nat) (pos : Bool) (p : Nat) : Nat :=
  undigits A.nblock (nb A (!pos) idx (digits A.nblock p))

def stepAll (A : RegArray) (flag : Bool) (idx : Nat) (pos : Bool) (M : Nat → Int → V) (p : Nat) :
    Int → V :=
  let m := msgOf A flag idx pos (digits A.nblock p)
  match m.count with
  | c0 :: cs => (readStrided (fun i => (bufAt A flag idx pos M (srcOf A idx pos p)).getD i default) (M p)
      m.rcvOff (setstride 1 m.ld) c0 cs).getD (M p)
  | [] => M p

theorem step_spec (hA : ArrOK A) (hW : WideC A) (flag : Bool) {idx : Nat} (pos : Bool)
    (hidx : idx < A.dims.length) (hw : A.width.getD idx 0 ≠ 0) (M : Nat → Int → V) {c : List Nat}
    (hc : CoordOK A.nblock c) :
    ∃ c0 cs, (msgOf A flag idx pos c).count = c0 :: cs ∧
      writeStrided (M (undigits A.nblock c)) (msgOf A flag idx pos c).sndOff
        (setstride 1 (msgOf A flag idx pos c).ld) c0 cs =
          some (bufAt A flag idx pos M (undigits A.nblock c)) ∧
      readStrided (fun i => (bufAt A flag idx pos M (srcOf A idx pos (undigits A.nblock c))).getD i default)
        (M (undigits A.nblock c)) (msgOf A flag idx pos c).rcvOff (setstride 1 (msgOf A flag idx pos c).ld)
        c0 cs = some (stepAll A flag idx pos M (undigits A.nblock c)) ∧
      (bufAt A flag idx pos M (undigits A.nblock c)).length = prodNat (c0 :: cs) ∧
      (bufAt A flag idx pos M (srcOf A idx pos (undigits A.nblock c))).length = prodNat (c0 :: cs) ∧
      (∀ y, InPatch (RL A flag idx pos c) (RH A flag idx pos c) y →
        stepAll A flag idx pos M (undigits A.nblock c) (adr A c y) =
          M (undigits A.nblock (nb A (!pos) idx c)) (adr A (nb A (!pos) idx c)
            (addL (SL A flag idx pos (nb A (!pos) idx c)) (subL y (RL A flag idx pos c))))) ∧
      (∀ x, (∀ y, InPatch (RL A flag idx pos c) (RH A flag idx pos c) y → adr A c y ≠ x) →
        stepAll A flag idx pos M (undigits A.nblock c) x = M (undigits A.nblock c) x) := by
  have hc' := nb_ok hA hc (!pos) hidx
  obtain ⟨d, hd⟩ := bD_split hA hW hc
  obtain ⟨d', hd'⟩ := bD_split hA hW hc'
  have n := win_ne hA hW hc flag pos hw
  have n' := win_ne hA hW hc' flag pos hw
  have l := win_ld hA hW hc flag pos hw
  have l' := win_ld hA hW hc' flag pos hw
  have e := natEdges_self A flag idx pos c
  have e' := natEdges_self A flag idx pos (nb A (!pos) idx c)
  rw [natEdges_nb hA hc flag pos (!pos) hidx] at e'
  have e'' := natEdges_nb hA hc flag pos (!pos) hidx
  obtain ⟨c0, cs, hcs⟩ : ∃ c0 cs, natEdges (RL A flag idx pos c) (RH A flag idx pos c) = c0 :: cs := by
    cases h : natEdges (RL A flag idx pos c) (RH A flag idx pos c) with
    | nil =>
      have : (natEdges (RL A flag idx pos c) (RH A flag idx pos c)).length = A.dims.length := by
        unfold natEdges RL RH
        rw [List.length_map, edges_length (by simp [tab_length]), tab_length]
      rw [h] at this
      exact absurd (List.length_eq_zero_iff.1 this.symm) hA.ne
    | cons a b => exact ⟨a, b, rfl⟩
  have hsrc : srcOf A idx pos (undigits A.nblock c) = undigits A.nblock (nb A (!pos) idx c) := by
    unfold srcOf; rw [digits_undigits hc]
  have hm : (msgOf A flag idx pos c).count = c0 :: cs := hcs
  have hm' : (msgOf A flag idx pos (nb A (!pos) idx c)).count = c0 :: cs := by
    show natEdges _ _ = _
    rw [e'', hcs]
  -- own buffer
  obtain ⟨b, b1, b2, -⟩ := win_pack (M (undigits A.nblock c)) d l.1 n.1 (e.trans hcs)
  have hb : bufAt A flag idx pos M (undigits A.nblock c) = b := by
    unfold bufAt
    simp only [digits_undigits hc, hm]
    unfold msgOf adr
    rw [hd]
    simp only [b1, Option.getD_some]
  -- the buffer that arrives
  obtain ⟨b', b1', b2', -⟩ := win_pack (M (undigits A.nblock (nb A (!pos) idx c))) d' l'.1 n'.1
    (e'.trans hcs)
  have hb' : bufAt A flag idx pos M (undigits A.nblock (nb A (!pos) idx c)) = b' := by
    unfold bufAt
    simp only [digits_undigits hc', hm']
    unfold msgOf adr
    rw [hd']
    simp only [b1', Option.getD_some]
  obtain ⟨-, mem', m1, m2, m3⟩ := win_move (M (undigits A.nblock (nb A (!pos) idx c)))
    (M (undigits A.nblock c)) d' d l'.1 l.2 n'.1 n.2 (e'.trans hcs) hcs b1'
  have hst : stepAll A flag idx pos M (undigits A.nblock c) = mem' := by
    unfold stepAll
    simp only [digits_undigits hc, hm, hsrc, hb']
    unfold msgOf adr
    rw [hd]
    simp only [m1, Option.getD_some]
  refine ⟨c0, cs, hm, ?_, ?_, ?_, ?_, ?_, ?_⟩
  · rw [hb]; unfold msgOf adr; rw [hd]; exact b1
  · rw [hsrc, hb', hst]; unfold msgOf adr; rw [hd]; exact m1
  · rw [hb, b2]
  · rw [hsrc, hb', b2']
  · intro y hy
    rw [hst]
    unfold adr
    rw [hd, hd']
    exact m2 y hy
  · intro x hx
    rw [hst]
    apply m3
    intro y hy
    have := hx y hy
    unfold adr at this
    rwa [hd] at this

/-! ## content -/

/-- coordinate `i` of the cell is outside the owned block -/
def Ext (A : RegArray) (c : List Nat) (y : List Int) (i : Nat) : Prop :=
  y.getD i 0 < wd A i ∨ ee A c i + wd A i < y.getD i 0

def InBox (A : RegArray) (c : List Nat) (y : List Int) : Prop :=
  y.length = A.dims.length ∧ ∀ i, i < A.dims.length → 0 ≤ y.getD i 0 ∧ y.getD i 0 ≤ ee A c i + 2 * wd A i

/-- cells that are up to date after the rounds in `L` -/
structure Valid (A : RegArray) (flag : Bool) (L : List Nat) (c : List Nat) (y : List Int) : Prop where
  box : InBox A c y
  low : ∀ i, i < A.dims.length → y.getD i 0 < wd A i → 2 * i + 1 ∈ L
  high : ∀ i, i < A.dims.length → ee A c i + wd A i < y.getD i 0 → 2 * i ∈ L
  one : flag = false → ∀ i j, i < A.dims.length → j < A.dims.length → Ext A c y i → Ext A c y j → i = j

/-- subscript the cell stands for -/
def glob (A : RegArray) (c : List Nat) (y : List Int) : List Int :=
  tab A.dims.length fun i => bl A c i + y.getD i 0 - wd A i

theorem wrap_length {dims x : List Int} (h : x.length = dims.length) : (wrap dims x).length = dims.length := by
  induction dims generalizing x with
  | nil => simp [wrap]
  | cons d dims ih =>
    cases x with
    | nil => simp at h
    | cons a x => simp [wrap, ih (x := x) (by simpa using h)]

theorem wrap_getD {dims x : List Int} (h : x.length = dims.length) {i : Nat} (hi : i < dims.length) :
    (wrap dims x).getD i 0 = (x.getD i 0 - 1) % dims.getD i 0 + 1 := by
  induction dims generalizing x i with
  | nil => simp at hi
  | cons d dims ih =>
    cases x with
    | nil => simp at h
    | cons a x =>
      cases i with
      | zero => simp [wrap]
      | succ i => simpa [wrap] using ih (x := x) (by simpa using h) (by simpa using hi)

theorem wrap_congr {dims x y : List Int} (hx : x.length = dims.length) (hy : y.length = dims.length)
    (h : ∀ i, i < dims.length → ∃ k, x.getD i 0 = y.getD i 0 + dims.getD i 0 * k) :
    wrap dims x = wrap dims y := by
  apply list_ext (by rw [wrap_length hx, wrap_length hy])
  intro i hi
  rw [wrap_length hx] at hi
  rw [wrap_getD hx hi, wrap_getD hy hi]
  obtain ⟨k, hk⟩ := h i hi
  rw [hk, show y.getD i 0 + dims.getD i 0 * k - 1 = (y.getD i 0 - 1) + dims.getD i 0 * k by ring,
    Int.add_mul_emod_self_left]

theorem moved_getD (hA : ArrOK A) {c : List Nat} (hc : CoordOK A.nblock c) (flag : Bool)
    {idx : Nat} (pos : Bool) (hidx : idx < A.dims.length) {y : List Int} (hy : y.length = A.dims.length)
    {i : Nat} (hi : i < A.dims.length) :
    (addL (SL A flag idx pos (nb A (!pos) idx c)) (subL y (RL A flag idx pos c))).getD i 0 =
      if i = idx then (if pos then y.getD i 0 + ee A (nb A (!pos) idx c) i + 1
        else y.getD i 0 - (ee A c i + 1)) else y.getD i 0 := by
  have l1 : (RL A flag idx pos c).length = A.dims.length := tab_length _ _
  have l2 : (SL A flag idx pos (nb A (!pos) idx c)).length = A.dims.length := tab_length _ _
  have l3 : (subL y (RL A flag idx pos c)).length = A.dims.length := by rw [subL_length (by omega), hy]
  rw [addL_getD (by omega) (by omega), subL_getD (by omega) (by omega)]
  unfold SL RL
  rw [tab_getD _ hi, tab_getD _ hi]
  unfold sLo rLo
  by_cases h : i = idx
  · simp only [h, if_true]; cases pos <;> simp <;> omega
  · simp only [h, if_false, wlo]; omega

theorem moved_length {c : List Nat} (flag : Bool)
    {idx : Nat} (pos : Bool) {y : List Int} (hy : y.length = A.dims.length) :
    (addL (SL A flag idx pos (nb A (!pos) idx c)) (subL y (RL A flag idx pos c))).length =
      A.dims.length := by
  have l1 : (RL A flag idx pos c).length = A.dims.length := tab_length _ _
  have l2 : (SL A flag idx pos (nb A (!pos) idx c)).length = A.dims.length := tab_length _ _
  have l3 : (subL y (RL A flag idx pos c)).length = A.dims.length := by rw [subL_length (by omega), hy]
  rw [addL_length (by omega), l2]

/-- the number of the round -/
def kap (idx : Nat) (pos : Bool) : Nat := if pos then 2 * idx + 1 else 2 * idx

theorem moved_glob (hA : ArrOK A) {c : List Nat} (hc : CoordOK A.nblock c) (flag : Bool) {idx : Nat}
    (pos : Bool) (hidx : idx < A.dims.length) {y : List Int} (hy : y.length = A.dims.length) :
    wrap A.dims (glob A (nb A (!pos) idx c)
      (addL (SL A flag idx pos (nb A (!pos) idx c)) (subL y (RL A flag idx pos c)))) =
    wrap A.dims (glob A c y) := by
  apply wrap_congr (tab_length _ _) (tab_length _ _)
  intro i hi
  rw [tab_getD _ hi, tab_getD _ hi, moved_getD hA hc flag pos hidx hy hi]
  by_cases h : i = idx
  · subst h
    simp only [if_true]
    cases pos
    · simp only [Bool.false_eq_true, if_false, Bool.not_false]
      rcases nb_pos hA hc hidx with ⟨_, h2, h3⟩ | ⟨_, h2⟩
      · exact ⟨-1, by unfold ee; unfold dm at h2; omega⟩
      · exact ⟨0, by unfold ee; omega⟩
    · simp only [if_true, Bool.not_true]
      rcases nb_neg hA hc hidx with ⟨_, h2, h3⟩ | ⟨_, h2⟩
      · exact ⟨1, by unfold ee; unfold dm at h3; omega⟩
      · exact ⟨0, by unfold ee; omega⟩
  · rw [if_neg h, (nb_other hA hc (!pos) hidx hi h).1]
    exact ⟨0, by omega⟩

theorem in_recv (hW : WideC A) {c : List Nat} (hc : CoordOK A.nblock c) {flag : Bool}
    {idx : Nat} {pos : Bool} {L : List Nat}
    (hL : ∀ k ∈ L, k < kap idx pos) {y : List Int} (hv : Valid A flag (L ++ [kap idx pos]) c y)
    (hn : ¬ Valid A flag L c y) : InPatch (RL A flag idx pos c) (RH A flag idx pos c) y := by
  -- dimension `idx` is exterior on the side of this round
  have hside : ∃ i, i < A.dims.length ∧ ((y.getD i 0 < wd A i ∧ 2 * i + 1 = kap idx pos) ∨
      (ee A c i + wd A i < y.getD i 0 ∧ 2 * i = kap idx pos)) := by
    by_contra hcon
    simp only [not_exists, not_and, not_or] at hcon
    apply hn
    refine ⟨hv.box, ?_, ?_, hv.one⟩
    · intro i hi h
      have := hv.low i hi h
      rw [List.mem_append, List.mem_singleton] at this
      rcases this with h' | h'
      · exact h'
      · exact absurd h' ((hcon i hi).1 h)
    · intro i hi h
      have := hv.high i hi h
      rw [List.mem_append, List.mem_singleton] at this
      rcases this with h' | h'
      · exact h'
      · exact absurd h' ((hcon i hi).2 h)
  obtain ⟨i0, hi0, hs⟩ := hside
  have hi0x : i0 = idx ∧ (if pos then y.getD i0 0 < wd A i0 else ee A c i0 + wd A i0 < y.getD i0 0) := by
    unfold kap at hs
    cases pos <;> simp only [Bool.false_eq_true, if_false, if_true] at hs ⊢ <;> omega
  clear hs
  obtain ⟨rfl, hs⟩ := hi0x
  have hext : Ext A c y i0 := by
    unfold Ext; cases pos <;> simp only [Bool.false_eq_true, if_false, if_true] at hs <;> omega
  unfold RL RH
  refine inPatch_tab.2 ⟨hv.box.1, ?_⟩
  intro j hj
  have hbj := hv.box.2 j hj
  unfold rLo rHi
  by_cases e : j = i0
  · subst e
    simp only [if_true]
    cases pos <;> simp only [Bool.false_eq_true, if_false, if_true] at hs ⊢ <;> omega
  · simp only [e, if_false, wlo, whi]
    have hlt : Ext A c y j → j < i0 := by
      intro hx
      rcases hx with hx | hx
      · have := hv.low j hj hx
        rw [List.mem_append, List.mem_singleton] at this
        unfold kap at *
        rcases this with h | h
        · have := hL _ h; split at this <;> omega
        · split at h <;> omega
      · have := hv.high j hj hx
        rw [List.mem_append, List.mem_singleton] at this
        unfold kap at *
        rcases this with h | h
        · have := hL _ h; split at this <;> omega
        · split at h <;> omega
    by_cases hfl : flag = true
    · by_cases hji : j < i0
      · rw [if_pos ⟨hfl, hji⟩, if_pos ⟨hfl, hji⟩]; exact hbj
      · rw [if_neg (by tauto), if_neg (by tauto)]
        have : ¬ Ext A c y j := fun h => hji (hlt h)
        unfold Ext at this; omega
    · rw [if_neg (by tauto), if_neg (by tauto)]
      have : ¬ Ext A c y j := fun h => e (hv.one (by simpa using hfl) j i0 hj hi0 h hext)
      unfold Ext at this; omega

theorem moved_valid (hA : ArrOK A) (hW : WideC A) {c : List Nat} (hc : CoordOK A.nblock c) {flag : Bool}
    {idx : Nat} {pos : Bool} (hidx : idx < A.dims.length) {L : List Nat}
    {y : List Int} (hv : Valid A flag (L ++ [kap idx pos]) c y)
    (hin : InPatch (RL A flag idx pos c) (RH A flag idx pos c) y) :
    Valid A flag L (nb A (!pos) idx c)
      (addL (SL A flag idx pos (nb A (!pos) idx c)) (subL y (RL A flag idx pos c))) := by
  have hyl := hv.box.1
  have hc' := nb_ok hA hc (!pos) hidx
  have hg := fun i (hi : i < A.dims.length) => moved_getD hA hc flag pos hidx hyl hi
  have hi0 := (inPatch_tab.1 hin).2 idx hidx
  have hself := hW c hc idx hidx
  have hself' := hW _ hc' idx hidx
  have hw0 := wd_nonneg A idx
  -- interior in dimension idx
  have hint : ¬ Ext A (nb A (!pos) idx c)
      (addL (SL A flag idx pos (nb A (!pos) idx c)) (subL y (RL A flag idx pos c))) idx := by
    unfold Ext
    rw [hg idx hidx, if_pos rfl]
    unfold rLo rHi at hi0
    simp only [if_true] at hi0
    have he : ee A (nb A (!pos) idx c) idx = bh A (nb A (!pos) idx c) idx - bl A (nb A (!pos) idx c) idx := rfl
    cases pos <;> simp only [Bool.false_eq_true, if_false, if_true, Bool.not_true, Bool.not_false] at * <;>
      omega
  have hext : ∀ j, j < A.dims.length → j ≠ idx → (Ext A (nb A (!pos) idx c)
      (addL (SL A flag idx pos (nb A (!pos) idx c)) (subL y (RL A flag idx pos c))) j ↔ Ext A c y j) := by
    intro j hj hne
    unfold Ext
    rw [hg j hj, if_neg hne, ee_nb hA hc (!pos) hidx hj hne]
  refine ⟨⟨moved_length flag pos hyl, ?_⟩, ?_, ?_, ?_⟩
  · intro j hj
    by_cases e : j = idx
    · subst e; unfold Ext at hint; omega
    · rw [hg j hj, if_neg e, ee_nb hA hc (!pos) hidx hj e]
      exact hv.box.2 j hj
  · intro j hj h
    by_cases e : j = idx
    · subst e; exact absurd (Or.inl h) hint
    · rw [hg j hj, if_neg e] at h
      have := hv.low j hj h
      rw [List.mem_append, List.mem_singleton] at this
      rcases this with h' | h'
      · exact h'
      · unfold kap at h'; split at h' <;> omega
  · intro j hj h
    by_cases e : j = idx
    · subst e; exact absurd (Or.inr h) hint
    · rw [hg j hj, if_neg e, ee_nb hA hc (!pos) hidx hj e] at h
      have := hv.high j hj h
      rw [List.mem_append, List.mem_singleton] at this
      rcases this with h' | h'
      · exact h'
      · unfold kap at h'; split at h' <;> omega
  · intro hf j k hj hk h1 h2
    by_cases e : j = idx
    · subst e; exact absurd h1 hint
    · by_cases e' : k = idx
      · subst e'; exact absurd h2 hint
      · exact hv.one hf j k hj hk ((hext j hj e).1 h1) ((hext k hk e').1 h2)

theorem adr_inj (hA : ArrOK A) (hW : WideC A) {c : List Nat} (hc : CoordOK A.nblock c) {y z : List Int}
    (hy : InBox A c y) (hz : InBox A c z) (h : adr A c y = adr A c z) : y = z := by
  have fb : ∀ y, InBox A c y → FB y (bD A c) := by
    intro y hy
    rw [fb_iff, bD_len hA hW hc]
    refine ⟨hy.1, fun i hi => ?_⟩
    rw [bD_getD hA hW hc hi]
    have := hy.2 i hi
    omega
  exact fb_inj (fb y hy) (fb z hz) h

theorem recv_box (hA : ArrOK A) (hW : WideC A) {c : List Nat} (hc : CoordOK A.nblock c) {flag : Bool}
    {idx : Nat} {pos : Bool} (hidx : idx < A.dims.length) (hw : A.width.getD idx 0 ≠ 0) {y : List Int}
    (hin : InPatch (RL A flag idx pos c) (RH A flag idx pos c) y) :
    InBox A c y ∧ Ext A c y idx := by
  obtain ⟨h1, h2⟩ := inPatch_tab.1 hin
  refine ⟨⟨h1, fun i hi => ?_⟩, ?_⟩
  · have := h2 i hi
    have := win_bounds hA hW hc flag pos hw hi
    omega
  · have := h2 idx hidx
    unfold rLo rHi at this
    simp only [if_true] at this
    unfold Ext
    cases pos <;> simp only [Bool.false_eq_true, if_false, if_true] at this <;> omega

/-- memory after the rounds `L` -/
structure Content (A : RegArray) (flag : Bool) (L : List Nat) (M0 M : Nat → Int → V)
    (f : List Int → V) : Prop where
  val : ∀ c, CoordOK A.nblock c → ∀ y, Valid A flag L c y →
    M (undigits A.nblock c) (adr A c y) = f (wrap A.dims (glob A c y))
  rest : ∀ c, CoordOK A.nblock c → ∀ x,
    (∀ y, InBox A c y → (∃ i, i < A.dims.length ∧ Ext A c y i) → adr A c y ≠ x) →
    M (undigits A.nblock c) x = M0 (undigits A.nblock c) x

theorem content_step (hA : ArrOK A) (hW : WideC A) {flag : Bool} {idx : Nat} {pos : Bool}
    (hidx : idx < A.dims.length) (hw : A.width.getD idx 0 ≠ 0) {L : List Nat}
    (hL : ∀ k ∈ L, k < kap idx pos) {M0 M : Nat → Int → V} {f : List Int → V}
    (h : Content A flag L M0 M f) :
    Content A flag (L ++ [kap idx pos]) M0 (stepAll A flag idx pos M) f := by
  constructor
  · intro c hc y hv
    obtain ⟨c0, cs, -, -, -, -, -, s1, s2⟩ := step_spec hA hW flag pos hidx hw M hc
    by_cases hin : InPatch (RL A flag idx pos c) (RH A flag idx pos c) y
    · rw [s1 y hin, h.val _ (nb_ok hA hc (!pos) hidx) _ (moved_valid hA hW hc hidx hv hin),
        moved_glob hA hc flag pos hidx hv.box.1]
    · have hv' : Valid A flag L c y := by
        by_contra hn
        exact hin (in_recv hW hc hL hv hn)
      rw [s2, h.val c hc y hv']
      intro z hz he
      have := adr_inj hA hW hc (recv_box hA hW hc hidx hw hz).1 hv.box he
      rw [this] at hz
      exact hin hz
  · intro c hc x hx
    obtain ⟨c0, cs, -, -, -, -, -, s1, s2⟩ := step_spec hA hW flag pos hidx hw M hc
    rw [s2, h.rest c hc x hx]
    intro y hy
    have := recv_box hA hW hc hidx hw hy
    exact hx y this.1 ⟨idx, hidx, this.2⟩

end GA.Ghost
