import Verif.Model.GhostGet
import Verif.Spec.GhostGet
import Verif.Lemmas.GhostSpec

/-!
# Ghost cells fetched with one-sided gets: where every copy comes from and goes to
-/

namespace GA.GhostGet
open Spec Model Ghost

variable {A : RegArray} {V : Type}

/-! ## executing copies -/

theorem exec_miss (l : List Copy) (m : Addr → V) {a : Addr} (h : ∀ c ∈ l, c.dst ≠ a) :
    exec l m a = m a := by
  induction l generalizing m with
  | nil => rfl
  | cons c l ih =>
    show exec l (upd m c.dst (m c.src)) a = m a
    rw [ih _ fun c' hc' => h c' (List.mem_cons_of_mem _ hc')]
    unfold upd
    rw [if_neg fun e => h c List.mem_cons_self e.symm]

theorem exec_hit (l : List Copy) (m : Addr → V) {a s : Addr}
    (hd : ∀ c ∈ l, c.dst ≠ s) (hs : ∀ c ∈ l, c.dst = a → c.src = s)
    (h : ∃ c ∈ l, c.dst = a) : exec l m a = m s := by
  induction l generalizing m with
  | nil => obtain ⟨c, hc, _⟩ := h; simp at hc
  | cons c l ih =>
    show exec l (upd m c.dst (m c.src)) a = m s
    by_cases hl : ∃ c' ∈ l, c'.dst = a
    · rw [ih _ (fun c' hc' => hd c' (List.mem_cons_of_mem _ hc'))
        (fun c' hc' => hs c' (List.mem_cons_of_mem _ hc')) hl]
      unfold upd
      rw [if_neg fun e => hd c List.mem_cons_self e.symm]
    · have hc : c.dst = a := by
        obtain ⟨c', hc', e⟩ := h
        rcases List.mem_cons.1 hc' with rfl | hc'
        · exact e
        · exact absurd ⟨c', hc', e⟩ hl
      rw [exec_miss _ _ fun c' hc' e => hl ⟨c', hc', e⟩]
      unfold upd
      rw [if_pos hc.symm, hs c List.mem_cons_self hc]

/-! ## sides -/

/-- coordinate `i` of cell `y` lies on side `k` -/
def Sd (A : RegArray) (c : List Nat) (y : List Int) (k : Int) (i : Nat) : Prop :=
  (k = -1 ∧ y.getD i 0 < wd A i) ∨ (k = 0 ∧ wd A i ≤ y.getD i 0 ∧ y.getD i 0 ≤ ee A c i + wd A i) ∨
  (k = 1 ∧ ee A c i + wd A i < y.getD i 0)

theorem sd_ext {c : List Nat} {y : List Int} {k : Int} {i : Nat}
    (h : Sd A c y k i) : Ext A c y i ↔ k ≠ 0 := by
  unfold Sd at h; unfold Ext; omega

/-- the mask of a cell -/
def kOf (A : RegArray) (c : List Nat) (y : List Int) : List Int :=
  tab A.dims.length fun i => if y.getD i 0 < wd A i then -1 else
    if ee A c i + wd A i < y.getD i 0 then 1 else 0

theorem kOf_sd {c : List Nat} {y : List Int} {i : Nat} (hi : i < A.dims.length) :
    Sd A c y ((kOf A c y).getD i 0) i := by
  unfold kOf
  rw [tab_getD _ hi]
  unfold Sd
  split_ifs <;> omega

theorem sd_unique {c : List Nat} (h0 : ∀ i, i < A.dims.length → 0 ≤ ee A c i) {y k : List Int}
    (hk : k.length = A.dims.length)
    (h : ∀ i, i < A.dims.length → Sd A c y (k.getD i 0) i) : k = kOf A c y := by
  apply list_ext (by unfold kOf; rw [tab_length, hk])
  intro i hi
  rw [hk] at hi
  have h1 := h i hi
  have h2 := kOf_sd (A := A) (c := c) (y := y) hi
  have h3 := h0 i hi
  unfold Sd at h1 h2
  omega

/-! ## the neighbour in the direction of a mask -/

def nbM (A : RegArray) (mask : List Int) (c : List Nat) : List Nat :=
  tab A.dims.length fun d => if mask.getD d 0 = 0 then c.getD d 0
    else (nb A (decide (mask.getD d 0 = 1)) d c).getD d 0

theorem tab_getDN {n : Nat} (f : Nat → Nat) {i : Nat} (h : i < n) : (tab n f).getD i 0 = f i := by
  simp [tab, List.getD_eq_getElem?_getD, h]

theorem nbM_ok (hA : ArrOK A) {c : List Nat} (hc : CoordOK A.nblock c) (mask : List Int) :
    CoordOK A.nblock (nbM A mask c) := by
  have hl := nlen hA
  rw [coordOK_iff]
  refine ⟨by unfold nbM; rw [tab_length, hl], ?_⟩
  intro d hd
  unfold nbM
  rw [tab_getDN _ (by omega)]
  split
  · exact (coordOK_iff.1 hc).2 d hd
  · exact (coordOK_iff.1 (nb_ok hA hc _ (by omega))).2 d hd

theorem bl_congr (hA : ArrOK A) {c c' : List Nat} (hc : CoordOK A.nblock c) (hc' : CoordOK A.nblock c')
    {d : Nat} (hd : d < A.dims.length) (h : c.getD d 0 = c'.getD d 0) :
    bl A c d = bl A c' d ∧ bh A c d = bh A c' d := by
  have hl := nlen hA
  unfold bl bh
  rw [coordLo_getD hA.map hc (by omega), coordLo_getD hA.map hc' (by omega),
    coordHi_getD hA.map hc (by omega), coordHi_getD hA.map hc' (by omega), h]
  exact ⟨rfl, rfl⟩

theorem nbM_bl (hA : ArrOK A) {c : List Nat} (hc : CoordOK A.nblock c) (mask : List Int)
    {d : Nat} (hd : d < A.dims.length) :
    (mask.getD d 0 = 0 → bl A (nbM A mask c) d = bl A c d ∧ bh A (nbM A mask c) d = bh A c d) ∧
    (mask.getD d 0 = -1 → bl A (nbM A mask c) d = bl A (nb A false d c) d ∧
      bh A (nbM A mask c) d = bh A (nb A false d c) d) ∧
    (mask.getD d 0 = 1 → bl A (nbM A mask c) d = bl A (nb A true d c) d ∧
      bh A (nbM A mask c) d = bh A (nb A true d c) d) := by
  refine ⟨?_, ?_, ?_⟩
  · intro h
    apply bl_congr hA (nbM_ok hA hc mask) hc hd
    unfold nbM; rw [tab_getDN _ hd, if_pos h]
  · intro h
    apply bl_congr hA (nbM_ok hA hc mask) (nb_ok hA hc _ hd) hd
    unfold nbM
    have e : decide (mask.getD d 0 = 1) = false := by rw [h]; rfl
    rw [tab_getDN _ hd, if_neg (by omega), e]
  · intro h
    apply bl_congr hA (nbM_ok hA hc mask) (nb_ok hA hc _ hd) hd
    unfold nbM
    have e : decide (mask.getD d 0 = 1) = true := by rw [h]; rfl
    rw [tab_getDN _ hd, if_neg (by omega), e]

/-- the cell of the neighbour that holds the element of `y` -/
def srcY (A : RegArray) (mask : List Int) (c : List Nat) (y : List Int) : List Int :=
  tab A.dims.length fun i => remOff (mask.getD i 0) (ee A (nbM A mask c) i) (wd A i) +
    (y.getD i 0 - locLo (mask.getD i 0) (ee A c i) (wd A i))

section
variable (hA : ArrOK A) (hW : WideC A)
include hA hW

theorem srcY_spec {c : List Nat} (hc : CoordOK A.nblock c) {y : List Int} (hy : InBox A c y)
    {mask : List Int} (hs : ∀ i, i < A.dims.length → Sd A c y (mask.getD i 0) i) :
    InBox A (nbM A mask c) (srcY A mask c y) ∧
    (∀ i, i < A.dims.length → ¬ Ext A (nbM A mask c) (srcY A mask c y) i) ∧
    glob A (nbM A mask c) (srcY A mask c y) = wrap A.dims (glob A c y) ∧
    InArray A.dims (wrap A.dims (glob A c y)) := by
  have hc' := nbM_ok hA hc mask
  have key : ∀ i, i < A.dims.length →
      (wd A i ≤ (srcY A mask c y).getD i 0 ∧
        (srcY A mask c y).getD i 0 ≤ ee A (nbM A mask c) i + wd A i) ∧
      ∃ k, bl A (nbM A mask c) i + (srcY A mask c y).getD i 0 - wd A i =
        (bl A c i + y.getD i 0 - wd A i) + A.dims.getD i 0 * k := by
    intro i hi
    have h1 := hW c hc i hi
    have h2 := hW _ hc' i hi
    have h3 := hs i hi
    have h4 := hy.2 i hi
    have hn := nbM_bl hA hc mask hi
    have w0 := wd_nonneg A i
    have hdm : dm A i = A.dims.getD i 0 := rfl
    unfold srcY
    rw [tab_getD _ hi]
    unfold Sd at h3
    unfold ee at h3 h4 ⊢
    rcases h3 with ⟨k, h3⟩ | ⟨k, h3⟩ | ⟨k, h3⟩
    · have hb := nb_neg hA hc hi
      have := hn.2.1 k
      rw [← this.2] at hb
      have e1 : remOff (mask.getD i 0) (bh A (nbM A mask c) i - bl A (nbM A mask c) i) (wd A i) =
        bh A (nbM A mask c) i - bl A (nbM A mask c) i + 1 := by rw [k]; rfl
      have e2 : locLo (mask.getD i 0) (bh A c i - bl A c i) (wd A i) = 0 := by rw [k]; rfl
      rw [e1, e2]
      refine ⟨by omega, ?_⟩
      rcases hb with ⟨_, b1, b2⟩ | ⟨_, b1⟩
      · exact ⟨1, by omega⟩
      · exact ⟨0, by omega⟩
    · have := hn.1 k
      have e1 : remOff (mask.getD i 0) (bh A (nbM A mask c) i - bl A (nbM A mask c) i) (wd A i) =
        wd A i := by rw [k]; rfl
      have e2 : locLo (mask.getD i 0) (bh A c i - bl A c i) (wd A i) = wd A i := by rw [k]; rfl
      rw [e1, e2]
      exact ⟨by omega, 0, by omega⟩
    · have hb := nb_pos hA hc hi
      have := hn.2.2 k
      rw [← this.1] at hb
      have e1 : remOff (mask.getD i 0) (bh A (nbM A mask c) i - bl A (nbM A mask c) i) (wd A i) =
        wd A i := by rw [k]; rfl
      have e2 : locLo (mask.getD i 0) (bh A c i - bl A c i) (wd A i) = bh A c i - bl A c i + wd A i + 1 := by
        rw [k]; rfl
      rw [e1, e2]
      refine ⟨by omega, ?_⟩
      rcases hb with ⟨_, b1, b2⟩ | ⟨_, b1⟩
      · exact ⟨-1, by omega⟩
      · exact ⟨0, by omega⟩
  have hbox : InBox A (nbM A mask c) (srcY A mask c y) := by
    refine ⟨by unfold srcY; rw [tab_length], fun i hi => ?_⟩
    have := (key i hi).1
    have := wd_nonneg A i
    omega
  have hne : ∀ i, i < A.dims.length → ¬ Ext A (nbM A mask c) (srcY A mask c y) i := by
    intro i hi h
    have := (key i hi).1
    unfold Ext at h
    omega
  have hin := coord_inArray hA.map hc' (owned_cell hA hW hc' hbox hne).1
  have hg : glob A (nbM A mask c) (srcY A mask c y) = wrap A.dims (glob A c y) := by
    rw [← wrap_id hA hW hin]
    refine wrap_congr (tab_length _ _) (tab_length _ _) fun i hi => ?_
    unfold glob
    rw [tab_getD _ hi, tab_getD _ hi]
    exact (key i hi).2
  exact ⟨hbox, hne, hg, hg ▸ hin⟩

/-! ## one get -/

omit hA hW in
theorem loc_m (e w : Int) : locLo (-1) e w = 0 ∧ locHi (-1) e w = w - 1 := ⟨rfl, rfl⟩
omit hA hW in
theorem loc_z (e w : Int) : locLo 0 e w = w ∧ locHi 0 e w = e + w := ⟨rfl, rfl⟩
omit hA hW in
theorem loc_p (e w : Int) : locLo 1 e w = e + w + 1 ∧ locHi 1 e w = e + 2 * w := ⟨rfl, rfl⟩

/-- the copy that fills cell `y` -/
def tgt (A : RegArray) (c : List Nat) (y : List Int) : Copy :=
  ⟨(((undigits A.nblock c : Nat) : Int), adr A c y), cell A (wrap A.dims (glob A c y))⟩

theorem region_in {c : List Nat} (hc : CoordOK A.nblock c) {mask : List Int} {i : Nat}
    (hi : i < A.dims.length) (hk : mask.getD i 0 = -1 ∨ mask.getD i 0 = 0 ∨ mask.getD i 0 = 1)
    (hz : mask.getD i 0 ≠ 0 → A.width.getD i 0 ≠ 0) :
    let lo := remLo (mask.getD i 0) (bl A c i) (bh A c i) (A.dims.getD i 0) (wd A i)
    let hi' := remHi (mask.getD i 0) (bl A c i) (bh A c i) (A.dims.getD i 0) (wd A i)
    bl A (nbM A mask c) i ≤ lo ∧ lo ≤ hi' ∧ hi' ≤ bh A (nbM A mask c) i := by
  have hc' := nbM_ok hA hc mask
  have h1 := hW c hc i hi
  have h2 := hW _ hc' i hi
  have hn := nbM_bl hA hc mask hi
  have hf := bl_first hA hc hi
  have hf' := bl_first hA hc' hi
  have hdm : dm A i = A.dims.getD i 0 := rfl
  have hwd : wd A i = ((A.width.getD i 0 : Nat) : Int) := rfl
  intro lo hi'
  rcases hk with k | k | k
  · have e1 : lo = if bl A c i > 1 then bl A c i - wd A i else A.dims.getD i 0 - wd A i + 1 := by
      show remLo _ _ _ _ _ = _
      rw [k]; rfl
    have e2 : hi' = if bl A c i > 1 then bl A c i - 1 else A.dims.getD i 0 := by
      show remHi _ _ _ _ _ = _
      rw [k]; rfl
    have hb := nb_neg hA hc hi
    have := hn.2.1 k
    rw [← this.2] at hb
    have := hz (by omega)
    rw [e1, e2]
    split <;> omega
  · have e1 : lo = bl A c i := by
      show remLo _ _ _ _ _ = _
      rw [k]; rfl
    have e2 : hi' = bh A c i := by
      show remHi _ _ _ _ _ = _
      rw [k]; rfl
    have := hn.1 k
    rw [e1, e2]; omega
  · have e1 : lo = if bh A c i < A.dims.getD i 0 then bh A c i + 1 else 1 := by
      show remLo _ _ _ _ _ = _
      rw [k]; rfl
    have e2 : hi' = if bh A c i < A.dims.getD i 0 then bh A c i + wd A i else wd A i := by
      show remHi _ _ _ _ _ = _
      rw [k]; rfl
    have hb := nb_pos hA hc hi
    have := hn.2.2 k
    rw [← this.1] at hb
    have := hz (by omega)
    rw [e1, e2]
    split <;> omega

omit hW in
theorem ghostLoc_adr {c : List Nat} (hc : CoordOK A.nblock c) {s : List Int}
    (hs : s.length = A.dims.length) :
    ghostLoc s (owns A (undigits A.nblock c : Nat)).1 (owns A (undigits A.nblock c : Nat)).2 A.width 0 1 =
      adr A c s := by
  obtain ⟨l1, l2⟩ := owns_length hA hc
  rw [owns_of_coord hc]
  rw [ghostLoc_eq _ _ _ _ _ _ (by rw [hs]; exact l1.symm), Int.zero_add, Int.one_mul]
  rfl

/-- address of a window cell -/
theorem adr_shift {c : List Nat} (hc : CoordOK A.nblock c) {s i : List Int}
    (hs : s.length = A.dims.length) (hi : i.length = A.dims.length) :
    adr A c s + strideOff (setstride 1 (ldRem (owns A (undigits A.nblock c : Nat)).1
      (owns A (undigits A.nblock c : Nat)).2 A.width)) i = adr A c (addL s i) := by
  rw [owns_of_coord hc]
  show adr A c s + strideOff (setstride 1 (bld A c)) i = _
  obtain ⟨d, hd⟩ := bD_split hA hW hc
  have hl : (bld A c).length + 1 = A.dims.length := by
    have := bD_len hA hW hc
    rw [hd] at this; simpa using this
  unfold adr
  rw [strideOff_eq (by omega), hd, horner_last 0 d (by omega), ← horner_add (by omega)]

theorem copies_spec {cand : List Int → List Nat} (hcand : ∀ x, CandOK A.nblock (cand x))
    {c : List Nat} (hc : CoordOK A.nblock c) {mask : List Int} (hl : mask.length = A.dims.length)
    (hk : IsDirection mask)
    (hz : ∀ i, i < A.dims.length → mask.getD i 0 ≠ 0 → A.width.getD i 0 ≠ 0) :
    ∃ l, copies A cand (undigits A.nblock c : Nat) mask = some l ∧
      ∀ cp, cp ∈ l ↔ ∃ y, InBox A c y ∧ (∀ i, i < A.dims.length → Sd A c y (mask.getD i 0) i) ∧
        cp = tgt A c y := by
  have hkk : ∀ i, i < A.dims.length → mask.getD i 0 = -1 ∨ mask.getD i 0 = 0 ∨ mask.getD i 0 = 1 := by
    intro i hi
    apply hk
    rw [List.getD_eq_getElem?_getD, List.getElem?_eq_getElem (by omega), Option.getD_some]
    exact List.getElem_mem _
  have hall : (mask.all fun e => decide (e = -1 ∨ e = 0 ∨ e = 1)) = true := by
    rw [List.all_eq_true]
    intro e he
    simpa using hk e he
  have hc' := nbM_ok hA hc mask
  have hreg := fun i (hi : i < A.dims.length) => region_in hA hW hc hi (hkk i hi) (hz i hi)
  have hfp := firstProc_block hA hcand hc'
    (lo := tab A.dims.length fun i => remLo (mask.getD i 0) (bl A c i) (bh A c i) (A.dims.getD i 0) (wd A i))
    (hi := tab A.dims.length fun i => remHi (mask.getD i 0) (bl A c i) (bh A c i) (A.dims.getD i 0) (wd A i))
    (in_block hA hc' fun i hi => by have := hreg i hi; dsimp only at this ⊢; omega)
    (in_block hA hc' fun i hi => by have := hreg i hi; dsimp only at this ⊢; omega)
    (inPatch_tab.2 ⟨tab_length _ _, fun i hi => by
      rw [tab_getD _ hi]; have := hreg i hi; dsimp only at this ⊢; omega⟩)
  let plo := tab A.dims.length fun i => locLo (mask.getD i 0) (ee A c i) (wd A i)
  let phi := tab A.dims.length fun i => locHi (mask.getD i 0) (ee A c i) (wd A i)
  let prem := tab A.dims.length fun i => remOff (mask.getD i 0) (ee A (nbM A mask c) i) (wd A i)
  have hplo : plo.length = A.dims.length := tab_length _ _
  have hphi : phi.length = A.dims.length := tab_length _ _
  have hprem : prem.length = A.dims.length := tab_length _ _
  refine ⟨(loopAll (plo.map fun _ => 0) ((edges plo phi).map (· - 1))).map fun i =>
    ⟨(((undigits A.nblock c : Nat) : Int), ghostLoc plo (owns A (undigits A.nblock c : Nat)).1
      (owns A (undigits A.nblock c : Nat)).2 A.width 0 1 +
      strideOff (setstride 1 (ldRem (owns A (undigits A.nblock c : Nat)).1
      (owns A (undigits A.nblock c : Nat)).2 A.width)) i),
     (((undigits A.nblock (nbM A mask c) : Nat) : Int),
      ghostLoc prem (owns A (undigits A.nblock (nbM A mask c) : Nat)).1
      (owns A (undigits A.nblock (nbM A mask c) : Nat)).2 A.width 0 1 +
      strideOff (setstride 1 (ldRem (owns A (undigits A.nblock (nbM A mask c) : Nat)).1
      (owns A (undigits A.nblock (nbM A mask c) : Nat)).2 A.width)) i)⟩, ?_, ?_⟩
  · unfold copies
    simp only [hall, if_true, (owns_bl hc _).1, (owns_bl hc _).2]
    show (match firstProc A cand
      (tab A.dims.length fun i => remLo (mask.getD i 0) (bl A c i) (bh A c i) (A.dims.getD i 0) (wd A i),
       tab A.dims.length fun i => remHi (mask.getD i 0) (bl A c i) (bh A c i) (A.dims.getD i 0) (wd A i)) with
      | none => none
      | some q => _) = _
    rw [hfp]
    simp only [(owns_bl hc' _).1, (owns_bl hc' _).2]
    rfl
  · intro cp
    have hwin : ∀ y, InPatch plo phi y ↔
        InBox A c y ∧ ∀ i, i < A.dims.length → Sd A c y (mask.getD i 0) i := by
      intro y
      rw [inPatch_tab]
      constructor
      · rintro ⟨y1, y2⟩
        have : ∀ i, i < A.dims.length → (0 ≤ y.getD i 0 ∧ y.getD i 0 ≤ ee A c i + 2 * wd A i) ∧
            Sd A c y (mask.getD i 0) i := by
          intro i hi
          have h := y2 i hi
          have w0 := wd_nonneg A i
          have h1 := hW c hc i hi
          unfold Sd
          unfold ee at h ⊢
          rcases hkk i hi with k | k | k <;> rw [k] at h ⊢ <;> simp only [loc_m, loc_z, loc_p] at h <;> omega
        exact ⟨⟨y1, fun i hi => (this i hi).1⟩, fun i hi => (this i hi).2⟩
      · rintro ⟨⟨y1, y2⟩, y3⟩
        refine ⟨y1, fun i hi => ?_⟩
        have h := y2 i hi
        have h' := y3 i hi
        unfold Sd at h'
        rcases hkk i hi with k | k | k <;> rw [k] at h' ⊢ <;> simp only [loc_m, loc_z, loc_p] <;> omega
    have hne : InPatch plo phi plo := by
      rw [hwin]
      have : ∀ i, i < A.dims.length → (0 ≤ plo.getD i 0 ∧ plo.getD i 0 ≤ ee A c i + 2 * wd A i) ∧
          Sd A c plo (mask.getD i 0) i := by
        intro i hi
        have w0 := wd_nonneg A i
        have h1 := hW c hc i hi
        have hwd : wd A i = ((A.width.getD i 0 : Nat) : Int) := rfl
        unfold Sd
        show _ ∧ _
        rw [show plo.getD i 0 = locLo (mask.getD i 0) (ee A c i) (wd A i) from tab_getD _ hi]
        unfold ee
        have hzi := hz i hi
        rcases hkk i hi with k | k | k <;> rw [k] at hzi ⊢ <;> simp only [loc_m, loc_z, loc_p, true_and] <;> omega
      exact ⟨⟨hplo, fun i hi => (this i hi).1⟩, fun i hi => (this i hi).2⟩
    have hloop : ∀ i, i ∈ loopAll (plo.map fun _ => 0) ((edges plo phi).map (· - 1)) ↔
        InPatch (plo.map fun _ => 0) ((edges plo phi).map (· - 1)) i := by
      intro i
      rw [loopAll_eq_box ⟨_, sub_inZero hne⟩, mem_box]
    have hcopy : ∀ i, InPatch (plo.map fun _ => 0) ((edges plo phi).map (· - 1)) i →
        (⟨(((undigits A.nblock c : Nat) : Int), ghostLoc plo (owns A (undigits A.nblock c : Nat)).1
      (owns A (undigits A.nblock c : Nat)).2 A.width 0 1 +
      strideOff (setstride 1 (ldRem (owns A (undigits A.nblock c : Nat)).1
      (owns A (undigits A.nblock c : Nat)).2 A.width)) i),
     (((undigits A.nblock (nbM A mask c) : Nat) : Int),
      ghostLoc prem (owns A (undigits A.nblock (nbM A mask c) : Nat)).1
      (owns A (undigits A.nblock (nbM A mask c) : Nat)).2 A.width 0 1 +
      strideOff (setstride 1 (ldRem (owns A (undigits A.nblock (nbM A mask c) : Nat)).1
      (owns A (undigits A.nblock (nbM A mask c) : Nat)).2 A.width)) i)⟩ : Copy) = tgt A c (addL plo i) := by
      intro i hi
      obtain ⟨a1, a2⟩ := add_inWin hi (by omega)
      obtain ⟨b1, b2⟩ := (hwin _).1 a1
      obtain ⟨s1, s2, s3, s4⟩ := srcY_spec hA hW hc b1 b2
      have hsy : srcY A mask c (addL plo i) = addL prem i := by
        apply list_ext
        · rw [addL_length (by omega), hprem]; exact tab_length _ _
        · intro j hj
          have hj' : j < A.dims.length := by
            have : (srcY A mask c (addL plo i)).length = A.dims.length := tab_length _ _
            omega
          rw [addL_getD (by omega) (by omega)]
          unfold srcY
          rw [tab_getD _ hj', addL_getD (by omega) (by omega)]
          rw [show plo.getD j 0 = locLo (mask.getD j 0) (ee A c j) (wd A j) from tab_getD _ hj',
            show prem.getD j 0 = remOff (mask.getD j 0) (ee A (nbM A mask c) j) (wd A j) from tab_getD _ hj']
          omega
      obtain ⟨-, o2⟩ := owned_cell hA hW hc' s1 s2
      unfold tgt
      rw [ghostLoc_adr hA hc hplo, adr_shift hA hW hc hplo (by omega), ghostLoc_adr hA hc' hprem,
        adr_shift hA hW hc' hprem (by omega), ← s3, o2, hsy]
    rw [List.mem_map]
    constructor
    · rintro ⟨i, hi, rfl⟩
      rw [hloop] at hi
      obtain ⟨a1, -⟩ := add_inWin hi (by omega)
      obtain ⟨b1, b2⟩ := (hwin _).1 a1
      exact ⟨_, b1, b2, hcopy i hi⟩
    · rintro ⟨y, y1, y2, rfl⟩
      have hy := (hwin y).2 ⟨y1, y2⟩
      refine ⟨subL y plo, (hloop _).2 (sub_inZero hy), ?_⟩
      rw [hcopy _ (sub_inZero hy)]
      congr 1
      have := y1.1
      apply list_ext
      · rw [addL_length (by rw [subL_length (by omega)]; omega)]; omega
      · intro j hj
        rw [addL_length (by rw [subL_length (by omega)]; omega)] at hj
        rw [addL_getD (by rw [subL_length (by omega)]; omega) hj, subL_getD (by omega) (by omega)]
        omega

end

/-! ## masks -/

theorem maskLoop_ok (n t : Nat) : (maskLoop n t).length = n ∧ IsDirection (maskLoop n t) := by
  induction n generalizing t with
  | zero => exact ⟨rfl, by intro k hk; simp [maskLoop] at hk⟩
  | succ n ih =>
    obtain ⟨h1, h2⟩ := ih ((t - t % 3) / 3)
    refine ⟨by simp [maskLoop, h1], ?_⟩
    intro k hk
    simp only [maskLoop, List.mem_cons] at hk
    rcases hk with rfl | hk
    · omega
    · exact h2 k hk

theorem maskLoop_all {k : List Int} (hk : IsDirection k) :
    ∃ t, t < 3 ^ k.length ∧ maskLoop k.length t = k := by
  induction k with
  | nil => exact ⟨0, by simp, rfl⟩
  | cons a k ih =>
    obtain ⟨t, h1, h2⟩ := ih fun e he => hk e (List.mem_cons_of_mem _ he)
    have ha := hk a List.mem_cons_self
    refine ⟨3 * t + (a + 1).toNat, ?_, ?_⟩
    · rw [List.length_cons, Nat.pow_succ]; omega
    · simp only [List.length_cons, maskLoop]
      have e1 : (3 * t + (a + 1).toNat) % 3 = (a + 1).toNat := by omega
      rw [e1, show (3 * t + (a + 1).toNat - (a + 1).toNat) / 3 = t by omega, h2]
      congr 1
      omega

theorem mem_nbMasks {width : List Nat} {k : List Int} : k ∈ nbMasks width ↔
    k.length = width.length ∧ IsDirection k ∧ (∃ i, i < width.length ∧ k.getD i 0 ≠ 0) ∧
      ∀ i, i < width.length → k.getD i 0 ≠ 0 → width.getD i 0 ≠ 0 := by
  unfold nbMasks zeroBlock
  simp only [List.mem_filter, List.mem_map, List.mem_range, Bool.not_eq_true', List.all_eq_false,
    List.any_eq_false, decide_eq_true_eq]
  constructor
  · rintro ⟨⟨⟨t, ht, rfl⟩, e, he, h0⟩, hz⟩
    obtain ⟨h1, h2⟩ := maskLoop_ok width.length t
    refine ⟨h1, h2, ?_, ?_⟩
    · obtain ⟨i, hi, rfl⟩ := List.getElem_of_mem he
      refine ⟨i, by omega, ?_⟩
      rwa [List.getD_eq_getElem?_getD, List.getElem?_eq_getElem hi, Option.getD_some]
    · intro i hi hk hw
      exact hz i hi ⟨hk, hw⟩
  · rintro ⟨h1, h2, ⟨i, hi, h3⟩, h4⟩
    obtain ⟨t, t1, t2⟩ := maskLoop_all h2
    rw [h1] at t1 t2
    refine ⟨⟨⟨t, t1, t2⟩, k.getD i 0, ?_, h3⟩, ?_⟩
    · rw [List.getD_eq_getElem?_getD, List.getElem?_eq_getElem (by omega), Option.getD_some]
      exact List.getElem_mem _
    · rintro i hi ⟨a, b⟩
      exact h4 i hi a b

theorem putDir_past {d : Nat} {dir : Int} {n idx : Nat} {l : List Int} (h : d < idx) (hl : l.length = n) :
    putDir ((d : Int) + 1) dir n idx l = l := by
  induction n generalizing idx l with
  | zero => rw [List.length_eq_zero_iff] at hl; subst hl; rfl
  | succ n ih =>
    match l, hl with
    | a :: l, hl =>
      simp only [putDir]
      rw [if_neg (by omega)]
      simp only [List.headD_cons, List.tail_cons]
      rw [ih (by omega) (by simpa using hl)]

theorem putDir_before {d : Nat} {dir : Int} {n idx : Nat} {l : List Int} (h : idx ≤ d) (hd : d < idx + n)
    (hl : l.length + 1 = n) : putDir ((d : Int) + 1) dir n idx l = l.insertIdx (d - idx) dir := by
  induction n generalizing idx l with
  | zero => omega
  | succ n ih =>
    simp only [putDir]
    by_cases e : idx = d
    · rw [if_pos (by omega), putDir_past (by omega) (by omega), e, Nat.sub_self]
      simp
    · rw [if_neg (by omega)]
      match l, hl with
      | [], hl => simp at hl; omega
      | a :: l, hl =>
        simp only [List.headD_cons, List.tail_cons]
        rw [ih (by omega) (by omega) (by simpa using hl), show d - idx = (d - (idx + 1)) + 1 by omega,
          List.insertIdx_succ_cons]

theorem getD_insertIdx {l : List Int} {d i : Nat} {a : Int} (hd : d ≤ l.length) (_hi : i ≤ l.length) :
    (l.insertIdx d a).getD i 0 = if i < d then l.getD i 0 else if i = d then a else l.getD (i - 1) 0 := by
  induction l generalizing d i with
  | nil =>
    simp only [List.length_nil, Nat.le_zero_eq] at hd _hi
    subst hd; subst _hi; simp
  | cons b l ih =>
    cases d with
    | zero =>
      cases i with
      | zero => simp
      | succ i => simp
    | succ d =>
      rw [List.insertIdx_succ_cons]
      cases i with
      | zero => simp
      | succ i =>
        simp only [List.length_cons, Nat.add_le_add_iff_right] at hd _hi
        rw [List.getD_cons_succ, ih hd _hi, List.getD_cons_succ]
        simp only [Nat.add_lt_add_iff_right, Nat.add_right_cancel_iff, Nat.add_sub_cancel]
        by_cases h : i < d
        · simp only [h, if_true]
        · simp only [h, if_false]
          by_cases h' : i = d
          · simp only [h', if_true]
          · simp only [h', if_false]
            obtain ⟨j, rfl⟩ : ∃ j, i = j + 1 := ⟨i - 1, by omega⟩
            simp

theorem dir_getD {k : List Int} (hk : IsDirection k) (i : Nat) :
    k.getD i 0 = -1 ∨ k.getD i 0 = 0 ∨ k.getD i 0 = 1 := by
  by_cases hi : i < k.length
  · apply hk
    rw [List.getD_eq_getElem?_getD, List.getElem?_eq_getElem hi, Option.getD_some]
    exact List.getElem_mem _
  · right; left
    rw [List.getD_eq_getElem?_getD, List.getElem?_eq_none (by omega)]; rfl

theorem dir_of_getD {k : List Int} (h : ∀ i, i < k.length → k.getD i 0 = -1 ∨ k.getD i 0 = 0 ∨ k.getD i 0 = 1) :
    IsDirection k := by
  intro e he
  obtain ⟨i, hi, rfl⟩ := List.getElem_of_mem he
  have := h i hi
  rwa [List.getD_eq_getElem?_getD, List.getElem?_eq_getElem hi, Option.getD_some] at this

theorem mem_dirMasks {n d : Nat} (hd : d < n) {dir : Int} (hdir : dir = -1 ∨ dir = 0 ∨ dir = 1) {flag : Bool}
    {k : List Int} : k ∈ dirMasks n ((d : Int) + 1) dir flag ↔
      k.length = n ∧ IsDirection k ∧ k.getD d 0 = dir ∧
        (flag = false → ∀ i, i < n → i ≠ d → k.getD i 0 = 0) := by
  have hbase : ∀ l, l ∈ (if flag then (List.range (3 ^ (n - 1))).map (maskLoop (n - 1))
      else [List.replicate (n - 1) 0]) ↔ l.length = n - 1 ∧ IsDirection l ∧
        (flag = false → ∀ i, i < n - 1 → l.getD i 0 = 0) := by
    intro l
    cases flag
    · simp only [Bool.false_eq_true, if_false, List.mem_singleton, forall_const]
      constructor
      · rintro rfl
        refine ⟨by simp, ?_, ?_⟩
        · intro e he; right; left; exact List.eq_of_mem_replicate he
        · intro i hi; simp [List.getD_eq_getElem?_getD, hi]
      · rintro ⟨h1, h2, h3⟩
        apply list_ext (by simp [h1])
        intro i hi
        rw [h3 i (by omega)]
        simp [List.getD_eq_getElem?_getD, show i < n - 1 by omega]
    · simp only [if_true, List.mem_map, List.mem_range]
      constructor
      · rintro ⟨t, ht, rfl⟩
        obtain ⟨a, b⟩ := maskLoop_ok (n - 1) t
        exact ⟨a, b, by intro h; cases h⟩
      · rintro ⟨h1, h2, h3⟩
        obtain ⟨t, t1, t2⟩ := maskLoop_all h2
        rw [h1] at t1 t2
        exact ⟨t, t1, t2⟩
  unfold dirMasks
  rw [List.mem_map]
  constructor
  · rintro ⟨l, hl, rfl⟩
    obtain ⟨h1, h2, h3⟩ := (hbase l).1 hl
    rw [putDir_before (by omega) (by omega) (by omega), Nat.sub_zero]
    have hlen : (l.insertIdx d dir).length = n := by
      rw [List.length_insertIdx, if_pos (by omega)]; omega
    refine ⟨hlen, ?_, ?_, ?_⟩
    · apply dir_of_getD
      intro i hi
      rw [getD_insertIdx (by omega) (by omega)]
      split_ifs
      · exact dir_getD h2 _
      · exact hdir
      · exact dir_getD h2 _
    · rw [getD_insertIdx (by omega) (by omega), if_neg (by omega), if_pos rfl]
    · intro hf i hi hne
      rw [getD_insertIdx (by omega) (by omega)]
      split_ifs
      · exact h3 hf _ (by omega)
      · exact h3 hf _ (by omega)
  · rintro ⟨h1, h2, h3, h4⟩
    refine ⟨k.eraseIdx d, (hbase _).2 ⟨?_, ?_, ?_⟩, ?_⟩
    · rw [List.length_eraseIdx, if_pos (by omega), h1]
    · intro e he
      exact h2 e (List.mem_of_mem_eraseIdx he)
    · intro hf i hi
      rw [List.getD_eq_getElem?_getD, List.getElem?_eraseIdx]
      split_ifs
      · exact h4 hf i (by omega) (by omega)
      · exact h4 hf (i + 1) (by omega) (by omega)
    · have hlen : (k.eraseIdx d).length = n - 1 := by
        rw [List.length_eraseIdx, if_pos (by omega), h1]
      rw [putDir_before (by omega) (by omega) (by omega), Nat.sub_zero, ← h3]
      rw [List.getD_eq_getElem?_getD, List.getElem?_eq_getElem (by omega), Option.getD_some]
      exact List.insertIdx_eraseIdx_getElem (by omega)

/-! ## the calls -/

section
variable (hA : ArrOK A) (hW : WideC A)
include hA hW

theorem gets_spec {cand : List Int → List Nat} (hcand : ∀ x, CandOK A.nblock (cand x))
    {c : List Nat} (hc : CoordOK A.nblock c) {masks : List (List Int)}
    (h : ∀ k ∈ masks, k.length = A.dims.length ∧ IsDirection k ∧
      ∀ i, i < A.dims.length → k.getD i 0 ≠ 0 → A.width.getD i 0 ≠ 0) :
    ∃ ls, mapOpt (copies A cand (undigits A.nblock c : Nat)) masks = some ls ∧
      ∀ cp, cp ∈ ls.flatten ↔ ∃ k ∈ masks, ∃ y, InBox A c y ∧
        (∀ i, i < A.dims.length → Sd A c y (k.getD i 0) i) ∧ cp = tgt A c y := by
  induction masks with
  | nil => exact ⟨[], rfl, by simp⟩
  | cons k ks ih =>
    obtain ⟨ls, l1, l2⟩ := ih fun k hk => h k (List.mem_cons_of_mem _ hk)
    obtain ⟨a1, a2, a3⟩ := h k List.mem_cons_self
    obtain ⟨l, b1, b2⟩ := copies_spec hA hW hcand hc a1 a2 a3
    refine ⟨l :: ls, by simp only [mapOpt, b1, l1], ?_⟩
    intro cp
    rw [List.flatten_cons, List.mem_append, b2, l2]
    simp only [List.mem_cons, exists_eq_or_imp]

theorem ee_nonneg {c : List Nat} (hc : CoordOK A.nblock c) : ∀ i, i < A.dims.length → 0 ≤ ee A c i := by
  intro i hi
  have := (hW c hc i hi).1
  unfold ee; omega

/-- ghost cells of a process -/
def NbT (A : RegArray) (c : List Nat) (y : List Int) : Prop :=
  InBox A c y ∧ ∃ i, i < A.dims.length ∧ Ext A c y i

omit hW in
theorem ext_width {c : List Nat} {y : List Int} (hy : InBox A c y) {i : Nat} (hi : i < A.dims.length)
    (h : Ext A c y i) : A.width.getD i 0 ≠ 0 := by
  intro h0
  have := hy.2 i hi
  have : wd A i = 0 := by unfold wd; rw [h0]; rfl
  unfold Ext at h
  omega

omit hA hW in
theorem kOf_dir (c : List Nat) (y : List Int) :
    (kOf A c y).length = A.dims.length ∧ IsDirection (kOf A c y) := by
  have hl : (kOf A c y).length = A.dims.length := tab_length _ _
  refine ⟨hl, dir_of_getD fun i hi => ?_⟩
  rw [hl] at hi
  unfold kOf
  rw [tab_getD _ hi]
  split_ifs <;> simp

omit hW in
theorem no_ghost_width (hg : ¬ Ghost.hasGhosts A.width = true) {i : Nat} (hi : i < A.dims.length) :
    A.width.getD i 0 = 0 := by
  have hw := hA.width
  unfold Ghost.hasGhosts at hg
  rw [List.any_eq_true] at hg
  by_contra h
  apply hg
  refine ⟨A.width.getD i 0, ?_, by simp only [decide_eq_true_eq]; omega⟩
  rw [List.getD_eq_getElem?_getD, List.getElem?_eq_getElem (by omega), Option.getD_some]
  exact List.getElem_mem _

theorem updateNb_spec {cand : List Int → List Nat} (hcand : ∀ x, CandOK A.nblock (cand x))
    {c : List Nat} (hc : CoordOK A.nblock c) :
    ∃ l, updateNb A cand (undigits A.nblock c : Nat) = some (Ghost.hasGhosts A.width, l) ∧
      ∀ cp, cp ∈ l ↔ ∃ y, NbT A c y ∧ cp = tgt A c y := by
  have hw := hA.width
  unfold updateNb
  by_cases hg : Ghost.hasGhosts A.width = true
  · rw [hg, checkDistr_wide hA hW]
    obtain ⟨ls, l1, l2⟩ := gets_spec hA hW hcand hc (masks := nbMasks A.width) (by
      intro k hk
      obtain ⟨a, b, _, d⟩ := mem_nbMasks.1 hk
      rw [hw] at a d
      exact ⟨a, b, d⟩)
    refine ⟨ls.flatten, by rw [l1]; rfl, ?_⟩
    intro cp
    rw [l2]
    constructor
    · rintro ⟨k, hk, y, y1, y2, rfl⟩
      obtain ⟨_, _, ⟨i, hi, h0⟩, _⟩ := mem_nbMasks.1 hk
      rw [hw] at hi
      exact ⟨y, ⟨y1, i, hi, (sd_ext (y2 i hi)).2 h0⟩, rfl⟩
    · rintro ⟨y, ⟨y1, i, hi, hx⟩, rfl⟩
      refine ⟨kOf A c y, ?_, y, y1, fun i hi => kOf_sd hi, rfl⟩
      rw [mem_nbMasks, hw]
      refine ⟨(kOf_dir c y).1, (kOf_dir c y).2, ⟨i, hi, (sd_ext (kOf_sd hi)).1 hx⟩, ?_⟩
      intro j hj h
      exact ext_width hA y1 hj ((sd_ext (kOf_sd hj)).2 h)
  · refine ⟨[], by simp [hg], ?_⟩
    intro cp
    simp only [List.not_mem_nil, false_iff]
    rintro ⟨y, ⟨y1, i, hi, hx⟩, _⟩
    exact ext_width hA y1 hi hx (no_ghost_width hA hg hi)

/-- ghost cells in one direction of one dimension -/
def DirT (A : RegArray) (d : Nat) (dir : Int) (flag : Bool) (c : List Nat) (y : List Int) : Prop :=
  InBox A c y ∧ Sd A c y dir d ∧ (flag = false → ∀ i, i < A.dims.length → i ≠ d → ¬ Ext A c y i)

theorem updateDir_spec {cand : List Int → List Nat} (hcand : ∀ x, CandOK A.nblock (cand x))
    {c : List Nat} (hc : CoordOK A.nblock c) {d : Nat} (hd : d < A.dims.length) {dir : Int}
    (hdir : dir = -1 ∨ dir = 1) {flag : Bool} (hwd : A.width.getD d 0 ≠ 0)
    (hall : flag = true → ∀ i, i < A.dims.length → A.width.getD i 0 ≠ 0) :
    ∃ l, updateDir A cand (undigits A.nblock c : Nat) ((d : Int) + 1) dir flag = some (true, l) ∧
      ∀ cp, cp ∈ l ↔ ∃ y, DirT A d dir flag c y ∧ cp = tgt A c y := by
  have hw := hA.width
  have hdir' : dir = -1 ∨ dir = 0 ∨ dir = 1 := by omega
  have hg : Ghost.hasGhosts A.width = true := by
    by_contra h
    exact hwd (no_ghost_width hA h hd)
  unfold updateDir
  rw [hg, checkDistr_wide hA hW]
  obtain ⟨ls, l1, l2⟩ := gets_spec hA hW hcand hc
    (masks := dirMasks A.dims.length ((d : Int) + 1) dir flag) (by
      intro k hk
      obtain ⟨a, b, e, g⟩ := (mem_dirMasks hd hdir').1 hk
      refine ⟨a, b, ?_⟩
      intro i hi h0
      by_cases hid : i = d
      · rw [hid]; exact hwd
      · cases flag
        · exact absurd (g rfl i hi hid) h0
        · exact hall rfl i hi)
  refine ⟨ls.flatten, by rw [l1]; rfl, ?_⟩
  intro cp
  rw [l2]
  constructor
  · rintro ⟨k, hk, y, y1, y2, rfl⟩
    obtain ⟨a, b, e, g⟩ := (mem_dirMasks hd hdir').1 hk
    refine ⟨y, ⟨y1, e ▸ y2 d hd, ?_⟩, rfl⟩
    intro hf i hi hid hx
    exact (sd_ext (y2 i hi)).1 hx (g hf i hi hid)
  · rintro ⟨y, ⟨y1, y2, y3⟩, rfl⟩
    refine ⟨kOf A c y, ?_, y, y1, fun i hi => kOf_sd hi, rfl⟩
    rw [mem_dirMasks hd hdir']
    refine ⟨(kOf_dir c y).1, (kOf_dir c y).2, ?_, ?_⟩
    · have h1 := kOf_sd (A := A) (c := c) (y := y) hd
      have h0 := ee_nonneg hA hW hc d hd
      unfold Sd at h1 y2
      omega
    · intro hf i hi hid
      by_contra h
      exact y3 hf i hi hid ((sd_ext (kOf_sd hi)).2 h)

/-! ## any order of the copies -/

theorem cell_owned {x : List Int} (hx : InArray A.dims x) :
    ∃ c y, CoordOK A.nblock c ∧ InBox A c y ∧ (∀ i, i < A.dims.length → ¬ Ext A c y i) ∧ glob A c y = x ∧
      cell A x = (((undigits A.nblock c : Nat) : Int), adr A c y) := by
  obtain ⟨o1, o2⟩ := ownerC_ok hA.map hx
  have hb : InPatch (boxLo (coordLo A.nblock A.mapc (ownerC A x)) A.width)
      (boxHi (coordHi A.nblock A.dims A.mapc (ownerC A x)) A.width) x := by
    obtain ⟨h1, h2, h3⟩ := blen_eq hA hW o1
    have hw := hA.width
    have hbl := boxLo_length (lo := coordLo A.nblock A.mapc (ownerC A x)) (w := A.width) (by omega)
    have hbh := boxHi_length (lo := coordHi A.nblock A.dims A.mapc (ownerC A x)) (w := A.width) (by omega)
    rw [inPatch_iff] at o2 ⊢
    refine ⟨by omega, by omega, ?_⟩
    intro i hi
    rw [boxLo_getD (by omega) (by omega), boxHi_getD (by omega) (by omega)]
    have := o2.2.2 i (by omega)
    omega
  obtain ⟨y, y1, y2, y3, y4⟩ := cell_sub hA hW o1 hb
  have xl : x.length = A.dims.length := by rw [← y3]; exact tab_length _ _
  have hne : ∀ i, i < A.dims.length → ¬ Ext A (ownerC A x) y i := by
    intro i hi hx
    exact (y4 i hi).1 hx ((inBlock_iff hA hW o1 xl).1 o2 i hi)
  obtain ⟨-, e2⟩ := owned_cell hA hW o1 y1 hne
  rw [y3] at e2
  exact ⟨_, y, o1, y1, hne, y3, e2⟩

omit hA hW in
theorem undigits_inj {c c' : List Nat} (hc : CoordOK A.nblock c) (hc' : CoordOK A.nblock c')
    (h : undigits A.nblock c = undigits A.nblock c') : c = c' := by
  rw [← digits_undigits hc, ← digits_undigits hc', h]

/-- an owned cell is never written -/
theorem dst_ne_cell {c : List Nat} (hc : CoordOK A.nblock c) {y : List Int} (hy : NbT A c y) {x : List Int}
    (hx : InArray A.dims x) : (((undigits A.nblock c : Nat) : Int), adr A c y) ≠ cell A x := by
  obtain ⟨c', y', h1, h2, h3, -, h5⟩ := cell_owned hA hW hx
  rw [h5]
  intro e
  rw [Prod.mk.injEq] at e
  have hcc : c = c' := by
    have := undigits_inj hc h1 (by omega)
    exact this
  subst hcc
  have := adr_inj hA hW hc hy.1 h2 e.2
  subst this
  obtain ⟨i, hi, hx⟩ := hy.2
  exact h3 i hi hx

variable {T : List Nat → List Int → Prop}

theorem run_hit (hT : ∀ c y, T c y → NbT A c y) {L : List Copy}
    (hL : ∀ cp ∈ L, ∃ c y, CoordOK A.nblock c ∧ T c y ∧ cp = tgt A c y) (m : Addr → V) {c : List Nat}
    (hc : CoordOK A.nblock c) {y : List Int} (hy : T c y) (hin : tgt A c y ∈ L) :
    exec L m (((undigits A.nblock c : Nat) : Int), adr A c y) = m (cell A (wrap A.dims (glob A c y))) := by
  have hsrc := (srcY_spec hA hW hc (hT c y hy).1 (mask := kOf A c y) fun i hi => kOf_sd hi).2.2.2
  refine exec_hit L m ?_ ?_ ⟨_, hin, rfl⟩
  · intro cp hcp
    obtain ⟨c', y', h1, h2, rfl⟩ := hL cp hcp
    exact dst_ne_cell hA hW h1 (hT _ _ h2) hsrc
  · intro cp hcp e
    obtain ⟨c', y', h1, h2, rfl⟩ := hL cp hcp
    unfold tgt at e ⊢
    rw [Prod.mk.injEq] at e
    have hcc : c' = c := undigits_inj h1 hc (by omega)
    subst hcc
    rw [adr_inj hA hW hc (hT _ _ h2).1 (hT _ _ hy).1 e.2]

theorem run_miss {L : List Copy} (hL : ∀ cp ∈ L, ∃ c y, CoordOK A.nblock c ∧ T c y ∧ cp = tgt A c y)
    (m : Addr → V) {a : Addr}
    (h : ∀ c y, CoordOK A.nblock c → T c y → (((undigits A.nblock c : Nat) : Int), adr A c y) ≠ a) :
    exec L m a = m a := by
  apply exec_miss
  intro cp hcp
  obtain ⟨c', y', h1, h2, rfl⟩ := hL cp hcp
  exact h c' y' h1 h2

end

end GA.GhostGet
