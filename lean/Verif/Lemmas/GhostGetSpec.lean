import Verif.Lemmas.GhostGet
import Verif.Props.C07

/-!
# Ghost cells fetched with one-sided gets, in terms of subscripts
-/

namespace GA.GhostGet
open Spec Model Ghost

variable {A : RegArray} {V : Type}

theorem onSide_iff {mask lo hi x : List Int} : OnSide mask lo hi x ↔ lo.length = mask.length ∧
    hi.length = mask.length ∧ x.length = mask.length ∧ ∀ i, i < mask.length →
      ((mask.getD i 0 = -1 ∧ x.getD i 0 < lo.getD i 0) ∨
       (mask.getD i 0 = 0 ∧ lo.getD i 0 ≤ x.getD i 0 ∧ x.getD i 0 ≤ hi.getD i 0) ∨
       (mask.getD i 0 = 1 ∧ hi.getD i 0 < x.getD i 0)) := by
  induction mask generalizing lo hi x with
  | nil => cases lo <;> cases hi <;> cases x <;> simp [OnSide]
  | cons k ks ih =>
    match lo, hi, x with
    | [], _, _ => simp [OnSide]
    | _ :: _, [], _ => simp [OnSide]
    | _ :: _, _ :: _, [] => simp [OnSide]
    | l :: lo, h :: hi, a :: x =>
      simp only [OnSide, ih, List.length_cons, Nat.add_right_cancel_iff]
      constructor
      · rintro ⟨h1, h2, h3, h4, h5⟩
        refine ⟨h2, h3, h4, ?_⟩
        intro i hi
        cases i with
        | zero => simpa using h1
        | succ i => simpa using h5 i (by omega)
      · rintro ⟨h2, h3, h4, h5⟩
        exact ⟨by simpa using h5 0 (by omega), h2, h3, h4, fun i hi => by simpa using h5 (i + 1) (by omega)⟩

section
variable (hA : ArrOK A) (hW : WideC A)
include hA hW

theorem glob_getD {c : List Nat} {y : List Int} {i : Nat} (hi : i < A.dims.length) :
    (glob A c y).getD i 0 = bl A c i + y.getD i 0 - wd A i := by
  unfold glob; rw [tab_getD _ hi]

/-- position of a cell given by its subscript -/
theorem boxPos_adr {c : List Nat} (hc : CoordOK A.nblock c) {y : List Int} (hy : InBox A c y) :
    boxPos (coordLo A.nblock A.mapc c) (coordHi A.nblock A.dims A.mapc c) A.width (glob A c y) = adr A c y := by
  obtain ⟨z, z1, z2, z3, -⟩ := cell_sub hA hW hc (sub_cell hA hW hc hy)
  rw [z2, glob_inj hA hW z1 hy z3]

variable {n : Nat}

/-- A run of copies, whatever their order, as seen through subscripts. -/
theorem final [Inhabited V] {P : List Int → List Int → List Int → Prop} {T : List Nat → List Int → Prop}
    (hT : ∀ c y, T c y → NbT A c y)
    (hP : ∀ c, CoordOK A.nblock c → ∀ y, InBox A c y →
      (T c y ↔ P (coordLo A.nblock A.mapc c) (coordHi A.nblock A.dims A.mapc c) (glob A c y)))
    {cps : Nat → List Copy} (hcps : ∀ c, CoordOK A.nblock c → ∀ cp, cp ∈ cps (undigits A.nblock c) ↔
      ∃ y, T c y ∧ cp = tgt A c y)
    {L : List Copy} (hL : ∀ cp ∈ L, ∃ p, p < gridSize A.nblock ∧ cp ∈ cps p)
    {m : Addr → V} {f : List Int → V} (hf : Holds (.reg A (gridSize A.nblock)) m f) :
    (∀ p, p < gridSize A.nblock → (∀ cp ∈ cps p, cp ∈ L) →
      CellsCurrent (fun x => P (owns A p).1 (owns A p).2 x ∨ InPatch (owns A p).1 (owns A p).2 x) A.dims
        (owns A p).1 (owns A p).2 A.width f (fun o => exec L m ((p : Int), o))) ∧
    Holds (.reg A (gridSize A.nblock)) (exec L m) f ∧
    (∀ p, p < gridSize A.nblock → OnlyCells (P (owns A p).1 (owns A p).2) (owns A p).1 (owns A p).2 A.width
      (fun o => m ((p : Int), o)) (fun o => exec L m ((p : Int), o))) ∧
    (∀ a : Addr, ¬ (0 ≤ a.1 ∧ a.1 < gridSize A.nblock) → exec L m a = m a) := by
  have hs : Sound (.reg A (gridSize A.nblock)) := ⟨hA, Nat.le_refl _⟩
  rw [holds_iff hs] at hf
  have hf' : ∀ x, InArray A.dims x → m (cell A x) = f x := hf
  have hL' : ∀ cp ∈ L, ∃ c y, CoordOK A.nblock c ∧ T c y ∧ cp = tgt A c y := by
    intro cp hcp
    obtain ⟨p, hp, h⟩ := hL cp hcp
    rw [← undigits_digits hp] at h
    obtain ⟨y, h1, h2⟩ := (hcps _ (digits_ok hp) cp).1 h
    exact ⟨_, y, digits_ok hp, h1, h2⟩
  have hown : ∀ x, InArray A.dims x → exec L m (cell A x) = f x := by
    intro x hx
    rw [run_miss hA hW hL' m fun c y hc hy => dst_ne_cell hA hW hc (hT _ _ hy) hx]
    exact hf' x hx
  have hp : ∀ p, p < gridSize A.nblock → CoordOK A.nblock (digits A.nblock p) ∧
      undigits A.nblock (digits A.nblock p) = p ∧
      owns A p = (coordLo A.nblock A.mapc (digits A.nblock p), coordHi A.nblock A.dims A.mapc (digits A.nblock p)) := by
    intro p hp
    refine ⟨digits_ok hp, undigits_digits hp, ?_⟩
    rw [← owns_of_coord (digits_ok hp), undigits_digits hp]
  refine ⟨?_, ?_, ?_, ?_⟩
  · intro p hpn hall x hx hPx
    obtain ⟨c1, c2, c3⟩ := hp p hpn
    rw [c3] at hx hPx ⊢
    obtain ⟨y, y1, y2, y3, y4⟩ := cell_sub hA hW c1 hx
    have xl : x.length = A.dims.length := by rw [← y3]; exact tab_length _ _
    show exec L m ((p : Int), boxPos _ _ _ x) = _
    rw [y2]
    by_cases hin : InPatch (coordLo A.nblock A.mapc (digits A.nblock p))
        (coordHi A.nblock A.dims A.mapc (digits A.nblock p)) x
    · have hne : ∀ i, i < A.dims.length → ¬ Ext A (digits A.nblock p) y i := by
        intro i hi hx
        exact (y4 i hi).1 hx ((inBlock_iff hA hW c1 xl).1 hin i hi)
      obtain ⟨-, e2⟩ := owned_cell hA hW c1 y1 hne
      have hia := coord_inArray hA.map c1 hin
      rw [wrap_id hA hW hia, ← hown x hia, ← y3, e2, c2]
    · have hPx := hPx.resolve_right hin
      rw [← y3] at hPx
      have hTy := (hP _ c1 y y1).2 hPx
      have hmem : tgt A (digits A.nblock p) y ∈ L := by
        apply hall
        have := (hcps _ c1 (tgt A (digits A.nblock p) y)).2 ⟨y, hTy, rfl⟩
        rwa [c2] at this
      have := run_hit hA hW hT hL' m c1 hTy hmem
      rw [c2] at this
      rw [this, ← y3]
      apply hf'
      exact (srcY_spec hA hW c1 y1 (mask := kOf A (digits A.nblock p) y) fun i hi => kOf_sd hi).2.2.2
  · rw [holds_iff hs]
    exact hown
  · intro p hpn i hi
    obtain ⟨c1, c2, c3⟩ := hp p hpn
    rw [c3] at hi
    apply run_miss hA hW hL'
    intro c y hc hy e
    rw [Prod.mk.injEq] at e
    have hcc : c = digits A.nblock p := undigits_inj hc c1 (by omega)
    subst hcc
    have hyb := (hT _ _ hy).1
    refine hi _ (sub_cell hA hW c1 hyb) ((hP _ c1 y hyb).1 hy) ?_
    rw [boxPos_adr hA hW c1 hyb]
    exact e.2
  · intro a ha
    apply run_miss hA hW hL'
    intro c y hc hy e
    apply ha
    rw [← e]
    have := undigits_lt hc
    simp only
    omega

theorem nbT_iff {c : List Nat} (hc : CoordOK A.nblock c) {y : List Int} (hy : InBox A c y) :
    NbT A c y ↔ ¬ InPatch (coordLo A.nblock A.mapc c) (coordHi A.nblock A.dims A.mapc c) (glob A c y) := by
  rw [inBlock_iff hA hW hc (show (glob A c y).length = _ from tab_length _ _)]
  have key : ∀ i, i < A.dims.length → (Ext A c y i ↔ ¬ (bl A c i ≤ (glob A c y).getD i 0 ∧
      (glob A c y).getD i 0 ≤ bh A c i)) := by
    intro i hi
    rw [glob_getD hA hW hi]
    unfold Ext ee; omega
  constructor
  · rintro ⟨_, i, hi, hx⟩ h
    exact (key i hi).1 hx (h i hi)
  · intro h
    refine ⟨hy, ?_⟩
    by_contra hne
    apply h
    intro i hi
    by_contra hc
    exact hne ⟨i, hi, (key i hi).2 hc⟩

theorem dirT_iff {c : List Nat} (hc : CoordOK A.nblock c) {y : List Int} (hy : InBox A c y) {d : Nat}
    (hd : d < A.dims.length) {dir : Int} (hdir : dir = -1 ∨ dir = 1) {flag : Bool} :
    DirT A d dir flag c y ↔
      Beyond d dir (coordLo A.nblock A.mapc c) (coordHi A.nblock A.dims A.mapc c) (glob A c y) ∧
      (flag = true ∨ OthersInside d (coordLo A.nblock A.mapc c) (coordHi A.nblock A.dims A.mapc c) (glob A c y)) := by
  have e1 : ∀ i, (coordLo A.nblock A.mapc c).getD i 0 = bl A c i := fun _ => rfl
  have e2 : ∀ i, (coordHi A.nblock A.dims A.mapc c).getD i 0 = bh A c i := fun _ => rfl
  obtain ⟨l1, -, -⟩ := blen_eq hA hW hc
  unfold DirT Beyond OthersInside
  simp only [e1, e2, l1]
  have h1 : Sd A c y dir d ↔ (dir = -1 ∧ (glob A c y).getD d 0 < bl A c d ∨
      dir = 1 ∧ bh A c d < (glob A c y).getD d 0) := by
    rw [glob_getD hA hW hd]
    unfold Sd ee; omega
  have h2 : ∀ i, i < A.dims.length → (¬ Ext A c y i ↔ bl A c i ≤ (glob A c y).getD i 0 ∧
      (glob A c y).getD i 0 ≤ bh A c i) := by
    intro i hi
    rw [glob_getD hA hW hi]
    unfold Ext ee; omega
  rw [h1]
  constructor
  · rintro ⟨_, a, b⟩
    refine ⟨a, ?_⟩
    cases flag
    · right
      intro i hi hne
      exact (h2 i hi).1 (b rfl i hi hne)
    · exact Or.inl rfl
  · rintro ⟨a, b⟩
    refine ⟨hy, a, ?_⟩
    intro hf i hi hne
    rcases b with b | b
    · rw [b] at hf; cases hf
    · exact (h2 i hi).2 (b i hi hne)

/-! ## one direction, by a get of the wrapped patch -/

theorem remLo_src {c : List Nat} (hc : CoordOK A.nblock c) {mask : List Int} {i : Nat}
    (hi : i < A.dims.length) (hk : mask.getD i 0 = -1 ∨ mask.getD i 0 = 0 ∨ mask.getD i 0 = 1) :
    remLo (mask.getD i 0) (bl A c i) (bh A c i) (A.dims.getD i 0) (wd A i) =
      bl A (nbM A mask c) i + remOff (mask.getD i 0) (ee A (nbM A mask c) i) (wd A i) - wd A i ∧
    remHi (mask.getD i 0) (bl A c i) (bh A c i) (A.dims.getD i 0) (wd A i) -
      remLo (mask.getD i 0) (bl A c i) (bh A c i) (A.dims.getD i 0) (wd A i) =
      locHi (mask.getD i 0) (ee A c i) (wd A i) - locLo (mask.getD i 0) (ee A c i) (wd A i) := by
  have hc' := nbM_ok hA hc mask
  have h1 := hW c hc i hi
  have hn := nbM_bl hA hc mask hi
  have hf := bl_first hA hc hi
  have hf' := bl_first hA hc' hi
  have h1' := hW _ hc' i hi
  have hdm : dm A i = A.dims.getD i 0 := rfl
  unfold ee
  rcases hk with k | k | k
  · have hb := nb_neg hA hc hi
    have := hn.2.1 k
    rw [← this.2] at hb
    rw [k]
    show (if bl A c i > 1 then bl A c i - wd A i else A.dims.getD i 0 - wd A i + 1) =
      bl A (nbM A mask c) i + (bh A (nbM A mask c) i - bl A (nbM A mask c) i + 1) - wd A i ∧
      (if bl A c i > 1 then bl A c i - 1 else A.dims.getD i 0) -
      (if bl A c i > 1 then bl A c i - wd A i else A.dims.getD i 0 - wd A i + 1) = (wd A i - 1) - 0
    split <;> omega
  · have := hn.1 k
    rw [k]
    show bl A c i = bl A (nbM A mask c) i + wd A i - wd A i ∧
      bh A c i - bl A c i = (bh A c i - bl A c i + wd A i) - wd A i
    omega
  · have hb := nb_pos hA hc hi
    have := hn.2.2 k
    rw [← this.1] at hb
    rw [k]
    show (if bh A c i < A.dims.getD i 0 then bh A c i + 1 else 1) = bl A (nbM A mask c) i + wd A i - wd A i ∧
      (if bh A c i < A.dims.getD i 0 then bh A c i + wd A i else wd A i) -
      (if bh A c i < A.dims.getD i 0 then bh A c i + 1 else 1) =
        (bh A c i - bl A c i + 2 * wd A i) - (bh A c i - bl A c i + wd A i + 1)
    split <;> omega

theorem nbgetDir_eq {E : Env} {c : List Nat} (hc : CoordOK A.nblock c) {mask : List Int}
    (hk : IsDirection mask) (m : Addr → V) :
    nbgetDir E A (undigits A.nblock c : Nat) mask m =
      (ngaGet E A
        (tab A.dims.length fun i => remLo (mask.getD i 0) (bl A c i) (bh A c i) (A.dims.getD i 0) (wd A i))
        (tab A.dims.length fun i => remHi (mask.getD i 0) (bl A c i) (bh A c i) (A.dims.getD i 0) (wd A i))
        (fun j => m (((undigits A.nblock c : Nat) : Int),
          adr A c (tab A.dims.length fun i => locLo (mask.getD i 0) (ee A c i) (wd A i)) + j)) (bld A c) m).map
        fun b a => if a.1 = ((undigits A.nblock c : Nat) : Int) then
          b (a.2 - adr A c (tab A.dims.length fun i => locLo (mask.getD i 0) (ee A c i) (wd A i))) else m a := by
  have hall : (mask.all fun e => decide (e = -1 ∨ e = 0 ∨ e = 1)) = true := by
    rw [List.all_eq_true]
    intro e he
    simpa using hk e he
  unfold nbgetDir
  simp only [hall, if_true, (owns_bl hc _).1, (owns_bl hc _).2]
  have hdm : ∀ i, dm A i = A.dims.getD i 0 := fun _ => rfl
  have hwd : ∀ i, wd A i = ((A.width.getD i 0 : Nat) : Int) := fun _ => rfl
  have e1 : (tab A.dims.length fun i =>
      if mask.getD i 0 = 1 then (if bh A c i = A.dims.getD i 0 then 1 else bh A c i + 1)
      else if mask.getD i 0 = -1 then
        (if bl A c i = 1 then A.dims.getD i 0 - (A.width.getD i 0 : Int) + 1 else bl A c i - (A.width.getD i 0 : Int))
      else bl A c i) =
      tab A.dims.length fun i => remLo (mask.getD i 0) (bl A c i) (bh A c i) (A.dims.getD i 0) (wd A i) := by
    apply tab_congr
    intro i hi
    have hf := bl_first hA hc hi
    have hk := dir_getD hk i
    rw [hdm i] at hf
    rw [hwd i]
    unfold remLo
    generalize mask.getD i 0 = k at *
    split_ifs <;> first | rfl | omega
  have e2 : (tab A.dims.length fun i =>
      if mask.getD i 0 = 1 then (if bh A c i = A.dims.getD i 0 then (A.width.getD i 0 : Int)
        else bh A c i + (A.width.getD i 0 : Int))
      else if mask.getD i 0 = -1 then (if bl A c i = 1 then A.dims.getD i 0 else bl A c i - 1)
      else bh A c i) =
      tab A.dims.length fun i => remHi (mask.getD i 0) (bl A c i) (bh A c i) (A.dims.getD i 0) (wd A i) := by
    apply tab_congr
    intro i hi
    have hf := bl_first hA hc hi
    have hk := dir_getD hk i
    rw [hdm i] at hf
    rw [hwd i]
    unfold remHi
    generalize mask.getD i 0 = k at *
    split_ifs <;> first | rfl | omega
  have e3 : (tab A.dims.length fun i =>
      if mask.getD i 0 = 1 then bh A c i - bl A c i + 1 + (A.width.getD i 0 : Int)
      else if mask.getD i 0 = -1 then 0 else (A.width.getD i 0 : Int)) =
      tab A.dims.length fun i => locLo (mask.getD i 0) (ee A c i) (wd A i) := by
    apply tab_congr
    intro i hi
    rw [hwd i]
    have hk := dir_getD hk i
    unfold ee locLo
    generalize mask.getD i 0 = k at *
    split_ifs <;> first | rfl | omega
  rw [e1, e2, e3, ghostLoc_adr hA hc (tab_length _ _), owns_of_coord hc]
  rfl

theorem nbget_spec [Inhabited V] [Add V] [Mul V] {E : Env} (hE : EnvOK E A) {c : List Nat} (hc : CoordOK A.nblock c)
    {mask : List Int} (hk : IsDirection mask)
    {m m' : Addr → V} {f : List Int → V} (hf : ∀ x, InArray A.dims x → m (cell A x) = f x)
    (h : nbgetDir E A (undigits A.nblock c : Nat) mask m = some m') :
    (∀ y, InBox A c y → (∀ i, i < A.dims.length → Sd A c y (mask.getD i 0) i) →
      m' (((undigits A.nblock c : Nat) : Int), adr A c y) = f (wrap A.dims (glob A c y))) ∧
    ∀ a, (∀ y, InBox A c y → (∀ i, i < A.dims.length → Sd A c y (mask.getD i 0) i) →
      (((undigits A.nblock c : Nat) : Int), adr A c y) ≠ a) → m' a = m a := by
  rw [nbgetDir_eq hA hW hc hk, Option.map_eq_some_iff] at h
  obtain ⟨b, hb, rfl⟩ := h
  obtain ⟨l1, l2, l3⟩ := blen_eq hA hW hc
  have hw := hA.width
  let lo := tab A.dims.length fun i => remLo (mask.getD i 0) (bl A c i) (bh A c i) (A.dims.getD i 0) (wd A i)
  let hi := tab A.dims.length fun i => remHi (mask.getD i 0) (bl A c i) (bh A c i) (A.dims.getD i 0) (wd A i)
  let plo := tab A.dims.length fun i => locLo (mask.getD i 0) (ee A c i) (wd A i)
  have hlo : lo.length = A.dims.length := tab_length _ _
  have hhi : hi.length = A.dims.length := tab_length _ _
  have hplo : plo.length = A.dims.length := tab_length _ _
  have hloc : ∀ i, i < A.dims.length → hi.getD i 0 - lo.getD i 0 =
      locHi (mask.getD i 0) (ee A c i) (wd A i) - plo.getD i 0 := by
    intro i hi'
    rw [show lo.getD i 0 = _ from tab_getD _ hi', show hi.getD i 0 = _ from tab_getD _ hi',
      show plo.getD i 0 = _ from tab_getD _ hi']
    exact (remLo_src hA hW hc hi' (dir_getD hk i)).2
  have hld : LdOK lo hi (bld A c) := by
    refine ldok_rem l3 (by omega) (by omega) (by omega) (by omega) ?_
    intro i hi'
    have hi'' : i < A.dims.length := by omega
    have := bD_getD hA hW hc hi''
    unfold bD at this
    rw [this]
    have h1 := hloc i hi''
    rw [show plo.getD i 0 = _ from tab_getD _ hi''] at h1
    have w0 := wd_nonneg A i
    have hwc := hW c hc i hi''
    unfold ee at h1 ⊢
    rcases dir_getD hk i with k | k | k <;> rw [k] at h1 <;> simp only [loc_m, loc_z, loc_p] at h1 <;> omega
  obtain ⟨g1, g2⟩ := get_repr hA hE hld (show Repr A m f from hf) hb
  -- cells and buffer positions
  obtain ⟨d, hd⟩ := bD_split hA hW hc
  have hbl : (bld A c).length + 1 = A.dims.length := by
    have := bD_len hA hW hc
    rw [hd] at this; simpa using this
  have hpos : ∀ x y : List Int, x.length = A.dims.length → y.length = A.dims.length →
      (∀ i, i < A.dims.length → x.getD i 0 - lo.getD i 0 = y.getD i 0 - plo.getD i 0) →
      adr A c plo + bufPos lo (bld A c) x = adr A c y := by
    intro x y hx hy hxy
    rw [bufPos_eq (by omega) (by omega)]
    unfold adr
    rw [hd, horner_last 0 d (by rw [subL_length (by omega)]; omega),
      ← horner_add (by rw [subL_length (by omega)]; omega)]
    congr 1
    apply list_ext
    · rw [addL_length (by rw [subL_length (by omega)]; omega)]; omega
    · intro i hi'
      rw [addL_length (by rw [subL_length (by omega)]; omega)] at hi'
      rw [addL_getD (by rw [subL_length (by omega)]; omega) hi', subL_getD (by omega) (by omega)]
      have := hxy i (by omega)
      omega
  constructor
  · intro y hy hs
    obtain ⟨s1, s2, s3, s4⟩ := srcY_spec hA hW hc hy hs
    have hx : ∀ i, i < A.dims.length → (wrap A.dims (glob A c y)).getD i 0 - lo.getD i 0 =
        y.getD i 0 - plo.getD i 0 := by
      intro i hi'
      rw [← s3, glob_getD hA hW hi', show lo.getD i 0 = _ from tab_getD _ hi',
        (remLo_src hA hW hc hi' (dir_getD hk i)).1, show plo.getD i 0 = _ from tab_getD _ hi']
      unfold srcY
      rw [tab_getD _ hi']
      omega
    have hxl : (wrap A.dims (glob A c y)).length = A.dims.length := wrap_length (tab_length _ _)
    have hin : InPatch lo hi (wrap A.dims (glob A c y)) := by
      rw [inPatch_iff]
      refine ⟨by omega, by omega, ?_⟩
      intro i hi'
      rw [hlo] at hi'
      have h1 := hx i hi'
      have h2 := hloc i hi'
      have h3 := hs i hi'
      have h4 := hy.2 i hi'
      rw [show plo.getD i 0 = _ from tab_getD _ hi'] at h1 h2
      unfold Sd at h3
      rcases dir_getD hk i with k | k | k <;> rw [k] at h1 h2 h3 <;>
        simp only [loc_m, loc_z, loc_p] at h1 h2 <;> omega
    have e := hpos _ y hxl hy.1 hx
    have := g1 _ hin
    show (if ((undigits A.nblock c : Nat) : Int) = _ then b (adr A c y - adr A c plo) else _) = _
    rw [if_pos rfl, ← e, show adr A c plo + bufPos lo (bld A c) (wrap A.dims (glob A c y)) - adr A c plo =
      bufPos lo (bld A c) (wrap A.dims (glob A c y)) by omega]
    exact this
  · intro a ha
    show (if a.1 = _ then b (a.2 - adr A c plo) else m a) = m a
    by_cases hp : a.1 = ((undigits A.nblock c : Nat) : Int)
    · rw [if_pos hp, g2]
      · show m (_, adr A c plo + (a.2 - adr A c plo)) = m a
        rw [show adr A c plo + (a.2 - adr A c plo) = a.2 by omega, ← hp]
      · intro x hx e
        rw [inPatch_iff] at hx
        have hxl : x.length = A.dims.length := by omega
        have hyl : (tab A.dims.length fun i => plo.getD i 0 + (x.getD i 0 - lo.getD i 0)).length = A.dims.length :=
          tab_length _ _
        have hyi : ∀ i, i < A.dims.length →
            (tab A.dims.length fun i => plo.getD i 0 + (x.getD i 0 - lo.getD i 0)).getD i 0 =
              plo.getD i 0 + (x.getD i 0 - lo.getD i 0) := fun i hi => tab_getD _ hi
        have hgood : ∀ i, i < A.dims.length →
            (0 ≤ plo.getD i 0 + (x.getD i 0 - lo.getD i 0) ∧
              plo.getD i 0 + (x.getD i 0 - lo.getD i 0) ≤ ee A c i + 2 * wd A i) ∧
            Sd A c (tab A.dims.length fun i => plo.getD i 0 + (x.getD i 0 - lo.getD i 0)) (mask.getD i 0) i := by
          intro i hi'
          unfold Sd
          rw [hyi i hi']
          have h1 := hx.2.2 i (by omega)
          have h2 := hloc i hi'
          have w0 := wd_nonneg A i
          have hwc := hW c hc i hi'
          rw [show plo.getD i 0 = _ from tab_getD _ hi'] at h2 ⊢
          unfold ee at h2 ⊢
          rcases dir_getD hk i with k | k | k <;> rw [k] at h2 ⊢ <;>
            simp only [loc_m, loc_z, loc_p, true_and] at h2 ⊢ <;> omega
        refine ha _ ⟨hyl, fun i hi => by rw [hyi i hi]; exact (hgood i hi).1⟩ (fun i hi => (hgood i hi).2) ?_
        rw [← hpos x _ hxl hyl (fun i hi => by rw [hyi i hi]; omega), e, ← hp]
        rw [show adr A c plo + (a.2 - adr A c plo) = a.2 by omega]
    · rw [if_neg hp]

end

/-! ## a local copy -/

theorem fold_upd {α : Type} (g : α → Int) (v : α → V) (l : List α) (b : Int → V) (a : Int) :
    (∀ w, (∀ i ∈ l, g i = a → v i = w) → (∃ i ∈ l, g i = a) →
      l.foldl (fun b i => upd b (g i) (v i)) b a = w) ∧
    ((∀ i ∈ l, g i ≠ a) → l.foldl (fun b i => upd b (g i) (v i)) b a = b a) := by
  induction l generalizing b with
  | nil => exact ⟨by rintro w _ ⟨i, hi, _⟩; simp at hi, fun _ => rfl⟩
  | cons i l ih =>
    obtain ⟨h1, h2⟩ := ih (upd b (g i) (v i))
    constructor
    · intro w hw hex
      rw [List.foldl_cons]
      by_cases h : ∃ j ∈ l, g j = a
      · exact h1 w (fun j hj => hw j (List.mem_cons_of_mem _ hj)) h
      · rw [h2 fun j hj e => h ⟨j, hj, e⟩]
        have hi : g i = a := by
          obtain ⟨j, hj, e⟩ := hex
          rcases List.mem_cons.1 hj with rfl | hj
          · exact e
          · exact absurd ⟨j, hj, e⟩ h
        unfold upd
        rw [if_pos hi.symm]
        exact hw i List.mem_cons_self hi
    · intro hn
      rw [List.foldl_cons, h2 fun j hj => hn j (List.mem_cons_of_mem _ hj)]
      unfold upd
      rw [if_neg fun e => hn i List.mem_cons_self e.symm]

theorem mapOpt_none {α β : Type} {f : α → Option β} {as : List α} {a : α} (ha : a ∈ as) (h : f a = none) :
    mapOpt f as = none := by
  induction as with
  | nil => cases ha
  | cons b as ih =>
    rcases List.mem_cons.1 ha with rfl | ha
    · simp only [mapOpt, h]
    · have := ih ha
      simp only [mapOpt]
      rw [this]
      cases f b <;> rfl

section
variable (hA : ArrOK A) (hW : WideC A)
include hA hW

theorem block_local [Inhabited V] {c : List Nat} (hc : CoordOK A.nblock c) {lo hi ld : List Int}
    (hlen : lo.length = A.dims.length) (hld : LdOK lo hi ld) (hne : InPatch lo hi lo)
    (hbox : ∀ i, i < A.dims.length → ¬ lo.getD i 0 < bl A c i - wd A i ∧ ¬ hi.getD i 0 > bh A c i + wd A i)
    (m : Addr → V) (buf : Int → V) :
    let b' := (loopAll (lo.map fun _ => 0) ((edges lo hi).map (· - 1))).foldl (fun b i =>
      upd b (strideOff (setstride 1 ld) i)
        (m (((undigits A.nblock c : Nat) : Int),
          adr A c (tab A.dims.length fun i => lo.getD i 0 - (bl A c i - wd A i)) +
            strideOff (setstride 1 (ldRem (owns A (undigits A.nblock c : Nat)).1
              (owns A (undigits A.nblock c : Nat)).2 A.width)) i))) buf
    (∀ x, InPatch lo hi x → InPatch (boxLo (coordLo A.nblock A.mapc c) A.width)
        (boxHi (coordHi A.nblock A.dims A.mapc c) A.width) x ∧
      b' (bufPos lo ld x) = m (((undigits A.nblock c : Nat) : Int),
        boxPos (coordLo A.nblock A.mapc c) (coordHi A.nblock A.dims A.mapc c) A.width x)) ∧
    ∀ i, (∀ x, InPatch lo hi x → bufPos lo ld x ≠ i) → b' i = buf i := by
  intro b'
  obtain ⟨hl1, hl2⟩ := hld.length
  have hmem : ∀ i, i ∈ loopAll (lo.map fun _ => 0) ((edges lo hi).map (· - 1)) ↔
      InPatch (lo.map fun _ => 0) ((edges lo hi).map (· - 1)) i := by
    intro i
    rw [loopAll_eq_box ⟨_, sub_inZero hne⟩, mem_box]
  have hpos : ∀ i, InPatch (lo.map fun _ => 0) ((edges lo hi).map (· - 1)) i →
      InPatch lo hi (addL lo i) ∧ strideOff (setstride 1 ld) i = bufPos lo ld (addL lo i) := by
    intro i hi'
    obtain ⟨a1, a2⟩ := add_inWin hi' (by omega)
    refine ⟨a1, ?_⟩
    rw [strideOff_eq (by omega), bufPos_eq a1.length.1 hl2]
    congr 1
    apply list_ext
    · rw [subL_length (by have := a1.length.1; omega)]; have := a1.length.1; omega
    · intro j hj
      have hj' : j < lo.length := by omega
      rw [subL_getD (by have := a1.length.1; omega) (by have := a1.length.1; omega), addL_getD (by omega) (by omega)]
      omega
  have hsrc : ∀ x, InPatch lo hi x → InBox A c (tab A.dims.length fun i => x.getD i 0 - (bl A c i - wd A i)) ∧
      glob A c (tab A.dims.length fun i => x.getD i 0 - (bl A c i - wd A i)) = x := by
    intro x hx
    rw [inPatch_iff] at hx
    refine ⟨⟨tab_length _ _, ?_⟩, ?_⟩
    · intro i hi'
      rw [tab_getD _ hi']
      have h1 := hx.2.2 i (by omega)
      have h2 := hbox i hi'
      unfold ee
      omega
    · apply list_ext
      · rw [show (glob A c _).length = A.dims.length from tab_length _ _]; omega
      · intro i hi'
        rw [show (glob A c _).length = A.dims.length from tab_length _ _] at hi'
        rw [glob_getD hA hW hi', tab_getD _ hi']
        omega
  have hval : ∀ x i, InPatch lo hi x → InPatch (lo.map fun _ => 0) ((edges lo hi).map (· - 1)) i →
      addL lo i = x →
      adr A c (tab A.dims.length fun i => lo.getD i 0 - (bl A c i - wd A i)) +
            strideOff (setstride 1 (ldRem (owns A (undigits A.nblock c : Nat)).1
              (owns A (undigits A.nblock c : Nat)).2 A.width)) i =
        boxPos (coordLo A.nblock A.mapc c) (coordHi A.nblock A.dims A.mapc c) A.width x := by
    intro x i hx hi' e
    obtain ⟨a1, a2⟩ := add_inWin hi' (by omega)
    obtain ⟨s1, s2⟩ := hsrc x hx
    have hbp := boxPos_adr hA hW hc s1
    rw [s2] at hbp
    rw [hbp, adr_shift hA hW hc (tab_length _ _) (by omega)]
    congr 1
    apply list_ext
    · rw [addL_length (by rw [tab_length]; omega), tab_length, tab_length]
    · intro j hj
      rw [addL_length (by rw [tab_length]; omega), tab_length] at hj
      rw [addL_getD (by rw [tab_length]; omega) (by rw [tab_length]; omega), tab_getD _ hj, tab_getD _ hj, ← e,
        addL_getD (by omega) (by omega)]
      omega
  constructor
  · intro x hx
    obtain ⟨s1, s2⟩ := hsrc x hx
    refine ⟨?_, ?_⟩
    · have := sub_cell hA hW hc s1
      rwa [s2] at this
    · have hi0 := sub_inZero hx
      have hxl := hx.length.1
      have e0 : addL lo (subL x lo) = x := by
        have hs : (subL x lo).length = lo.length := by rw [subL_length (by omega)]; omega
        apply list_ext
        · rw [addL_length (by omega)]; omega
        · intro j hj
          rw [addL_length (by omega)] at hj
          rw [addL_getD (by omega) (by omega), subL_getD (by omega) (by omega)]
          omega
      apply (fold_upd _ _ _ _ _).1
      · intro i hi' e
        rw [hmem] at hi'
        obtain ⟨p1, p2⟩ := hpos i hi'
        rw [p2] at e
        have := bufPos_inj hld p1 hx e
        rw [hval x i hx hi' this]
      · refine ⟨subL x lo, (hmem _).2 hi0, ?_⟩
        rw [(hpos _ hi0).2, e0]
  · intro i hi'
    apply (fold_upd _ _ _ _ _).2
    intro j hj e
    rw [hmem] at hj
    obtain ⟨p1, p2⟩ := hpos j hj
    exact hi' _ p1 (p2 ▸ e)

theorem getGhostBlock_eq {E : PPiece → Env} {c : List Nat} (hc : CoordOK A.nblock c) (lo hi ld : List Int)
    (m : Addr → V) (buf : Int → V) :
    getGhostBlock E A (undigits A.nblock c : Nat) lo hi ld m buf =
      if ∀ i, i < A.dims.length → ¬ lo.getD i 0 < bl A c i - wd A i ∧ ¬ hi.getD i 0 > bh A c i + wd A i then
        some ((loopAll (lo.map fun _ => 0) ((edges lo hi).map (· - 1))).foldl (fun b i =>
      upd b (strideOff (setstride 1 ld) i)
        (m (((undigits A.nblock c : Nat) : Int),
          adr A c (tab A.dims.length fun i => lo.getD i 0 - (bl A c i - wd A i)) +
            strideOff (setstride 1 (ldRem (owns A (undigits A.nblock c : Nat)).1
              (owns A (undigits A.nblock c : Nat)).2 A.width)) i))) buf)
      else periodicGet E A lo hi ld m buf := by
  have hwd : ∀ i, wd A i = ((A.width.getD i 0 : Nat) : Int) := fun _ => rfl
  unfold getGhostBlock
  simp only [(owns_bl hc _).1, (owns_bl hc _).2]
  have hcond : ((List.range A.dims.length).all fun i => decide (¬ lo.getD i 0 < bl A c i - (A.width.getD i 0 : Int) ∧
      ¬ hi.getD i 0 > bh A c i + (A.width.getD i 0 : Int))) = true ↔
      ∀ i, i < A.dims.length → ¬ lo.getD i 0 < bl A c i - wd A i ∧ ¬ hi.getD i 0 > bh A c i + wd A i := by
    rw [List.all_eq_true]
    simp only [List.mem_range, decide_eq_true_eq, hwd]
  have htab : (tab A.dims.length fun i => lo.getD i 0 -
      (tab A.dims.length fun i => bl A c i - (A.width.getD i 0 : Int)).getD i 0) =
      tab A.dims.length fun i => lo.getD i 0 - (bl A c i - wd A i) := by
    apply tab_congr
    intro i hi
    rw [tab_getD _ hi, hwd]
  rw [htab, ghostLoc_adr hA hc (tab_length _ _)]
  by_cases h : ∀ i, i < A.dims.length → ¬ lo.getD i 0 < bl A c i - wd A i ∧ ¬ hi.getD i 0 > bh A c i + wd A i
  · rw [if_pos h, if_pos (hcond.2 h)]
  · rw [if_neg h, if_neg fun h' => h (hcond.1 h')]

end

end GA.GhostGet
