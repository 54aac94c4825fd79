import Verif.Lemmas.GhostGetSpec
import Verif.Props.C32
import Verif.Props.C33

/-! # C92: ghost cells fetched with one-sided gets

`GA_Update_ghosts_nb`, `NGA_Update_ghost_dir`, `NGA_NbGet_ghost_dir` and `NGA_Get_ghost_block`. The
gets of one process are a list of element copies; a run executes copies of all processes in any order
and any interleaving, each reading the memory as it is at that moment. -/

namespace GA
open Spec Model Ghost GhostGet

variable {V : Type} [Inhabited V]

private theorem wideC' {A : RegArray} (hA : ArrOK A)
    (hW : ∀ p, p < gridSize A.nblock → WideBlock (owns A p).1 (owns A p).2 A.width) : WideC A := by
  intro c hc d hd
  have := hW _ (undigits_lt hc)
  rw [owns_of_coord hc, wideBlock_iff] at this
  obtain ⟨h1, h2, h3⟩ := this
  have hw := hA.width
  exact h3 d (by show d < (coordLo A.nblock A.mapc c).length; simp only at h2; omega)

private theorem owns_dig {A : RegArray} {p : Nat} (hp : p < gridSize A.nblock) :
    owns A p = (coordLo A.nblock A.mapc (digits A.nblock p), coordHi A.nblock A.dims A.mapc (digits A.nblock p)) := by
  rw [← owns_of_coord (digits_ok hp), undigits_digits hp]

/-- **C92, all ghost cells.** `l p` are the copies issued by process `p` in `GA_Update_ghosts_nb`. Run
any of the copies of all processes in any order: once all copies of a process are among them (its
`NGA_NbWait` returned), every cell of its block with ghost cells, corners included, holds the element
its subscript stands for. No element of the array and no cell outside the ghost regions changes. -/
theorem C92_update_nb (A : RegArray) (hA : ArrOK A)
    (hW : ∀ p, p < gridSize A.nblock → WideBlock (owns A p).1 (owns A p).2 A.width)
    (cand : Nat → List Int → List Nat) (hc : ∀ p x, CandOK A.nblock (cand p x))
    (b : Nat → Bool) (l : Nat → List Copy)
    (hl : ∀ p, p < gridSize A.nblock → updateNb A (cand p) p = some (b p, l p))
    (L : List Copy) (hL : ∀ cp ∈ L, ∃ p, p < gridSize A.nblock ∧ cp ∈ l p)
    (m : Addr → V) (f : List Int → V) (hf : Holds (.reg A (gridSize A.nblock)) m f) :
    (∀ p, p < gridSize A.nblock → (∀ cp ∈ l p, cp ∈ L) →
      GhostsCurrent A.dims (owns A p).1 (owns A p).2 A.width f (fun o => exec L m ((p : Int), o))) ∧
    Holds (.reg A (gridSize A.nblock)) (exec L m) f ∧
    (∀ p, p < gridSize A.nblock → OnlyGhosts (owns A p).1 (owns A p).2 A.width
      (fun o => m ((p : Int), o)) (fun o => exec L m ((p : Int), o))) ∧
    (∀ a : Addr, ¬ (0 ≤ a.1 ∧ a.1 < gridSize A.nblock) → exec L m a = m a) := by
  have hWc := wideC' hA hW
  obtain ⟨h1, h2, h3, h4⟩ := final hA hWc (P := fun lo hi x => ¬ InPatch lo hi x) (T := NbT A) (fun _ _ h => h)
    (fun c hc y hy => nbT_iff hA hWc hc hy) (cps := l) (by
      intro c hcc cp
      obtain ⟨l', e, hl'⟩ := updateNb_spec hA hWc (hc (undigits A.nblock c)) hcc
      rw [hl _ (undigits_lt hcc)] at e
      simp only [Option.some.injEq, Prod.mk.injEq] at e
      rw [e.2]; exact hl' cp) hL hf
  exact ⟨fun p hp hall x hx => h1 p hp hall x hx (Classical.em _).symm, h2, h3, h4⟩

/-- **C92, the call is always served**: no get of `GA_Update_ghosts_nb` is refused. The flag tells
whether the request handle was initialised: it is not if the array has no ghost cells, so the wait
that has to follow reads a handle nobody wrote. -/
theorem C92_update_nb_issues (A : RegArray) (hA : ArrOK A)
    (hW : ∀ p, p < gridSize A.nblock → WideBlock (owns A p).1 (owns A p).2 A.width)
    (cand : List Int → List Nat) (hc : ∀ x, CandOK A.nblock (cand x)) (p : Nat) (hp : p < gridSize A.nblock) :
    ∃ l, updateNb A cand p = some (A.width.any (0 < ·), l) := by
  obtain ⟨l, h, -⟩ := updateNb_spec hA (wideC' hA hW) hc (digits_ok hp)
  rw [undigits_digits hp] at h
  exact ⟨l, h⟩

/-- **C92, one direction (part).** `NGA_Update_ghost_dir` for dimension `d` (counted from 0) and
direction `dir`, Fortran order of dimensions: the cells beyond the block in that direction are current
afterwards - with the corners of this side if the flag is set, without them if not - and nothing else
changes. Missing: an array some of whose ghost widths are zero, see `C92_dir_zero_width`, and the C
interface, see `C92_c_dimension_wrong`. -/
theorem C92_update_dir_partial (A : RegArray) (hA : ArrOK A)
    (hW : ∀ p, p < gridSize A.nblock → WideBlock (owns A p).1 (owns A p).2 A.width)
    (cand : Nat → List Int → List Nat) (hc : ∀ p x, CandOK A.nblock (cand p x))
    (d : Nat) (hd : d < A.dims.length) (dir : Int) (hdir : dir = -1 ∨ dir = 1) (flag : Bool)
    (hwd : A.width.getD d 0 ≠ 0) (hall : flag = true → ∀ i, i < A.dims.length → A.width.getD i 0 ≠ 0) :
    ∃ l : Nat → List Copy,
      (∀ p : Nat, p < gridSize A.nblock → updateDir A (cand p) p ((d : Int) + 1) dir flag = some (true, l p)) ∧
      ∀ (L : List Copy), (∀ cp ∈ L, ∃ p, p < gridSize A.nblock ∧ cp ∈ l p) →
      ∀ (m : Addr → V) (f : List Int → V), Holds (.reg A (gridSize A.nblock)) m f →
        (∀ p, p < gridSize A.nblock → (∀ cp ∈ l p, cp ∈ L) →
          CellsCurrent (fun x => Beyond d dir (owns A p).1 (owns A p).2 x ∧
              (flag = true ∨ OthersInside d (owns A p).1 (owns A p).2 x)) A.dims
            (owns A p).1 (owns A p).2 A.width f (fun o => exec L m ((p : Int), o))) ∧
        Holds (.reg A (gridSize A.nblock)) (exec L m) f ∧
        (∀ p, p < gridSize A.nblock →
          OnlyCells (fun x => Beyond d dir (owns A p).1 (owns A p).2 x ∧
              (flag = true ∨ OthersInside d (owns A p).1 (owns A p).2 x)) (owns A p).1 (owns A p).2 A.width
            (fun o => m ((p : Int), o)) (fun o => exec L m ((p : Int), o))) ∧
        (∀ a : Addr, ¬ (0 ≤ a.1 ∧ a.1 < gridSize A.nblock) → exec L m a = m a) := by
  have hWc := wideC' hA hW
  have hs : ∀ c, CoordOK A.nblock c → updateDir A (cand (undigits A.nblock c)) (undigits A.nblock c : Nat)
        ((d : Int) + 1) dir flag = some (true, ((updateDir A (cand (undigits A.nblock c)) (undigits A.nblock c : Nat)
          ((d : Int) + 1) dir flag).getD (true, [])).2) ∧
      ∀ cp, cp ∈ ((updateDir A (cand (undigits A.nblock c)) (undigits A.nblock c : Nat)
          ((d : Int) + 1) dir flag).getD (true, [])).2 ↔ ∃ y, DirT A d dir flag c y ∧ cp = tgt A c y := by
    intro c hcc
    obtain ⟨l, l1, l2⟩ := updateDir_spec hA hWc (hc (undigits A.nblock c)) hcc hd hdir (flag := flag) hwd hall
    rw [l1]
    exact ⟨rfl, l2⟩
  refine ⟨fun p => ((updateDir A (cand p) p ((d : Int) + 1) dir flag).getD (true, [])).2, ?_, ?_⟩
  · intro p hp
    have := (hs _ (digits_ok hp)).1
    rwa [undigits_digits hp] at this
  · intro L hL m f hf
    obtain ⟨h1, h2, h3, h4⟩ := final hA hWc (T := DirT A d dir flag)
      (P := fun lo hi x => Beyond d dir lo hi x ∧ (flag = true ∨ OthersInside d lo hi x))
      (fun c y h => ⟨h.1, d, hd, (sd_ext h.2.1).2 (by omega)⟩)
      (fun c hc y hy => dirT_iff hA hWc hc hy hd hdir)
      (cps := fun p => ((updateDir A (cand p) p ((d : Int) + 1) dir flag).getD (true, [])).2)
      (fun c hcc => (hs c hcc).2) hL hf
    exact ⟨fun p hp hall x hx hP => h1 p hp hall x hx (Or.inl hP), h2, h3, h4⟩

/-- **C92, disproved for a dimension without ghost cells**: with the flag set, an array that has ghost
cells in the dimension of the update but none in some other dimension makes `NGA_Update_ghost_dir`
ask for an empty region, which is an error that stops the program. -/
theorem C92_dir_zero_width (A : RegArray) (hA : ArrOK A)
    (hW : ∀ p, p < gridSize A.nblock → WideBlock (owns A p).1 (owns A p).2 A.width)
    (cand : List Int → List Nat) (d j : Nat) (hd : d < A.dims.length) (hj : j < A.dims.length) (hne : j ≠ d)
    (dir : Int) (hdir : dir = -1 ∨ dir = 1) (hwd : A.width.getD d 0 ≠ 0) (hwj : A.width.getD j 0 = 0)
    (p : Nat) (hp : p < gridSize A.nblock) :
    updateDir A cand p ((d : Int) + 1) dir true = none := by
  have hWc := wideC' hA hW
  have hw := hA.width
  have hg : Ghost.hasGhosts A.width = true := by
    by_contra h
    exact hwd (no_ghost_width hA h hd)
  have hcc := digits_ok hp
  have hkl : ∀ i, i < A.dims.length → (tab A.dims.length fun i => if i = d then dir else if i = j then (1 : Int) else 0).getD i 0 =
      if i = d then dir else if i = j then 1 else 0 := fun i hi => tab_getD _ hi
  unfold updateDir
  rw [hg, checkDistr_wide hA hWc]
  simp only [Bool.not_true, Bool.false_eq_true, if_false]
  rw [mapOpt_none (a := tab A.dims.length fun i => if i = d then dir else if i = j then (1 : Int) else 0)]
  · rfl
  · rw [mem_dirMasks hd (by omega)]
    refine ⟨tab_length _ _, dir_of_getD ?_, ?_, by simp⟩
    · intro i hi
      rw [tab_length] at hi
      rw [hkl i hi]
      split_ifs <;> omega
    · rw [hkl d hd, if_pos rfl]
  · unfold copies
    split
    · have hf : firstProc A cand
          (tab A.dims.length fun i => remLo ((tab A.dims.length fun i => if i = d then dir else if i = j then (1 : Int) else 0).getD i 0)
            ((owns A p).1.getD i 0) ((owns A p).2.getD i 0) (A.dims.getD i 0) (A.width.getD i 0 : Int),
           tab A.dims.length fun i => remHi ((tab A.dims.length fun i => if i = d then dir else if i = j then (1 : Int) else 0).getD i 0)
            ((owns A p).1.getD i 0) ((owns A p).2.getD i 0) (A.dims.getD i 0) (A.width.getD i 0 : Int)) = none := by
        unfold firstProc locateRegion
        rw [if_neg]
        intro h
        rw [regionOK_iff] at h
        have h3 := ((inPatch_iff.1 h.2.2).2.2 j (by rw [tab_length]; exact hj)).2
        dsimp only at h3
        simp only [tab_getD _ hj, hne, if_false, if_true, hwj] at h3
        unfold remLo remHi at h3
        norm_num at h3
        split_ifs at h3 <;> omega
      simp only [hf]
    · rfl

/-- **C92, one direction by a single get.** `NGA_NbGet_ghost_dir` with its wait, Fortran interface:
if the call is served, all ghost cells in direction `mask` are current and nothing else changes. -/
theorem C92_nbget_dir [Add V] [Mul V] (A : RegArray) (hA : ArrOK A)
    (hW : ∀ p, p < gridSize A.nblock → WideBlock (owns A p).1 (owns A p).2 A.width)
    (E : Env) (hE : EnvOK E A) (p : Nat) (hp : p < gridSize A.nblock) (mask : List Int)
    (hlen : mask.length = A.dims.length) (hk : ∃ k ∈ mask, k ≠ 0)
    (m m' : Addr → V) (f : List Int → V) (hf : Holds (.reg A (gridSize A.nblock)) m f)
    (h : nbgetDir E A p mask m = some m') :
    CellsCurrent (OnSide mask (owns A p).1 (owns A p).2) A.dims (owns A p).1 (owns A p).2 A.width f
      (fun o => m' ((p : Int), o)) ∧
    OnlyCells (OnSide mask (owns A p).1 (owns A p).2) (owns A p).1 (owns A p).2 A.width
      (fun o => m ((p : Int), o)) (fun o => m' ((p : Int), o)) ∧
    Holds (.reg A (gridSize A.nblock)) m' f ∧ (∀ a : Addr, a.1 ≠ p → m' a = m a) := by
  have hWc := wideC' hA hW
  have hcc := digits_ok hp
  have hs : Sound (.reg A (gridSize A.nblock)) := ⟨hA, Nat.le_refl _⟩
  rw [holds_iff hs] at hf
  have hdir : IsDirection mask := by
    by_contra hn
    unfold nbgetDir at h
    rw [if_neg] at h
    · cases h
    · intro ha
      apply hn
      rw [List.all_eq_true] at ha
      intro k hk
      simpa using ha k hk
  rw [← undigits_digits hp] at h
  obtain ⟨h1, h2⟩ := nbget_spec hA hWc hE hcc hdir (f := f) hf h
  rw [undigits_digits hp] at h1 h2
  obtain ⟨l1, l2, l3⟩ := blen_eq hA hWc hcc
  have hside : ∀ y, InBox A (digits A.nblock p) y →
      (OnSide mask (coordLo A.nblock A.mapc (digits A.nblock p)) (coordHi A.nblock A.dims A.mapc (digits A.nblock p))
        (glob A (digits A.nblock p) y) ↔
      ∀ i, i < A.dims.length → Sd A (digits A.nblock p) y (mask.getD i 0) i) := by
    intro y hy
    rw [onSide_iff]
    have e1 : ∀ i, (coordLo A.nblock A.mapc (digits A.nblock p)).getD i 0 = bl A (digits A.nblock p) i := fun _ => rfl
    have e2 : ∀ i, (coordHi A.nblock A.dims A.mapc (digits A.nblock p)).getD i 0 = bh A (digits A.nblock p) i := fun _ => rfl
    simp only [e1, e2]
    have key : ∀ i, i < A.dims.length → (Sd A (digits A.nblock p) y (mask.getD i 0) i ↔
        ((mask.getD i 0 = -1 ∧ (glob A (digits A.nblock p) y).getD i 0 < bl A (digits A.nblock p) i) ∨
       (mask.getD i 0 = 0 ∧ bl A (digits A.nblock p) i ≤ (glob A (digits A.nblock p) y).getD i 0 ∧
        (glob A (digits A.nblock p) y).getD i 0 ≤ bh A (digits A.nblock p) i) ∨
       (mask.getD i 0 = 1 ∧ bh A (digits A.nblock p) i < (glob A (digits A.nblock p) y).getD i 0))) := by
      intro i hi
      rw [glob_getD hA hWc hi]
      unfold Sd ee; omega
    constructor
    · rintro ⟨-, -, -, h⟩ i hi
      exact (key i hi).2 (h i (by omega))
    · intro h
      refine ⟨by omega, by omega, ?_, fun i hi => (key i (by omega)).1 (h i (by omega))⟩
      rw [show (glob A (digits A.nblock p) y).length = A.dims.length from tab_length _ _]; omega
  rw [owns_dig hp]
  refine ⟨?_, ?_, ?_, ?_⟩
  · intro x hx hPx
    obtain ⟨y, y1, y2, y3, -⟩ := cell_sub hA hWc hcc hx
    show m' ((p : Int), boxPos _ _ _ x) = _
    rw [y2, ← y3]
    rw [← y3] at hPx
    exact h1 y y1 ((hside y y1).1 hPx)
  · intro i hi
    apply h2
    intro y hy hsd e
    rw [Prod.mk.injEq] at e
    refine hi _ (sub_cell hA hWc hcc hy) ((hside y hy).2 hsd) ?_
    rw [boxPos_adr hA hWc hcc hy]
    exact e.2
  · rw [holds_iff hs]
    intro x hx
    show m' (cell A x) = f x
    rw [h2]
    · exact hf x hx
    · intro y hy hsd
      obtain ⟨k, hk, hk0⟩ := hk
      obtain ⟨i, hi, rfl⟩ := List.getElem_of_mem hk
      have hnb : NbT A (digits A.nblock p) y := by
        refine ⟨hy, i, by omega, (sd_ext (hsd i (by omega))).2 ?_⟩
        rw [List.getD_eq_getElem?_getD, List.getElem?_eq_getElem hi, Option.getD_some]
        exact hk0
      have := dst_ne_cell hA hWc hcc hnb hx
      rwa [undigits_digits hp] at this
  · intro a ha
    apply h2
    intro y _ _ e
    apply ha
    rw [← e]

/-- **C92, when that get is served**: for every legal mask whose nonzero entries are in dimensions with
ghost cells (element sizes as in C07). -/
theorem C92_nbget_dir_served [Add V] [Mul V] (A : RegArray) (hA : ArrOK A)
    (hW : ∀ p, p < gridSize A.nblock → WideBlock (owns A p).1 (owns A p).2 A.width)
    (E : Env) (hE : EnvOK E A) (p : Nat) (hp : p < gridSize A.nblock) (mask : List Int)
    (hdir : IsDirection mask) (hz : ∀ i, i < A.dims.length → mask.getD i 0 ≠ 0 → A.width.getD i 0 ≠ 0)
    (hsize : ∀ lo hi, PatchOK A.dims lo hi → E.elemsize * numElems lo hi ≤ E.maxInt) (m : Addr → V) :
    ∃ m', nbgetDir E A p mask m = some m' := by
  have hWc := wideC' hA hW
  have hcc := digits_ok hp
  have hc' := nbM_ok hA hcc mask
  have e := nbgetDir_eq hA hWc (E := E) hcc hdir m
  rw [undigits_digits hp] at e
  rw [e]
  have hreg := fun i (hi : i < A.dims.length) => region_in hA hWc hcc hi (dir_getD hdir i) (hz i hi)
  have hok : PatchOK A.dims
      (tab A.dims.length fun i => remLo (mask.getD i 0) (bl A (digits A.nblock p) i) (bh A (digits A.nblock p) i)
        (A.dims.getD i 0) (wd A i))
      (tab A.dims.length fun i => remHi (mask.getD i 0) (bl A (digits A.nblock p) i) (bh A (digits A.nblock p) i)
        (A.dims.getD i 0) (wd A i)) := by
    refine ⟨?_, ?_, ?_⟩
    · exact coord_inArray hA.map hc' (in_block hA hc' fun i hi => by have := hreg i hi; dsimp only at this ⊢; omega)
    · exact coord_inArray hA.map hc' (in_block hA hc' fun i hi => by have := hreg i hi; dsimp only at this ⊢; omega)
    · exact inPatch_tab.2 ⟨tab_length _ _, fun i hi => by
        rw [tab_getD _ hi]; have := hreg i hi; dsimp only at this ⊢; omega⟩
  obtain ⟨b', hb'⟩ := ((C07_rejects A hA E hE _ _ (bld A (digits A.nblock p)) _ default m).2 hok (hsize _ _ hok)).2.1
  exact ⟨_, by rw [hb']; rfl⟩

/-- **C92, a patch with ghost cells.** With the ghost cells of the caller current,
`NGA_Get_ghost_block` returns the patch of the periodically continued array, whether it takes the local
copy or the periodic get. -/
theorem C92_ghost_block (A : RegArray) (hA : ArrOK A)
    (hW : ∀ p, p < gridSize A.nblock → WideBlock (owns A p).1 (owns A p).2 A.width)
    (E : PPiece → Env) (hE : ∀ q, EnvOK (E q) A) (p : Nat) (hp : p < gridSize A.nblock)
    (lo hi ld : List Int) (hlen : lo.length = A.dims.length) (hld : LdOK lo hi ld) (hne : InPatch lo hi lo)
    (m : Addr → V) (f : List Int → V) (hf : Holds (.reg A (gridSize A.nblock)) m f)
    (hg : GhostsCurrent A.dims (owns A p).1 (owns A p).2 A.width f (fun o => m ((p : Int), o)))
    (buf buf' : Int → V) (h : getGhostBlock E A p lo hi ld m buf = some buf') :
    PeriodicGet A.dims lo hi ld f buf buf' := by
  have hWc := wideC' hA hW
  have hcc := digits_ok hp
  have hs : Sound (.reg A (gridSize A.nblock)) := ⟨hA, Nat.le_refl _⟩
  rw [holds_iff hs] at hf
  have e := getGhostBlock_eq hA hWc (E := E) hcc lo hi ld m buf
  rw [undigits_digits hp] at e
  rw [e] at h
  by_cases hbox : ∀ i, i < A.dims.length → ¬ lo.getD i 0 < bl A (digits A.nblock p) i - wd A i ∧
      ¬ hi.getD i 0 > bh A (digits A.nblock p) i + wd A i
  · rw [if_pos hbox, Option.some.injEq] at h
    obtain ⟨h1, h2⟩ := block_local hA hWc hcc hlen hld hne hbox m buf
    rw [undigits_digits hp, h] at h1 h2
    refine ⟨?_, h2⟩
    intro x hx
    obtain ⟨x1, x2⟩ := h1 x hx
    rw [x2]
    rw [owns_dig hp] at hg
    exact hg x x1
  · rw [if_neg hbox] at h
    exact C32_get A hA E hE lo hi ld hlen hld m f hf buf buf' h

/-- a patch of the caller's box is always served, without communication -/
theorem C92_ghost_block_local (A : RegArray) (hA : ArrOK A)
    (hW : ∀ p, p < gridSize A.nblock → WideBlock (owns A p).1 (owns A p).2 A.width)
    (E : PPiece → Env) (p : Nat) (hp : p < gridSize A.nblock) (lo hi ld : List Int)
    (hb : InPatch (boxLo (owns A p).1 A.width) (boxHi (owns A p).2 A.width) lo)
    (hb' : InPatch (boxLo (owns A p).1 A.width) (boxHi (owns A p).2 A.width) hi)
    (m : Addr → V) (buf : Int → V) : ∃ buf', getGhostBlock E A p lo hi ld m buf = some buf' := by
  have hWc := wideC' hA hW
  have hcc := digits_ok hp
  have e := getGhostBlock_eq hA hWc (E := E) hcc lo hi ld m buf
  rw [undigits_digits hp] at e
  rw [e, if_pos]
  · exact ⟨_, rfl⟩
  · rw [owns_dig hp] at hb hb'
    obtain ⟨y, y1, -, y3, -⟩ := cell_sub hA hWc hcc hb
    obtain ⟨z, z1, -, z3, -⟩ := cell_sub hA hWc hcc hb'
    intro i hi
    have h1 := y1.2 i hi
    have h2 := z1.2 i hi
    rw [← y3, ← z3, glob_getD hA hWc hi, glob_getD hA hWc hi]
    unfold ee at h1 h2
    omega

/-! ## the C interface -/

/-- **C92, disproved for the C interface of `NGA_NbGet_ghost_dir`**: the wrapper adds 1 to every entry
of the mask as if it were an index. A mask with an entry 1 is refused, and a call that is served never
writes a cell in the direction asked for (entries in C order). -/
theorem C92_c_mask_never [Add V] [Mul V] (A : RegArray) (hA : ArrOK A)
    (hW : ∀ p, p < gridSize A.nblock → WideBlock (owns A p).1 (owns A p).2 A.width)
    (E : Env) (hE : EnvOK E A) (p : Nat) (hp : p < gridSize A.nblock) (mask : List Int)
    (hlen : mask.length = A.dims.length) (m : Addr → V) :
    ((1 : Int) ∈ mask → cNbgetDir E A p mask m = none) ∧
    ∀ m', cNbgetDir E A p mask m = some m' → ∀ x,
      InPatch (boxLo (owns A p).1 A.width) (boxHi (owns A p).2 A.width) x →
      OnSide mask.reverse (owns A p).1 (owns A p).2 x →
      m' ((p : Int), boxPos (owns A p).1 (owns A p).2 A.width x) =
        m ((p : Int), boxPos (owns A p).1 (owns A p).2 A.width x) := by
  have hWc := wideC' hA hW
  have hcc := digits_ok hp
  constructor
  · intro h1
    unfold cNbgetDir nbgetDir
    rw [if_neg]
    intro ha
    rw [List.all_eq_true] at ha
    have := ha 2 (by
      unfold copyIndexC2F
      rw [List.mem_reverse, List.mem_map]
      exact ⟨1, h1, rfl⟩)
    simp at this
  · intro m' h x hx hside
    have hdir : IsDirection (copyIndexC2F mask) := by
      by_contra hn
      unfold cNbgetDir nbgetDir at h
      rw [if_neg] at h
      · cases h
      · intro ha
        apply hn
        rw [List.all_eq_true] at ha
        intro k hk
        simpa using ha k hk
    unfold cNbgetDir at h
    rw [← undigits_digits hp] at h
    obtain ⟨-, h2⟩ := nbget_spec hA hWc hE hcc hdir (f := fun x => m (cell A x)) (fun _ _ => rfl) h
    rw [undigits_digits hp] at h2
    apply h2
    intro y hy hsd e
    rw [owns_dig hp] at hx hside e
    obtain ⟨z, z1, z2, z3, -⟩ := cell_sub hA hWc hcc hx
    rw [Prod.mk.injEq] at e
    simp only at e
    rw [z2] at e
    have hyz : y = z := adr_inj hA hWc hcc hy z1 e.2
    subst hyz
    have hn : 0 < A.dims.length := List.length_pos_iff.2 hA.ne
    have hs := hsd 0 hn
    have ho := (onSide_iff.1 hside).2.2.2 0 (by rw [List.length_reverse]; omega)
    have hm0 : (copyIndexC2F mask).getD 0 0 = mask.reverse.getD 0 0 + 1 := by
      unfold copyIndexC2F
      rw [← List.map_reverse, List.getD_eq_getElem?_getD, List.getD_eq_getElem?_getD, List.getElem?_map,
        List.getElem?_eq_getElem (by rw [List.length_reverse]; omega)]
      rfl
    rw [hm0] at hs
    rw [← z3, glob_getD hA hWc hn] at ho
    rw [show (coordLo A.nblock A.mapc (digits A.nblock p)).getD 0 0 = bl A (digits A.nblock p) 0 from rfl,
      show (coordHi A.nblock A.dims A.mapc (digits A.nblock p)).getD 0 0 = bh A (digits A.nblock p) 0 from rfl] at ho
    unfold Sd ee at hs
    omega

/-- **C92, disproved for the C interface of `NGA_Update_ghost_dir`**: the wrapper does not reverse the
order of dimensions. Dimension `cd` of the C interface is dimension `n-1-cd` of the array; the call
updates dimension `cd`, and the cells beyond the block in the dimension asked for stay as they were. -/
theorem C92_c_dimension_wrong (A : RegArray) (hA : ArrOK A)
    (hW : ∀ p, p < gridSize A.nblock → WideBlock (owns A p).1 (owns A p).2 A.width)
    (cand : Nat → List Int → List Nat) (hc : ∀ p x, CandOK A.nblock (cand p x))
    (cd : Nat) (hcd : cd < A.dims.length) (hne : cd ≠ A.dims.length - 1 - cd)
    (dir : Int) (hdir : dir = -1 ∨ dir = 1) (hwd : A.width.getD cd 0 ≠ 0) :
    ∃ l : Nat → List Copy,
      (∀ p : Nat, p < gridSize A.nblock → cUpdateDir A (cand p) p cd dir false = some (true, l p)) ∧
      ∀ (L : List Copy), (∀ cp ∈ L, ∃ p, p < gridSize A.nblock ∧ cp ∈ l p) →
      ∀ (m : Addr → V) (p : Nat), p < gridSize A.nblock → ∀ x,
        InPatch (boxLo (owns A p).1 A.width) (boxHi (owns A p).2 A.width) x →
        Beyond (A.dims.length - 1 - cd) dir (owns A p).1 (owns A p).2 x →
        exec L m ((p : Int), boxPos (owns A p).1 (owns A p).2 A.width x) =
          m ((p : Int), boxPos (owns A p).1 (owns A p).2 A.width x) := by
  have hWc := wideC' hA hW
  obtain ⟨l, l1, l2⟩ := C92_update_dir_partial (V := V) A hA hW cand hc cd hcd dir hdir false hwd (by simp)
  refine ⟨l, l1, ?_⟩
  intro L hL m p hp x hx hbx
  obtain ⟨-, -, h3, -⟩ := l2 L hL m (fun x => m (cell A x))
    ((holds_iff (show Sound (.reg A (gridSize A.nblock)) from ⟨hA, Nat.le_refl _⟩)).2 fun x _ => rfl)
  refine h3 p hp _ ?_
  rintro x' hx' ⟨-, hin⟩ e
  have hin := hin.resolve_left (by simp)
  have hcc := digits_ok hp
  rw [owns_dig hp] at hx hx' e hin hbx
  obtain ⟨z, z1, z2, z3, -⟩ := cell_sub hA hWc hcc hx
  obtain ⟨y, y1, y2, y3, -⟩ := cell_sub hA hWc hcc hx'
  simp only at e
  rw [z2, y2] at e
  have hyz : y = z := adr_inj hA hWc hcc y1 z1 e
  have hxx : x' = x := by rw [← y3, ← z3, hyz]
  subst hxx
  obtain ⟨q1, -, -⟩ := blen_eq hA hWc hcc
  have := hin (A.dims.length - 1 - cd) (by simp only; omega) (by omega)
  unfold Beyond at hbx
  omega

/-- **C92, disproved for thin blocks**: the check whether the ghost cells fit accepts inner blocks one
element thinner than the ghost width. 9 elements in blocks 1-3, 4-5, 6-9 with ghost width 3 pass it,
and the update puts element 1 into the cell of process 2 whose subscript is 3. -/
theorem C92_thin_not_refused :
    ∃ l, updateNb ⟨[9], [3], [1, 4, 6], [3]⟩ (fun _ => [0]) 2 = some (true, l) ∧
      (⟨(2, boxPos [6] [9] [3] [3]), (0, boxPos [1] [3] [3] [1])⟩ : Copy) ∈ l ∧
      wrap [9] [3] = [3] := by
  refine ⟨_, rfl, ?_, by decide⟩
  decide +kernel

/-! ## Instances -/

example : ArrOK ghostEx ∧ ∀ p : Nat, p < 6 → WideBlock (owns ghostEx p).1 (owns ghostEx p).2 ghostEx.width := by
  refine ⟨⟨by decide, by decide +kernel, by decide⟩, ?_⟩
  intro p hp
  have : p = 0 ∨ p = 1 ∨ p = 2 ∨ p = 3 ∨ p = 4 ∨ p = 5 := by omega
  rcases this with rfl | rfl | rfl | rfl | rfl | rfl <;> decide +kernel

/-- process 3 of the example fetches 20 ghost cells, 6 of them in the update of one side with corners -/
example : (updateNb ghostEx (fun _ => [0, 0]) 3).map (fun r => (r.1, r.2.length)) = some (true, 20) := by
  decide +kernel
example : (updateDir ghostEx (fun _ => [0, 0]) 3 1 1 true).map (fun r => (r.1, r.2.length)) = some (true, 6) := by
  decide +kernel
example : (updateDir ghostEx (fun _ => [0, 0]) 3 2 (-1) false).map (fun r => (r.1, r.2.length)) = some (true, 4) := by
  decide +kernel

/-- a memory with given content exists, so the hypotheses of the theorems above can be met -/
example (f : List Int → Int) : ∃ (m : Addr → Int), Holds (.reg ghostEx 6) m f := by
  have hA : ArrOK ghostEx := ⟨by decide, by decide +kernel, by decide⟩
  classical
  refine ⟨fun a => if h : ∃ x, InArray ghostEx.dims x ∧ cell ghostEx x = a then f h.choose else 0, ?_⟩
  rw [holds_iff (show Sound (.reg ghostEx 6) from ⟨hA, by decide⟩)]
  intro x hx
  have h : ∃ y, InArray ghostEx.dims y ∧ cell ghostEx y = cellG (.reg ghostEx 6) x := ⟨x, hx, rfl⟩
  rw [dif_pos h, cell_inj hA h.choose_spec.1 hx h.choose_spec.2]

/-- an environment for the example -/
def ghostGetE : Env := ⟨[1, 0], [0, 2], fun i => i * 7 + 3, fun p => p == 2, 8, 2147483648⟩

example : EnvOK ghostGetE ghostEx :=
  ⟨by simp [CandOK, ghostEx, ghostGetE], by simp [CandOK, ghostEx, ghostGetE], by decide, by decide⟩

/-- the upper right corner and the lower side of process 3: the get is served -/
example : (nbgetDir ghostGetE ghostEx 3 [1, 1] (fun _ => (0 : Int))).isSome = true ∧
    (nbgetDir ghostGetE ghostEx 3 [-1, 0] (fun _ => (0 : Int))).isSome = true ∧
    (nbgetDir ghostGetE ghostEx 3 [2, 0] (fun _ => (0 : Int))).isSome = false := by decide +kernel

/-- process 3 owns rows 4-5 and columns 3-4; the patch 3..6 x 1..3 is in its box, 1..6 x 1..3 is not -/
example : owns ghostEx 3 = ([4, 3], [5, 4]) ∧ LdOK [3, 1] [6, 3] [5] ∧ InPatch [3, 1] [6, 3] [3, 1] ∧
    (getGhostBlock (fun _ => ghostGetE) ghostEx 3 [3, 1] [6, 3] [5] (fun a => a.2) (fun _ => -1)).isSome = true ∧
    (getGhostBlock (fun _ => ghostGetE) ghostEx 3 [1, 1] [6, 3] [6] (fun a => a.2) (fun _ => -1)).isSome = true := by
  decide +kernel

/-- an array with ghost cells in one of two dimensions only -/
def ghostZeroEx : RegArray := ⟨[5, 6], [2, 3], [1, 4, 1, 3, 5], [1, 0]⟩

example : ArrOK ghostZeroEx := ⟨by decide, by decide +kernel, by decide⟩
example : updateDir ghostZeroEx (fun _ => [0, 0]) 3 1 1 true = none := by decide +kernel

end GA
