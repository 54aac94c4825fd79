import Verif.Model.Ghosts
import Verif.Lemmas.PutGet
import Verif.Lemmas.Strided

/-!
# Geometry of the ghost cell update: neighbours, windows, addresses
-/

namespace GA.Ghost
open Spec Model

/-! ## tables -/

theorem tab_length {α} (n : Nat) (f : Nat → α) : (tab n f).length = n := by simp [tab]

theorem tab_getD {n : Nat} (f : Nat → Int) {i : Nat} (h : i < n) : (tab n f).getD i 0 = f i := by
  simp [tab, List.getD_eq_getElem?_getD, h]

theorem inPatch_iff {lo hi x : List Int} : InPatch lo hi x ↔ hi.length = lo.length ∧
    x.length = lo.length ∧ ∀ d, d < lo.length → lo.getD d 0 ≤ x.getD d 0 ∧ x.getD d 0 ≤ hi.getD d 0 := by
  induction lo generalizing hi x with
  | nil => cases hi <;> cases x <;> simp [InPatch]
  | cons l lo ih =>
    cases hi with
    | nil => cases x <;> simp [InPatch]
    | cons h hi =>
      cases x with
      | nil => simp [InPatch]
      | cons x xs =>
        simp only [InPatch, ih, List.length_cons, Nat.add_right_cancel_iff]
        constructor
        · rintro ⟨h1, h2, h3, h4⟩
          refine ⟨h2, h3, ?_⟩
          intro d hd
          cases d with
          | zero => simpa using h1
          | succ d => simpa using h4 d (by omega)
        · rintro ⟨h2, h3, h4⟩
          refine ⟨by simpa using h4 0 (by omega), h2, h3, ?_⟩
          intro d hd
          simpa using h4 (d + 1) (by omega)

theorem inPatch_tab {n : Nat} {a b : Nat → Int} {x : List Int} : InPatch (tab n a) (tab n b) x ↔
    x.length = n ∧ ∀ d, d < n → a d ≤ x.getD d 0 ∧ x.getD d 0 ≤ b d := by
  rw [inPatch_iff]
  simp only [tab_length, true_and]
  constructor
  · rintro ⟨h1, h2⟩
    refine ⟨h1, fun d hd => ?_⟩
    have := h2 d hd
    rwa [tab_getD _ hd, tab_getD _ hd] at this
  · rintro ⟨h1, h2⟩
    refine ⟨h1, fun d hd => ?_⟩
    rw [tab_getD _ hd, tab_getD _ hd]
    exact h2 d hd

theorem list_ext {x y : List Int} (h : x.length = y.length)
    (h2 : ∀ d, d < x.length → x.getD d 0 = y.getD d 0) : x = y := by
  apply List.ext_getElem h
  intro d h1 h3
  have := h2 d h1
  simpa [List.getD_eq_getElem?_getD, h1, h3] using this

theorem tab_getD_self {x : List Int} : tab x.length (fun i => x.getD i 0) = x := by
  apply list_ext (by simp [tab_length])
  intro d hd
  rw [tab_length] at hd
  rw [tab_getD _ hd]

/-! ## one axis of the distribution -/

/-- block starts of dimension `d` -/
def axis : List Nat → List Int → Nat → List Int
  | n :: ns, m, d + 1 => axis ns (m.drop n) d
  | _, m, _ => m

theorem coordLo_getD {ns : List Nat} {ds m : List Int} {c : List Nat} (hm : MapOK ns ds m)
    (hc : CoordOK ns c) {d : Nat} (hd : d < ns.length) :
    (coordLo ns m c).getD d 0 = (axis ns m d).getD (c.getD d 0) 0 := by
  induction ns generalizing ds m c d with
  | nil => simp at hd
  | cons n ns ih =>
    match ds, c, hm, hc with
    | d' :: ds, c :: cs, hm, hc =>
      cases d with
      | zero => simp [coordLo, axis]
      | succ d =>
        simp only [coordLo, axis, List.getD_cons_succ]
        exact ih hm.2 hc.2 (by simpa using hd)

theorem coordHi_getD {ns : List Nat} {ds m : List Int} {c : List Nat} (hm : MapOK ns ds m)
    (hc : CoordOK ns c) {d : Nat} (hd : d < ns.length) :
    (coordHi ns ds m c).getD d 0 =
      if c.getD d 0 = ns.getD d 0 - 1 then ds.getD d 0
      else (axis ns m d).getD (c.getD d 0 + 1) 0 - 1 := by
  induction ns generalizing ds m c d with
  | nil => simp at hd
  | cons n ns ih =>
    match ds, c, hm, hc with
    | d' :: ds, c :: cs, hm, hc =>
      cases d with
      | zero => simp [coordHi, axis]
      | succ d =>
        simp only [coordHi, axis, List.getD_cons_succ]
        exact ih hm.2 hc.2 (by simpa using hd)

theorem axis_ok {ns : List Nat} {ds m : List Int} (hm : MapOK ns ds m) {d : Nat}
    (hd : d < ns.length) : 0 < ns.getD d 0 ∧ ns.getD d 0 ≤ (axis ns m d).length ∧
      1 ≤ ds.getD d 0 ∧ AxisOK (ds.getD d 0) ((axis ns m d).take (ns.getD d 0)) := by
  induction ns generalizing ds m d with
  | nil => simp at hd
  | cons n ns ih =>
    match ds, hm with
    | d' :: ds, hm =>
      cases d with
      | zero => simpa [axis] using hm.1
      | succ d =>
        simp only [axis, List.getD_cons_succ]
        exact ih hm.2 (by simpa using hd)

theorem coordOK_iff {ns c : List Nat} : CoordOK ns c ↔ c.length = ns.length ∧
    ∀ d, d < ns.length → c.getD d 0 < ns.getD d 0 := by
  induction ns generalizing c with
  | nil => cases c <;> simp [CoordOK]
  | cons n ns ih =>
    cases c with
    | nil => simp [CoordOK]
    | cons a c =>
      simp only [CoordOK, ih, List.length_cons, Nat.add_right_cancel_iff]
      constructor
      · rintro ⟨h1, h2, h3⟩
        refine ⟨h2, ?_⟩
        intro d hd
        cases d with
        | zero => simpa using h1
        | succ d => simpa using h3 d (by omega)
      · rintro ⟨h2, h3⟩
        exact ⟨by simpa using h3 0 (by omega), h2, fun d hd => by simpa using h3 (d + 1) (by omega)⟩

theorem getD_set {c : List Nat} {d v j : Nat} (hd : d < c.length) :
    (c.set d v).getD j 0 = if j = d then v else c.getD j 0 := by
  simp only [List.getD_eq_getElem?_getD, List.getElem?_set]
  by_cases h : j = d
  · subst h; simp [hd]
  · simp [h, Ne.symm h]

/-! ## blocks and their neighbours -/

section
variable {A : RegArray}

/-- corner of the block with grid coordinates `c` -/
def bl (A : RegArray) (c : List Nat) (d : Nat) : Int := (coordLo A.nblock A.mapc c).getD d 0
def bh (A : RegArray) (c : List Nat) (d : Nat) : Int := (coordHi A.nblock A.dims A.mapc c).getD d 0
def wd (A : RegArray) (d : Nat) : Int := (A.width.getD d 0 : Nat)
def dm (A : RegArray) (d : Nat) : Int := A.dims.getD d 0

/-- every block is at least one element and at least the ghost width wide -/
def WideC (A : RegArray) : Prop := ∀ c, CoordOK A.nblock c → ∀ d, d < A.dims.length →
  bl A c d ≤ bh A c d ∧ wd A d ≤ bh A c d - bl A c d + 1

/-- neighbour in dimension `d` -/
def nb (A : RegArray) (pos : Bool) (d : Nat) (c : List Nat) : List Nat :=
  c.set d (if pos then (c.getD d 0 + 1) % A.nblock.getD d 0
    else (c.getD d 0 + A.nblock.getD d 0 - 1) % A.nblock.getD d 0)

theorem nlen (hA : ArrOK A) : A.nblock.length = A.dims.length := hA.map.length.symm

theorem nb_ok (hA : ArrOK A) {c : List Nat} (hc : CoordOK A.nblock c) (pos : Bool) {d : Nat}
    (hd : d < A.dims.length) : CoordOK A.nblock (nb A pos d c) := by
  have hl := nlen hA
  have hn := (axis_ok hA.map (d := d) (by omega)).1
  rw [coordOK_iff] at hc ⊢
  unfold nb
  refine ⟨by simp [hc.1], ?_⟩
  intro j hj
  rw [getD_set (by omega)]
  by_cases e : j = d
  · subst e
    rw [if_pos rfl]
    split <;> exact Nat.mod_lt _ hn
  · rw [if_neg e]; exact hc.2 j hj

theorem nb_idx (hA : ArrOK A) {c : List Nat} (hc : CoordOK A.nblock c) (pos : Bool) {d : Nat}
    (hd : d < A.dims.length) : (nb A pos d c).getD d 0 =
      if pos then (c.getD d 0 + 1) % A.nblock.getD d 0
      else (c.getD d 0 + A.nblock.getD d 0 - 1) % A.nblock.getD d 0 := by
  have hl := nlen hA
  have := hc.length
  unfold nb
  rw [getD_set (by omega), if_pos rfl]

/-- `(i+1) mod n` and `(i-1) mod n` case by case -/
theorem ring_cases {i n : Nat} (h : i < n) :
    (i + 1) % n = (if i + 1 = n then 0 else i + 1) ∧ (i + n - 1) % n = (if i = 0 then n - 1 else i - 1) := by
  constructor
  · split
    · rename_i h; rw [h]; exact Nat.mod_self n
    · exact Nat.mod_eq_of_lt (by omega)
  · split
    · rename_i h; subst h; rw [Nat.zero_add]; exact Nat.mod_eq_of_lt (by omega)
    · have : i + n - 1 = (i - 1) + n := by omega
      rw [this, Nat.add_mod_right]; exact Nat.mod_eq_of_lt (by omega)

theorem nb_nb (hA : ArrOK A) {c : List Nat} (hc : CoordOK A.nblock c) (pos : Bool) {d : Nat}
    (hd : d < A.dims.length) : nb A (!pos) d (nb A pos d c) = c := by
  have hl := nlen hA
  have h1 := nb_ok hA hc pos hd
  have hci := (coordOK_iff.1 hc).2 d (by omega)
  have hi := nb_idx hA hc pos hd
  have hlt := (coordOK_iff.1 h1).2 d (by omega)
  unfold nb at hi ⊢
  rw [hi, List.set_set]
  have e : ∀ v, v = c.getD d 0 → c.set d v = c := by
    rintro v rfl
    apply List.ext_getElem (by simp)
    intro j h1 h2
    simp only [List.getElem_set]
    split
    · rename_i h; subst h; simp [List.getD_eq_getElem?_getD, h2]
    · rfl
  apply e
  generalize A.nblock.getD d 0 = n at *
  generalize c.getD d 0 = i at *
  obtain ⟨r1, r2⟩ := ring_cases hci
  cases pos
  · simp only [Bool.not_false, if_true, Bool.false_eq_true, if_false]
    rw [r2]
    split
    · rw [(ring_cases (i := n - 1) (by omega)).1]; split <;> omega
    · rw [(ring_cases (i := i - 1) (by omega)).1]; split <;> omega
  · simp only [Bool.not_true, if_true, Bool.false_eq_true, if_false]
    rw [r1]
    split
    · rw [(ring_cases (i := 0) (by omega)).2]; split <;> omega
    · rw [(ring_cases (i := i + 1) (by omega)).2]; split <;> omega

/-- other dimensions are not affected -/
theorem nb_other (hA : ArrOK A) {c : List Nat} (hc : CoordOK A.nblock c) (pos : Bool) {d j : Nat}
    (hd : d < A.dims.length) (hj : j < A.dims.length) (hjd : j ≠ d) :
    bl A (nb A pos d c) j = bl A c j ∧ bh A (nb A pos d c) j = bh A c j := by
  have hl := nlen hA
  have h1 := nb_ok hA hc pos hd
  have := hc.length
  have hg : (nb A pos d c).getD j 0 = c.getD j 0 := by
    unfold nb; rw [getD_set (by omega), if_neg hjd]
  unfold bl bh
  rw [coordLo_getD hA.map h1 (by omega), coordLo_getD hA.map hc (by omega),
    coordHi_getD hA.map h1 (by omega), coordHi_getD hA.map hc (by omega), hg]
  exact ⟨rfl, rfl⟩

/-- the block of the next neighbour starts where this one ends, modulo wrap-around -/
theorem nb_pos (hA : ArrOK A) {c : List Nat} (hc : CoordOK A.nblock c) {d : Nat}
    (hd : d < A.dims.length) :
    (c.getD d 0 + 1 = A.nblock.getD d 0 ∧ bh A c d = dm A d ∧ bl A (nb A true d c) d = 1) ∨
    (c.getD d 0 + 1 < A.nblock.getD d 0 ∧ bl A (nb A true d c) d = bh A c d + 1) := by
  have hl := nlen hA
  have h1 := nb_ok hA hc true hd
  have hci := (coordOK_iff.1 hc).2 d (by omega)
  have hi := nb_idx hA hc true hd
  obtain ⟨a1, a2, a3, a4⟩ := axis_ok hA.map (d := d) (by omega)
  rw [(ring_cases hci).1, if_pos rfl] at hi
  unfold bl bh dm
  rw [coordLo_getD hA.map h1 (by omega), coordHi_getD hA.map hc (by omega), hi]
  by_cases e : c.getD d 0 + 1 = A.nblock.getD d 0
  · left
    rw [if_pos e, if_pos (by omega)]
    exact ⟨e, rfl, Spec.AxisOK.start a1 a4⟩
  · right
    rw [if_neg e, if_neg (by omega)]
    exact ⟨by omega, by omega⟩

theorem bl_first (hA : ArrOK A) {c : List Nat} (hc : CoordOK A.nblock c) {d : Nat}
    (hd : d < A.dims.length) : 1 ≤ bl A c d ∧ bh A c d ≤ dm A d := by
  have hl := nlen hA
  have hci := (coordOK_iff.1 hc).2 d (by omega)
  obtain ⟨a1, a2, a3, a4⟩ := axis_ok hA.map (d := d) (by omega)
  unfold bl bh dm
  rw [coordLo_getD hA.map hc (by omega), coordHi_getD hA.map hc (by omega)]
  exact ⟨axis_lo_ge hci a2 a4, axis_hi_le hci a2 a4⟩

theorem nb_neg (hA : ArrOK A) {c : List Nat} (hc : CoordOK A.nblock c) {d : Nat}
    (hd : d < A.dims.length) :
    (c.getD d 0 = 0 ∧ bl A c d = 1 ∧ bh A (nb A false d c) d = dm A d) ∨
    (0 < c.getD d 0 ∧ bl A c d = bh A (nb A false d c) d + 1) := by
  have hl := nlen hA
  have h1 := nb_ok hA hc false hd
  have hci := (coordOK_iff.1 hc).2 d (by omega)
  have hi := nb_idx hA hc false hd
  have hb := nb_pos hA h1 hd
  have hbb := nb_nb hA hc false hd
  simp only [Bool.not_false] at hbb
  rw [hbb, hi, (ring_cases hci).2] at hb
  simp only [Bool.false_eq_true, if_false] at hb
  rcases hb with ⟨a, b, c'⟩ | ⟨a, b⟩
  · left
    refine ⟨?_, c', b⟩
    split at a <;> omega
  · right
    refine ⟨?_, b⟩
    split at a <;> omega

/-! ## locating the neighbours -/

theorem box_self (x : List Int) : box x x = [x] := by
  induction x with
  | nil => rfl
  | cons a x ih => simp [box, ih, irange]

theorem firstProc_block (hA : ArrOK A) {cand : List Int → List Nat}
    (hcand : ∀ x, CandOK A.nblock (cand x)) {c : List Nat} (hc : CoordOK A.nblock c)
    {lo hi : List Int} (h1 : InPatch (coordLo A.nblock A.mapc c) (coordHi A.nblock A.dims A.mapc c) lo)
    (h2 : InPatch (coordLo A.nblock A.mapc c) (coordHi A.nblock A.dims A.mapc c) hi)
    (h3 : InPatch lo hi lo) : firstProc A cand (lo, hi) = some ((undigits A.nblock c : Nat) : Int) := by
  have a1 := coord_inArray hA.map hc h1
  have a2 := coord_inArray hA.map hc h2
  obtain ⟨b1, b2⟩ := findblocks_ok hA.map (hcand lo) a1
  obtain ⟨b3, b4⟩ := findblocks_ok hA.map (hcand hi) a2
  have e1 := coord_unique hA.map b1 hc b2 h1
  have e2 := coord_unique hA.map b3 hc b4 h2
  have hself : ∃ x, InPatch (c.map Int.ofNat) (c.map Int.ofNat) x := by
    refine ⟨c.map Int.ofNat, ?_⟩
    rw [inPatch_iff]; simp
  unfold firstProc locateRegion
  rw [if_pos (regionOK_iff.2 ⟨a1, a2, h3⟩)]
  simp only [e1, e2]
  rw [loopAll_eq_box hself, box_self]
  simp only [List.map_cons, List.map_nil]
  rw [computeIndex_eq, horner_cast]

theorem owns_bl {A : RegArray} {c : List Nat} (hc : CoordOK A.nblock c) (d : Nat) :
    (owns A (undigits A.nblock c : Nat)).1.getD d 0 = bl A c d ∧
    (owns A (undigits A.nblock c : Nat)).2.getD d 0 = bh A c d := by
  rw [owns_of_coord hc]; exact ⟨rfl, rfl⟩

/-- a table inside a block -/
theorem in_block (hA : ArrOK A) {c : List Nat} (hc : CoordOK A.nblock c) {a : Nat → Int}
    (h : ∀ d, d < A.dims.length → bl A c d ≤ a d ∧ a d ≤ bh A c d) :
    InPatch (coordLo A.nblock A.mapc c) (coordHi A.nblock A.dims A.mapc c) (tab A.dims.length a) := by
  obtain ⟨l1, l2⟩ := owns_length hA hc
  rw [inPatch_iff]
  refine ⟨by rw [l1, l2], by rw [tab_length, l1], ?_⟩
  intro d hd
  rw [l1] at hd
  rw [tab_getD _ hd]
  exact h d hd

theorem tab_congr {α} {n : Nat} {f g : Nat → α} (h : ∀ i, i < n → f i = g i) : tab n f = tab n g := by
  unfold tab
  apply List.map_congr_left
  intro i hi
  exact h i (List.mem_range.1 hi)

/-- `remoteNeg`, `rcvNeg` and `remotePos` with the inner tables evaluated -/
theorem remoteNeg_eq (idx : Nat) (lo hi dims : List Int) (width : List Nat) :
    remoteNeg idx lo hi dims width =
      (tab dims.length fun i => if i = idx then
        (if lo.getD i 0 - width.getD i 0 < 1 then dims.getD i 0 - width.getD i 0 + 1
          else lo.getD i 0 - width.getD i 0) else lo.getD i 0,
       tab dims.length fun i => if i = idx then
        (if lo.getD i 0 - width.getD i 0 < 1 then dims.getD i 0 else lo.getD i 0 - 1)
        else hi.getD i 0) := by
  unfold remoteNeg
  simp only [Prod.mk.injEq]
  constructor <;>
  · apply tab_congr
    intro i hi
    simp only [tab_getD _ hi]
    by_cases e : i = idx <;> simp [e]

theorem rcvNeg_eq (idx : Nat) (lo hi dims : List Int) (width : List Nat) :
    rcvNeg idx lo hi dims width =
      (tab dims.length fun i => if i = idx then
        (if lo.getD i 0 - 1 < 1 then dims.getD i 0 - width.getD i 0 + 1
          else lo.getD i 0 - width.getD i 0) else lo.getD i 0,
       tab dims.length fun i => if i = idx then
        (if lo.getD i 0 - 1 < 1 then dims.getD i 0 else lo.getD i 0 - 1)
        else hi.getD i 0) := by
  unfold rcvNeg
  simp only [Prod.mk.injEq]
  constructor <;>
  · apply tab_congr
    intro i hi
    simp only [tab_getD _ hi]
    by_cases e : i = idx <;> simp [e]

theorem remotePos_eq (idx : Nat) (lo hi dims : List Int) (width : List Nat) :
    remotePos idx lo hi dims width =
      (tab dims.length fun i => if i = idx then
        (if hi.getD i 0 + width.getD i 0 > dims.getD i 0 then 1 else hi.getD i 0 + 1) else lo.getD i 0,
       tab dims.length fun i => if i = idx then
        (if hi.getD i 0 + width.getD i 0 > dims.getD i 0 then (width.getD i 0 : Int)
          else hi.getD i 0 + width.getD i 0)
        else hi.getD i 0) := by
  unfold remotePos
  simp only [Prod.mk.injEq]
  constructor <;>
  · apply tab_congr
    intro i hi
    simp only [tab_getD _ hi]
    by_cases e : i = idx <;> simp [e]

theorem located (hA : ArrOK A) (hW : WideC A) {cand : List Int → List Nat}
    (hcand : ∀ x, CandOK A.nblock (cand x)) {c : List Nat} (hc : CoordOK A.nblock c) {idx : Nat}
    (hidx : idx < A.dims.length) (hw : A.width.getD idx 0 ≠ 0) :
    let o := owns A (undigits A.nblock c : Nat)
    firstProc A cand (remoteNeg idx o.1 o.2 A.dims A.width) = some ((undigits A.nblock (nb A false idx c) : Nat) : Int) ∧
    firstProc A cand (rcvNeg idx o.1 o.2 A.dims A.width) = some ((undigits A.nblock (nb A false idx c) : Nat) : Int) ∧
    firstProc A cand (remotePos idx o.1 o.2 A.dims A.width) = some ((undigits A.nblock (nb A true idx c) : Nat) : Int) := by
  have hself := hW c hc
  have hwi : (1 : Int) ≤ (A.width.getD idx 0 : Nat) := by omega
  have hsf := hself idx hidx
  have hn := hW _ (nb_ok hA hc false hidx)
  have hp := hW _ (nb_ok hA hc true hidx)
  have hni := hn idx hidx
  have hpi := hp idx hidx
  have hnf := bl_first hA (nb_ok hA hc false hidx) hidx
  have hpf := bl_first hA (nb_ok hA hc true hidx) hidx
  have hbn := nb_neg hA hc hidx
  have hbp := nb_pos hA hc hidx
  have hwd : wd A idx = (A.width.getD idx 0 : Nat) := rfl
  have hdm : dm A idx = A.dims.getD idx 0 := rfl
  have hsl := bl_first hA hc hidx
  simp only
  refine ⟨?_, ?_, ?_⟩
  · rw [remoteNeg_eq]
    simp only [owns_bl hc]
    refine firstProc_block hA hcand (nb_ok hA hc false hidx) (in_block hA (nb_ok hA hc false hidx) ?_)
      (in_block hA (nb_ok hA hc false hidx) ?_) ?_
    · intro d hd
      by_cases e : d = idx
      · subst e; simp only [if_true]; split <;> omega
      · rw [if_neg e, (nb_other hA hc false hidx hd e).1, (nb_other hA hc false hidx hd e).2]
        have := hself d hd; omega
    · intro d hd
      by_cases e : d = idx
      · subst e; simp only [if_true]; split <;> omega
      · rw [if_neg e, (nb_other hA hc false hidx hd e).1, (nb_other hA hc false hidx hd e).2]
        have := hself d hd; omega
    · rw [inPatch_tab]
      refine ⟨tab_length _ _, ?_⟩
      intro d hd
      rw [tab_getD _ hd]
      refine ⟨le_refl _, ?_⟩
      by_cases e : d = idx
      · subst e; simp only [if_true]; split <;> omega
      · rw [if_neg e, if_neg e]
        exact (hself d hd).1
  · rw [rcvNeg_eq]
    simp only [owns_bl hc]
    refine firstProc_block hA hcand (nb_ok hA hc false hidx) (in_block hA (nb_ok hA hc false hidx) ?_)
      (in_block hA (nb_ok hA hc false hidx) ?_) ?_
    · intro d hd
      by_cases e : d = idx
      · subst e; simp only [if_true]; split <;> omega
      · rw [if_neg e, (nb_other hA hc false hidx hd e).1, (nb_other hA hc false hidx hd e).2]
        have := hself d hd; omega
    · intro d hd
      by_cases e : d = idx
      · subst e; simp only [if_true]; split <;> omega
      · rw [if_neg e, (nb_other hA hc false hidx hd e).1, (nb_other hA hc false hidx hd e).2]
        have := hself d hd; omega
    · rw [inPatch_tab]
      refine ⟨tab_length _ _, ?_⟩
      intro d hd
      rw [tab_getD _ hd]
      refine ⟨le_refl _, ?_⟩
      by_cases e : d = idx
      · subst e; simp only [if_true]; split <;> omega
      · rw [if_neg e, if_neg e]
        exact (hself d hd).1
  · rw [remotePos_eq]
    simp only [owns_bl hc]
    refine firstProc_block hA hcand (nb_ok hA hc true hidx) (in_block hA (nb_ok hA hc true hidx) ?_)
      (in_block hA (nb_ok hA hc true hidx) ?_) ?_
    · intro d hd
      by_cases e : d = idx
      · subst e; simp only [if_true]; split <;> omega
      · rw [if_neg e, (nb_other hA hc true hidx hd e).1, (nb_other hA hc true hidx hd e).2]
        have := hself d hd; omega
    · intro d hd
      by_cases e : d = idx
      · subst e; simp only [if_true]; split <;> omega
      · rw [if_neg e, (nb_other hA hc true hidx hd e).1, (nb_other hA hc true hidx hd e).2]
        have := hself d hd; omega
    · rw [inPatch_tab]
      refine ⟨tab_length _ _, ?_⟩
      intro d hd
      rw [tab_getD _ hd]
      refine ⟨le_refl _, ?_⟩
      by_cases e : d = idx
      · subst e; simp only [if_true]; split <;> omega
      · rw [if_neg e, if_neg e]
        exact (hself d hd).1

end

end GA.Ghost
