import Verif.Lemmas.Ghosts
import Verif.Spec.Ghosts
import Verif.Props.Content

/-!
# The ghost cell update in terms of subscripts
-/

namespace GA.Ghost
open Spec Model

variable {A : RegArray} {V : Type} [Inhabited V]

theorem boxLo_length {lo : List Int} {w : List Nat} (h : w.length = lo.length) :
    (boxLo lo w).length = lo.length := by
  induction lo generalizing w with
  | nil => simp [boxLo]
  | cons l lo ih =>
    cases w with
    | nil => simp at h
    | cons w ws => simp [boxLo, ih (w := ws) (by simpa using h)]

theorem boxHi_length {lo : List Int} {w : List Nat} (h : w.length = lo.length) :
    (boxHi lo w).length = lo.length := by
  induction lo generalizing w with
  | nil => simp [boxHi]
  | cons l lo ih =>
    cases w with
    | nil => simp at h
    | cons w ws => simp [boxHi, ih (w := ws) (by simpa using h)]

theorem boxLo_getD {lo : List Int} {w : List Nat} (h : w.length = lo.length) {i : Nat}
    (hi : i < lo.length) : (boxLo lo w).getD i 0 = lo.getD i 0 - (w.getD i 0 : Nat) := by
  induction lo generalizing w i with
  | nil => simp at hi
  | cons l lo ih =>
    cases w with
    | nil => simp at h
    | cons w ws =>
      cases i with
      | zero => simp [boxLo]
      | succ i => simpa [boxLo] using ih (w := ws) (by simpa using h) (by simpa using hi)

theorem boxHi_getD {lo : List Int} {w : List Nat} (h : w.length = lo.length) {i : Nat}
    (hi : i < lo.length) : (boxHi lo w).getD i 0 = lo.getD i 0 + (w.getD i 0 : Nat) := by
  induction lo generalizing w i with
  | nil => simp at hi
  | cons l lo ih =>
    cases w with
    | nil => simp at h
    | cons w ws =>
      cases i with
      | zero => simp [boxHi]
      | succ i => simpa [boxHi] using ih (w := ws) (by simpa using h) (by simpa using hi)

theorem boxLd_eq (lo hi : List Int) (w : List Nat) : boxLd lo hi w = ldRem lo hi w := by
  induction lo generalizing hi w with
  | nil => simp [boxLd, ldRem]
  | cons l lo ih =>
    match lo, hi, w with
    | [], _, _ => simp [boxLd, ldRem]
    | _ :: _, [], _ => simp [boxLd, ldRem]
    | _ :: _, [_], _ => simp [boxLd, ldRem]
    | _ :: _, _ :: _ :: _, [] => simp [boxLd, ldRem]
    | l' :: lo, h :: h' :: hi, w :: ws => simp only [boxLd, ldRem, ih]

theorem wideBlock_iff {lo hi : List Int} {w : List Nat} : WideBlock lo hi w ↔
    hi.length = lo.length ∧ w.length = lo.length ∧ ∀ i, i < lo.length →
      lo.getD i 0 ≤ hi.getD i 0 ∧ ((w.getD i 0 : Nat) : Int) ≤ hi.getD i 0 - lo.getD i 0 + 1 := by
  induction lo generalizing hi w with
  | nil => cases hi <;> cases w <;> simp [WideBlock]
  | cons l lo ih =>
    match hi, w with
    | [], _ => simp [WideBlock]
    | _ :: _, [] => simp [WideBlock]
    | h :: hi, w :: ws =>
      simp only [WideBlock, ih, List.length_cons, Nat.add_right_cancel_iff]
      constructor
      · rintro ⟨h1, h2, h3, h4⟩
        refine ⟨h2, h3, ?_⟩
        intro i hi
        cases i with
        | zero => simpa using h1
        | succ i => simpa using h4 i (by omega)
      · rintro ⟨h2, h3, h4⟩
        exact ⟨by simpa using h4 0 (by omega), h2, h3, fun i hi => by simpa using h4 (i + 1) (by omega)⟩

theorem outside_one {lo hi x : List Int} {i : Nat} (h1 : hi.length = lo.length)
    (h2 : x.length = lo.length) (hi' : i < lo.length)
    (h : ¬ (lo.getD i 0 ≤ x.getD i 0 ∧ x.getD i 0 ≤ hi.getD i 0)) : 1 ≤ outside lo hi x := by
  induction lo generalizing hi x i with
  | nil => simp at hi'
  | cons l lo ih =>
    match hi, x, h1, h2 with
    | a :: hi, b :: x, h1, h2 =>
      simp only [outside]
      cases i with
      | zero => simp only [List.getD_cons_zero] at h; rw [if_neg h]; omega
      | succ i =>
        have := ih (hi := hi) (x := x) (i := i) (by simpa using h1) (by simpa using h2)
          (by simpa using hi') (by simpa using h)
        omega

theorem outside_two {lo hi x : List Int} {i j : Nat} (h1 : hi.length = lo.length)
    (h2 : x.length = lo.length) (hij : i < j) (hj' : j < lo.length)
    (hi' : ¬ (lo.getD i 0 ≤ x.getD i 0 ∧ x.getD i 0 ≤ hi.getD i 0))
    (h : ¬ (lo.getD j 0 ≤ x.getD j 0 ∧ x.getD j 0 ≤ hi.getD j 0)) : 2 ≤ outside lo hi x := by
  induction lo generalizing hi x i j with
  | nil => simp at hj'
  | cons l lo ih =>
    match hi, x, h1, h2 with
    | a :: hi, b :: x, h1, h2 =>
      simp only [outside]
      cases j with
      | zero => omega
      | succ j =>
        cases i with
        | zero =>
          simp only [List.getD_cons_zero] at hi'; rw [if_neg hi']
          have := outside_one (lo := lo) (hi := hi) (x := x) (i := j) (by simpa using h1)
            (by simpa using h2) (by simpa using hj') (by simpa using h)
          omega
        | succ i =>
          have := ih (hi := hi) (x := x) (i := i) (j := j) (by simpa using h1) (by simpa using h2)
            (by omega) (by simpa using hj') (by simpa using hi') (by simpa using h)
          omega

/-! ## cells and subscripts -/

section
variable (hA : ArrOK A) (hW : WideC A)
include hA hW

theorem cell_sub {c : List Nat} (hc : CoordOK A.nblock c) {x : List Int}
    (hx : InPatch (boxLo (coordLo A.nblock A.mapc c) A.width)
      (boxHi (coordHi A.nblock A.dims A.mapc c) A.width) x) :
    ∃ y, InBox A c y ∧ boxPos (coordLo A.nblock A.mapc c) (coordHi A.nblock A.dims A.mapc c) A.width x =
      adr A c y ∧ glob A c y = x ∧
      ∀ i, i < A.dims.length → (Ext A c y i ↔ ¬ (bl A c i ≤ x.getD i 0 ∧ x.getD i 0 ≤ bh A c i)) := by
  obtain ⟨h1, h2, h3⟩ := blen_eq hA hW hc
  have hw := hA.width
  have hbl := boxLo_length (lo := coordLo A.nblock A.mapc c) (w := A.width) (by omega)
  rw [inPatch_iff] at hx
  obtain ⟨x1, x2, x3⟩ := hx
  have hy : ∀ i, i < A.dims.length → (subL x (boxLo (coordLo A.nblock A.mapc c) A.width)).getD i 0 =
      x.getD i 0 - (bl A c i - wd A i) := by
    intro i hi
    rw [subL_getD (by omega) (by omega), boxLo_getD (by omega) (by omega)]
    rfl
  have hyl : (subL x (boxLo (coordLo A.nblock A.mapc c) A.width)).length = A.dims.length := by
    rw [subL_length (by omega)]; omega
  have hb : ∀ i, i < A.dims.length → bl A c i - wd A i ≤ x.getD i 0 ∧ x.getD i 0 ≤ bh A c i + wd A i := by
    intro i hi
    have := x3 i (by omega)
    rw [boxLo_getD (by omega) (by omega), boxHi_getD (by omega) (by omega)] at this
    exact this
  refine ⟨subL x (boxLo (coordLo A.nblock A.mapc c) A.width), ⟨hyl, ?_⟩, ?_, ?_, ?_⟩
  · intro i hi
    rw [hy i hi]
    have := hb i hi
    unfold ee; omega
  · unfold boxPos
    obtain ⟨d, hd⟩ := bD_split hA hW hc
    have hl : (bld A c).length + 1 = A.dims.length := by
      have := bD_len hA hW hc
      rw [hd] at this; simpa using this
    rw [boxLd_eq]
    show bufPos _ (bld A c) _ = _
    rw [bufPos_eq (by omega) (by omega)]
    unfold adr
    rw [hd, horner_last 0 d (by omega)]
  · apply list_ext
    · unfold glob; rw [tab_length]; omega
    · intro i hi
      unfold glob at hi ⊢
      rw [tab_length] at hi
      rw [tab_getD _ hi, hy i hi]; omega
  · intro i hi
    unfold Ext
    rw [hy i hi]
    unfold ee; omega

theorem sub_cell {c : List Nat} (hc : CoordOK A.nblock c) {y : List Int} (hy : InBox A c y) :
    InPatch (boxLo (coordLo A.nblock A.mapc c) A.width)
      (boxHi (coordHi A.nblock A.dims A.mapc c) A.width) (glob A c y) := by
  obtain ⟨h1, h2, h3⟩ := blen_eq hA hW hc
  have hw := hA.width
  have hbl := boxLo_length (lo := coordLo A.nblock A.mapc c) (w := A.width) (by omega)
  have hbh := boxHi_length (lo := coordHi A.nblock A.dims A.mapc c) (w := A.width) (by omega)
  rw [inPatch_iff]
  refine ⟨by omega, by unfold glob; rw [tab_length]; omega, ?_⟩
  intro i hi
  have hi' : i < A.dims.length := by omega
  rw [boxLo_getD (by omega) (by omega), boxHi_getD (by omega) (by omega)]
  unfold glob
  rw [tab_getD _ hi']
  show bl A c i - wd A i ≤ _ ∧ _ ≤ bh A c i + wd A i
  have := hy.2 i hi'
  unfold ee at this
  omega

theorem glob_inj {c : List Nat} {y z : List Int} (hy : InBox A c y)
    (hz : InBox A c z) (h : glob A c y = glob A c z) : y = z := by
  apply list_ext (by rw [hy.1, hz.1])
  intro i hi
  rw [hy.1] at hi
  have : (glob A c y).getD i 0 = (glob A c z).getD i 0 := by rw [h]
  unfold glob at this
  rw [tab_getD _ hi, tab_getD _ hi] at this
  omega

theorem inBlock_iff {c : List Nat} (hc : CoordOK A.nblock c) {x : List Int} (hx : x.length = A.dims.length) :
    InPatch (coordLo A.nblock A.mapc c) (coordHi A.nblock A.dims A.mapc c) x ↔
      ∀ i, i < A.dims.length → bl A c i ≤ x.getD i 0 ∧ x.getD i 0 ≤ bh A c i := by
  obtain ⟨h1, h2, h3⟩ := blen_eq hA hW hc
  rw [inPatch_iff]
  constructor
  · rintro ⟨_, _, h⟩ i hi; exact h i (by omega)
  · intro h; exact ⟨by omega, by omega, fun i hi => h i (by omega)⟩

theorem wrap_id {dims x : List Int} (h : InArray dims x) : wrap dims x = x := by
  clear hA hW
  unfold InArray at h
  induction dims generalizing x with
  | nil => cases x <;> simp_all [wrap, InPatch]
  | cons d dims ih =>
    cases x with
    | nil => simp [InPatch] at h
    | cons a x =>
      simp only [List.map_cons, InPatch] at h
      simp only [wrap, ih h.2]
      rw [Int.emod_eq_of_lt (by omega) (by omega)]
      congr 1; omega

/-- an owned cell of the box -/
theorem owned_cell {c : List Nat} (hc : CoordOK A.nblock c) {y : List Int} (hy : InBox A c y)
    (h : ∀ i, i < A.dims.length → ¬ Ext A c y i) :
    InPatch (coordLo A.nblock A.mapc c) (coordHi A.nblock A.dims A.mapc c) (glob A c y) ∧
    cell A (glob A c y) = (((undigits A.nblock c : Nat) : Int), adr A c y) := by
  obtain ⟨h1, h2, h3⟩ := blen_eq hA hW hc
  have hw := hA.width
  have hin : InPatch (coordLo A.nblock A.mapc c) (coordHi A.nblock A.dims A.mapc c) (glob A c y) := by
    apply (inBlock_iff hA hW hc (tab_length _ _)).2
    intro i hi
    rw [tab_getD _ hi]
    have := h i hi
    unfold Ext ee at this
    omega
  refine ⟨hin, ?_⟩
  rw [cell_of_coord hA hc hin, locOffset_coord hc, locLoop_eq]
  congr 1
  unfold adr bD
  rw [Int.zero_add, Int.one_mul]
  congr 1
  have hgl : (glob A c y).length = (coordLo A.nblock A.mapc c).length := by
    unfold glob; rw [tab_length]; omega
  have hz : ∀ (x l : List Int) (w : List Nat), x.length = l.length → w.length = l.length → ∀ i, i < l.length →
      (locZ x l w).getD i 0 = x.getD i 0 - l.getD i 0 + (w.getD i 0 : Nat) := by
    intro x l
    induction l generalizing x with
    | nil => intro w _ _ i hi; simp at hi
    | cons a l ih =>
      intro w hx hw i hi
      match x, w, hx, hw with
      | b :: x, w :: ws, hx, hw =>
        cases i with
        | zero => simp [locZ]
        | succ i => simpa [locZ] using ih x ws (by simpa using hx) (by simpa using hw) i (by simpa using hi)
  apply list_ext
  · rw [locZ_length hgl (by omega), hy.1, h1]
  · intro i hi
    rw [locZ_length hgl (by omega), h1] at hi
    rw [hz _ _ _ hgl (by omega) i (by omega)]
    unfold glob
    rw [tab_getD _ hi]
    show bl A c i + y.getD i 0 - wd A i - bl A c i + wd A i = _
    omega

theorem content_start {n : Nat} (hn : gridSize A.nblock ≤ n) (flag : Bool) {m : Addr → V}
    {f : List Int → V} (hf : Holds (.reg A n) m f) :
    Content A flag [] (fun p o => m ((p : Int), o)) (fun p o => m ((p : Int), o)) f := by
  rw [holds_iff (show Sound (.reg A n) from ⟨hA, hn⟩)] at hf
  constructor
  · intro c hc y hv
    have hex : ∀ i, i < A.dims.length → ¬ Ext A c y i := by
      intro i hi h
      rcases h with h | h
      · have := hv.low i hi h; simp at this
      · have := hv.high i hi h; simp at this
    obtain ⟨o1, o2⟩ := owned_cell hA hW hc hv.box hex
    have hin := coord_inArray hA.map hc o1
    rw [wrap_id hA hW hin]
    have := hf _ hin
    rw [show cellG (.reg A n) (glob A c y) = cell A (glob A c y) from rfl, o2] at this
    exact this
  · intro c hc x _; rfl

/-- what a finished update has done -/
structure Updated (A : RegArray) (n : Nat) (flag : Bool) (m m' : Addr → V) (f : List Int → V) : Prop where
  faces : ∀ p, p < n → FacesCurrent A.dims (owns A p).1 (owns A p).2 A.width f (fun o => m' ((p : Int), o))
  ghosts : flag = true → ∀ p, p < n →
    GhostsCurrent A.dims (owns A p).1 (owns A p).2 A.width f (fun o => m' ((p : Int), o))
  holds : Holds (.reg A n) m' f
  rest : ∀ p, p < n → OnlyGhosts (owns A p).1 (owns A p).2 A.width (fun o => m ((p : Int), o))
    (fun o => m' ((p : Int), o))
  elsewhere : ∀ a : Addr, ¬ (0 ≤ a.1 ∧ a.1 < n) → m' a = m a

theorem updated_of_content {n : Nat} (hn : gridSize A.nblock = n) {flag : Bool} {m m' : Addr → V}
    {f : List Int → V}
    (h : Content A flag (RR A) (fun p o => m ((p : Int), o)) (fun p o => m' ((p : Int), o)) f)
    (he : ∀ a : Addr, ¬ (0 ≤ a.1 ∧ a.1 < n) → m' a = m a) : Updated A n flag m m' f := by
  have hval : ∀ c, CoordOK A.nblock c → ∀ x, InPatch (boxLo (coordLo A.nblock A.mapc c) A.width)
      (boxHi (coordHi A.nblock A.dims A.mapc c) A.width) x →
      (flag = true ∨ outside (coordLo A.nblock A.mapc c) (coordHi A.nblock A.dims A.mapc c) x ≤ 1) →
      m' (((undigits A.nblock c : Nat) : Int), boxPos (coordLo A.nblock A.mapc c)
        (coordHi A.nblock A.dims A.mapc c) A.width x) = f (wrap A.dims x) := by
    intro c hc x hx hfl
    obtain ⟨h1, h2, h3⟩ := blen_eq hA hW hc
    obtain ⟨y, y1, y2, y3, y4⟩ := cell_sub hA hW hc hx
    have hmem : ∀ i, i < A.dims.length → A.width.getD i 0 ≠ 0 → 2 * i ∈ RR A ∧ 2 * i + 1 ∈ RR A := by
      intro i hi hw
      unfold RR
      rw [mem_rounds, mem_rounds, show 2 * i / 2 = i by omega, show (2 * i + 1) / 2 = i by omega]
      exact ⟨⟨by omega, hw⟩, ⟨by omega, hw⟩⟩
    have hwd : ∀ i, wd A i ≠ 0 → A.width.getD i 0 ≠ 0 := by
      intro i h h0; apply h; unfold wd; rw [h0]; rfl
    have hv : Valid A flag (RR A) c y := by
      refine ⟨y1, ?_, ?_, ?_⟩
      · intro i hi hlt
        exact (hmem i hi (hwd i (by have := y1.2 i hi; omega))).2
      · intro i hi hlt
        exact (hmem i hi (hwd i (by have := y1.2 i hi; omega))).1
      · intro hf i j hi hj hei hej
        rcases hfl with hfl | hfl
        · rw [hfl] at hf; cases hf
        · have xl : x.length = A.dims.length := by rw [← y3]; exact tab_length _ _
          by_contra hne
          rcases Nat.lt_or_gt_of_ne hne with hlt | hlt
          · have := outside_two (lo := coordLo A.nblock A.mapc c) (by omega) (by omega) hlt (by omega)
              ((y4 i hi).1 hei) ((y4 j hj).1 hej)
            omega
          · have := outside_two (lo := coordLo A.nblock A.mapc c) (by omega) (by omega) hlt (by omega)
              ((y4 j hj).1 hej) ((y4 i hi).1 hei)
            omega
    have := h.val c hc y hv
    rw [y3] at this
    rw [y2]
    exact this
  have hp : ∀ p, p < n → CoordOK A.nblock (digits A.nblock p) ∧ undigits A.nblock (digits A.nblock p) = p ∧
      owns A p = (coordLo A.nblock A.mapc (digits A.nblock p), coordHi A.nblock A.dims A.mapc (digits A.nblock p)) := by
    intro p hp
    rw [← hn] at hp
    refine ⟨digits_ok hp, undigits_digits hp, ?_⟩
    rw [← owns_of_coord (digits_ok hp), undigits_digits hp]
  refine ⟨?_, ?_, ?_, ?_, he⟩
  · intro p hpn x hx ho
    obtain ⟨c1, c2, c3⟩ := hp p hpn
    rw [c3] at hx ho ⊢
    have := hval _ c1 x hx (Or.inr ho)
    rw [c2] at this
    exact this
  · intro hfl p hpn x hx
    obtain ⟨c1, c2, c3⟩ := hp p hpn
    rw [c3] at hx ⊢
    have := hval _ c1 x hx (Or.inl hfl)
    rw [c2] at this
    exact this
  · rw [holds_iff (show Sound (.reg A n) from ⟨hA, by omega⟩)]
    intro x hx
    show m' (cell A x) = f x
    have hx' : InArray A.dims x := hx
    obtain ⟨o1, o2⟩ := ownerC_ok hA.map hx'
    have hb : InPatch (boxLo (coordLo A.nblock A.mapc (ownerC A x)) A.width)
        (boxHi (coordHi A.nblock A.dims A.mapc (ownerC A x)) A.width) x := by
      obtain ⟨h1, h2, h3⟩ := blen_eq hA hW o1
      have hw := hA.width
      have hbl := boxLo_length (lo := coordLo A.nblock A.mapc (ownerC A x)) (w := A.width) (by omega)
      have hbh := boxHi_length (lo := coordHi A.nblock A.dims A.mapc (ownerC A x)) (w := A.width) (by omega)
      rw [inPatch_iff] at o2 ⊢
      refine ⟨by omega, by omega, ?_⟩
      intro i hi
      rw [boxLo_getD (by omega) (by omega), boxHi_getD (by omega) (by omega)]
      have := o2.2.2 i (by omega)
      omega
    obtain ⟨y, y1, y2, y3, y4⟩ := cell_sub hA hW o1 hb
    have xl : x.length = A.dims.length := by rw [← y3]; exact tab_length _ _
    have hne : ∀ i, i < A.dims.length → ¬ Ext A (ownerC A x) y i := by
      intro i hi hx
      have := (inBlock_iff hA hW o1 xl).1 o2 i hi
      exact (y4 i hi).1 hx this
    obtain ⟨-, e2⟩ := owned_cell hA hW o1 y1 hne
    rw [y3] at e2
    have hv : Valid A flag (RR A) (ownerC A x) y :=
      ⟨y1, fun i hi h => absurd (Or.inl h) (hne i hi), fun i hi h => absurd (Or.inr h) (hne i hi),
        fun _ i j hi _ h => absurd h (hne i hi)⟩
    have := h.val _ o1 y hv
    rw [y3, wrap_id hA hW hx'] at this
    rw [e2]
    exact this
  · intro p hpn i hi
    obtain ⟨c1, c2, c3⟩ := hp p hpn
    rw [c3] at hi
    have := h.rest _ c1 i (by
      intro y hy hex he
      have hbx := sub_cell hA hW c1 hy
      obtain ⟨z, z1, z2, z3, z4⟩ := cell_sub hA hW c1 hbx
      have hzy := glob_inj hA hW z1 hy z3
      subst hzy
      refine hi _ hbx ?_ (z2.trans he)
      intro hin
      obtain ⟨j, hj, hej⟩ := hex
      exact (z4 j hj).1 hej ((inBlock_iff hA hW c1 (tab_length _ _)).1 hin j hj))
    rw [c2] at this
    exact this

end

end GA.Ghost
