import Verif.Lemmas.GhostGeom

/-!
# Windows of the ghost cell update and their addresses
-/

namespace GA.Ghost
open Spec Model

section
variable {V : Type}

theorem addL_getD {a b : List Int} (h : b.length = a.length) {i : Nat} (hi : i < a.length) :
    (addL a b).getD i 0 = a.getD i 0 + b.getD i 0 := by
  induction a generalizing b i with
  | nil => simp at hi
  | cons x a ih =>
    cases b with
    | nil => simp at h
    | cons y b =>
      cases i with
      | zero => simp [addL]
      | succ i => simpa [addL] using ih (by simpa using h) (by simpa using hi)

theorem subL_getD {a b : List Int} (h : b.length = a.length) {i : Nat} (hi : i < a.length) :
    (subL a b).getD i 0 = a.getD i 0 - b.getD i 0 := by
  induction a generalizing b i with
  | nil => simp at hi
  | cons x a ih =>
    cases b with
    | nil => simp at h
    | cons y b =>
      cases i with
      | zero => simp [subL]
      | succ i => simpa [subL] using ih (by simpa using h) (by simpa using hi)

theorem edges_length {a b : List Int} (h : b.length = a.length) : (edges a b).length = a.length := by
  induction a generalizing b with
  | nil => simp [edges]
  | cons x a ih =>
    cases b with
    | nil => simp at h
    | cons y b => simp [edges, ih (b := b) (by simpa using h)]

theorem edges_getD {a b : List Int} (h : b.length = a.length) {i : Nat} (hi : i < a.length) :
    (edges a b).getD i 0 = b.getD i 0 - a.getD i 0 + 1 := by
  induction a generalizing b i with
  | nil => simp at hi
  | cons x a ih =>
    cases b with
    | nil => simp at h
    | cons y b =>
      cases i with
      | zero => simp [edges]
      | succ i => simpa [edges] using ih (by simpa using h) (by simpa using hi)

theorem sub_inZero {plo phi y : List Int} (hy : InPatch plo phi y) :
    InPatch (plo.map fun _ => 0) ((edges plo phi).map (· - 1)) (subL y plo) := by
  induction plo generalizing phi y with
  | nil => cases phi <;> cases y <;> simp_all [InPatch, edges, subL]
  | cons a plo ih =>
    match phi, y, hy with
    | b :: phi, y :: ys, hy =>
      simp only [InPatch] at hy
      simp only [List.map_cons, edges, subL, InPatch]
      exact ⟨by omega, ih hy.2⟩
    | [], _, hy => simp [InPatch] at hy
    | _ :: _, [], hy => simp [InPatch] at hy

theorem add_inWin {plo phi i : List Int}
    (hi : InPatch (plo.map fun _ => 0) ((edges plo phi).map (· - 1)) i) (hl : phi.length = plo.length) :
    InPatch plo phi (addL plo i) ∧ i.length = plo.length := by
  induction plo generalizing phi i with
  | nil => cases phi <;> cases i <;> simp_all [InPatch, edges, addL]
  | cons a plo ih =>
    match phi, i, hi with
    | b :: phi, i :: is, hi =>
      simp only [List.map_cons, edges, InPatch] at hi
      obtain ⟨h1, h2⟩ := ih hi.2 (by simpa using hl)
      simp only [addL, InPatch, List.length_cons]
      exact ⟨⟨by omega, h1⟩, by omega⟩
    | [], _, _ => simp at hl
    | _ :: _, [], hi => simp [InPatch, edges] at hi

theorem setstride_length (a : Int) (ld : List Int) : (setstride a ld).length = ld.length := by
  induction ld generalizing a with
  | nil => rfl
  | cons d ld ih => simp [setstride, ih]

theorem natEdges_pos {plo phi : List Int} (hne : InPatch plo phi plo) : ∀ c ∈ natEdges plo phi, 0 < c := by
  induction plo generalizing phi with
  | nil => simp [natEdges, edges]
  | cons a plo ih =>
    cases phi with
    | nil => simp [InPatch] at hne
    | cons b phi =>
      simp only [InPatch] at hne
      intro c hc
      have e : natEdges (a :: plo) (b :: phi) = (b - a + 1).toNat :: natEdges plo phi := rfl
      rw [e, List.mem_cons] at hc
      rcases hc with rfl | hc
      · omega
      · exact ih hne.2 c hc

/-- relative index of a window cell -/
def rel (plo y : List Int) : List Nat := (subL y plo).map Int.toNat

theorem rel_ok {plo phi y : List Int} (hne : InPatch plo phi plo) (hy : InPatch plo phi y) :
    IdxOK (natEdges plo phi) (rel plo y) ∧ (rel plo y).map Int.ofNat = subL y plo := by
  have h1 := sub_inZero hy
  have h2 := nonneg_lift h1
  refine ⟨(idxOK_natEdges hne _).2 ?_, h2⟩
  unfold rel
  rw [h2]; exact h1

theorem win_addr {plo ld y : List Int} (d : Int) (hy : y.length = plo.length)
    (hl : ld.length + 1 = plo.length) {is : List Nat} (h : is.map Int.ofNat = subL y plo) :
    horner plo (ld ++ [d]) + strAddr (setstride 1 ld) is = horner y (ld ++ [d]) := by
  have hs : (subL y plo).length = plo.length := by rw [subL_length (by omega), hy]
  rw [strAddr_strideOff, h, strideOff_eq (by omega), horner_last 0 d (by omega),
    ← horner_add (by omega)]
  congr 1
  apply list_ext
  · rw [addL_length (by omega)]; omega
  · intro i hi
    rw [addL_length (by omega)] at hi
    rw [addL_getD (by omega) hi, subL_getD (by omega) (by omega)]
    omega

variable {plo phi ld : List Int} {c0 : Nat} {cs : List Nat}

theorem win_fit (hld : LdOK plo phi ld) (hne : InPatch plo phi plo)
    (hc : natEdges plo phi = c0 :: cs) : StrideFit c0 (setstride 1 ld) cs ∧
      (setstride 1 ld).length = cs.length ∧ 0 < c0 ∧ (∀ c ∈ cs, 0 < c) ∧
      stridedSegs (setstride 1 ld) c0 cs = some (blockOffs (setstride 1 ld) cs) := by
  have hf := strideFit_setstride hld hne hc 1 (by omega)
  rw [Int.one_mul] at hf
  have hp := natEdges_pos hne
  rw [hc] at hp
  have hl : (setstride 1 ld).length = cs.length := by
    have h1 : (natEdges plo phi).length = plo.length := by
      unfold natEdges; rw [List.length_map, edges_length hld.length.1]
    rw [hc, List.length_cons] at h1
    rw [setstride_length]
    have := hld.length.2
    omega
  have h0 : 0 < c0 := hp c0 (by simp)
  have h1 : ∀ c ∈ cs, 0 < c := fun c h => hp c (by simp [h])
  exact ⟨hf, hl, h0, h1, stridedSegs_eq hl h0 h1 hf⟩

theorem win_pack (mem : Int → V) (d : Int) (hld : LdOK plo phi ld) (hne : InPatch plo phi plo)
    (hc : natEdges plo phi = c0 :: cs) :
    ∃ b, writeStrided mem (horner plo (ld ++ [d])) (setstride 1 ld) c0 cs = some b ∧
      b.length = prodNat (c0 :: cs) ∧ ∀ y, InPatch plo phi y →
        b[packPos (c0 :: cs) (rel plo y)]? = some (mem (horner y (ld ++ [d]))) := by
  obtain ⟨hf, hl, h0, hp, hs⟩ := win_fit hld hne hc
  obtain ⟨s1, s2⟩ := pack_spec mem (horner plo (ld ++ [d])) c0 hl
  refine ⟨pack mem (horner plo (ld ++ [d])) (setstride 1 ld) c0 cs, ?_, s1, ?_⟩
  · unfold writeStrided
    rw [hs]; rfl
  · intro y hy
    obtain ⟨r1, r2⟩ := rel_ok hne hy
    rw [hc] at r1
    rw [s2 _ r1, win_addr d hy.length.1 hld.length.2 r2]

theorem win_unpack (buf : Nat → V) (mem : Int → V) (d : Int) (hld : LdOK plo phi ld)
    (hne : InPatch plo phi plo) (hc : natEdges plo phi = c0 :: cs) :
    ∃ mem', readStrided buf mem (horner plo (ld ++ [d])) (setstride 1 ld) c0 cs = some mem' ∧
      (∀ y, InPatch plo phi y → mem' (horner y (ld ++ [d])) = buf (packPos (c0 :: cs) (rel plo y))) ∧
      (∀ x, (∀ y, InPatch plo phi y → horner y (ld ++ [d]) ≠ x) → mem' x = mem x) := by
  obtain ⟨hf, hl, h0, hp, hs⟩ := win_fit hld hne hc
  obtain ⟨s1, s2⟩ := unpack_spec buf mem (horner plo (ld ++ [d])) c0 hl hf
  refine ⟨unpack buf mem (horner plo (ld ++ [d])) (setstride 1 ld) c0 cs, ?_, ?_, ?_⟩
  · unfold readStrided
    rw [hs]; rfl
  · intro y hy
    obtain ⟨r1, r2⟩ := rel_ok hne hy
    rw [hc] at r1
    rw [← win_addr d hy.length.1 hld.length.2 r2, s1 _ r1]
  · intro x hx
    apply s2
    intro idx hidx
    rw [← hc, idxOK_natEdges hne] at hidx
    obtain ⟨a1, a2⟩ := add_inWin hidx hld.length.1
    rw [win_addr d a1.length.1 hld.length.2 (is := idx) (by rw [subL_addL a2])]
    exact hx _ a1

/-- a message: packed on one side, unpacked on the other -/
theorem win_move [Inhabited V] (memS memR : Int → V) (dS dR : Int) {ploS phiS ldS ploR phiR ldR : List Int}
    (hS : LdOK ploS phiS ldS) (hR : LdOK ploR phiR ldR) (nS : InPatch ploS phiS ploS)
    (nR : InPatch ploR phiR ploR) (cS : natEdges ploS phiS = c0 :: cs)
    (cR : natEdges ploR phiR = c0 :: cs) {b : List V}
    (hb : writeStrided memS (horner ploS (ldS ++ [dS])) (setstride 1 ldS) c0 cs = some b) :
    b.length = prodNat (c0 :: cs) ∧ ∃ mem',
      readStrided (fun i => b.getD i default) memR (horner ploR (ldR ++ [dR])) (setstride 1 ldR) c0 cs
        = some mem' ∧
      (∀ y, InPatch ploR phiR y →
        mem' (horner y (ldR ++ [dR])) = memS (horner (addL ploS (subL y ploR)) (ldS ++ [dS]))) ∧
      (∀ x, (∀ y, InPatch ploR phiR y → horner y (ldR ++ [dR]) ≠ x) → mem' x = memR x) := by
  obtain ⟨b', h1, h2, h3⟩ := win_pack memS dS hS nS cS
  rw [hb] at h1
  obtain rfl : b = b' := Option.some.inj h1
  obtain ⟨mem', k1, k2, k3⟩ := win_unpack (fun i => b.getD i default) memR dR hR nR cR
  refine ⟨h2, mem', k1, ?_, k3⟩
  intro y hy
  obtain ⟨r1, r2⟩ := rel_ok nR hy
  have hrl : (subL y ploR).length = ploR.length := by
    rw [subL_length (by have := hy.length; omega)]; exact hy.length.1
  have hz : InPatch (ploS.map fun _ => 0) ((edges ploS phiS).map (· - 1)) (subL y ploR) := by
    rw [cR, ← cS, idxOK_natEdges nS, r2] at r1; exact r1
  obtain ⟨a1, a2⟩ := add_inWin hz hS.length.1
  have hr : rel ploS (addL ploS (subL y ploR)) = rel ploR y := by
    unfold rel; rw [subL_addL a2]
  have := h3 _ a1
  rw [hr] at this
  rw [k2 y hy, List.getD_eq_getElem?_getD, this]
  rfl

end

/-! ## the box of a block with its ghost cells -/

theorem fb_iff {z d : List Int} : FB z d ↔ z.length = d.length ∧
    ∀ i, i < d.length → 0 ≤ z.getD i 0 ∧ z.getD i 0 < d.getD i 0 := by
  induction d generalizing z with
  | nil => cases z <;> simp [FB]
  | cons d ds ih =>
    cases z with
    | nil => simp [FB]
    | cons z zs =>
      simp only [FB, ih, List.length_cons, Nat.add_right_cancel_iff]
      constructor
      · rintro ⟨h1, h2, h3⟩
        refine ⟨h2, ?_⟩
        intro i hi
        cases i with
        | zero => simpa using h1
        | succ i => simpa using h3 i (by omega)
      · rintro ⟨h2, h3⟩
        exact ⟨by simpa using h3 0 (by omega), h2, fun i hi => by simpa using h3 (i + 1) (by omega)⟩

theorem locD_length {l h : List Int} {w : List Nat} (h1 : h.length = l.length)
    (h2 : w.length = l.length) : (locD l h w).length = l.length := by
  induction l generalizing h w with
  | nil => simp [locD]
  | cons a l ih =>
    match h, w, h1, h2 with
    | b :: h, c :: w, h1, h2 =>
      simp [locD, ih (h := h) (w := w) (by simpa using h1) (by simpa using h2)]

theorem locD_getD {l h : List Int} {w : List Nat} (h1 : h.length = l.length)
    (h2 : w.length = l.length) {i : Nat} (hi : i < l.length) :
    (locD l h w).getD i 0 = h.getD i 0 - l.getD i 0 + 1 + 2 * (w.getD i 0 : Nat) := by
  induction l generalizing h w i with
  | nil => simp at hi
  | cons a l ih =>
    match h, w, h1, h2 with
    | b :: h, c :: w, h1, h2 =>
      cases i with
      | zero => simp [locD]
      | succ i =>
        simpa [locD] using ih (h := h) (w := w) (by simpa using h1) (by simpa using h2)
          (by simpa using hi)

theorem ghostLoc_eq (s l h : List Int) (w : List Nat) (o f : Int) (hs : s.length = l.length) :
    ghostLoc s l h w o f = o + f * horner s (locD l h w) := by
  induction s generalizing l h w o f with
  | nil => cases l <;> simp [ghostLoc, horner]
  | cons a s ih =>
    match l, h, w with
    | [], _, _ => simp at hs
    | _ :: _, [], _ => simp [ghostLoc, locD, horner]
    | _ :: _, _ :: _, [] => simp [ghostLoc, locD, horner]
    | l :: ls, h :: hs', w :: ws =>
      simp only [ghostLoc, locD, horner, ih ls hs' ws _ _ (by simpa using hs)]; ring

theorem ldok_rem {plo phi l h : List Int} {w : List Nat} (hne : l ≠ []) (h1 : h.length = l.length)
    (h2 : w.length = l.length) (h3 : plo.length = l.length) (h4 : phi.length = l.length)
    (hb : ∀ i, i < l.length → phi.getD i 0 - plo.getD i 0 + 1 ≤ (locD l h w).getD i 0) :
    LdOK plo phi (ldRem l h w) := by
  induction l generalizing h w plo phi with
  | nil => exact absurd rfl hne
  | cons a l ih =>
    match l, h, w, plo, phi, h1, h2, h3, h4 with
    | [], [_], [_], [_], [_], _, _, _, _ => simp [LdOK, ldRem]
    | a' :: l, b :: b' :: h, c :: w, p :: p' :: plo, q :: q' :: phi, h1, h2, h3, h4 =>
      simp only [ldRem, LdOK]
      refine ⟨by simpa [locD] using hb 0 (by simp), ?_⟩
      apply ih (by simp) (by simpa using h1) (by simpa using h2) (by simpa using h3) (by simpa using h4)
      intro i hi
      simpa [locD] using hb (i + 1) (by simpa using hi)

theorem countElems_eq (a b : List Int) : countElems a b = prodI (edges a b) := by
  induction a generalizing b with
  | nil => simp [countElems, edges, prodI]
  | cons x a ih =>
    cases b with
    | nil => simp [countElems, edges, prodI]
    | cons y b => simp [countElems, edges, prodI, ih]

theorem prodNat_natEdges {plo phi : List Int} (hne : InPatch plo phi plo) :
    (prodNat (natEdges plo phi) : Int) = prodI (edges plo phi) := by
  induction plo generalizing phi with
  | nil => cases phi <;> simp [natEdges, edges, prodNat, prodI]
  | cons a plo ih =>
    cases phi with
    | nil => simp [InPatch] at hne
    | cons b phi =>
      simp only [InPatch] at hne
      have e : natEdges (a :: plo) (b :: phi) = (b - a + 1).toNat :: natEdges plo phi := rfl
      rw [e]
      simp only [prodNat, edges, prodI]
      rw [← ih hne.2]
      push_cast
      rw [Int.toNat_of_nonneg (by omega)]

/-! ## buffer length -/

theorem prodI_erase {D : List Int} {k : Nat} (hk : k < D.length) :
    prodI D = D.getD k 0 * prodI (D.eraseIdx k) := by
  induction D generalizing k with
  | nil => simp at hk
  | cons d D ih =>
    cases k with
    | zero => simp [prodI]
    | succ k =>
      simp only [prodI, List.getD_cons_succ, List.eraseIdx_cons_succ]
      rw [ih (by simpa using hk)]; ring

theorem prodI_le {C D : List Int} (hl : C.length = D.length)
    (h : ∀ i, i < D.length → 0 ≤ C.getD i 0 ∧ C.getD i 0 ≤ D.getD i 0) :
    0 ≤ prodI C ∧ prodI C ≤ prodI D := by
  induction D generalizing C with
  | nil => cases C <;> simp_all [prodI]
  | cons d D ih =>
    cases C with
    | nil => simp at hl
    | cons c C =>
      obtain ⟨i1, i2⟩ := ih (C := C) (by simpa using hl)
        (fun i hi => by simpa using h (i + 1) (by simpa using hi))
      have h0 := h 0 (by simp)
      simp only [List.getD_cons_zero] at h0
      simp only [prodI]
      exact ⟨Int.mul_nonneg h0.1 i1, Int.mul_le_mul h0.2 i2 i1 (by omega)⟩

theorem getD_eraseIdx (D : List Int) (k i : Nat) :
    (D.eraseIdx k).getD i 0 = if i < k then D.getD i 0 else D.getD (i + 1) 0 := by
  simp only [List.getD_eq_getElem?_getD, List.getElem?_eraseIdx]
  split <;> rfl

theorem prod_bound {C D : List Int} {k : Nat} (hl : C.length = D.length) (hk : k < D.length)
    (hD : 0 < D.getD k 0) (h : ∀ i, i < D.length → 0 ≤ C.getD i 0 ∧ (i ≠ k → C.getD i 0 ≤ D.getD i 0)) :
    prodI C ≤ prodI D / D.getD k 0 * C.getD k 0 := by
  rw [prodI_erase (by omega : k < C.length), prodI_erase hk,
    Int.mul_ediv_cancel_left _ (by omega)]
  rw [Int.mul_comm]
  apply Int.mul_le_mul_of_nonneg_right _ (h k hk).1
  have e1 : (C.eraseIdx k).length = C.length - 1 := List.length_eraseIdx_of_lt (by omega)
  have e2 : (D.eraseIdx k).length = D.length - 1 := List.length_eraseIdx_of_lt (by omega)
  refine (prodI_le (by omega) ?_).2
  intro i hi
  rw [getD_eraseIdx, getD_eraseIdx]
  split
  · have := h i (by omega); exact ⟨this.1, this.2 (by omega)⟩
  · have := h (i + 1) (by omega); exact ⟨this.1, this.2 (by omega)⟩

theorem foldl_prodI (d : List Int) (a : Int) : d.foldl (· * ·) a = a * prodI d := by
  induction d generalizing a with
  | nil => simp [prodI]
  | cons x d ih => simp only [List.foldl_cons, ih, prodI]; ring

theorem foldl_max_le (f : Nat → Int) (l : List Nat) (b : Int) :
    b ≤ l.foldl (fun b i => if b < f i then f i else b) b ∧
    ∀ i ∈ l, f i ≤ l.foldl (fun b i => if b < f i then f i else b) b := by
  induction l generalizing b with
  | nil => simp
  | cons x l ih =>
    simp only [List.foldl_cons]
    obtain ⟨h1, h2⟩ := ih (if b < f x then f x else b)
    have e1 : b ≤ (if b < f x then f x else b) := by split <;> omega
    have e2 : f x ≤ (if b < f x then f x else b) := by split <;> omega
    refine ⟨le_trans e1 h1, ?_⟩
    intro i hi
    rcases List.mem_cons.1 hi with rfl | hi
    · exact le_trans e2 h1
    · exact h2 i hi

theorem bufLen_ge {lo hi : List Int} {width : List Nat} (h1 : lo.length = width.length)
    (h2 : hi.length = width.length) {C : List Int} {k : Nat} (hC : C.length = width.length)
    (hk : k < width.length) (hD : 0 < (locD lo hi width).getD k 0)
    (h : ∀ i, i < width.length → 0 ≤ C.getD i 0 ∧ (i ≠ k → C.getD i 0 ≤ (locD lo hi width).getD i 0))
    (hw : C.getD k 0 = (width.getD k 0 : Nat)) : prodI C ≤ bufLen lo hi width := by
  have hlen : (locD lo hi width).length = width.length := by rw [locD_length (by omega) (by omega), h1]
  have e : tab width.length (fun i => hi.getD i 0 - lo.getD i 0 + 1 + 2 * (width.getD i 0 : Int)) =
      locD lo hi width := by
    apply list_ext
    · rw [tab_length, hlen]
    · intro i hi
      rw [tab_length] at hi
      rw [tab_getD _ hi, locD_getD (by omega) (by omega) (by omega)]
  have hb := prod_bound (C := C) (k := k) (D := locD lo hi width) (by omega) (by omega) hD
    (by rw [hlen]; exact h)
  unfold bufLen
  simp only [e, foldl_prodI, Int.one_mul]
  have := (foldl_max_le (fun i => prodI (locD lo hi width) /
    (hi.getD i 0 - lo.getD i 0 + 1 + 2 * (width.getD i 0 : Int)) * (width.getD i 0 : Int))
    (List.range width.length) 1).2 k (List.mem_range.2 hk)
  refine le_trans hb (le_trans (le_of_eq ?_) this)
  rw [hw, locD_getD (by omega) (by omega) (by omega)]

end GA.Ghost
