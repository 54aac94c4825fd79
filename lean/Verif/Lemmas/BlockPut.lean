import Verif.Lemmas.BlockVisit

/-! # Lemmas: put/get on block-cyclic arrays -/

namespace GA
open Spec Model

/-! ## pieces that may be empty -/

/-- `l ≤ h + 1` in every dimension -/
def EdgeNN : (lo hi : List Int) → Prop
  | l :: lo, h :: hi => l ≤ h + 1 ∧ EdgeNN lo hi
  | [], [] => True
  | _, _ => False

theorem EdgeNN.length {lo hi : List Int} (h : EdgeNN lo hi) : hi.length = lo.length := by
  induction lo generalizing hi with
  | nil => cases hi <;> simp_all [EdgeNN]
  | cons l lo ih =>
    cases hi with
    | nil => simp [EdgeNN] at h
    | cons a hi => simp [ih h.2]

theorem EdgeNN.cases {lo hi : List Int} (h : EdgeNN lo hi) :
    InPatch lo hi lo ∨ (initLoopElems (lo.map fun _ => 0) ((edges lo hi).map (· - 1)) = 0 ∧
      box lo hi = []) := by
  induction lo generalizing hi with
  | nil => cases hi <;> simp_all [EdgeNN, InPatch]
  | cons l lo ih =>
    match hi, h with
    | a :: hi, h =>
      have h1 : l ≤ a + 1 := h.1
      by_cases he : l = a + 1
      · right
        constructor
        · simp only [List.map_cons, edges, initLoopElems]
          have : a - l + 1 - 1 - 0 + 1 = 0 := by omega
          rw [this, Int.zero_mul]
        · simp only [box]
          have : irange l a = [] := by
            rw [List.eq_nil_iff_forall_not_mem]; intro x hx; rw [mem_irange] at hx; omega
          simp [this]
      · rcases ih h.2 with h2 | ⟨h2, h3⟩
        · left
          exact ⟨⟨by omega, by omega⟩, h2⟩
        · right
          constructor
          · simp only [List.map_cons, edges, initLoopElems, h2, Int.mul_zero]
          · simp [box, h3]

theorem xferPiece_eq' {lo ld : List Int} {p : RPiece} (hp : EdgeNN p.plo p.phi)
    (h1 : p.plo.length = lo.length) (h2 : ld.length + 1 = lo.length)
    (h3 : p.ldrem.length + 1 = lo.length) :
    xferPiece lo ld p = (box p.plo p.phi).map fun x =>
      ⟨bufPos lo ld x, (p.proc, p.prem + bufPos p.plo p.ldrem x)⟩ := by
  rcases hp.cases with h | ⟨h, hb⟩
  · exact xferPiece_eq h h1 h2 h3
  · unfold xferPiece loopAll
    rw [h, hb]
    simp [loopFrom]

theorem xfers_implements' {loc : List Int → Addr} {lo hi ld : List Int} {ps : List RPiece}
    (f : Int → Bool) (hld : ld.length + 1 = lo.length)
    (hcov : (ps.flatMap fun p => box p.plo p.phi).Perm (box lo hi))
    (hp : ∀ p ∈ ps, EdgeNN p.plo p.phi ∧ p.plo.length = lo.length ∧
      p.ldrem.length + 1 = lo.length ∧
      ∀ x, InPatch p.plo p.phi x → (p.proc, p.prem + bufPos p.plo p.ldrem x) = loc x) :
    Implements loc lo hi ld (xfers f lo ld ps) := by
  unfold Implements xfers
  refine ((twoPass_perm f ps).flatMap_right _).trans ?_
  have e : ps.flatMap (xferPiece lo ld) =
      (ps.flatMap fun p => box p.plo p.phi).map fun x => (⟨bufPos lo ld x, loc x⟩ : Xfer) := by
    rw [List.map_flatMap]
    apply List.flatMap_congr
    intro p hp'
    obtain ⟨a, b, c, d⟩ := hp p hp'
    rw [xferPiece_eq' a b hld c]
    apply List.map_congr_left
    intro x hx
    rw [d x (mem_box.1 hx)]
  rw [e]
  exact hcov.map _

/-! ## intersection of a block with a patch -/

theorem patch_spec {blo bhi lo hi : List Int} (hb : EdgeNN blo bhi) (hp : InPatch lo hi lo)
    (hl : blo.length = lo.length) :
    (overlap blo bhi lo hi = true →
      EdgeNN (patchLo blo bhi lo) (patchHi blo bhi hi) ∧
      (patchLo blo bhi lo).length = lo.length ∧
      ∀ x, InPatch (patchLo blo bhi lo) (patchHi blo bhi hi) x ↔
        InPatch blo bhi x ∧ InPatch lo hi x) ∧
    (overlap blo bhi lo hi = false → ∀ x, InPatch blo bhi x → ¬ InPatch lo hi x) := by
  induction blo generalizing bhi lo hi with
  | nil =>
    match bhi, lo, hi, hb, hl, hp with
    | [], [], [], _, _, _ =>
      refine ⟨fun _ => ⟨trivial, rfl, ?_⟩, by simp [overlap]⟩
      intro x
      cases x <;> simp [patchLo, patchHi, InPatch]
  | cons bl blo ih =>
    match bhi, lo, hi, hb, hl, hp with
    | bh :: bhi, l :: lo, h :: hi, hb, hl, hp =>
      have hb1 : bl ≤ bh + 1 := hb.1
      have hp1 : l ≤ l ∧ l ≤ h := hp.1
      obtain ⟨i1, i2⟩ := ih hb.2 hp.2 (by simpa using hl)
      constructor
      · intro ho
        simp only [overlap, Bool.and_eq_true, Bool.or_eq_true, decide_eq_true_eq] at ho
        obtain ⟨j1, j2, j3⟩ := i1 ho.2
        refine ⟨⟨?_, j1⟩, by simp [patchLo, j2], ?_⟩
        · split <;> split <;> omega
        · intro x
          cases x with
          | nil => simp [patchLo, patchHi, InPatch]
          | cons y ys =>
            simp only [patchLo, patchHi, InPatch, j3 ys]
            constructor
            · rintro ⟨a, b, c⟩
              refine ⟨⟨?_, b⟩, ?_, c⟩
              · split at a <;> split at a <;> omega
              · split at a <;> split at a <;> omega
            · rintro ⟨⟨a, b⟩, c, d⟩
              refine ⟨?_, b, d⟩
              split <;> split <;> omega
      · intro ho x hx hx'
        match x, hx, hx' with
        | y :: ys, hx, hx' =>
          simp only [InPatch] at hx hx'
          simp only [overlap, Bool.and_eq_false_iff] at ho
          rcases ho with ho | ho
          · simp only [Bool.or_eq_false_iff, Bool.and_eq_false_iff, decide_eq_false_iff_not] at ho
            omega
          · exact i2 ho ys hx.2 hx'.2

/-! ## positions inside a block -/

theorem blkOff_eq (c l h : List Int) (o t : Int) (hl : c.length ≤ l.length) :
    blkOff c l h o t = locLoop c l h (l.map fun _ => 0) o t := by
  induction c generalizing l h o t with
  | nil => cases l <;> simp [blkOff, locLoop]
  | cons a c ih =>
    match l, h, hl with
    | [], _, hl => simp at hl
    | b :: l, [], _ => simp [blkOff, locLoop]
    | b :: l, d :: h, hl =>
      simp only [blkOff, locLoop, List.map_cons, Nat.cast_zero, Int.add_zero, Int.mul_zero]
      exact ih _ _ _ _ (by simpa using hl)

theorem blkLd_eq (l h : List Int) : blkLd l h = ldRem l h (l.map fun _ => 0) := by
  induction l generalizing h with
  | nil => cases h <;> simp [blkLd, ldRem]
  | cons a l ih =>
    match l, h with
    | [], _ => cases h <;> simp [blkLd, ldRem]
    | b :: l, [] => simp [blkLd, ldRem]
    | b :: l, [_] => simp [blkLd, ldRem]
    | b :: l, c :: d :: h =>
      have := ih (d :: h)
      simp only [blkLd, ldRem, List.map_cons, Nat.cast_zero, Int.add_zero, Int.mul_zero] at this ⊢
      rw [this]

theorem blkSize_eq (l h : List Int) : blkSize l h = allocLoop l h (l.map fun _ => 0) := by
  induction l generalizing h with
  | nil => simp [blkSize, allocLoop]
  | cons a l ih =>
    cases h with
    | nil => simp [blkSize, allocLoop]
    | cons b h => simp [blkSize, allocLoop, ih]

theorem blk_step {x p l h : List Int} (h1 : x.length = l.length) (h2 : p.length = l.length)
    (h4 : h.length = l.length) (hne : l ≠ []) :
    blkOff p l h 0 1 + bufPos p (blkLd l h) x = blkOff x l h 0 1 := by
  rw [blkOff_eq _ _ _ _ _ (by omega), blkOff_eq _ _ _ _ _ (by omega), blkLd_eq]
  exact loc_step h1 h2 (by simp) h4 hne

theorem blk_bound {x l h : List Int} (hx : InPatch l h x) :
    0 ≤ blkOff x l h 0 1 ∧ blkOff x l h 0 1 < blkSize l h := by
  have hl := hx.length
  rw [blkOff_eq _ _ _ _ _ (by omega), blkSize_eq, allocLoop_eq, locLoop_eq]
  have := fb_bound (loc_fb hx (w := l.map fun _ => 0) (by simp))
  omega

theorem blk_inj {x y l h : List Int} (hx : InPatch l h x) (hy : InPatch l h y)
    (he : blkOff x l h 0 1 = blkOff y l h 0 1) : x = y := by
  have hl := hx.length
  have hl' := hy.length
  rw [blkOff_eq _ _ _ _ _ (by omega), blkOff_eq _ _ _ _ _ (by omega), locLoop_eq, locLoop_eq] at he
  have := fb_inj (loc_fb hx (w := l.map fun _ => 0) (by simp))
    (loc_fb hy (w := l.map fun _ => 0) (by simp)) (by omega)
  exact locZ_inj (by omega) (by omega) (by simp) this

theorem blkSize_nonneg {l h : List Int} (hb : EdgeNN l h) : 0 ≤ blkSize l h := by
  induction l generalizing h with
  | nil => simp [blkSize]
  | cons a l ih =>
    match h, hb with
    | b :: h, hb =>
      have h1 : a ≤ b + 1 := hb.1
      exact Int.mul_nonneg (by omega) (ih hb.2)

theorem coord_edgeNN {ns : List Nat} {ds m : List Int} {c : List Nat} (hm : MapOK ns ds m)
    (hc : CoordOK ns c) : EdgeNN (coordLo ns m c) (coordHi ns ds m c) ∧
      (coordLo ns m c).length = ds.length := by
  induction ns generalizing ds m c with
  | nil =>
    cases ds <;> cases c <;> simp_all [MapOK, CoordOK, coordLo, coordHi, EdgeNN]
  | cons n ns ih =>
    match ds, c, hm, hc with
    | d :: ds, c :: cs, hm, hc =>
      obtain ⟨⟨h1, h2, h3, h4⟩, h5⟩ := hm
      obtain ⟨i1, i2⟩ := ih h5 hc.2
      have hlt : c < n := hc.1
      refine ⟨⟨?_, i1⟩, by simp [coordLo, i2]⟩
      have hlen : (m.take n).length = n := by simp [h2]
      split
      · have : m.getD c 0 ∈ m.take n := by
          rw [← getD_take (n := n) hlt, List.getD_eq_getElem?_getD,
            List.getElem?_eq_getElem (by omega)]
          exact List.getElem_mem _
        exact h4.2.2 _ this
      · have := pairwise_getD h4.2.1 (i := c) (j := c + 1) (by omega) (by omega)
        rw [getD_take hlt, getD_take (by omega)] at this
        omega

/-! ## ScaLAPACK local coordinates -/

/-- local coordinates -/
def slZ : (bd : List Int) → (gs : List Nat) → (x blo : List Int) → List Int
  | b :: bs, g :: gs, x :: xs, l :: blo => (x - l + ((l - 1) / (b * g)) * b) :: slZ bs gs xs blo
  | _, _, _, _ => []

/-- local dimensions -/
def slD : (dims bd : List Int) → (gs cs : List Nat) → List Int
  | d :: ds, b :: bs, g :: gs, c :: cs => slLd d b g c :: slD ds bs gs cs
  | _, _, _, _ => []

theorem slOff_eq (ds bs : List Int) (gs cs : List Nat) (x l : List Int) (o t : Int)
    (h1 : bs.length = ds.length) (h2 : gs.length = ds.length) (h3 : cs.length = ds.length)
    (h4 : x.length = ds.length) (h5 : l.length = ds.length) :
    slOff ds bs gs cs x l o t = o + t * horner (slZ bs gs x l) (slD ds bs gs cs) := by
  induction ds generalizing bs gs cs x l o t with
  | nil =>
    cases bs <;> cases gs <;> cases cs <;> cases x <;> cases l <;>
      simp_all [slOff, slZ, slD, horner]
  | cons d ds ih =>
    match bs, gs, cs, x, l, h1, h2, h3, h4, h5 with
    | b :: bs, g :: gs, c :: cs, x :: xs, l :: ls, h1, h2, h3, h4, h5 =>
      simp only [slOff, slZ, slD, horner]
      rw [ih bs gs cs xs ls _ _ (by simpa using h1) (by simpa using h2) (by simpa using h3)
        (by simpa using h4) (by simpa using h5)]
      ring

theorem slD_dropLast {ds bs : List Int} {gs cs : List Nat} (h1 : bs.length = ds.length)
    (h2 : gs.length = ds.length) (h3 : cs.length = ds.length) (hne : ds ≠ []) :
    (∃ e, slD ds bs gs cs = slLds ds bs gs cs ++ [e]) ∧
      (slLds ds bs gs cs).length + 1 = ds.length := by
  induction ds generalizing bs gs cs with
  | nil => exact absurd rfl hne
  | cons d ds ih =>
    match ds, bs, gs, cs, h1, h2, h3 with
    | [], [b], [g], [c], _, _, _ => exact ⟨⟨slLd d b g c, by simp [slD, slLds]⟩, by simp [slLds]⟩
    | d' :: ds, b :: bs, g :: gs, c :: cs, h1, h2, h3 =>
      obtain ⟨⟨e, he⟩, hl⟩ := ih (bs := bs) (gs := gs) (cs := cs) (by simpa using h1)
        (by simpa using h2) (by simpa using h3) (by simp)
      refine ⟨⟨e, ?_⟩, ?_⟩
      · simp only [slD, slLds, List.cons_append] at he ⊢
        rw [← he]
      · simp only [slLds, List.length_cons] at hl ⊢; omega

theorem slZ_add {bs : List Int} {gs : List Nat} {x p l : List Int} (h1 : bs.length = l.length)
    (h2 : gs.length = l.length) (h3 : x.length = l.length) (h4 : p.length = l.length) :
    slZ bs gs x l = addL (slZ bs gs p l) (subL x p) ∧ (slZ bs gs p l).length = l.length := by
  induction l generalizing bs gs x p with
  | nil => cases bs <;> cases gs <;> cases x <;> cases p <;> simp_all [slZ, addL]
  | cons a l ih =>
    match bs, gs, x, p, h1, h2, h3, h4 with
    | b :: bs, g :: gs, x :: xs, p :: ps, h1, h2, h3, h4 =>
      obtain ⟨i1, i2⟩ := ih (bs := bs) (gs := gs) (x := xs) (p := ps) (by simpa using h1)
        (by simpa using h2) (by simpa using h3) (by simpa using h4)
      refine ⟨?_, by simp [slZ, i2]⟩
      simp only [slZ, addL, subL, i1]
      congr 1; ring

theorem sl_step {ds bs : List Int} {gs cs : List Nat} {x p l : List Int} (hne : ds ≠ [])
    (h1 : bs.length = ds.length) (h2 : gs.length = ds.length) (h3 : cs.length = ds.length)
    (h4 : x.length = ds.length) (h5 : p.length = ds.length) (h6 : l.length = ds.length) :
    slOff ds bs gs cs p l 0 1 + bufPos p (slLds ds bs gs cs) x = slOff ds bs gs cs x l 0 1 := by
  obtain ⟨⟨e, he⟩, hl⟩ := slD_dropLast h1 h2 h3 hne
  obtain ⟨z1, z2⟩ := slZ_add (bs := bs) (gs := gs) (x := x) (p := p) (l := l) (by omega) (by omega)
    (by omega) (by omega)
  rw [slOff_eq _ _ _ _ _ _ _ _ h1 h2 h3 h5 h6, slOff_eq _ _ _ _ _ _ _ _ h1 h2 h3 h4 h6,
    bufPos_eq (by omega) (by omega), z1,
    horner_add (by rw [subL_length (by omega)]; omega), he]
  have hs : (subL x p).length = (slLds ds bs gs cs).length + 1 := by
    rw [subL_length (by omega)]; omega
  have hlast : ∀ (a ld : List Int) (u v : Int), a.length = ld.length + 1 →
      horner a (ld ++ [u]) = horner a (ld ++ [v]) := by
    intro a ld u v
    induction ld generalizing a with
    | nil => intro h; match a, h with | [z], _ => simp [horner]
    | cons w ld ih =>
      intro h
      match a, h with
      | z :: a, h => simp only [List.cons_append, horner]; rw [ih a (by simpa using h)]
  rw [hlast _ _ 0 e hs]
  ring

/-- `min b (max 0 v)` -/
def clampB (b v : Int) : Int := if v < 0 then 0 else if v > b then b else v

theorem slLd_eq {d b : Int} {g c : Nat} (hd : 1 ≤ d) (hb : 1 ≤ b) (hg : 0 < g) :
    slLd d b g c = d / (b * g) * b + clampB b (d - d / (b * g) * (b * g) - c * b) := by
  unfold slLd
  simp only
  have hbg : 0 < b * (g : Int) := Int.mul_pos (by omega) (by omega)
  have e1 := Int.emod_add_mul_ediv d (b * g)
  have e2 := Int.emod_nonneg d (by omega : b * (g : Int) ≠ 0)
  have hR : d - d / (b * g) * (b * g) = d % (b * g) := by
    have : d / (b * g) * (b * g) = b * g * (d / (b * g)) := by ring
    omega
  rw [hR]
  generalize hRd : d % (b * g) = R at *
  have f1 := Int.emod_add_mul_ediv R b
  have f2 := Int.emod_nonneg R (by omega : b ≠ 0)
  have f3 := Int.emod_lt_of_pos R (by omega : 0 < b)
  have f0 : 0 ≤ R / b := Int.ediv_nonneg e2 (by omega)
  congr 1
  by_cases hpos : R > 0
  · rw [if_pos hpos]
    unfold clampB
    by_cases h1 : (c : Int) < R / b
    · rw [if_pos h1]
      have : (c : Int) + 1 ≤ R / b := by omega
      rw [if_neg (by nlinarith)]
      split
      · rfl
      · nlinarith
    · rw [if_neg h1]
      by_cases h2 : (c : Int) = R / b
      · rw [if_pos h2, if_neg (by nlinarith), if_neg (by nlinarith), h2]
        have : R / b * b = b * (R / b) := by ring
        omega
      · rw [if_neg h2]
        have : R / b + 1 ≤ (c : Int) := by omega
        rw [if_pos (by nlinarith)]
  · rw [if_neg hpos]
    have hR0 : R = 0 := by omega
    have hdm : d % b = 0 := by
      have : d = b * (g * (d / (b * g))) := by rw [hR0] at e1; linarith
      rw [this]
      exact Int.mul_emod_right _ _
    rw [hdm, hR0]
    unfold clampB
    have : 0 ≤ (c : Int) * b := Int.mul_nonneg (by omega) (by omega)
    split
    · rfl
    · split <;> omega

/-- the local coordinate of an element of block `i` fits into the local dimension -/
theorem slZ_lt {d b x : Int} {g i : Nat} (hd : 1 ≤ d) (hb : 1 ≤ b) (hg : 0 < g)
    (h1 : (i : Int) * b + 1 ≤ x) (h2 : x ≤ d) (h3 : x ≤ ((i : Int) + 1) * b) :
    x - ((i : Int) * b + 1) + (((i : Int) * b + 1 - 1) / (b * g)) * b =
      x - 1 - (i : Int) * b + ((i / g : Nat) : Int) * b ∧
    0 ≤ x - 1 - (i : Int) * b + ((i / g : Nat) : Int) * b ∧
    x - 1 - (i : Int) * b + ((i / g : Nat) : Int) * b < slLd d b g (i % g : Nat) := by
  have hdiv : ((i : Int) * b + 1 - 1) / (b * g) = ((i / g : Nat) : Int) := by
    have : (i : Int) * b + 1 - 1 = b * i := by ring
    rw [this, Int.mul_ediv_mul_of_pos _ _ (by omega : 0 < b)]
    rfl
  have hq0 : (0 : Int) ≤ ((i / g : Nat) : Int) := Int.natCast_nonneg _
  refine ⟨by rw [hdiv]; ring, by nlinarith, ?_⟩
  rw [slLd_eq hd hb hg]
  have hbg : 0 < b * (g : Int) := Int.mul_pos (by omega) (by omega)
  have e1 := Int.emod_add_mul_ediv d (b * g)
  have e2 := Int.emod_nonneg d (by omega : b * (g : Int) ≠ 0)
  have e3 := Int.emod_lt_of_pos d hbg
  have hi : (i : Int) = (i % g : Nat) + g * (i / g : Nat) := by
    have := Nat.mod_add_div i g
    exact_mod_cast this.symm
  have hc : ((i % g : Nat) : Int) < g := by exact_mod_cast Nat.mod_lt i hg
  have hc0 : (0 : Int) ≤ ((i % g : Nat) : Int) := Int.natCast_nonneg _
  generalize ((i / g : Nat) : Int) = q at *
  generalize ((i % g : Nat) : Int) = c at *
  generalize d / (b * g) = Q at *
  generalize hr : x - 1 - (i : Int) * b = r at *
  have hib : (i : Int) * b = c * b + q * (b * g) := by rw [hi]; ring
  have hqQ : q ≤ Q := by
    by_contra hlt
    have : Q + 1 ≤ q := by omega
    have : (Q + 1) * (b * g) ≤ q * (b * g) := Int.mul_le_mul_of_nonneg_right this (by omega)
    have : 0 ≤ c * b := Int.mul_nonneg hc0 (by omega)
    nlinarith
  have hr0 : 0 ≤ r := by omega
  have hrb : r < b := by nlinarith
  unfold clampB
  by_cases hlt : q < Q
  · have : (q + 1) * b ≤ Q * b := Int.mul_le_mul_of_nonneg_right (by omega) (by omega)
    have e : (q + 1) * b = q * b + b := by ring
    split
    · omega
    · split <;> omega
  · have hqq : q = Q := by omega
    subst hqq
    have : c * b + r < d - q * (b * g) := by omega
    split
    · have : 0 ≤ c * b := Int.mul_nonneg hc0 (by omega)
      omega
    · split <;> omega

theorem sl_fb {ds bs : List Int} {ns gs : List Nat} {idx : List Nat} {x : List Int}
    (hu : UnifOK ds bs ns) (hi : CoordOK ns idx) (hgl : gs.length = ds.length)
    (hg : ∀ g ∈ gs, 0 < g) (hx : InPatch (unifLo bs idx) (unifHi ds bs idx) x) :
    FB (slZ bs gs x (unifLo bs idx)) (slD ds bs gs (modL gs idx)) := by
  induction ds generalizing bs ns gs idx x with
  | nil =>
    match bs, ns, gs, idx, hu, hi, hgl with
    | [], [], [], [], _, _, _ => simp [slZ, slD, FB, unifLo]
  | cons d ds ih =>
    match bs, ns, gs, idx, x, hu, hi, hgl, hx with
    | b :: bs, n :: ns, g :: gs, i :: is, x :: xs, hu, hi, hgl, hx =>
      obtain ⟨⟨h1, h2, h3⟩, h4⟩ := hu
      have hx' : ((i : Int) * b + 1 ≤ x ∧
        x ≤ (if ((i : Int) + 1) * b > d then d else ((i : Int) + 1) * b)) ∧ _ := hx
      obtain ⟨n1, n2, n3⟩ := numBlk_spec h1 h2
      rw [← h3] at n1 n2 n3
      have hxd : x ≤ d ∧ x ≤ ((i : Int) + 1) * b := by
        have := hx'.1.2
        split at this <;> omega
      obtain ⟨e0, e1, e2⟩ := slZ_lt h1 h2 (hg g (by simp)) hx'.1.1 hxd.1 hxd.2
      simp only [unifLo, slZ, slD, modL, FB]
      rw [e0]
      exact ⟨⟨e1, e2⟩, ih h4 hi.2 (by simpa using hgl) (fun g' h' => hg g' (by simp [h'])) hx'.2⟩

theorem sl_inj {ds bs : List Int} {ns gs : List Nat} {i j : List Nat} {x y : List Int}
    (hu : UnifOK ds bs ns) (hi : CoordOK ns i) (hj : CoordOK ns j) (hgl : gs.length = ds.length)
    (hg : ∀ g ∈ gs, 0 < g) (hx : InPatch (unifLo bs i) (unifHi ds bs i) x)
    (hy : InPatch (unifLo bs j) (unifHi ds bs j) y) (hm : modL gs i = modL gs j)
    (he : slZ bs gs x (unifLo bs i) = slZ bs gs y (unifLo bs j)) : x = y := by
  induction ds generalizing bs ns gs i j x y with
  | nil =>
    match bs, ns, i, j, x, y, hu, hi, hj, hx, hy with
    | [], [], [], [], [], [], _, _, _, _, _ => rfl
  | cons d ds ih =>
    match bs, ns, gs, i, j, x, y, hu, hi, hj, hgl, hx, hy with
    | b :: bs, n :: ns, g :: gs, i :: is, j :: js, x :: xs, y :: ys, hu, hi, hj, hgl, hx, hy =>
      obtain ⟨⟨h1, h2, h3⟩, h4⟩ := hu
      have hx' : ((i : Int) * b + 1 ≤ x ∧
        x ≤ (if ((i : Int) + 1) * b > d then d else ((i : Int) + 1) * b)) ∧ _ := hx
      have hy' : ((j : Int) * b + 1 ≤ y ∧
        y ≤ (if ((j : Int) + 1) * b > d then d else ((j : Int) + 1) * b)) ∧ _ := hy
      have hxd : x ≤ d ∧ x ≤ ((i : Int) + 1) * b := by
        have := hx'.1.2
        split at this
        · constructor <;> omega
        · constructor <;> omega
      have hyd : y ≤ d ∧ y ≤ ((j : Int) + 1) * b := by
        have := hy'.1.2
        split at this <;> constructor <;> omega
      obtain ⟨e0, _, _⟩ := slZ_lt h1 h2 (hg g (by simp)) hx'.1.1 hxd.1 hxd.2
      obtain ⟨f0, _, _⟩ := slZ_lt h1 h2 (hg g (by simp)) hy'.1.1 hyd.1 hyd.2
      simp only [modL, List.cons.injEq] at hm
      simp only [unifLo, slZ, List.cons.injEq] at he
      rw [e0, f0] at he
      have hxs := ih h4 hi.2 hj.2 (by simpa using hgl) (fun g' h' => hg g' (by simp [h'])) hx'.2
        hy'.2 hm.2 he.2
      obtain ⟨a1, a2⟩ := mod_inj (d := b) (a := x - 1 - i * b) (b := y - 1 - j * b)
        (q := ((i / g : Nat) : Int)) (r := ((j / g : Nat) : Int))
        ⟨by omega, by nlinarith⟩ ⟨by omega, by nlinarith⟩ (by linarith [he.1])
      have hij : i = j := by
        have q1 := Nat.mod_add_div i g
        have q2 := Nat.mod_add_div j g
        have : i / g = j / g := by exact_mod_cast a2
        rw [← q1, ← q2, hm.1, this]
      subst hij
      rw [hxs]
      congr 1
      omega

end GA
