import Verif.Model.OneSided
import Verif.Lemmas.Region
import Mathlib.Tactic.Linarith

/-! # Lemmas: transfers, strides, locations -/

namespace GA
open Spec Model

/-- componentwise sum -/
def addL : List Int → List Int → List Int
  | a :: as, b :: bs => (a + b) :: addL as bs
  | _, _ => []

/-- componentwise difference -/
def subL : List Int → List Int → List Int
  | a :: as, b :: bs => (a - b) :: subL as bs
  | _, _ => []

theorem addL_length {a b : List Int} (h : b.length = a.length) : (addL a b).length = a.length := by
  induction a generalizing b with
  | nil => cases b <;> simp_all [addL]
  | cons x a ih => cases b with
    | nil => simp at h
    | cons y b => simp [addL, ih (by simpa using h)]

theorem horner_add {a b ds : List Int} (h : b.length = a.length) :
    horner (addL a b) ds = horner a ds + horner b ds := by
  induction a generalizing b ds with
  | nil => cases b <;> simp_all [addL, horner]
  | cons x a ih => cases b with
    | nil => simp at h
    | cons y b =>
      cases ds with
      | nil => simp [addL, horner]
      | cons d ds => simp only [addL, horner, ih (ds := ds) (by simpa using h)]; ring

/-! ## box shift -/

theorem box_shift {lo hi : List Int} (h : hi.length = lo.length) :
    box lo hi = (box (lo.map fun _ => 0) ((edges lo hi).map (· - 1))).map (addL lo) := by
  induction lo generalizing hi with
  | nil =>
    cases hi with
    | nil => simp [box, addL, edges]
    | cons => simp at h
  | cons l lo ih =>
    cases hi with
    | nil => simp at h
    | cons hh hi =>
      simp only [box, edges, List.map_cons, ih (by simpa using h : hi.length = lo.length),
        List.flatMap_map, List.map_flatMap, List.map_map]
      apply List.flatMap_congr
      intro r _
      simp only [irange, List.map_map]
      have : (hh + 1 - l).toNat = (hh - l + 1 - 1 + 1 - 0).toNat := by omega
      rw [this]
      apply List.map_congr_left
      intro i _
      simp [Function.comp, addL]

theorem pieceOK_iff {lo hi : List Int} (h : hi.length = lo.length) :
    pieceOK lo hi = true ↔ InPatch lo hi lo := by
  induction lo generalizing hi with
  | nil => cases hi <;> simp_all [pieceOK, InPatch]
  | cons l lo ih =>
    cases hi with
    | nil => simp at h
    | cons hh hi =>
      simp only [pieceOK, InPatch, Bool.and_eq_true, decide_eq_true_eq,
        ih (by simpa using h : hi.length = lo.length)]
      constructor
      · rintro ⟨h1, h2⟩; exact ⟨by omega, h2⟩
      · rintro ⟨h1, h2⟩; exact ⟨by omega, h2⟩

theorem loopAll_zero {lo hi : List Int} (h : InPatch lo hi lo) :
    (loopAll (lo.map fun _ => 0) ((edges lo hi).map (· - 1))).map (addL lo) = box lo hi := by
  rw [loopAll_eq_box]
  · rw [← box_shift h.length.2]
  · refine ⟨lo.map fun _ => 0, ?_⟩
    clear * - h
    induction lo generalizing hi with
    | nil => cases hi <;> simp_all [edges, InPatch]
    | cons l lo ih =>
      cases hi with
      | nil => simp [InPatch] at h
      | cons hh hi =>
        simp only [InPatch] at h
        simp only [List.map_cons, edges, InPatch]
        exact ⟨by omega, ih h.2⟩

/-! ## bufPos and strides in Horner form -/

theorem bufPos_eq {lo ld x : List Int} (h1 : x.length = lo.length) (h2 : ld.length + 1 = lo.length) :
    bufPos lo ld x = horner (subL x lo) (ld ++ [0]) := by
  induction lo generalizing ld x with
  | nil => simp at h2
  | cons l lo ih =>
    cases x with
    | nil => simp at h1
    | cons x xs =>
      cases ld with
      | nil => simp [bufPos, subL, horner]
      | cons d ld =>
        simp only [bufPos, subL, List.cons_append, horner]
        rw [ih (by simpa using h1) (by simpa using h2)]

theorem patchIndexLoop_eq {lo plo ld : List Int} (p f : Int) (h1 : plo.length = lo.length)
    (h2 : ld.length = lo.length) :
    patchIndexLoop lo plo ld p f = p + f * horner (0 :: subL plo lo) (ld ++ [0]) := by
  induction lo generalizing plo ld p f with
  | nil =>
    cases plo with
    | cons => simp at h1
    | nil =>
      cases ld with
      | cons => simp at h2
      | nil => simp [patchIndexLoop, horner, subL]
  | cons l lo ih =>
    match plo, ld, h1, h2 with
    | q :: plo, d :: ld, h1, h2 =>
      simp only [patchIndexLoop, subL, List.cons_append, horner]
      rw [ih _ _ (by simpa using h1) (by simpa using h2)]
      cases ld with
      | nil =>
        cases lo with
        | cons => simp at h2
        | nil =>
          cases plo with
          | cons => simp at h1
          | nil => simp [horner, subL]; ring
      | cons d' ld => simp only [horner, List.cons_append]; ring

theorem patchIndex_eq {lo plo ld : List Int} (h1 : plo.length = lo.length)
    (h2 : ld.length + 1 = lo.length) : patchIndex lo plo ld = bufPos lo ld plo := by
  rw [bufPos_eq h1 h2]
  match lo, plo, h1, h2 with
  | l :: lo, p :: plo, h1, h2 =>
    simp only [patchIndex]
    rw [patchIndexLoop_eq _ _ (by simpa using h1) (by simpa using h2)]
    cases ld with
    | nil => simp [horner, subL]
    | cons d ld => simp only [subL, List.cons_append, horner]; ring

theorem dotI_setstride {ld i : List Int} (a : Int) (h : i.length = ld.length) :
    dotI (setstride a ld) i = a * horner (0 :: i) (ld ++ [0]) := by
  induction ld generalizing i a with
  | nil => cases i <;> simp_all [dotI, setstride, horner]
  | cons d ld ih =>
    cases i with
    | nil => simp at h
    | cons i is =>
      simp only [setstride, dotI, List.cons_append, horner]
      rw [ih _ (by simpa using h)]
      cases ld with
      | nil => simp [horner]; ring
      | cons d' ld => simp only [horner, List.cons_append]; ring

theorem strideOff_eq {ld i : List Int} (h : i.length = ld.length + 1) :
    strideOff (setstride 1 ld) i = horner i (ld ++ [0]) := by
  cases i with
  | nil => simp at h
  | cons i is =>
    simp only [strideOff]
    rw [dotI_setstride _ (by simpa using h)]
    cases ld with
    | nil => simp [horner]
    | cons d ld => simp only [horner, List.cons_append]; ring

theorem subL_addL {lo i : List Int} (h : i.length = lo.length) : subL (addL lo i) lo = i := by
  induction lo generalizing i with
  | nil => cases i <;> simp_all [subL, addL]
  | cons l lo ih =>
    cases i with
    | nil => simp at h
    | cons x i => simp [addL, subL, ih (by simpa using h)]

theorem subL_addL' {lo plo i : List Int} (h : i.length = lo.length) (h' : plo.length = lo.length) :
    subL (addL plo i) lo = addL (subL plo lo) i := by
  induction lo generalizing i plo with
  | nil => cases i <;> cases plo <;> simp_all [subL, addL]
  | cons l lo ih =>
    match i, plo, h, h' with
    | x :: i, p :: plo, h, h' =>
      simp only [addL, subL, ih (by simpa using h) (by simpa using h')]
      congr 1; ring

theorem subL_length {a b : List Int} (h : b.length = a.length) : (subL a b).length = a.length := by
  induction a generalizing b with
  | nil => cases b <;> simp_all [subL]
  | cons x a ih => cases b with
    | nil => simp at h
    | cons y b => simp [subL, ih (by simpa using h)]

theorem loop_mem_length {lo hi i : List Int} (h : InPatch lo hi lo)
    (hi' : i ∈ loopAll (lo.map fun _ => 0) ((edges lo hi).map (· - 1))) :
    i.length = lo.length := by
  rw [loopAll_eq_box] at hi'
  · have := (mem_box.1 hi').length
    simp only [List.length_map] at this
    omega
  · refine ⟨lo.map fun _ => 0, ?_⟩
    clear * - h
    induction lo generalizing hi with
    | nil => cases hi <;> simp_all [edges, InPatch]
    | cons l lo ih =>
      cases hi with
      | nil => simp [InPatch] at h
      | cons hh hi =>
        simp only [InPatch] at h
        simp only [List.map_cons, edges, InPatch]
        exact ⟨by omega, ih h.2⟩

/-- The strided transfer of one piece moves exactly the elements of the piece, element `x` from
buffer position `bufPos lo ld x` to remote offset `prem + bufPos plo ldrem x`. -/
theorem xferPiece_eq {lo ld : List Int} {p : RPiece} (hp : InPatch p.plo p.phi p.plo)
    (h1 : p.plo.length = lo.length) (h2 : ld.length + 1 = lo.length)
    (h3 : p.ldrem.length + 1 = lo.length) :
    xferPiece lo ld p = (box p.plo p.phi).map fun x =>
      ⟨bufPos lo ld x, (p.proc, p.prem + bufPos p.plo p.ldrem x)⟩ := by
  rw [← loopAll_zero hp, List.map_map]
  unfold xferPiece
  apply List.map_congr_left
  intro i hi
  have hl := loop_mem_length hp hi
  simp only [Function.comp]
  have ha : (addL p.plo i).length = p.plo.length := addL_length hl
  rw [patchIndex_eq h1 h2, bufPos_eq h1 h2, bufPos_eq (ha.trans h1) h2, bufPos_eq ha (by omega),
    strideOff_eq (by omega), strideOff_eq (by omega), subL_addL hl,
    subL_addL' (by omega) h1, horner_add (by rw [subL_length (by omega)]; exact hl)]

/-! ## injectivity and bounds of Horner forms -/

/-- `0 ≤ z < d` for all but the last component -/
def HB : List Int → List Int → Prop
  | z :: z' :: zs, d :: ds => (0 ≤ z ∧ z < d) ∧ HB (z' :: zs) ds
  | [_], [_] => True
  | _, _ => False

theorem mod_inj {d a b q r : Int} (ha : 0 ≤ a ∧ a < d) (hb : 0 ≤ b ∧ b < d)
    (h : a + d * q = b + d * r) : a = b ∧ q = r := by
  have e1 : (a + d * q) % d = a := by
    rw [Int.add_mul_emod_self_left]; exact Int.emod_eq_of_lt ha.1 ha.2
  have e2 : (b + d * r) % d = b := by
    rw [Int.add_mul_emod_self_left]; exact Int.emod_eq_of_lt hb.1 hb.2
  have hab : a = b := by rw [← e1, ← e2, h]
  subst hab
  refine ⟨rfl, ?_⟩
  have : d * q = d * r := by omega
  exact Int.eq_of_mul_eq_mul_left (by omega) this

theorem horner_inj {a b ds : List Int} (ha : HB a ds) (hb : HB b ds)
    (h : horner a ds = horner b ds) : a = b := by
  induction ds generalizing a b with
  | nil => cases a with
    | nil => simp [HB] at ha
    | cons x a => cases a <;> simp [HB] at ha
  | cons d ds ih =>
    match a, b, ha, hb with
    | x :: x' :: a, y :: y' :: b, ha, hb =>
      simp only [HB] at ha hb
      rw [horner, horner] at h
      obtain ⟨e1, e2⟩ := mod_inj ha.1 hb.1 h
      rw [e1, ih ha.2 hb.2 e2]
    | [x], [y], ha, hb =>
      cases ds with
      | nil => simpa [horner] using h
      | cons => simp [HB] at ha
    | [x], _ :: _ :: _, ha, hb =>
      cases ds with
      | nil => simp [HB] at hb
      | cons => simp [HB] at ha
    | _ :: _ :: _, [x], ha, hb =>
      cases ds with
      | nil => simp [HB] at ha
      | cons => simp [HB] at hb

theorem subL_inj {x y lo : List Int} (h1 : x.length = lo.length) (h2 : y.length = lo.length)
    (h : subL x lo = subL y lo) : x = y := by
  induction lo generalizing x y with
  | nil => simp_all
  | cons l lo ih =>
    match x, y, h1, h2 with
    | a :: x, b :: y, h1, h2 =>
      simp only [subL, List.cons.injEq] at h
      rw [ih (by simpa using h1) (by simpa using h2) h.2]
      have := h.1
      congr 1; omega

theorem Spec.LdOK.length {lo hi ld : List Int} (h : LdOK lo hi ld) :
    hi.length = lo.length ∧ ld.length + 1 = lo.length := by
  match lo, hi, ld, h with
  | [_], [_], [], _ => simp
  | l :: l' :: lo, h :: h' :: hi, d :: ld, hh =>
    simp only [LdOK] at hh
    have := hh.2.length
    simp only [List.length_cons] at this ⊢
    omega

theorem ldok_hb {lo hi ld x : List Int} (h : LdOK lo hi ld) (hx : InPatch lo hi x) :
    HB (subL x lo) (ld ++ [0]) := by
  induction lo generalizing hi ld x with
  | nil => cases hi <;> cases ld <;> simp [LdOK] at h
  | cons l lo ih =>
    match lo, hi, ld, x, h, hx with
    | [], [hh], [], [x], _, _ => simp [subL, HB]
    | l' :: lo, hh :: h' :: hi, d :: ld, x :: x' :: xs, h, hx =>
      simp only [LdOK] at h
      have hx' : InPatch (l' :: lo) (h' :: hi) (x' :: xs) := hx.2
      have := ih h.2 hx'
      simp only [subL, List.cons_append, HB] at this ⊢
      have := hx.1
      exact ⟨by omega, ‹_›⟩
    | [], [hh], [], x :: x' :: xs, _, hx => simp [InPatch] at hx
    | l' :: lo, hh :: h' :: hi, d :: ld, [x], h, hx => simp [InPatch] at hx

/-- distinct elements of a patch have distinct places in the user buffer -/
theorem bufPos_inj {lo hi ld x y : List Int} (h : LdOK lo hi ld) (hx : InPatch lo hi x)
    (hy : InPatch lo hi y) (he : bufPos lo ld x = bufPos lo ld y) : x = y := by
  have l := h.length
  rw [bufPos_eq hx.length.1 l.2, bufPos_eq hy.length.1 l.2] at he
  exact subL_inj hx.length.1 hy.length.1 (horner_inj (ldok_hb h hx) (ldok_hb h hy) he)

/-! ## location of an element in its owner's block -/

/-- `x - lo + w` -/
def locZ : List Int → List Int → List Nat → List Int
  | s :: ss, l :: ls, w :: ws => (s - l + w) :: locZ ss ls ws
  | _, _, _ => []

/-- `hi - lo + 1 + 2*w` -/
def locD : List Int → List Int → List Nat → List Int
  | l :: ls, h :: hs, w :: ws => (h - l + 1 + 2 * w) :: locD ls hs ws
  | _, _, _ => []

theorem locLoop_eq (s l h : List Int) (w : List Nat) (o f : Int) :
    locLoop s l h w o f = o + f * horner (locZ s l w) (locD l h w) := by
  induction s generalizing l h w o f with
  | nil => cases l <;> simp [locLoop, locZ, horner]
  | cons a s ih =>
    match l, h, w with
    | [], _, _ => simp [locLoop, locZ, horner]
    | _ :: _, [], [] => simp [locLoop, locZ, horner]
    | _ :: _, [], _ :: _ => simp [locLoop, locD, horner]
    | _ :: _, _ :: _, [] => simp [locLoop, locZ, horner]
    | l :: ls, h :: hs, w :: ws => simp only [locLoop, locZ, locD, horner, ih]; ring

theorem locD_dropLast {l h : List Int} {w : List Nat} (h1 : h.length = l.length)
    (h2 : w.length = l.length) (hne : l ≠ []) : ∃ d, locD l h w = ldRem l h w ++ [d] := by
  induction l generalizing h w with
  | nil => exact absurd rfl hne
  | cons a l ih =>
    match l, h, w, h1, h2 with
    | [], [b], [c], _, _ => exact ⟨b - a + 1 + 2 * c, by simp [locD, ldRem]⟩
    | a' :: l, b :: b' :: h, c :: w, h1, h2 =>
      obtain ⟨d, hd⟩ := ih (h := b' :: h) (w := w) (by simpa using h1) (by simpa using h2) (by simp)
      exact ⟨d, by simp only [locD, ldRem, List.cons_append] at hd ⊢; rw [hd]⟩

theorem ldRem_length {l h : List Int} {w : List Nat} (h1 : h.length = l.length)
    (h2 : w.length = l.length) (hne : l ≠ []) : (ldRem l h w).length + 1 = l.length := by
  induction l generalizing h w with
  | nil => exact absurd rfl hne
  | cons a l ih =>
    match l, h, w, h1, h2 with
    | [], [b], [c], _, _ => simp [ldRem]
    | a' :: l, b :: b' :: h, c :: w, h1, h2 =>
      have := ih (h := b' :: h) (w := w) (by simpa using h1) (by simpa using h2) (by simp)
      simp only [ldRem, List.length_cons] at this ⊢
      omega

theorem horner_last {z ds : List Int} (a b : Int) (h : z.length = ds.length + 1) :
    horner z (ds ++ [a]) = horner z (ds ++ [b]) := by
  induction ds generalizing z with
  | nil =>
    match z, h with
    | [z], _ => simp [horner]
  | cons d ds ih =>
    cases z with
    | nil => simp at h
    | cons z zs => simp only [List.cons_append, horner, ih (by simpa using h)]

theorem locZ_add {x p l : List Int} {w : List Nat} (h1 : x.length = l.length)
    (h2 : p.length = l.length) (h3 : w.length = l.length) :
    locZ x l w = addL (locZ p l w) (subL x p) := by
  induction l generalizing x p w with
  | nil => cases x <;> cases p <;> simp_all [locZ, addL]
  | cons a l ih =>
    match x, p, w, h1, h2, h3 with
    | x :: xs, p :: ps, w :: ws, h1, h2, h3 =>
      simp only [locZ, subL, addL]
      rw [ih (by simpa using h1) (by simpa using h2) (by simpa using h3)]
      congr 1; ring

theorem locZ_length {x l : List Int} {w : List Nat} (h1 : x.length = l.length)
    (h2 : w.length = l.length) : (locZ x l w).length = l.length := by
  induction l generalizing x w with
  | nil => simp_all [locZ]
  | cons a l ih =>
    match x, w, h1, h2 with
    | x :: xs, w :: ws, h1, h2 => simp [locZ, ih (x := xs) (w := ws) (by simpa using h1) (by simpa using h2)]

/-- moving from the corner of a piece to one of its elements inside the owner's block -/
theorem loc_step {x p l h : List Int} {w : List Nat} (h1 : x.length = l.length)
    (h2 : p.length = l.length) (h3 : w.length = l.length) (h4 : h.length = l.length) (hne : l ≠ []) :
    locLoop p l h w 0 1 + bufPos p (ldRem l h w) x = locLoop x l h w 0 1 := by
  obtain ⟨d, hd⟩ := locD_dropLast h4 h3 hne
  have hlr := ldRem_length h4 h3 hne
  rw [locLoop_eq, locLoop_eq, bufPos_eq (by omega) (by omega), locZ_add h1 h2 h3,
    horner_add (by rw [subL_length (by omega), locZ_length h2 h3]; exact h1), hd,
    horner_last 0 d (by rw [subL_length (by omega)]; omega)]
  ring

/-- all components bounded -/
def FB : List Int → List Int → Prop
  | z :: zs, d :: ds => (0 ≤ z ∧ z < d) ∧ FB zs ds
  | [], [] => True
  | _, _ => False

theorem fb_bound {z d : List Int} (h : FB z d) : 0 ≤ horner z d ∧ horner z d < prodI d := by
  induction d generalizing z with
  | nil => cases z <;> simp_all [FB, horner, prodI]
  | cons d ds ih =>
    cases z with
    | nil => simp [FB] at h
    | cons z zs =>
      simp only [FB] at h
      obtain ⟨a, b⟩ := ih h.2
      simp only [horner, prodI]
      constructor
      · have := Int.mul_nonneg (by omega : 0 ≤ d) a; omega
      · nlinarith [h.1.1, h.1.2]

theorem fb_inj {a b ds : List Int} (ha : FB a ds) (hb : FB b ds) (h : horner a ds = horner b ds) :
    a = b := by
  induction ds generalizing a b with
  | nil => cases a <;> cases b <;> simp_all [FB]
  | cons d ds ih =>
    match a, b, ha, hb with
    | x :: a, y :: b, ha, hb =>
      simp only [FB] at ha hb
      obtain ⟨e1, e2⟩ := mod_inj ha.1 hb.1 h
      rw [e1, ih ha.2 hb.2 e2]

theorem loc_fb {l h x : List Int} {w : List Nat} (hx : InPatch l h x) (hw : w.length = l.length) :
    FB (locZ x l w) (locD l h w) := by
  induction l generalizing h x w with
  | nil => cases h <;> cases x <;> cases w <;> simp_all [locZ, locD, FB, InPatch]
  | cons a l ih =>
    match h, x, w, hx, hw with
    | b :: h, x :: xs, w :: ws, hx, hw =>
      simp only [InPatch] at hx
      simp only [locZ, locD, FB]
      exact ⟨by omega, ih hx.2 (by simpa using hw)⟩
    | [], _, _, hx, _ => simp [InPatch] at hx
    | _ :: _, [], _, hx, _ => simp [InPatch] at hx

theorem locZ_inj {x y l : List Int} {w : List Nat} (h1 : x.length = l.length)
    (h2 : y.length = l.length) (h3 : w.length = l.length) (h : locZ x l w = locZ y l w) : x = y := by
  induction l generalizing x y w with
  | nil => simp_all
  | cons a l ih =>
    match x, y, w, h1, h2, h3 with
    | x :: xs, y :: ys, w :: ws, h1, h2, h3 =>
      simp only [locZ, List.cons.injEq] at h
      rw [ih (by simpa using h1) (by simpa using h2) (by simpa using h3) h.2]
      congr 1; have := h.1; omega

theorem allocLoop_eq (l h : List Int) (w : List Nat) : allocLoop l h w = prodI (locD l h w) := by
  induction l generalizing h w with
  | nil => simp [allocLoop, locD, prodI]
  | cons a l ih =>
    match h, w with
    | [], _ => simp [allocLoop, locD, prodI]
    | _ :: _, [] => simp [allocLoop, locD, prodI]
    | b :: h, w :: ws => simp [allocLoop, locD, prodI, ih]

/-! ## effect of a list of transfers -/

section effect
variable {V : Type} {α : Type} [DecidableEq α]

theorem foldl_upd_miss {τ} (ts : List τ) (key : τ → α) (val : (α → V) → τ → V) (m : α → V) (a : α)
    (h : ∀ t ∈ ts, key t ≠ a) : ts.foldl (fun m t => upd m (key t) (val m t)) m a = m a := by
  induction ts generalizing m with
  | nil => rfl
  | cons t ts ih =>
    simp only [List.foldl_cons]
    rw [ih _ fun t' h' => h t' (by simp [h'])]
    unfold upd
    rw [if_neg (fun e => h t (by simp) e.symm)]

theorem foldl_upd_hit {τ} (ts : List τ) (key : τ → α) (val : (α → V) → τ → V) (m : α → V) (t : τ)
    (ht : t ∈ ts) (hnd : (ts.map key).Nodup)
    (hval : ∀ m m' : α → V, m (key t) = m' (key t) → val m t = val m' t) :
    ts.foldl (fun m t => upd m (key t) (val m t)) m (key t) = val m t := by
  induction ts generalizing m with
  | nil => simp at ht
  | cons s ts ih =>
    simp only [List.map_cons, List.nodup_cons] at hnd
    simp only [List.foldl_cons]
    rcases List.mem_cons.1 ht with rfl | ht
    · rw [foldl_upd_miss]
      · simp [upd]
      · intro t' h' e
        exact hnd.1 (List.mem_map.2 ⟨t', h', e⟩)
    · rw [ih _ ht hnd.2]
      apply hval
      unfold upd
      rw [if_neg]
      intro e
      exact hnd.1 (List.mem_map.2 ⟨t, ht, e⟩)

end effect

/-- A list of transfers implements the patch `lo..hi` with buffer layout `ld` and element
locations `loc`. -/
def Implements (loc : List Int → Addr) (lo hi ld : List Int) (ts : List Xfer) : Prop :=
  ts.Perm ((box lo hi).map fun x => ⟨bufPos lo ld x, loc x⟩)

section impl
variable {V : Type} {loc : List Int → Addr} {lo hi ld : List Int} {ts : List Xfer}

theorem Implements.addr_nodup (h : Implements loc lo hi ld ts)
    (hinj : ∀ x y, InPatch lo hi x → InPatch lo hi y → loc x = loc y → x = y) :
    (ts.map Xfer.addr).Nodup := by
  have := (h.map Xfer.addr).nodup_iff
  rw [this, List.map_map]
  refine List.Nodup.map_on ?_ (nodup_box lo hi)
  intro x hx y hy e
  exact hinj x y (mem_box.1 hx) (mem_box.1 hy) e

theorem Implements.buf_nodup (h : Implements loc lo hi ld ts) (hld : LdOK lo hi ld) :
    (ts.map Xfer.buf).Nodup := by
  have := (h.map Xfer.buf).nodup_iff
  rw [this, List.map_map]
  refine List.Nodup.map_on ?_ (nodup_box lo hi)
  intro x hx y hy e
  exact bufPos_inj hld (mem_box.1 hx) (mem_box.1 hy) e

theorem Implements.mem (h : Implements loc lo hi ld ts) {x : List Int} (hx : InPatch lo hi x) :
    (⟨bufPos lo ld x, loc x⟩ : Xfer) ∈ ts :=
  h.mem_iff.2 (List.mem_map.2 ⟨x, mem_box.2 hx, rfl⟩)

theorem Implements.of_mem (h : Implements loc lo hi ld ts) {t : Xfer} (ht : t ∈ ts) :
    ∃ x, InPatch lo hi x ∧ t = ⟨bufPos lo ld x, loc x⟩ := by
  obtain ⟨x, hx, rfl⟩ := List.mem_map.1 (h.mem_iff.1 ht)
  exact ⟨x, mem_box.1 hx, rfl⟩

theorem put_hit (h : Implements loc lo hi ld ts)
    (hinj : ∀ x y, InPatch lo hi x → InPatch lo hi y → loc x = loc y → x = y)
    (buf : Int → V) (mem : Addr → V) {x : List Int} (hx : InPatch lo hi x) :
    applyPut ts buf mem (loc x) = buf (bufPos lo ld x) := by
  have := foldl_upd_hit ts Xfer.addr (fun _ t => buf t.buf) mem _ (h.mem hx) (h.addr_nodup hinj)
    (fun _ _ _ => rfl)
  exact this

theorem put_miss (h : Implements loc lo hi ld ts) (buf : Int → V) (mem : Addr → V) {a : Addr}
    (ha : ∀ x, InPatch lo hi x → loc x ≠ a) : applyPut ts buf mem a = mem a := by
  apply foldl_upd_miss ts Xfer.addr (fun _ t => buf t.buf)
  intro t ht
  obtain ⟨x, hx, rfl⟩ := h.of_mem ht
  exact ha x hx

theorem acc_hit [Add V] [Mul V] (h : Implements loc lo hi ld ts)
    (hinj : ∀ x y, InPatch lo hi x → InPatch lo hi y → loc x = loc y → x = y) (alpha : V)
    (buf : Int → V) (mem : Addr → V) {x : List Int} (hx : InPatch lo hi x) :
    applyAcc ts alpha buf mem (loc x) = mem (loc x) + alpha * buf (bufPos lo ld x) := by
  have := foldl_upd_hit ts Xfer.addr (fun m t => m t.addr + alpha * buf t.buf) mem _ (h.mem hx)
    (h.addr_nodup hinj) (fun m m' e => by simp only at e ⊢; rw [e])
  exact this

theorem acc_miss [Add V] [Mul V] (h : Implements loc lo hi ld ts) (alpha : V) (buf : Int → V)
    (mem : Addr → V) {a : Addr} (ha : ∀ x, InPatch lo hi x → loc x ≠ a) :
    applyAcc ts alpha buf mem a = mem a := by
  apply foldl_upd_miss ts Xfer.addr (fun m t => m t.addr + alpha * buf t.buf)
  intro t ht
  obtain ⟨x, hx, rfl⟩ := h.of_mem ht
  exact ha x hx

theorem get_hit (h : Implements loc lo hi ld ts) (hld : LdOK lo hi ld)
    (buf : Int → V) (mem : Addr → V) {x : List Int} (hx : InPatch lo hi x) :
    applyGet ts mem buf (bufPos lo ld x) = mem (loc x) := by
  have := foldl_upd_hit ts Xfer.buf (fun _ t => mem t.addr) buf _ (h.mem hx) (h.buf_nodup hld)
    (fun _ _ _ => rfl)
  exact this

theorem get_miss (h : Implements loc lo hi ld ts) (buf : Int → V) (mem : Addr → V) {i : Int}
    (ha : ∀ x, InPatch lo hi x → bufPos lo ld x ≠ i) : applyGet ts mem buf i = buf i := by
  apply foldl_upd_miss ts Xfer.buf (fun _ t => mem t.addr)
  intro t ht
  obtain ⟨x, hx, rfl⟩ := h.of_mem ht
  exact ha x hx

end impl

/-- the two passes visit every piece once -/
theorem twoPass_perm (f : Int → Bool) (ps : List RPiece) : (twoPass f ps).Perm ps := by
  unfold twoPass
  induction ps with
  | nil => simp
  | cons p ps ih =>
    cases hf : f p.proc
    · simpa [hf] using ih
    · simp only [List.filter_cons, hf, Bool.not_true, Bool.false_eq_true, if_false, if_true]
      exact List.perm_middle.trans (ih.cons p)

/-- Pieces whose elements lie at `loc` and which partition the patch implement it. -/
theorem xfers_implements {loc : List Int → Addr} {lo hi ld : List Int} {ps : List RPiece}
    (f : Int → Bool) (hld : ld.length + 1 = lo.length)
    (hcov : (ps.flatMap fun p => box p.plo p.phi).Perm (box lo hi))
    (hp : ∀ p ∈ ps, InPatch p.plo p.phi p.plo ∧ p.plo.length = lo.length ∧
      p.ldrem.length + 1 = lo.length ∧
      ∀ x, InPatch p.plo p.phi x → (p.proc, p.prem + bufPos p.plo p.ldrem x) = loc x) :
    Implements loc lo hi ld (xfers f lo ld ps) := by
  unfold Implements xfers
  refine ((twoPass_perm f ps).flatMap_right _).trans ?_
  have e : ps.flatMap (xferPiece lo ld) =
      (ps.flatMap fun p => box p.plo p.phi).map fun x => (⟨bufPos lo ld x, loc x⟩ : Xfer) := by
    rw [List.map_flatMap]
    apply List.flatMap_congr
    intro p hp'
    obtain ⟨a, b, c, d⟩ := hp p hp'
    rw [xferPiece_eq a b hld c]
    apply List.map_congr_left
    intro x hx
    rw [d x (mem_box.1 hx)]
  rw [e]
  exact hcov.map _

/-- an element of a legal patch is an element of the array -/
theorem Spec.PatchOK.inArray {dims lo hi x : List Int} (h : PatchOK dims lo hi)
    (hx : InPatch lo hi x) : InArray dims x := by
  have h1 := h.1
  have h2 := h.2.1
  clear h
  induction dims generalizing lo hi x with
  | nil =>
    cases lo with
    | cons => simp [InArray, InPatch] at h1
    | nil => cases hi <;> cases x <;> simp_all [InArray, InPatch]
  | cons d dims ih =>
    match lo, hi, x, h1, h2, hx with
    | l :: lo, h :: hi, x :: xs, h1, h2, hx =>
      have h1' : (1 ≤ l ∧ l ≤ d) ∧ InArray dims lo := h1
      have h2' : (1 ≤ h ∧ h ≤ d) ∧ InArray dims hi := h2
      have hx' : (l ≤ x ∧ x ≤ h) ∧ InPatch lo hi xs := hx
      have : (1 ≤ x ∧ x ≤ d) ∧ InArray dims xs := ⟨by omega, ih hx'.2 h1'.2 h2'.2⟩
      exact this
    | [], _, _, h1, _, _ => simp [InArray, InPatch] at h1
    | _ :: _, [], _, _, h2, _ => simp [InArray, InPatch] at h2
    | _ :: _, _ :: _, [], _, _, hx => simp [InPatch] at hx

end GA
