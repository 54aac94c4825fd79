import Verif.Model.Copy
import Verif.Spec.Copy
import Verif.Lemmas.Odometer
import Mathlib.Tactic.LinearCombination

/-! # Lemmas: subscripts of a copy with a change of shape -/

namespace GA
open Spec Model

theorem minusL_eq (x l : List Int) : minusL x l = subL x l := by
  induction x generalizing l with
  | nil => cases l <;> rfl
  | cons x xs ih =>
    cases l with
    | nil => rfl
    | cons l ls => simp only [minusL, subL, ih]

theorem colRank_eq {lo hi x : List Int} (h : InPatch lo hi x) :
    colRank lo hi x = horner (subL x lo) (edges lo hi) := by
  induction lo generalizing hi x with
  | nil => cases hi <;> cases x <;> simp_all [colRank, horner, subL]
  | cons l lo ih =>
    match hi, x, h with
    | h :: hi, x :: xs, hx => simp only [colRank, subL, edges, horner, ih hx.2]

theorem inPatch_fb {lo hi x : List Int} (h : InPatch lo hi x) : FB (subL x lo) (edges lo hi) := by
  induction lo generalizing hi x with
  | nil => cases hi <;> cases x <;> simp_all [InPatch, FB, subL, edges]
  | cons l lo ih =>
    match hi, x, h with
    | h :: hi, x :: xs, hx =>
      have := hx.1
      exact ⟨by omega, ih hx.2⟩

theorem fb_inPatch {lo hi z : List Int} (hl : hi.length = lo.length) (h : FB z (edges lo hi)) :
    InPatch lo hi (addL lo z) := by
  induction lo generalizing hi z with
  | nil => cases hi <;> cases z <;> simp_all [InPatch, FB, addL, edges]
  | cons l lo ih =>
    match hi, z, hl, h with
    | k :: hi, z :: zs, hl, h =>
      have := h.1
      exact ⟨by omega, ih (by simpa using hl) h.2⟩

theorem addL_subL {x lo : List Int} (h : x.length = lo.length) : addL lo (subL x lo) = x := by
  induction lo generalizing x with
  | nil => cases x <;> simp_all [addL]
  | cons l lo ih =>
    match x, h with
    | x :: xs, h =>
      simp only [subL, addL, ih (x := xs) (by simpa using h)]
      congr 1; omega

/-! ## digits -/

theorem unlin_eq (i : Int) {ds ls : List Int} (h : ds.length = ls.length) :
    unlin i ds ls = addL ls (odo ds i) := by
  induction ls generalizing i ds with
  | nil => cases ds <;> simp_all [unlin, addL]
  | cons l ls ih =>
    match ds, h with
    | d :: ds, h =>
      simp only [unlin, odo, addL, ih (i / d) (ds := ds) (by simpa using h)]
      congr 1; omega

theorem odo_fb {es : List Int} (i : Int) (he : ∀ e ∈ es, 0 < e) : FB (odo es i) es := by
  induction es generalizing i with
  | nil => trivial
  | cons e es ih =>
    have h0 := he e (by simp)
    exact ⟨⟨Int.emod_nonneg _ (by omega), Int.emod_lt_of_pos _ h0⟩, ih _ fun e h => he e (by simp [h])⟩

theorem odo_horner {es z : List Int} (h : FB z es) : odo es (horner z es) = z := by
  induction es generalizing z with
  | nil => cases z <;> simp_all [FB, odo]
  | cons e es ih =>
    match z, h with
    | z :: zs, h =>
      have h1 := h.1
      simp only [odo, horner]
      rw [Int.add_mul_emod_self_left, Int.emod_eq_of_lt h1.1 h1.2,
        Int.add_mul_ediv_left _ _ (by omega), Int.ediv_eq_zero_of_lt h1.1 h1.2, Int.zero_add, ih h.2]

theorem horner_odo {es : List Int} {i : Int} (he : ∀ e ∈ es, 0 < e) (h0 : 0 ≤ i) (h1 : i < prodI es) :
    horner (odo es i) es = i := by
  induction es generalizing i with
  | nil => simp only [prodI] at h1; simp only [odo, horner]; omega
  | cons e es ih =>
    have he0 := he e (by simp)
    have h2 : i / e < prodI es := by
      apply Int.ediv_lt_of_lt_mul he0
      simp only [prodI] at h1
      rw [Int.mul_comm]; exact h1
    simp only [odo, horner]
    rw [ih (fun e h => he e (by simp [h])) (Int.ediv_nonneg h0 (by omega)) h2]
    have := Int.mul_ediv_add_emod i e
    omega

/-! ## factors -/

theorem dotI_bUnits (z es : List Int) (a : Int) (h : z.length = es.length) :
    dotI z (bUnits a es) = a * horner z es := by
  induction es generalizing z a with
  | nil => cases z <;> simp [bUnits, dotI, horner]
  | cons e es ih =>
    match z, h with
    | z :: zs, h =>
      simp only [bUnits, dotI, horner, ih zs (a * e) (by simpa using h)]
      ring

theorem dotI_append (a b c d : List Int) (h : a.length = c.length) :
    dotI (a ++ b) (c ++ d) = dotI a c + dotI b d := by
  induction a generalizing c with
  | nil => cases c <;> simp_all [dotI]
  | cons x a ih =>
    match c, h with
    | y :: c, h => simp only [List.cons_append, dotI, ih c (by simpa using h)]; ring

theorem dotI_reverse (a b : List Int) (h : a.length = b.length) :
    dotI a.reverse b.reverse = dotI a b := by
  induction a generalizing b with
  | nil => cases b <;> simp_all [dotI]
  | cons x a ih =>
    match b, h with
    | y :: b, h =>
      rw [List.reverse_cons, List.reverse_cons, dotI_append _ _ _ _ (by simpa using h),
        ih b (by simpa using h)]
      simp only [dotI]; ring

theorem bUnits_length (a : Int) (es : List Int) : (bUnits a es).length = es.length := by
  induction es generalizing a with
  | nil => rfl
  | cons e es ih => simp [bUnits, ih]

theorem subL_append (a b c d : List Int) (h : a.length = c.length) :
    subL (a ++ b) (c ++ d) = subL a c ++ subL b d := by
  induction a generalizing c with
  | nil => cases c <;> simp_all [subL]
  | cons x a ih =>
    match c, h with
    | y :: c, h => simp only [List.cons_append, subL, ih c (by simpa using h)]

theorem subL_reverse (a b : List Int) (h : a.length = b.length) :
    subL a.reverse b.reverse = (subL a b).reverse := by
  induction a generalizing b with
  | nil => cases b <;> simp_all [subL]
  | cons x a ih =>
    match b, h with
    | y :: b, h =>
      rw [List.reverse_cons, List.reverse_cons, subL_append _ _ _ _ (by simpa using h),
        ih b (by simpa using h)]
      simp [subL]

theorem edges_append (a b c d : List Int) (h : a.length = c.length) :
    edges (a ++ b) (c ++ d) = edges a c ++ edges b d := by
  induction a generalizing c with
  | nil => cases c <;> simp_all [edges]
  | cons x a ih =>
    match c, h with
    | y :: c, h => simp only [List.cons_append, edges, ih c (by simpa using h)]

theorem edges_reverse (a b : List Int) (h : a.length = b.length) :
    edges a.reverse b.reverse = (edges a b).reverse := by
  induction a generalizing b with
  | nil => cases b <;> simp_all [edges]
  | cons x a ih =>
    match b, h with
    | y :: b, h =>
      rw [List.reverse_cons, List.reverse_cons, edges_append _ _ _ _ (by simpa using h),
        ih b (by simpa using h)]
      simp [edges]

theorem inPatch_append {a b c x y z : List Int} (h : InPatch a b c) (h' : InPatch x y z) :
    InPatch (a ++ x) (b ++ y) (c ++ z) := by
  induction a generalizing b c with
  | nil => cases b <;> cases c <;> simp_all [InPatch]
  | cons u a ih =>
    match b, c, h with
    | _ :: b, _ :: c, h => exact ⟨h.1, ih h.2⟩

theorem inPatch_reverse {lo hi x : List Int} (h : InPatch lo hi x) :
    InPatch lo.reverse hi.reverse x.reverse := by
  induction lo generalizing hi x with
  | nil => cases hi <;> cases x <;> simp_all [InPatch]
  | cons u lo ih =>
    match hi, x, h with
    | _ :: hi, _ :: x, h =>
      simp only [List.reverse_cons]
      exact inPatch_append (ih h.2) ⟨h.1, trivial⟩

theorem prodI_append (a b : List Int) : prodI (a ++ b) = prodI a * prodI b := by
  induction a with
  | nil => simp [prodI]
  | cons x a ih => simp only [List.cons_append, prodI, ih]; ring

theorem prodI_reverse (a : List Int) : prodI a.reverse = prodI a := by
  induction a with
  | nil => rfl
  | cons x a ih => rw [List.reverse_cons, prodI_append, ih]; simp only [prodI]; ring

theorem inPatch_lengths {lo hi x : List Int} (h : InPatch lo hi x) :
    hi.length = lo.length ∧ x.length = lo.length := by
  induction lo generalizing hi x with
  | nil => cases hi <;> cases x <;> simp_all [InPatch]
  | cons u lo ih =>
    match hi, x, h with
    | _ :: hi, _ :: x, h => simpa using ih h.2

/-! ## the target of an element -/

/-- the number of an element of the source patch -/
def srcRank (tr : Bool) (lo hi x : List Int) : Int :=
  if tr then rowRank lo hi x else colRank lo hi x

theorem srcRank_bound (tr : Bool) {lo hi x : List Int} (h : InPatch lo hi x) :
    0 ≤ srcRank tr lo hi x ∧ srcRank tr lo hi x < prodI (edges lo hi) := by
  have hl := inPatch_lengths h
  cases tr
  · simp only [srcRank, Bool.false_eq_true, if_false]
    rw [colRank_eq h]
    exact fb_bound (inPatch_fb h)
  · simp only [srcRank, if_true, rowRank]
    have h' := inPatch_reverse h
    rw [colRank_eq h']
    have := fb_bound (inPatch_fb h')
    rw [edges_reverse _ _ hl.1.symm, prodI_reverse] at this
    rw [edges_reverse _ _ hl.1.symm]
    exact this

theorem srcRank_inj (tr : Bool) {lo hi x y : List Int} (hx : InPatch lo hi x) (hy : InPatch lo hi y)
    (h : srcRank tr lo hi x = srcRank tr lo hi y) : x = y := by
  have key : ∀ {lo hi x y : List Int}, InPatch lo hi x → InPatch lo hi y →
      colRank lo hi x = colRank lo hi y → x = y := by
    intro lo hi x y hx hy h
    rw [colRank_eq hx, colRank_eq hy] at h
    have := fb_inj (inPatch_fb hx) (inPatch_fb hy) h
    exact subL_inj (inPatch_lengths hx).2 (inPatch_lengths hy).2 this
  cases tr
  · exact key hx hy (by simpa [srcRank] using h)
  · have := key (inPatch_reverse hx) (inPatch_reverse hy) (by simpa [srcRank, rowRank] using h)
    exact List.reverse_injective this

/-- `copyDst` with the bounds of the patches -/
def tgt (tr : Bool) (alo ahi blo bhi x : List Int) : List Int :=
  copyDst tr alo (extents alo ahi) blo (extents blo bhi) x

theorem tgt_eq (tr : Bool) {alo ahi blo bhi x : List Int} (h : InPatch alo ahi x)
    (hb : bhi.length = blo.length) :
    tgt tr alo ahi blo bhi x = addL blo (odo (edges blo bhi) (srcRank tr alo ahi x)) := by
  have hl := inPatch_lengths h
  have hel := edges_len (lo := alo) (hi := ahi) hl.1
  have hsl : (subL x alo).length = alo.length := by rw [subL_length hl.2.symm, hl.2]
  unfold tgt copyDst
  rw [extents_eq, extents_eq, minusL_eq, unlin_eq _ (edges_len hb)]
  congr 2
  cases tr
  · simp only [copyFactors, Bool.false_eq_true, if_false, srcRank]
    rw [dotI_bUnits _ _ _ (by omega), colRank_eq h]; ring
  · simp only [copyFactors, if_true, srcRank, rowRank]
    rw [← dotI_reverse _ _ (by rw [List.length_reverse, bUnits_length, List.length_reverse]; omega),
      List.reverse_reverse, dotI_bUnits _ _ _ (by simp; omega), colRank_eq (inPatch_reverse h),
      edges_reverse _ _ hl.1.symm, subL_reverse _ _ hl.2]
    ring

theorem tgt_in (tr : Bool) {alo ahi blo bhi x : List Int} (h : InPatch alo ahi x)
    (hb : InPatch blo bhi blo) : InPatch blo bhi (tgt tr alo ahi blo bhi x) := by
  have hl := inPatch_lengths hb
  rw [tgt_eq tr h hl.1]
  exact fb_inPatch hl.1 (odo_fb _ (edgesL_pos hb))

theorem tgt_rank (tr : Bool) {alo ahi blo bhi x : List Int} (h : InPatch alo ahi x)
    (hb : InPatch blo bhi blo) (hc : prodI (edges alo ahi) = prodI (edges blo bhi)) :
    colRank blo bhi (tgt tr alo ahi blo bhi x) = srcRank tr alo ahi x := by
  have hl := inPatch_lengths hb
  rw [colRank_eq (tgt_in tr h hb), tgt_eq tr h hl.1, subL_addL]
  · have := srcRank_bound tr h
    exact horner_odo (edgesL_pos hb) this.1 (by omega)
  · have := odo_fb (es := edges blo bhi) (srcRank tr alo ahi x) (edgesL_pos hb)
    have hlen : ∀ (z d : List Int), FB z d → z.length = d.length := by
      intro z
      induction z with
      | nil => intro d h; cases d <;> simp_all [FB]
      | cons a z ih =>
        intro d h
        match d, h with
        | _ :: d, h => simpa using ih d h.2
    rw [hlen _ _ this, edges_len hl.1]

/-- the target is the element at the same place -/
theorem tgt_unique (tr : Bool) {alo ahi blo bhi x y : List Int} (h : InPatch alo ahi x)
    (hb : InPatch blo bhi y) (hc : prodI (edges alo ahi) = prodI (edges blo bhi))
    (hs : SamePlace tr alo ahi blo bhi x y) : tgt tr alo ahi blo bhi x = y := by
  have hb' := inPatch_lower hb
  apply srcRank_inj false (tgt_in tr h hb') hb
  simp only [srcRank, Bool.false_eq_true, if_false]
  rw [tgt_rank tr h hb' hc]
  exact hs

theorem tgt_same (tr : Bool) {alo ahi blo bhi x : List Int} (h : InPatch alo ahi x)
    (hb : InPatch blo bhi blo) (hc : prodI (edges alo ahi) = prodI (edges blo bhi)) :
    SamePlace tr alo ahi blo bhi x (tgt tr alo ahi blo bhi x) := (tgt_rank tr h hb hc).symm

theorem tgt_inj (tr : Bool) {alo ahi blo bhi x y : List Int} (hx : InPatch alo ahi x)
    (hy : InPatch alo ahi y) (hb : InPatch blo bhi blo)
    (hc : prodI (edges alo ahi) = prodI (edges blo bhi))
    (h : tgt tr alo ahi blo bhi x = tgt tr alo ahi blo bhi y) : x = y := by
  apply srcRank_inj tr hx hy
  rw [← tgt_rank tr hx hb hc, ← tgt_rank tr hy hb hc, h]

/-- every element of the destination patch has a source -/
theorem tgt_surj (tr : Bool) {alo ahi blo bhi y : List Int} (ha : InPatch alo ahi alo)
    (hy : InPatch blo bhi y) (hc : prodI (edges alo ahi) = prodI (edges blo bhi)) :
    ∃ x, InPatch alo ahi x ∧ SamePlace tr alo ahi blo bhi x y := by
  have hl := inPatch_lengths ha
  have hb := srcRank_bound false hy
  simp only [srcRank, Bool.false_eq_true, if_false] at hb
  have key : ∀ {lo hi : List Int}, InPatch lo hi lo → ∀ i, 0 ≤ i → i < prodI (edges lo hi) →
      ∃ x, InPatch lo hi x ∧ colRank lo hi x = i := by
    intro lo hi h i h0 h1
    have hl := inPatch_lengths h
    have hf := odo_fb (es := edges lo hi) i (edgesL_pos h)
    have hin := fb_inPatch hl.1 hf
    refine ⟨_, hin, ?_⟩
    have : InPatch lo hi (addL lo (odo (edges lo hi) i)) := hin
    rw [colRank_eq hin, subL_addL, horner_odo (edgesL_pos h) h0 h1]
    have hol : ∀ (es : List Int) (i : Int), (odo es i).length = es.length := by
      intro es
      induction es with
      | nil => intro i; rfl
      | cons e es ih => intro i; simp [odo, ih]
    rw [hol, edges_len hl.1]
  cases tr
  · obtain ⟨x, h1, h2⟩ := key ha (colRank blo bhi y) hb.1 (by omega)
    exact ⟨x, h1, by simpa [SamePlace] using h2⟩
  · have hr := inPatch_reverse ha
    obtain ⟨x, h1, h2⟩ := key hr (colRank blo bhi y) hb.1
      (by rw [edges_reverse _ _ hl.1.symm, prodI_reverse]; omega)
    refine ⟨x.reverse, ?_, ?_⟩
    · have := inPatch_reverse h1
      rwa [List.reverse_reverse, List.reverse_reverse] at this
    · simpa [SamePlace, rowRank] using h2

theorem box_tgt (tr : Bool) {alo ahi blo bhi : List Int} (ha : InPatch alo ahi alo)
    (hb : InPatch blo bhi blo) (hc : prodI (edges alo ahi) = prodI (edges blo bhi)) :
    ((box alo ahi).map (tgt tr alo ahi blo bhi)).Perm (box blo bhi) := by
  rw [List.perm_ext_iff_of_nodup _ (nodup_box _ _)]
  · intro y
    rw [List.mem_map, mem_box]
    constructor
    · rintro ⟨x, hx, rfl⟩
      exact tgt_in tr (mem_box.1 hx) hb
    · intro hy
      obtain ⟨x, h1, h2⟩ := tgt_surj tr ha hy hc
      exact ⟨x, mem_box.2 h1, tgt_unique tr h1 hy hc h2⟩
  · exact List.Nodup.map_on (fun x hx y hy e => tgt_inj tr (mem_box.1 hx) (mem_box.1 hy) hb hc e)
      (nodup_box _ _)

/-! ## the list of source subscripts -/

theorem srcNext_eq (i : Int) {us ls hs bs : List Int} (h1 : us.length = ls.length)
    (h2 : hs.length = ls.length) (h3 : bs.length = ls.length) :
    srcNext i us ls hs (addL ls bs) = addL ls (bNext i us (edges ls hs) bs) := by
  induction ls generalizing us hs bs with
  | nil => cases us <;> cases hs <;> cases bs <;> simp_all [srcNext, addL]
  | cons l ls ih =>
    match us, hs, bs, h1, h2, h3 with
    | u :: us, h :: hs, b :: bs, h1, h2, h3 =>
      simp only [addL, edges, srcNext, bNext]
      rw [ih (by simpa using h1) (by simpa using h2) (by simpa using h3)]
      congr 1
      unfold srcNext1 bNext1
      by_cases hm : (i + 1) % u = 0
      · simp only [if_pos hm]
        split <;> split <;> omega
      · simp only [if_neg hm]
        split <;> split <;> omega

theorem odo_length (es : List Int) (i : Int) : (odo es i).length = es.length := by
  induction es generalizing i with
  | nil => rfl
  | cons e es ih => simp [odo, ih]

theorem srcLoop_odo {ls hs : List Int} (h : InPatch ls hs ls) (n i : Nat) :
    srcLoop (bUnits 1 (edges ls hs)) ls hs n i (addL ls (odo (edges ls hs) i)) =
      (List.range' i n).map fun k : Nat => addL ls (odo (edges ls hs) k) := by
  have hl := inPatch_lengths h
  induction n generalizing i with
  | zero => rfl
  | succ n ih =>
    rw [srcLoop, List.range'_succ, List.map_cons]
    rw [srcNext_eq _ (by rw [bUnits_length, edges_len hl.1]) hl.1 (by rw [odo_length, edges_len hl.1])]
    have hb := bNext_odo 1 (i : Int) (by omega) (edgesL_pos h) (by omega)
    rw [Int.ediv_one, Int.ediv_one] at hb
    have hc : (i : Int) + 1 = ((i + 1 : Nat) : Int) := by omega
    rw [hb, hc, ih (i + 1)]

theorem addL_zeros (ls es : List Int) (h : es.length = ls.length) :
    addL ls (es.map fun _ => 0) = ls := by
  induction ls generalizing es with
  | nil => cases es <;> simp_all [addL]
  | cons l ls ih =>
    match es, h with
    | e :: es, h => simp only [List.map_cons, addL, ih es (by simpa using h)]; simp

/-- `src_idx_ptr` lists the elements of the part in column order -/
theorem srcLoop_box {ls hs : List Int} (h : InPatch ls hs ls) :
    srcLoop (bUnits 1 (extents ls hs)) ls hs (prodI (extents ls hs)).toNat 0 ls = box ls hs := by
  have hl := inPatch_lengths h
  rw [extents_eq]
  have h0 := srcLoop_odo h (prodI (edges ls hs)).toNat 0
  rw [show ((0 : Nat) : Int) = 0 from rfl, odo_zero, addL_zeros _ _ (edges_len hl.1)] at h0
  rw [h0, box_shift hl.1, ← List.range_eq_range']
  have hz : (ls.map fun _ => (0 : Int)) = (edges ls hs).map fun _ => 0 := by
    have := edges_len (lo := ls) (hi := hs) hl.1
    apply List.ext_getElem
    · simp [this]
    · intro i _ _; simp
  rw [hz, ← odo_box (edgesL_pos h), List.map_map]
  rfl

theorem dataFactors_eq {lo x ld : List Int} (h1 : x.length = lo.length) (h2 : ld.length + 1 = lo.length) :
    dotI x (dataFactors ld) - dotI lo (dataFactors ld) = bufPos lo ld x := by
  unfold dataFactors
  match lo, x, h1, h2 with
  | l :: lo, x :: xs, h1, h2 =>
    have key : ∀ (ld xs lo : List Int) (a l x : Int), xs.length = lo.length → ld.length = lo.length →
        (x * a + dotI xs (setstride a ld)) - (l * a + dotI lo (setstride a ld)) =
          a * bufPos (l :: lo) ld (x :: xs) := by
      intro ld
      induction ld with
      | nil =>
        intro xs lo a l x h1 h2
        match lo, xs, h1, h2 with
        | [], [], _, _ => simp only [dotI, bufPos]; ring
      | cons d ld ih =>
        intro xs lo a l x h1 h2
        match lo, xs, h1, h2 with
        | l' :: lo, x' :: xs, h1, h2 =>
          have := ih xs lo (a * d) l' x' (by simpa using h1) (by simpa using h2)
          simp only [setstride, dotI, bufPos] at this ⊢
          linear_combination this
    have := key ld xs lo 1 l x (by simpa using h1) (by simpa using h2)
    simp only [dotI]
    linarith

/-! ## copies without a change of shape -/

theorem testShape_iff {alo ahi blo bhi : List Int} (ha : ahi.length = alo.length)
    (hb : bhi.length = blo.length) :
    testShape alo ahi blo bhi = true ↔ edges alo ahi = edges blo bhi := by
  induction alo generalizing ahi blo bhi with
  | nil =>
    match ahi, ha with
    | [], _ =>
      match blo, bhi, hb with
      | [], [], _ => simp [testShape, edges]
      | _ :: _, _ :: _, _ => simp [testShape, edges]
  | cons l alo ih =>
    match ahi, ha with
    | h :: ahi, ha =>
      match blo, bhi, hb with
      | [], [], _ => simp [testShape, edges]
      | b :: blo, k :: bhi, hb =>
        simp only [testShape, edges, Bool.and_eq_true, decide_eq_true_eq,
          ih (ahi := ahi) (blo := blo) (bhi := bhi) (by simpa using ha) (by simpa using hb), List.cons.injEq]
        constructor
        · rintro ⟨a, b⟩; exact ⟨by omega, b⟩
        · rintro ⟨a, b⟩; exact ⟨by omega, b⟩

theorem linIdx_eq (x lo es : List Int) (i f : Int) :
    linIdx x lo es i f = i + f * horner (subL x lo) es := by
  induction x generalizing lo es i f with
  | nil => cases lo <;> cases es <;> simp [linIdx, subL, horner]
  | cons x xs ih =>
    cases lo with
    | nil => cases es <;> simp [linIdx, subL, horner]
    | cons l lo =>
      cases es with
      | nil => simp [linIdx, subL, horner]
      | cons e es => simp only [linIdx, subL, horner, ih]; ring

/-- with equal shapes the target is a shift -/
theorem destIndices_eq {alo ahi blo bhi x : List Int} (hx : InPatch alo ahi x)
    (hb : bhi.length = blo.length) (hs : edges alo ahi = edges blo bhi) :
    destIndices x alo (extents alo ahi) blo (extents blo bhi) = addL blo (subL x alo) ∧
    tgt false alo ahi blo bhi x = addL blo (subL x alo) := by
  have hl := inPatch_lengths hx
  have hf := inPatch_fb hx
  constructor
  · unfold destIndices
    rw [extents_eq, extents_eq, linIdx_eq, unlin_eq _ (edges_len hb), ← hs, Int.zero_add, Int.one_mul,
      odo_horner hf]
  · rw [tgt_eq false hx hb]
    simp only [srcRank, Bool.false_eq_true, if_false]
    rw [colRank_eq hx, ← hs, odo_horner hf]

theorem box_addsub {l h a b : List Int} (h1 : h.length = l.length) (h2 : a.length = l.length)
    (h3 : b.length = l.length) :
    box (addL b (subL l a)) (addL b (subL h a)) = (box l h).map fun x => addL b (subL x a) := by
  induction l generalizing h a b with
  | nil =>
    match h, a, b, h1, h2, h3 with
    | [], [], [], _, _, _ => simp [box, addL, subL]
  | cons l ls ih =>
    match h, a, b, h1, h2, h3 with
    | h :: hs, a :: as, b :: bs, h1, h2, h3 =>
      simp only [subL, addL, box]
      rw [ih (by simpa using h1) (by simpa using h2) (by simpa using h3), List.flatMap_map,
        List.map_flatMap]
      apply List.flatMap_congr
      intro r _
      simp only [irange, List.map_map]
      have : (b + (h - a) + 1 - (b + (l - a))).toNat = (h + 1 - l).toNat := by omega
      rw [this]
      apply List.map_congr_left
      intro i _
      simp only [Function.comp_apply, subL, addL]
      congr 1; omega

theorem bufPos_addsub {l x a b ld : List Int} (h1 : x.length = l.length) (h2 : a.length = l.length)
    (h3 : b.length = l.length) :
    bufPos (addL b (subL l a)) ld (addL b (subL x a)) = bufPos l ld x := by
  induction l generalizing x a b ld with
  | nil =>
    match x, a, b, h1, h2, h3 with
    | [], [], [], _, _, _ => simp [bufPos, addL, subL]
  | cons l ls ih =>
    match x, a, b, h1, h2, h3 with
    | x :: xs, a :: as, b :: bs, h1, h2, h3 =>
      cases ld with
      | nil => simp only [subL, addL, bufPos]; ring
      | cons d ld =>
        simp only [subL, addL, bufPos]
        rw [ih (by simpa using h1) (by simpa using h2) (by simpa using h3)]
        ring

end GA
