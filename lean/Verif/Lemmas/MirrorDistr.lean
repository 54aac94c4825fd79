import Verif.Lemmas.MirrorMerge

/-! # Merging a mirrored array into a distributed one, copies between the two kinds -/

namespace GA.Mirror
open Spec Model

theorem inPatch_self {l h x : List Int} (hx : InPatch l h x) : InPatch l h l := by
  induction l generalizing h x with
  | nil => cases h <;> cases x <;> simp_all [InPatch]
  | cons a l ih =>
    match h, x, hx with
    | b :: h, y :: x, hx => exact ⟨⟨by omega, by have := hx.1; omega⟩, ih hx.2⟩

/-- every element of the array has one owner -/
theorem own_iff {A : RegArray} (hA : ArrOK A) {n : Nat} (hn : gridSize A.nblock ≤ n) {x : List Int}
    (hx : InArray A.dims x) : ∃ l0, l0 < n ∧ l0 < gridSize A.nblock ∧ ∀ l : Nat, InPatch (owns A l).1 (owns A l).2 x ↔ l = l0 := by
  obtain ⟨l0, h1, h2, h3, h4, _⟩ := reg_bounds hA hn hx
  refine ⟨l0, h2, h3, fun l => ⟨fun h => ?_, fun h => h ▸ h4⟩⟩
  by_cases hl : l < gridSize A.nblock
  · have := reg_cell hA hl h
    rw [this] at h1
    simp only at h1
    omega
  · have he := reg_outside_empty hA hl
    have hlen := owns_len hA l
    rw [(anyEmpty_false (by omega)).2 (inPatch_self h)] at he
    simp at he

theorem sum_one {V : Type} [AddCommMonoid V] (n : Nat) {l0 : Nat} (h : l0 < n) (v : V) :
    ((List.range n).map fun l => if l = l0 then v else 0).sum = v := by
  induction n with
  | zero => omega
  | succ n ih =>
    rw [List.range_succ, List.map_append, List.sum_append]
    by_cases h0 : l0 = n
    · subst h0
      have : ((List.range l0).map fun l => if l = l0 then v else 0) = (List.range l0).map fun _ => 0 := by
        apply List.map_congr_left
        intro l hl
        rw [if_neg (by have := List.mem_range.1 hl; omega)]
      rw [this]
      simp
    · rw [ih (by omega)]
      simp [Ne.symm h0]

/-! ## Moved patches -/

theorem shiftP_length {b m a : List Int} (h1 : m.length = b.length) (h2 : a.length = b.length) :
    (shiftP b m a).length = b.length := by
  induction b generalizing m a with
  | nil => simp [shiftP]
  | cons b bs ih =>
    match m, a, h1, h2 with
    | m :: ms, a :: as, h1, h2 => simp only [shiftP, List.length_cons]; rw [ih (by simpa using h1) (by simpa using h2)]

theorem bufPos_shiftP {b a m y ld : List Int} (h1 : m.length = b.length) (h2 : a.length = b.length)
    (h3 : y.length = b.length) : bufPos (shiftP b m a) ld y = bufPos m ld (shiftP a y b) := by
  induction b generalizing a m y ld with
  | nil =>
    match m, a, y, h1, h2, h3 with
    | [], [], [], _, _, _ => rfl
  | cons b bs ih =>
    match m, a, y, h1, h2, h3 with
    | m :: ms, a :: as, y :: ys, h1, h2, h3 =>
      simp only [shiftP]
      cases ld with
      | nil => simp only [bufPos]; omega
      | cons d ld =>
        simp only [bufPos]
        rw [ih (by simpa using h1) (by simpa using h2) (by simpa using h3)]
        have : y - (b + m - a) = a + y - b - m := by omega
        rw [this]

theorem inPatch_shiftP {b a ml mh y : List Int} (h1 : ml.length = b.length) (h1' : mh.length = b.length)
    (h2 : a.length = b.length) (h3 : y.length = b.length) :
    InPatch (shiftP b ml a) (shiftP b mh a) y ↔ InPatch ml mh (shiftP a y b) := by
  induction b generalizing a ml mh y with
  | nil =>
    match ml, mh, a, y, h1, h1', h2, h3 with
    | [], [], [], [], _, _, _, _ => simp [shiftP, InPatch]
  | cons b bs ih =>
    match ml, mh, a, y, h1, h1', h2, h3 with
    | m :: ms, m' :: ms', a :: as, y :: ys, h1, h1', h2, h3 =>
      simp only [shiftP, InPatch]
      rw [ih (by simpa using h1) (by simpa using h1') (by simpa using h2) (by simpa using h3)]
      constructor
      · rintro ⟨h, h'⟩; exact ⟨by omega, h'⟩
      · rintro ⟨h, h'⟩; exact ⟨by omega, h'⟩

theorem inPatch_same {alo ahi blo bhi y : List Int} (h1 : alo.length = blo.length) (h2 : ahi.length = blo.length)
    (h3 : bhi.length = blo.length) (h4 : y.length = blo.length) (hs : sameShape alo ahi blo bhi = true) :
    InPatch alo ahi (shiftP alo y blo) ↔ InPatch blo bhi y := by
  induction blo generalizing alo ahi bhi y with
  | nil =>
    match alo, ahi, bhi, y, h1, h2, h3, h4 with
    | [], [], [], [], _, _, _, _ => simp [shiftP, InPatch]
  | cons b bs ih =>
    match alo, ahi, bhi, y, h1, h2, h3, h4 with
    | a :: as, a' :: as', b' :: bs', y :: ys, h1, h2, h3, h4 =>
      simp only [sameShape, Bool.and_eq_true, decide_eq_true_eq] at hs
      simp only [shiftP, InPatch]
      rw [ih (by simpa using h1) (by simpa using h2) (by simpa using h3) (by simpa using h4) hs.2]
      constructor
      · rintro ⟨h, h'⟩; exact ⟨by omega, h'⟩
      · rintro ⟨h, h'⟩; exact ⟨by omega, h'⟩

theorem ldOK_owns {l h : List Int} {w : List Nat} {ml mh : List Int} (hne : l ≠ []) (h1 : h.length = l.length)
    (hw : w.length = l.length) (h2 : InPatch l h ml) (h3 : InPatch l h mh) : LdOK ml mh (ldRem l h w) := by
  induction l generalizing h w ml mh with
  | nil => exact absurd rfl hne
  | cons a l ih =>
    match h, w, ml, mh, h1, hw, h2, h3 with
    | b :: h, w :: ws, m :: ml, m' :: mh, h1, hw, h2, h3 =>
      match l, h, ml, mh, h1, h2, h3 with
      | [], [], [], [], _, _, _ => simp [LdOK, ldRem]
      | a1 :: l, b1 :: h, m1 :: ml, m1' :: mh, h1, h2, h3 =>
        simp only [ldRem, LdOK]
        refine ⟨by have := h2.1; have := h3.1; omega, ?_⟩
        exact ih (by simp) (by simpa using h1) (by simpa using hw) h2.2 h3.2

theorem ldOK_shiftP {b ml mh a ld : List Int} (h1 : ml.length = b.length) (h1' : mh.length = b.length)
    (h2 : a.length = b.length) (h : LdOK ml mh ld) : LdOK (shiftP b ml a) (shiftP b mh a) ld := by
  induction b generalizing ml mh a ld with
  | nil =>
    match ml, h1 with
    | [], _ => simp [LdOK] at h
  | cons b bs ih =>
    match ml, mh, a, h1, h1', h2 with
    | m :: ml, m' :: mh, a :: as, h1, h1', h2 =>
      match bs, ml, mh, as, h1, h1', h2 with
      | [], [], [], [], _, _, _ => 
        cases ld <;> simp_all [LdOK, shiftP]
      | b1 :: bs, m1 :: ml, m1' :: mh, a1 :: as, h1, h1', h2 =>
        cases ld with
        | nil => simp [LdOK] at h
        | cons d ld =>
          simp only [LdOK] at h
          have := ih (a := a1 :: as) (by simpa using h1) (by simpa using h1') (by simpa using h2) h.2
          simp only [shiftP, LdOK] at this ⊢
          exact ⟨by omega, this⟩

theorem disjoint_none {alo ahi lo hi x : List Int} (h : disjointPatch alo ahi lo hi = true) :
    ¬ (InPatch alo ahi x ∧ InPatch lo hi x) := by
  induction alo generalizing ahi lo hi x with
  | nil => simp [disjointPatch] at h
  | cons a alo ih =>
    match ahi, lo, hi, h with
    | [], _, _, h => simp [disjointPatch] at h
    | _ :: _, [], _, h => simp [disjointPatch] at h
    | _ :: _, _ :: _, [], h => simp [disjointPatch] at h
    | b :: ahi, l :: lo, u :: hi, h =>
      cases x with
      | nil => simp [InPatch]
      | cons x xs =>
        simp only [disjointPatch, Bool.or_eq_true, decide_eq_true_eq] at h
        rintro ⟨h1, h2⟩
        simp only [InPatch] at h1 h2
        rcases h with (h | h) | h
        · have := h1.1; have := h2.1; omega
        · have := h1.1; have := h2.1; omega
        · exact ih h ⟨h1.2, h2.2⟩

theorem inPatch_cut {alo ahi lo hi x : List Int} (h1 : ahi.length = alo.length) (h2 : lo.length = alo.length)
    (h3 : hi.length = alo.length) : InPatch (List.zipWith max alo lo) (List.zipWith min ahi hi) x ↔
      InPatch alo ahi x ∧ InPatch lo hi x := by
  induction alo generalizing ahi lo hi x with
  | nil =>
    match ahi, lo, hi, h1, h2, h3 with
    | [], [], [], _, _, _ => cases x <;> simp [InPatch]
  | cons a alo ih =>
    match ahi, lo, hi, h1, h2, h3 with
    | b :: ahi, l :: lo, u :: hi, h1, h2, h3 =>
      cases x with
      | nil => simp [InPatch]
      | cons x xs =>
        simp only [List.zipWith_cons_cons, InPatch]
        rw [ih (by simpa using h1) (by simpa using h2) (by simpa using h3)]
        constructor
        · rintro ⟨h, h', h''⟩
          exact ⟨⟨by omega, h'⟩, by omega, h''⟩
        · rintro ⟨⟨h, h'⟩, h'', h'''⟩
          exact ⟨by omega, h', h'''⟩

theorem inPatch_hi {l h : List Int} (hx : InPatch l h l) : InPatch l h h := by
  induction l generalizing h with
  | nil => cases h <;> simp_all [InPatch]
  | cons a l ih =>
    match h, hx with
    | b :: h, hx => exact ⟨⟨hx.1.2, by omega⟩, ih hx.2⟩

/-! ## The accumulates -/

section
variable {V : Type} [Semiring V] {sizes : List Nat} {A : Nat → RegArray} {dims : List Int}

/-- what process `r` contributes to the element `y` of the distributed array -/
def contrib (sizes : List Nat) (A : Nat → RegArray) (F : Nat → List Int → V) (alo ahi blo : List Int)
    (r : Nat) (y : List Int) : V :=
  if InPatch alo ahi (shiftP alo y blo) ∧
    InPatch (owns (A (nodeOf sizes r)) (localRank sizes r)).1 (owns (A (nodeOf sizes r)) (localRank sizes r)).2 (shiftP alo y blo)
  then F (nodeOf sizes r) (shiftP alo y blo) else 0

theorem distrOp_spec (hA : MirOK sizes A dims) {mA : Addr → V} {F : Nat → List Int → V}
    (hF : ∀ k, k < sizes.length → CopyRepr sizes A k mA (F k)) {alo ahi blo : List Int}
    (hp : PatchOK dims alo ahi) (hb : blo.length = alo.length) {r : Nat} (hr : r < total sizes)
    {ops : List (Op V)} (h : distrOp sizes A mA alo ahi blo r = some ops) :
    (ops = [] ∧ ∀ y, contrib sizes A F alo ahi blo r y = 0) ∨
    ∃ lo hi ld buf, ops = [.acc lo hi ld 1 buf] ∧ LdOK lo hi ld ∧
      ∀ (g : List Int → V) (y : List Int), y.length = blo.length →
        (if InPatch lo hi y then g y + 1 * buf (bufPos lo ld y) else g y) = g y + contrib sizes A F alo ahi blo r y := by
  obtain ⟨r1, r2, r3⟩ := rank_split hr
  obtain ⟨hAk, hnk⟩ := hA.ok _ r3
  have hd := hA.dims _ r3
  have hol := owns_len hAk (localRank sizes r)
  unfold distrOp at h
  generalize hk : nodeOf sizes r = k at *
  generalize hl : localRank sizes r = l at *
  dsimp only at h
  have hpl := hp.1.length
  have hpl2 := inPatch_lengths hp.2.2
  split at h
  · rename_i hdis
    left
    simp only [Option.some.injEq] at h
    refine ⟨h.symm, fun y => ?_⟩
    unfold contrib
    rw [hk, hl, if_neg (disjoint_none hdis)]
  · split at h
    · cases h
    · rename_i hne
      right
      simp only [Option.some.injEq] at h
      have e1 : ahi.length = alo.length := by omega
      have e2 : (owns (A k) l).1.length = alo.length := by rw [hol.1, hd]; omega
      have e3 : (owns (A k) l).2.length = alo.length := by rw [hol.2, hd]; omega
      have hcut := fun x => inPatch_cut (x := x) e1 e2 e3
      have l1 : (List.zipWith max alo (owns (A k) l).1).length = alo.length := by simp [e2]
      have l2 : (List.zipWith min ahi (owns (A k) l).2).length = alo.length := by simp [e1, e3]
      generalize hmlo : List.zipWith max alo (owns (A k) l).1 = mlo at *
      generalize hmhi : List.zipWith min ahi (owns (A k) l).2 = mhi at *
      have hin : InPatch mlo mhi mlo := (anyEmpty_false (by omega)).1 (by simpa using hne)
      have o1 := ((hcut _).1 hin).2
      have o2 := ((hcut _).1 (inPatch_hi hin)).2
      have hlg : l < gridSize (A k).nblock := by
        by_contra hc
        have := reg_outside_empty hAk hc
        rw [(anyEmpty_false (by omega)).2 (inPatch_self o1)] at this
        simp at this
      have hone : (owns (A k) l).1 ≠ [] := by
        intro h0
        rw [h0] at hol
        exact hAk.ne (List.length_eq_zero_iff.1 hol.1.symm)
      refine ⟨_, _, _, _, h.symm, ?_, ?_⟩
      · exact ldOK_shiftP (by omega) (by omega) (by omega)
          (ldOK_owns hone (by omega) (by rw [hAk.width, hol.1]) o1 o2)
      · intro g y hy
        have hiff : InPatch (shiftP blo mlo alo) (shiftP blo mhi alo) y ↔
            InPatch alo ahi (shiftP alo y blo) ∧ InPatch (owns (A k) l).1 (owns (A k) l).2 (shiftP alo y blo) := by
          rw [inPatch_shiftP (by omega) (by omega) (by omega) hy, hcut]
        unfold contrib
        rw [hk, hl]
        by_cases hc : InPatch alo ahi (shiftP alo y blo) ∧ InPatch (owns (A k) l).1 (owns (A k) l).2 (shiftP alo y blo)
        · rw [if_pos (hiff.2 hc), if_pos hc, one_mul, bufPos_shiftP (by omega) (by omega) hy]
          congr 1
          have hxin : InArray (A k).dims (shiftP alo y blo) := by rw [hd]; exact hp.inArray hc.1
          rw [← hF k r3 _ hxin]
          have c1 := reg_cell hAk hlg hc.2
          have c2 := reg_cell hAk hlg o1
          have c3 : cell (A k) mlo = ((l : Int), locOffset (A k) l mlo) := by
            have o1' := o1
            rw [regLocal_mem hAk hlg] at o1'
            have := cell_of_coord hAk (digits_ok hlg) o1'
            rw [undigits_digits hlg] at this
            exact this
          rw [c1]
          have hadd := bufPos_add (s := (owns (A k) l).1) (a := mlo) (x := shiftP alo y blo)
            (ld := ldRem (owns (A k) l).1 (owns (A k) l).2 (A k).width) (by omega)
            (by rw [shiftP_length (by omega) (by omega)]; omega)
          rw [c2, Prod.mk.injEq] at c3
          simp only [shiftA]
          congr 1
          rw [Prod.mk.injEq]
          constructor
          · omega
          · omega
        · rw [if_neg fun h => hc (hiff.1 h), if_neg hc, add_zero]

theorem distrAccs_repr (hA : MirOK sizes A dims) {B : RegArray} (hB : ArrOK B) (hBl : B.dims.length = dims.length)
    {mA : Addr → V} {F : Nat → List Int → V}
    (hF : ∀ k, k < sizes.length → CopyRepr sizes A k mA (F k)) {alo ahi blo : List Int}
    (hp : PatchOK dims alo ahi) (hb : blo.length = alo.length) (order : List (Env × Nat))
    (ho : ∀ e ∈ order, EnvOK e.1 B ∧ e.2 < total sizes) {m m' : Addr → V} {g : List Int → V}
    (hm : Repr B m g) (h : distrAccs sizes A B mA alo ahi blo order m = some m') :
    Repr B m' fun y => g y + (order.map fun e => contrib sizes A F alo ahi blo e.2 y).sum := by
  induction order generalizing m g with
  | nil =>
    simp only [distrAccs, Option.some.injEq] at h
    subst h
    intro y hy
    simp [hm y hy]
  | cons e order ih =>
    obtain ⟨E, r⟩ := e
    have hpl := hp.1.length
    obtain ⟨hE, hr⟩ := ho _ (List.mem_cons_self ..)
    simp only [distrAccs] at h
    cases hop : distrOp sizes A mA alo ahi blo r with
    | none => rw [hop] at h; cases h
    | some ops =>
      rw [hop] at h
      rcases distrOp_spec hA hF hp hb hr hop with ⟨rfl, h0⟩ | ⟨lo, hi, ld, buf, rfl, hld, h1⟩
      · have := ih (fun e he => ho e (by simp [he])) hm h
        intro y hy
        rw [this y hy]
        dsimp only
        rw [List.map_cons, List.sum_cons, h0, zero_add]
      · dsimp only at h
        rw [Option.bind_eq_some_iff] at h
        obtain ⟨m1, h2, h3⟩ := h
        have hm1 : Repr B m1 fun y => g y + contrib sizes A F alo ahi blo r y := by
          have := runOp_repr hB hE (o := .acc lo hi ld 1 buf) hld hm h2
          intro y hy
          rw [this y hy]
          simp only [specStep]
          exact h1 g y (by rw [hy.length]; omega)
        have := ih (fun e he => ho e (by simp [he])) hm1 h3
        intro y hy
        rw [this y hy]
        dsimp only
        rw [List.map_cons, List.sum_cons, add_assoc]

/-- the contributions of all processes to one element -/
theorem contrib_sum (hA : MirOK sizes A dims) (F : Nat → List Int → V) {alo ahi blo : List Int}
    (hp : PatchOK dims alo ahi) (y : List Int) :
    (InPatch alo ahi (shiftP alo y blo) → ((List.range (total sizes)).map fun r => contrib sizes A F alo ahi blo r y).sum =
      ((List.range sizes.length).map fun k => F k (shiftP alo y blo)).sum) ∧
    (¬ InPatch alo ahi (shiftP alo y blo) → ((List.range (total sizes)).map fun r => contrib sizes A F alo ahi blo r y).sum = 0) := by
  constructor
  · intro hin
    rw [sum_nodes]
    congr 1
    apply List.map_congr_left
    intro k hk
    have hk' := List.mem_range.1 hk
    obtain ⟨hAk, hnk⟩ := hA.ok k hk'
    obtain ⟨l0, a1, a2, a3⟩ := own_iff hAk hnk (x := shiftP alo y blo) (by rw [hA.dims k hk']; exact hp.inArray hin)
    rw [← sum_one _ a1 (F k (shiftP alo y blo))]
    congr 1
    apply List.map_congr_left
    intro l hl
    have hl' := List.mem_range.1 hl
    unfold contrib
    rw [(rank_node hl').1, rank_local hl']
    by_cases h : l = l0
    · rw [if_pos ⟨hin, (a3 l).2 h⟩, if_pos h]
    · rw [if_neg fun h' => h ((a3 l).1 h'.2), if_neg h]
  · intro hn
    have : ((List.range (total sizes)).map fun r => contrib sizes A F alo ahi blo r y) = (List.range (total sizes)).map fun _ => 0 := by
      apply List.map_congr_left
      intro r _
      unfold contrib
      rw [if_neg fun h => hn h.1]
    rw [this]
    simp

end

end GA.Mirror
