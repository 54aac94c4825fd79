import Verif.Model.Skip
import Verif.Spec.Skip
import Verif.Lemmas.Pieces

/-! # Lemmas: strided put, get, accumulate -/

namespace GA
open Spec Model

theorem skipLo_spec {l s p : Int} (hs : 1 ≤ s) (hp : l ≤ p) :
    ∃ k, 0 ≤ k ∧ skipLo l s p = l + s * k ∧ p ≤ skipLo l s p ∧ skipLo l s p < p + s := by
  have e : (p - l).tmod s = (p - l) % s := Int.tmod_eq_emod_of_nonneg (by omega)
  have h1 := Int.emod_add_mul_ediv (p - l) s
  have h2 := Int.emod_nonneg (p - l) (by omega : s ≠ 0)
  have h3 := Int.emod_lt_of_pos (p - l) (by omega : 0 < s)
  have h0 : 0 ≤ (p - l) / s := Int.ediv_nonneg (by omega) (by omega)
  unfold skipLo
  rw [e]
  split
  · refine ⟨(p - l) / s + 1, by omega, ?_, by omega, by omega⟩
    rw [Int.mul_add]; omega
  · exact ⟨(p - l) / s, h0, by omega, by omega, by omega⟩

theorem skipHi_spec {l s h : Int} (hs : 1 ≤ s) (hh : l ≤ h) :
    ∃ k, 0 ≤ k ∧ skipHi l s h = l + s * k ∧ skipHi l s h ≤ h ∧ h < skipHi l s h + s := by
  have e : (h - l).tmod s = (h - l) % s := Int.tmod_eq_emod_of_nonneg (by omega)
  have h1 := Int.emod_add_mul_ediv (h - l) s
  have h2 := Int.emod_nonneg (h - l) (by omega : s ≠ 0)
  have h3 := Int.emod_lt_of_pos (h - l) (by omega : 0 < s)
  have h0 : 0 ≤ (h - l) / s := Int.ediv_nonneg (by omega) (by omega)
  unfold skipHi
  rw [e]
  split
  · exact ⟨(h - l) / s, h0, by omega, by omega, by omega⟩
  · exact ⟨(h - l) / s, h0, by omega, by omega, by omega⟩

theorem mul_lt_of {s a b : Int} (hs : 1 ≤ s) (h : s * a < s * b) : a < b :=
  Int.lt_of_mul_lt_mul_left h (by omega)

/-- the selected elements of one axis of a piece -/
theorem axis_sel {l s p h a b : Int} (hs : 1 ≤ s) (ha : skipLo l s p = l + s * a) (hb : skipHi l s h = l + s * b)
    (h1 : p ≤ skipLo l s p) (h2 : skipLo l s p < p + s) (h3 : skipHi l s h ≤ h) (h4 : h < skipHi l s h + s)
    (j : Int) : (p ≤ l + s * j ∧ l + s * j ≤ h) ↔ a ≤ j ∧ j ≤ b := by
  constructor
  · rintro ⟨q1, q2⟩
    constructor
    · have : s * (a - 1) < s * j := by rw [Int.mul_sub]; omega
      have := mul_lt_of hs this; omega
    · have : s * j < s * (b + 1) := by rw [Int.mul_add]; omega
      have := mul_lt_of hs this; omega
  · rintro ⟨q1, q2⟩
    have r1 : s * a ≤ s * j := Int.mul_le_mul_of_nonneg_left q1 (by omega)
    have r2 : s * j ≤ s * b := Int.mul_le_mul_of_nonneg_left q2 (by omega)
    omega

theorem skipCount_eq {s a b l : Int} (hs : 1 ≤ s) (hab : a ≤ b) :
    skipCount s (l + s * a) (l + s * b) = b - a + 1 := by
  have e : l + s * b - (l + s * a) = s * (b - a) := by ring
  unfold skipCount
  rw [e]
  split
  · rw [Int.mul_tdiv_cancel_left _ (by omega)]
  · have : s = 1 := by omega
    subst this; omega

theorem skipDelta_eq {l s k : Int} (hs : 1 ≤ s) : skipDelta l (l + s * k) s = k := by
  unfold skipDelta
  have e : l + s * k - l = s * k := by ring
  rw [e, Int.mul_tmod_right, Int.sub_zero, Int.mul_tdiv_cancel_left _ (by omega)]

/-- elements of a piece with index vector `i` relative to the corrected corner -/
def strided : (plo skip i : List Int) → List Int
  | p :: plo, s :: skip, i :: is => (p + s * i) :: strided plo skip is
  | _, _, _ => []

/-- `a = l + s*k` with `0 ≤ k` in every dimension -/
def OnGrid : (lo skip a : List Int) → Prop
  | l :: lo, s :: skip, a :: as => (∃ k, 0 ≤ k ∧ a = l + s * k) ∧ OnGrid lo skip as
  | [], [], [] => True
  | _, _, _ => False

/-- all skips are positive -/
def SkipOK (skip : List Int) : Prop := ∀ s ∈ skip, 1 ≤ s

/-- The corrected piece: the index vectors of its counts are exactly the selected elements. -/
theorem correct_spec {lo hi skip plo phi : List Int} (hs : SkipOK skip) (hsl : skip.length = lo.length)
    (hp : InPatch plo phi plo) (h1 : InPatch lo hi plo) (h2 : InPatch lo hi phi) :
    (correctSkip lo skip plo phi = none → ∀ x, InPatch plo phi x → ¬ Selected lo hi skip x) ∧
    ∀ qlo qhi, correctSkip lo skip plo phi = some (qlo, qhi) →
      qlo.length = lo.length ∧ OnGrid lo skip qlo ∧
      InPatch (qlo.map fun _ => 0) ((skipCounts skip qlo qhi).map (· - 1)) (qlo.map fun _ => 0) ∧
      (∀ x, (∃ i, InPatch (qlo.map fun _ => 0) ((skipCounts skip qlo qhi).map (· - 1)) i ∧
        x = strided qlo skip i) ↔ InPatch plo phi x ∧ Selected lo hi skip x) := by
  induction lo generalizing hi skip plo phi with
  | nil =>
    match skip, hi, plo, phi, hsl, h1, h2, hp with
    | [], [], [], [], _, _, _, _ =>
      refine ⟨by simp [correctSkip], ?_⟩
      intro qlo qhi h
      simp only [correctSkip, Option.some.injEq, Prod.mk.injEq] at h
      obtain ⟨rfl, rfl⟩ := h
      refine ⟨rfl, trivial, by simp [skipCounts, InPatch], ?_⟩
      intro x
      constructor
      · rintro ⟨i, hi, rfl⟩
        simp [strided, InPatch, Selected]
      · rintro ⟨hx, _⟩
        cases x with
        | nil => exact ⟨[], by simp [skipCounts, InPatch], rfl⟩
        | cons a x => simp [InPatch] at hx
  | cons l lo ih =>
    match skip, hi, plo, phi, hsl, h1, h2, hp with
    | s :: skip, hh :: hi, p :: plo, h :: phi, hsl, h1, h2, hp =>
      obtain ⟨ih1, ih2⟩ := ih (skip := skip) (fun s' h' => hs s' (List.mem_cons_of_mem _ h')) (by simpa using hsl) hp.2 h1.2 h2.2
      have hs1 : 1 ≤ s := hs s (by simp)
      have a1 := h1.1
      have a2 := h2.1
      have a3 := hp.1
      obtain ⟨a, ha0, ha1, ha2, ha3⟩ := skipLo_spec (l := l) (p := p) hs1 a1.1
      obtain ⟨b, hb0, hb1, hb2, hb3⟩ := skipHi_spec (l := l) (h := h) hs1 a2.1
      have hax := axis_sel hs1 ha1 hb1 ha2 ha3 hb2 hb3
      constructor
      · intro hn x hx hsel
        match x, hx, hsel with
        | x :: xs, hx, hsel =>
          obtain ⟨⟨j, hj0, rfl, hj⟩, hsel2⟩ := hsel
          simp only [correctSkip] at hn
          split at hn
          · rename_i hlt
            have := (hax j).1 hx.1
            rw [ha1, hb1] at hlt
            have : s * b < s * a := by omega
            have := mul_lt_of hs1 this
            omega
          · rw [Option.map_eq_none_iff] at hn
            exact ih1 hn xs hx.2 hsel2
      · intro qlo qhi hq
        simp only [correctSkip] at hq
        split at hq
        · simp at hq
        · rename_i hge
          obtain ⟨⟨r1, r2⟩, hr, e⟩ := Option.map_eq_some_iff.1 hq
          simp only [Prod.mk.injEq] at e
          obtain ⟨rfl, rfl⟩ := e
          obtain ⟨j1, j2, j3, j4⟩ := ih2 r1 r2 hr
          have hab : a ≤ b := by
            by_contra hc
            have : s * b < s * a := Int.mul_lt_mul_of_pos_left (by omega) (by omega)
            omega
          have hcnt : skipCount s (skipLo l s p) (skipHi l s h) = b - a + 1 := by
            rw [ha1, hb1, skipCount_eq hs1 hab]
          refine ⟨by simp [j1], ⟨⟨a, ha0, ha1⟩, j2⟩, ?_, ?_⟩
          · simp only [skipCounts, List.map_cons, hcnt]
            exact ⟨by omega, j3⟩
          · intro x
            constructor
            · rintro ⟨i, hi', rfl⟩
              match i, hi' with
              | i :: is, hi' =>
                simp only [skipCounts, List.map_cons, hcnt] at hi'
                obtain ⟨k1, k2⟩ := (j4 _).1 ⟨is, hi'.2, rfl⟩
                have h0 := hi'.1
                have e : skipLo l s p + s * i = l + s * (a + i) := by rw [ha1]; ring
                have := (hax (a + i)).2 ⟨by omega, by omega⟩
                refine ⟨⟨by rw [e]; exact this, k1⟩, ⟨a + i, by omega, e, ?_⟩, k2⟩
                rw [e]; omega
            · rintro ⟨hx, hsel⟩
              match x, hx, hsel with
              | x :: xs, hx, hsel =>
                obtain ⟨⟨j, hj0, rfl, hj⟩, hsel2⟩ := hsel
                obtain ⟨is, hi1, rfl⟩ := (j4 xs).2 ⟨hx.2, hsel2⟩
                have := (hax j).1 hx.1
                refine ⟨(j - a) :: is, ?_, ?_⟩
                · simp only [skipCounts, List.map_cons, hcnt]
                  exact ⟨⟨by omega, by omega⟩, hi1⟩
                · simp only [strided, List.cons.injEq, and_true, ha1]
                  ring

theorem strided_inj {plo skip i j : List Int} (hs : SkipOK skip) (hsl : skip.length = plo.length)
    (h1 : i.length = plo.length) (h2 : j.length = plo.length) (h : strided plo skip i = strided plo skip j) :
    i = j := by
  induction plo generalizing skip i j with
  | nil => simp_all
  | cons p plo ih =>
    match skip, i, j, hsl, h1, h2, h with
    | s :: skip, a :: i, b :: j, hsl, h1, h2, h =>
      simp only [strided, List.cons.injEq] at h
      have hs1 : 1 ≤ s := hs s (by simp)
      have e : s * a = s * b := by omega
      rw [Int.eq_of_mul_eq_mul_left (by omega) e, ih (fun s' h' => hs s' (by simp [h'])) (by simpa using hsl)
        (by simpa using h1) (by simpa using h2) h.2]

theorem findOffset_eq {lo p ld : List Int} (o f : Int) (h1 : p.length = lo.length) (h2 : ld.length + 1 = lo.length) :
    findOffset lo p ld o f = o + f * bufPos lo ld p := by
  induction lo generalizing p ld o f with
  | nil => simp at h2
  | cons l lo ih =>
    match p, ld, h1, h2 with
    | a :: p, [], h1, h2 => simp only [findOffset, bufPos]; ring
    | a :: p, d :: ld, h1, h2 =>
      simp only [findOffset, bufPos]
      rw [ih _ _ (by simpa using h1) (by simpa using h2)]
      ring

/-- remote offsets of the strided elements -/
theorem rem_step {blo qlo skip ldrem i : List Int} (acc : Int) (hb : qlo.length = blo.length)
    (hsl : skip.length = blo.length) (hld : ldrem.length + 1 = blo.length) (hi : i.length = blo.length) :
    acc * bufPos blo ldrem (strided qlo skip i) =
      acc * bufPos blo ldrem qlo + dotI (skipStrideRem acc skip ldrem) i := by
  induction blo generalizing qlo skip ldrem i acc with
  | nil => simp at hld
  | cons b blo ih =>
    match qlo, skip, ldrem, i, hb, hsl, hld, hi with
    | [], _, _, _, hb, _, _, _ => simp at hb
    | q :: qlo, s :: skip, [], i :: is, hb, hsl, hld, hi =>
      have : blo = [] := List.length_eq_zero_iff.1 (by simpa using hld.symm)
      subst this
      simp only [strided, bufPos, skipStrideRem]
      cases is with
      | nil => simp only [dotI]; ring
      | cons a as => simp at hi
    | q :: qlo, s :: skip, d :: ldrem, i :: is, hb, hsl, hld, hi =>
      simp only [strided, bufPos, skipStrideRem, dotI]
      have := ih (qlo := qlo) (skip := skip) (ldrem := ldrem) (i := is) (acc * d) (by simpa using hb)
        (by simpa using hsl) (by simpa using hld) (by simpa using hi)
      linarith [this]

/-- buffer positions of the strided elements -/
theorem loc_step' {lo qlo skip ld i : List Int} (acc : Int) (hg : OnGrid lo skip qlo) (hs : SkipOK skip)
    (hld : ld.length + 1 = lo.length) (hi : i.length = lo.length) :
    acc * skipPos lo skip ld (strided qlo skip i) =
      acc * skipPos lo skip ld qlo + dotI (skipStrideLoc acc ld) i := by
  induction lo generalizing qlo skip ld i acc with
  | nil => simp at hld
  | cons l lo ih =>
    match qlo, skip, ld, i, hg, hld, hi with
    | [], _, _, _, hg, _, _ => simp [OnGrid] at hg
    | _ :: _, [], _, _, hg, _, _ => simp [OnGrid] at hg
    | q :: qlo, s :: skip, [], i :: is, hg, hld, hi =>
      have : lo = [] := List.length_eq_zero_iff.1 (by simpa using hld.symm)
      subst this
      have hs1 : 1 ≤ s := hs s (by simp)
      obtain ⟨⟨k, hk0, rfl⟩, hg2⟩ := hg
      simp only [strided, skipPos, skipStrideLoc]
      have e1 : l + s * k + s * i - l = s * (k + i) := by ring
      have e2 : l + s * k - l = s * k := by ring
      rw [e1, e2, Int.mul_ediv_cancel_left _ (by omega), Int.mul_ediv_cancel_left _ (by omega)]
      cases is with
      | nil => simp only [dotI]; ring
      | cons a as => simp at hi
    | q :: qlo, s :: skip, d :: ld, i :: is, hg, hld, hi =>
      have hs1 : 1 ≤ s := hs s (by simp)
      obtain ⟨⟨k, hk0, rfl⟩, hg2⟩ := hg
      simp only [strided, skipPos, skipStrideLoc, dotI]
      have e1 : l + s * k + s * i - l = s * (k + i) := by ring
      have e2 : l + s * k - l = s * k := by ring
      rw [e1, e2, Int.mul_ediv_cancel_left _ (by omega), Int.mul_ediv_cancel_left _ (by omega)]
      have := ih (qlo := qlo) (skip := skip) (ld := ld) (i := is) (acc * d) hg2
        (fun s' h' => hs s' (by simp [h'])) (by simpa using hld) (by simpa using hi)
      linarith [this]

theorem skipIndexLoop_self {lo q skip ld : List Int} (h : q = lo) (x : Int) :
    skipIndexLoop lo q skip ld x = x := by
  subst h
  induction q generalizing skip ld x with
  | nil => simp [skipIndexLoop]
  | cons l lo ih =>
    match skip, ld with
    | [], _ => simp [skipIndexLoop]
    | _ :: _, [] => simp [skipIndexLoop]
    | s :: skip, d :: ld =>
      simp only [skipIndexLoop]
      rw [ih]
      simp [skipDelta]

theorem skipPos_self {lo skip ld : List Int} : skipPos lo skip ld lo = 0 := by
  induction lo generalizing skip ld with
  | nil => simp [skipPos]
  | cons l lo ih =>
    match skip, ld with
    | [], _ => simp [skipPos]
    | _ :: _, [] => simp [skipPos]
    | s :: skip, d :: ld => simp [skipPos, ih]

/-- The index computation of the code is right if the piece starts at the corner of the patch in
the third and all higher dimensions. -/
theorem skipIndex_eq {lo q skip ld : List Int} (hg : OnGrid lo skip q) (hs : SkipOK skip)
    (hld : ld.length + 1 = lo.length) (h : q.drop 2 = lo.drop 2) : skipIndex lo q skip ld = skipPos lo skip ld q := by
  match lo, q, skip, ld, hg, hld with
  | [], _, _, _, _, hld => simp at hld
  | _ :: _, [], _, _, hg, _ => simp [OnGrid] at hg
  | _ :: _, _ :: _, [], _, hg, _ => simp [OnGrid] at hg
  | [_], _ :: _ :: _, [_], _, hg, _ => simp [OnGrid] at hg
  | [_], _ :: _, _ :: _ :: _, _, hg, _ => simp [OnGrid] at hg
  | _ :: _ :: _, [_], _ :: _, _, hg, _ => simp [OnGrid] at hg
  | _ :: _ :: _, _ :: _, [_], _, hg, _ => simp [OnGrid] at hg
  | [l], [q], [s], [], hg, _ =>
    obtain ⟨⟨k, hk0, rfl⟩, _⟩ := hg
    have hs1 : 1 ≤ s := hs s (by simp)
    simp only [skipIndex, skipIndexLoop, skipPos, skipDelta_eq hs1]
    rw [show l + s * k - l = s * k by ring, Int.mul_ediv_cancel_left _ (by omega)]
  | l :: l' :: lo, q :: q' :: qs, s :: s' :: skip, d :: ld, hg, hld =>
    obtain ⟨⟨k, hk0, rfl⟩, ⟨k', hk0', rfl⟩, _⟩ := hg
    have hs1 : 1 ≤ s := hs s (by simp)
    have hs2 : 1 ≤ s' := hs s' (by simp)
    simp only [List.drop_succ_cons, List.drop_zero] at h
    subst h
    simp only [skipIndex, skipIndexLoop, skipPos, skipDelta_eq hs1, skipDelta_eq hs2]
    rw [skipIndexLoop_self rfl, show l + s * k - l = s * k by ring, Int.mul_ediv_cancel_left _ (by omega)]
    cases ld with
    | nil =>
      simp only [skipPos]
      rw [show l' + s' * k' - l' = s' * k' by ring, Int.mul_ediv_cancel_left _ (by omega)]
    | cons d' ld =>
      simp only [skipPos, skipPos_self]
      rw [show l' + s' * k' - l' = s' * k' by ring, Int.mul_ediv_cancel_left _ (by omega)]
      ring

theorem skipLo_self (l s : Int) : skipLo l s l = l := by
  unfold skipLo; simp

theorem correct_drop {lo skip plo phi qlo qhi : List Int} (n : Nat) (hsl : skip.length = lo.length)
    (h1 : plo.length = lo.length) (h2 : phi.length = lo.length)
    (h : correctSkip lo skip plo phi = some (qlo, qhi)) (hd : plo.drop n = lo.drop n) : qlo.drop n = lo.drop n := by
  induction lo generalizing skip plo phi qlo qhi n with
  | nil =>
    match skip, hsl with
    | [], _ => simp only [correctSkip, Option.some.injEq, Prod.mk.injEq] at h; rw [← h.1]
  | cons l lo ih =>
    match skip, plo, phi, hsl, h1, h2 with
    | s :: skip, p :: plo, hh :: phi, hsl, h1, h2 =>
      simp only [correctSkip] at h
      split at h
      · simp at h
      · obtain ⟨⟨r1, r2⟩, hr, e⟩ := Option.map_eq_some_iff.1 h
        simp only [Prod.mk.injEq] at e
        obtain ⟨rfl, rfl⟩ := e
        cases n with
        | zero =>
          simp only [List.drop_zero, List.cons.injEq] at hd ⊢
          obtain ⟨rfl, hd⟩ := hd
          exact ⟨skipLo_self _ _, ih 0 (by simpa using hsl) (by simpa using h1) (by simpa using h2) hr hd⟩
        | succ n =>
          simp only [List.drop_succ_cons] at hd ⊢
          exact ih n (by simpa using hsl) (by simpa using h1) (by simpa using h2) hr hd

theorem inPatch_hi {lo hi x : List Int} (h : InPatch lo hi x) : InPatch lo hi lo ∧ InPatch lo hi hi := by
  induction lo generalizing hi x with
  | nil => cases hi <;> cases x <;> simp_all [InPatch]
  | cons l lo ih =>
    match hi, x, h with
    | h :: hi, x :: xs, hx =>
      have := hx.1
      exact ⟨⟨by omega, (ih hx.2).1⟩, by omega, (ih hx.2).2⟩

theorem inPatch_thin {lo hi x : List Int} (n : Nat) (h : InPatch lo hi x) (ht : hi.drop n = lo.drop n) :
    x.drop n = lo.drop n := by
  induction lo generalizing hi x n with
  | nil => cases hi <;> cases x <;> simp_all [InPatch]
  | cons l lo ih =>
    match hi, x, h with
    | h :: hi, x :: xs, hx =>
      cases n with
      | zero =>
        simp only [List.drop_zero, List.cons.injEq] at ht ⊢
        have := hx.1
        exact ⟨by omega, ih 0 hx.2 ht.2⟩
      | succ n =>
        simp only [List.drop_succ_cons] at ht ⊢
        exact ih n hx.2 ht

/-- the transfers of one piece -/
theorem skipPiece_moves {loc : List Int → Addr} {lo hi skip ld : List Int} {p : RPiece} (hs : SkipOK skip)
    (hsl : skip.length = lo.length) (hld : ld.length + 1 = lo.length) (hp : PieceOK loc lo hi p)
    (hne : InPatch p.plo p.phi p.plo) (hsub : ∀ x, InPatch p.plo p.phi x → InPatch lo hi x)
    (hthin : hi.drop 2 = lo.drop 2)
    (sel : List Int → Bool) (hsel : ∀ x, sel x = true ↔ Selected lo hi skip x) :
    Moves loc (skipPos lo skip ld) ((box p.plo p.phi).filter sel) (skipPiece none lo skip ld p) := by
  have h1 := hsub _ hne
  have h2 := hsub _ (inPatch_hi hne).2
  obtain ⟨k1, k2⟩ := correct_spec hs hsl hne h1 h2
  unfold skipPiece
  cases hc : correctSkip lo skip p.plo p.phi with
  | none =>
    simp only
    have : (box p.plo p.phi).filter sel = [] := by
      rw [List.filter_eq_nil_iff]
      intro x hx hx'
      exact k1 hc x (mem_box.1 hx) ((hsel x).1 hx')
    rw [this]
    exact List.Perm.refl _
  | some q =>
    obtain ⟨qlo, qhi⟩ := q
    obtain ⟨j1, j2, j3, j4⟩ := k2 qlo qhi hc
    simp only
    rw [loopAll_eq_box ⟨_, j3⟩]
    have hlo1 := h1.length
    have hlo2 := h2.length
    have hix : skipIndex lo qlo skip ld = skipPos lo skip ld qlo :=
      skipIndex_eq j2 hs hld (correct_drop 2 hsl (by omega) (by omega) hc (inPatch_thin 2 h1 hthin))
    have hlen : ∀ i ∈ box (qlo.map fun _ => 0) ((skipCounts skip qlo qhi).map (· - 1)), i.length = lo.length := by
      intro i hi'
      have := (mem_box.1 hi').length.1
      simp only [List.length_map] at this
      omega
    unfold Moves
    have hperm : ((box (qlo.map fun _ => 0) ((skipCounts skip qlo qhi).map (· - 1))).map (strided qlo skip)).Perm
        ((box p.plo p.phi).filter sel) := by
      rw [List.perm_ext_iff_of_nodup]
      · intro x
        simp only [List.mem_map, List.mem_filter, mem_box, hsel]
        rw [← j4 x]
        constructor
        · rintro ⟨i, h, rfl⟩; exact ⟨i, h, rfl⟩
        · rintro ⟨i, h, rfl⟩; exact ⟨i, h, rfl⟩
      · refine List.Nodup.map_on ?_ (nodup_box _ _)
        intro i hi' j hj' e
        exact strided_inj hs (by omega) (by rw [hlen i hi']; omega) (by rw [hlen j hj']; omega) e
      · exact (nodup_box _ _).filter _
    refine List.Perm.trans (List.Perm.of_eq ?_) (hperm.map _)
    rw [List.map_map]
    apply List.map_congr_left
    intro i hi'
    have hil := hlen i hi'
    have hx := ((j4 (strided qlo skip i)).1 ⟨i, mem_box.1 hi', rfl⟩).1
    have hl := hp.ldl
    simp only [Function.comp, Xfer.mk.injEq]
    constructor
    · have := loc_step' (ld := ld) (i := i) 1 j2 hs hld hil
      rw [hix]
      omega
    · rw [← hp.at_ _ hx, findOffset_eq _ _ (by omega) (by omega)]
      have := rem_step (blo := p.plo) (qlo := qlo) (skip := skip) (ldrem := p.ldrem) (i := i) 1 (by omega) (by omega)
        (by omega) (by omega)
      simp only [skipProc, Prod.mk.injEq, true_and]
      omega

/-- Position of the selected elements in the buffer determines the element. -/
theorem skipPos_inj {lo hi skip ld x y : List Int} (hs : SkipOK skip) (h : SkipLdOK lo hi skip ld)
    (hx : Selected lo hi skip x) (hy : Selected lo hi skip y) (he : skipPos lo skip ld x = skipPos lo skip ld y) :
    x = y := by
  induction lo generalizing hi skip ld x y with
  | nil => cases hi <;> cases skip <;> cases ld <;> simp [SkipLdOK] at h
  | cons l lo ih =>
    match lo, hi, skip, ld, x, y, h, hx, hy with
    | [], [hh], [s], [], [x], [y], _, hx, hy =>
      obtain ⟨⟨i, i0, rfl, _⟩, _⟩ := hx
      obtain ⟨⟨j, j0, rfl, _⟩, _⟩ := hy
      have hs1 : 1 ≤ s := hs s (by simp)
      simp only [skipPos] at he
      rw [show l + s * i - l = s * i by ring, show l + s * j - l = s * j by ring,
        Int.mul_ediv_cancel_left _ (by omega), Int.mul_ediv_cancel_left _ (by omega)] at he
      rw [he]
    | l' :: lo, hh :: h' :: hi, s :: s' :: skip, d :: ld, x :: x' :: xs, y :: y' :: ys, h, hx, hy =>
      obtain ⟨⟨i, i0, rfl, i1⟩, hx2⟩ := hx
      obtain ⟨⟨j, j0, rfl, j1⟩, hy2⟩ := hy
      have hs1 : 1 ≤ s := hs s (by simp)
      obtain ⟨hd, h2⟩ := h
      rw [skipPos, skipPos] at he
      rw [show l + s * i - l = s * i by ring, show l + s * j - l = s * j by ring,
        Int.mul_ediv_cancel_left _ (by omega), Int.mul_ediv_cancel_left _ (by omega)] at he
      have bi : i ≤ (hh - l) / s := by rw [Int.le_ediv_iff_mul_le (by omega)]; rw [Int.mul_comm]; omega
      have bj : j ≤ (hh - l) / s := by rw [Int.le_ediv_iff_mul_le (by omega)]; rw [Int.mul_comm]; omega
      obtain ⟨e1, e2⟩ := mod_inj ⟨i0, by omega⟩ ⟨j0, by omega⟩ he
      rw [e1, ih (fun s' h' => hs s' (List.mem_cons_of_mem _ h')) h2 hx2 hy2 e2]

theorem skipLdOK_length {lo hi skip ld : List Int} (h : SkipLdOK lo hi skip ld) :
    skip.length = lo.length ∧ ld.length + 1 = lo.length := by
  induction lo generalizing hi skip ld with
  | nil => cases hi <;> cases skip <;> cases ld <;> simp [SkipLdOK] at h
  | cons l lo ih =>
    match lo, hi, skip, ld, h with
    | [], [hh], [s], [], _ => simp
    | l' :: lo, hh :: h' :: hi, s :: s' :: skip, d :: ld, h =>
      have := ih h.2
      simp only [List.length_cons] at this ⊢
      omega

theorem selected_inPatch {lo hi skip x : List Int} (hs : SkipOK skip) (h : Selected lo hi skip x) :
    InPatch lo hi x := by
  induction lo generalizing hi skip x with
  | nil => cases hi <;> cases skip <;> cases x <;> simp_all [Selected, InPatch]
  | cons l lo ih =>
    match hi, skip, x, h with
    | hh :: hi, s :: skip, x :: xs, h =>
      obtain ⟨⟨i, i0, rfl, i1⟩, h2⟩ := h
      have hs1 : 1 ≤ s := hs s (by simp)
      have : 0 ≤ s * i := Int.mul_nonneg (by omega) i0
      exact ⟨⟨by omega, i1⟩, ih (fun s' h' => hs s' (List.mem_cons_of_mem _ h')) h2⟩

end GA
