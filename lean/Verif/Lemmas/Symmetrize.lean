import Verif.Lemmas.Matrix

/-! # Lemmas: `gai_add` of GA_Symmetrize -/

namespace GA
open Spec Model

theorem symInner_eq {off2 j : Int} {nrow ncol : Nat} (hj : 0 ≤ j ∧ j < off2) (hc : 0 < ncol) (n : Nat) :
    ∀ (k r c : Nat), k = r * ncol + c → c ≤ ncol → k + n ≤ nrow * ncol →
    symInner (off2 * nrow) off2 (off2 * nrow * ncol) j n (j + off2 * r + off2 * nrow * c) (j + off2 * k) r =
      (List.range' k n).map fun k : Nat => (j + off2 * (k / ncol : Nat) + off2 * nrow * (k % ncol : Nat), j + off2 * k) := by
  induction n with
  | zero => intros; rfl
  | succ n ih =>
    intro k r c hk hcn hle
    have hoff : 0 < off2 := by omega
    rw [List.range'_succ, List.map_cons]
    unfold symInner
    by_cases hlt : c < ncol
    · have hr : r < nrow := by
        by_contra h
        have : nrow * ncol ≤ r * ncol := Nat.mul_le_mul_right _ (by omega)
        omega
      have hd : k / ncol = r := by
        rw [hk, Nat.mul_comm, Nat.mul_add_div hc, Nat.div_eq_of_lt hlt]; rfl
      have hm : k % ncol = c := by
        rw [hk, Nat.mul_comm, Nat.mul_add_mod, Nat.mod_eq_of_lt hlt]
      have hnot : ¬ (j + off2 * r + off2 * nrow * c ≥ off2 * nrow * ncol) := by
        have e1 : off2 * (r : Int) ≤ off2 * ((nrow : Int) - 1) := Int.mul_le_mul_of_nonneg_left (by omega) (by omega)
        have e2 : off2 * (nrow : Int) * (c : Int) ≤ off2 * nrow * ((ncol : Int) - 1) :=
          Int.mul_le_mul_of_nonneg_left (by omega) (Int.mul_nonneg (by omega) (by omega))
        rw [Int.mul_sub, Int.mul_one] at e1 e2
        omega
      rw [if_neg hnot, hd, hm]
      congr 1
      have := ih (k + 1) r (c + 1) (by omega) (by omega) (by omega)
      rw [← this]
      congr 1 <;> push_cast <;> ring
    · have hce : c = ncol := by omega
      subst hce
      have hge : j + off2 * r + off2 * nrow * c ≥ off2 * nrow * c := by
        have : 0 ≤ off2 * (r : Int) := Int.mul_nonneg (by omega) (by omega)
        omega
      have hd : k / c = r + 1 := by
        rw [hk, show r * c + c = c * (r + 1) by ring, Nat.mul_div_cancel_left _ hc]
      have hm : k % c = 0 := by
        rw [hk, show r * c + c = c * (r + 1) by ring, Nat.mul_mod_right]
      rw [if_pos hge, hd, hm]
      congr 1
      · congr 1
        push_cast; ring
      · have := ih (k + 1) (r + 1) 1 (by rw [hk]; ring) (by omega) (by omega)
        rw [← this]
        congr 1 <;> push_cast <;> ring

theorem horner_append {s e s' e' : List Int} (h : s.length = e.length) :
    horner (s ++ s') (e ++ e') = horner s e + prodI e * horner s' e' := by
  induction s generalizing e with
  | nil =>
    cases e with
    | nil => cases s' <;> cases e' <;> simp [horner, prodI]
    | cons => simp at h
  | cons x s ih =>
    cases e with
    | nil => simp at h
    | cons y e =>
      simp only [List.cons_append, horner, prodI]
      rw [ih (by simpa using h)]
      ring

theorem swapLast_eq (p : List Int) (x y : Int) : swapLast (p ++ [x, y]) = p ++ [y, x] := by
  simp [swapLast]

/-- a list with at least two elements -/
theorem last2 {l : List Int} (h : 2 ≤ l.length) : ∃ p x y, l = p ++ [x, y] := by
  obtain ⟨y, r, hr⟩ := List.exists_cons_of_length_pos (l := l.reverse) (by simp; omega)
  obtain ⟨x, q, hq⟩ := List.exists_cons_of_length_pos (l := r) (by
    have := congrArg List.length hr; simp at this; omega)
  refine ⟨q.reverse, x, y, ?_⟩
  have := congrArg List.reverse hr
  rw [hq] at this
  simpa using this

theorem inPatch_split {a b c x y z : List Int} (ha : b.length = a.length) (hc : c.length = a.length) :
    InPatch (a ++ x) (b ++ y) (c ++ z) ↔ InPatch a b c ∧ InPatch x y z := by
  induction a generalizing b c with
  | nil =>
    have h1 := List.length_eq_zero_iff.1 ha
    have h2 := List.length_eq_zero_iff.1 hc
    subst h1 h2
    simp [InPatch]
  | cons u a ih =>
    match b, c, ha, hc with
    | b1 :: b, c1 :: c, ha, hc =>
      simp only [List.cons_append, InPatch]
      rw [ih (by simpa using ha) (by simpa using hc)]
      simp only [and_assoc]

theorem inPatch_last2 {lp hp : List Int} {l1 l2 h1 h2 : Int} (hl : hp.length = lp.length) {x : List Int} :
    InPatch (lp ++ [l1, l2]) (hp ++ [h1, h2]) x ↔
      ∃ xp i j, x = xp ++ [i, j] ∧ InPatch lp hp xp ∧ l1 ≤ i ∧ i ≤ h1 ∧ l2 ≤ j ∧ j ≤ h2 := by
  constructor
  · intro h
    have hlen := (inPatch_lengths h).2
    obtain ⟨xp, i, j, rfl⟩ := last2 (l := x) (by rw [hlen]; simp)
    have hxp : xp.length = lp.length := by simpa using hlen
    rw [inPatch_split hl hxp, inPatch2] at h
    obtain ⟨h0, i', j', e, c⟩ := h
    simp only [List.cons.injEq, and_true] at e
    exact ⟨xp, i, j, rfl, h0, by omega, by omega, by omega, by omega⟩
  · rintro ⟨xp, i, j, rfl, h0, c1, c2, c3, c4⟩
    rw [inPatch_split hl (inPatch_lengths h0).2, inPatch2]
    exact ⟨h0, i, j, rfl, c1, c2, c3, c4⟩

section
variable {lp hp : List Int} {l1 l2 h1 h2 : Int}

theorem fb_sub {lo hi x : List Int} (h : InPatch lo hi x) : FB (subL x lo) (edges lo hi) := by
  induction lo generalizing hi x with
  | nil => cases hi <;> cases x <;> simp_all [InPatch, subL, edges, FB]
  | cons l lo ih =>
    match hi, x, h with
    | k :: hi, y :: x, h =>
      refine ⟨⟨?_, ?_⟩, ih h.2⟩ <;> have := h.1 <;> omega

theorem pos_last2 (hl : hp.length = lp.length) {xp : List Int} {i j : Int} (hx : InPatch lp hp xp)
    (c : l1 ≤ i ∧ i ≤ h1 ∧ l2 ≤ j ∧ j ≤ h2) :
    bufPos (lp ++ [l1, l2]) (edges (lp ++ [l1, l2]) (hp ++ [h1, h2])).dropLast (xp ++ [i, j]) =
      horner (subL xp lp) (edges lp hp) + prodI (edges lp hp) * ((i - l1) + (h1 - l1 + 1) * (j - l2)) := by
  have hxl := (inPatch_lengths hx).2
  rw [bufPos_tight ((inPatch_last2 hl).2 ⟨xp, i, j, rfl, hx, c⟩) (by simp), edges_append _ _ _ _ hl.symm,
    subL_append _ _ _ _ hxl, horner_append (by rw [edges_len hl]; rw [subL_length] <;> omega)]
  simp only [subL, edges, horner]
  ring

/-- the pairs of `gai_add`: position of `x` in the block and of the transposed subscript in the buffer -/
theorem symOffs_perm {lo hi : List Int} (h2l : 2 ≤ lo.length) (h : InPatch lo hi lo) :
    ∃ l, symOffs (extents lo hi) = some l ∧ l.Perm ((box lo hi).map fun x =>
      (bufPos lo (edges lo hi).dropLast x,
       bufPos (swapLast lo) (edges (swapLast lo) (swapLast hi)).dropLast (swapLast x))) := by
  have hlen := inPatch_lengths h
  obtain ⟨lp, l1, l2, rfl⟩ := last2 h2l
  obtain ⟨hp, h1, h2, rfl⟩ := last2 (l := hi) (by omega)
  have hl : hp.length = lp.length := by have := hlen.1; simp at this; omega
  obtain ⟨xp0, i0, j0, e0, hp0, c0⟩ := (inPatch_last2 hl).1 h
  have hpos : 0 < prodI (edges lp hp) := by
    have := fb_bound (fb_sub hp0)
    omega
  rw [extents_eq]
  have hes : edges (lp ++ [l1, l2]) (hp ++ [h1, h2]) = edges lp hp ++ [h1 - l1 + 1, h2 - l2 + 1] := by
    rw [edges_append _ _ _ _ hl.symm]; rfl
  obtain ⟨nrow, hnr⟩ := Int.eq_ofNat_of_zero_le (a := h1 - l1 + 1) (by omega)
  obtain ⟨ncol, hnc⟩ := Int.eq_ofNat_of_zero_le (a := h2 - l2 + 1) (by omega)
  have e0' := List.append_inj' e0 rfl
  simp only [List.cons.injEq, and_true] at e0'
  have hn0 : 0 < nrow := by omega
  have hc0 : 0 < ncol := by omega
  obtain ⟨off, hoff⟩ := Int.eq_ofNat_of_zero_le (a := prodI (edges lp hp)) (by omega)
  have hprod : prodI (edges (lp ++ [l1, l2]) (hp ++ [h1, h2])) = (off : Int) * nrow * ncol := by
    rw [hes, prodI_append, hoff, hnr, hnc]; simp only [prodI]; ring
  have hsym : symOffs (edges (lp ++ [l1, l2]) (hp ++ [h1, h2])) = some ((List.range off).flatMap fun j : Nat =>
      (List.range (nrow * ncol)).map fun k : Nat =>
        ((j : Int) + (off : Int) * (k / ncol : Nat) + (off : Int) * nrow * (k % ncol : Nat), (j : Int) + (off : Int) * k)) := by
    have hrev : (edges (lp ++ [l1, l2]) (hp ++ [h1, h2])).reverse = (ncol : Int) :: (nrow : Int) :: (edges lp hp).reverse := by
      rw [hes, hnr, hnc]; simp
    unfold symOffs
    rw [hrev, hprod]
    simp only [prodI_reverse, hoff, Option.some.injEq, Int.toNat_natCast]
    rw [List.flatMap_def, List.flatMap_def]
    congr 1
    apply List.map_congr_left
    intro j hj
    have hj := List.mem_range.1 hj
    have := symInner_eq (off2 := off) (j := j) (nrow := nrow) (ncol := ncol) (by omega) hc0 (nrow * ncol) 0 0 0 (by omega)
      (by omega) (by omega)
    simp only [Nat.cast_zero, Int.mul_zero, Int.add_zero] at this
    rw [show ((nrow : Int) * ncol).toNat = nrow * ncol by rw [← Int.natCast_mul, Int.toNat_natCast]]
    have hz : symInner (↑off * ↑nrow) (↑off) (↑off * ↑nrow * ↑ncol) (↑j) (nrow * ncol) (↑j) (↑j) 0 =
        symInner (↑off * ↑nrow) (↑off) (↑off * ↑nrow * ↑ncol) (↑j) (nrow * ncol) (↑j) (↑j) ((0 : Nat) : Int) := rfl
    first
      | rw [this, List.range_eq_range']
      | (rw [hz, this, List.range_eq_range'])
  refine ⟨_, hsym, ?_⟩
  symm
  have hne : lp ++ [l1, l2] ≠ [] := by simp
  have htight := box_tight h hne
  have hnd : ((box (lp ++ [l1, l2]) (hp ++ [h1, h2])).map fun x =>
      (bufPos (lp ++ [l1, l2]) (edges (lp ++ [l1, l2]) (hp ++ [h1, h2])).dropLast x,
       bufPos (swapLast (lp ++ [l1, l2])) (edges (swapLast (lp ++ [l1, l2])) (swapLast (hp ++ [h1, h2]))).dropLast
        (swapLast x))).Nodup := by
    apply List.Nodup.of_map Prod.fst
    rw [List.map_map]
    have : (Prod.fst ∘ fun x =>
      (bufPos (lp ++ [l1, l2]) (edges (lp ++ [l1, l2]) (hp ++ [h1, h2])).dropLast x,
       bufPos (swapLast (lp ++ [l1, l2])) (edges (swapLast (lp ++ [l1, l2])) (swapLast (hp ++ [h1, h2]))).dropLast
        (swapLast x))) = bufPos (lp ++ [l1, l2]) (edges (lp ++ [l1, l2]) (hp ++ [h1, h2])).dropLast := rfl
    rw [this, htight]
    exact List.nodup_range.map fun a b h => by simpa using h
  refine (List.subperm_of_subset hnd ?_).perm_of_length_le ?_
  · intro w hw
    obtain ⟨x, hx, rfl⟩ := List.mem_map.1 hw
    obtain ⟨xp, i, j, rfl, hxp, c⟩ := (inPatch_last2 hl).1 (mem_box.1 hx)
    have hb := fb_bound (fb_sub hxp)
    obtain ⟨u, hu⟩ := Int.eq_ofNat_of_zero_le hb.1
    obtain ⟨r, hr⟩ := Int.eq_ofNat_of_zero_le (a := i - l1) (by omega)
    obtain ⟨q, hq⟩ := Int.eq_ofNat_of_zero_le (a := j - l2) (by omega)
    have hrn : r < nrow := by omega
    have hqn : q < ncol := by omega
    refine List.mem_flatMap.2 ⟨u, List.mem_range.2 (by omega), List.mem_map.2 ⟨q + ncol * r, List.mem_range.2 ?_, ?_⟩⟩
    · have : ncol * r + ncol ≤ nrow * ncol := by
        rw [Nat.mul_comm nrow, ← Nat.mul_succ]
        exact Nat.mul_le_mul_left _ hrn
      omega
    · have d1 : (q + ncol * r) / ncol = r := by
        rw [Nat.add_mul_div_left _ _ hc0, Nat.div_eq_of_lt hqn, Nat.zero_add]
      have d2 : (q + ncol * r) % ncol = q := by
        rw [Nat.add_mul_mod_self_left, Nat.mod_eq_of_lt hqn]
      rw [d1, d2, swapLast_eq, swapLast_eq, swapLast_eq, pos_last2 hl hxp c, pos_last2 hl hxp ⟨c.2.2.1, c.2.2.2, c.1, c.2.1⟩,
        hu, hoff, hr, hq, hnr, hnc]
      simp only [Int.ofNat_eq_natCast, Prod.mk.injEq]
      constructor
      · ring
      · push_cast; ring
  · have hbl : (box (lp ++ [l1, l2]) (hp ++ [h1, h2])).length = off * nrow * ncol := by
      have := congrArg List.length htight
      simp only [List.length_map, List.length_range] at this
      rw [this, hprod, show (off : Int) * nrow * ncol = ((off * nrow * ncol : Nat) : Int) by push_cast; ring, Int.toNat_natCast]
    rw [List.length_map, hbl, List.length_flatMap]
    simp only [List.length_map, List.length_range, List.map_const', List.sum_replicate, smul_eq_mul]
    rw [Nat.mul_assoc]

theorem box_swapLast {lo hi : List Int} (h2l : 2 ≤ lo.length) (hlen : hi.length = lo.length) :
    (box (swapLast lo) (swapLast hi)).Perm ((box lo hi).map swapLast) := by
  obtain ⟨lp, l1, l2, rfl⟩ := last2 h2l
  obtain ⟨hp, h1, h2, rfl⟩ := last2 (l := hi) (by omega)
  have hl : hp.length = lp.length := by simpa using hlen
  rw [swapLast_eq, swapLast_eq]
  rw [List.perm_ext_iff_of_nodup (nodup_box _ _)]
  · intro z
    rw [mem_box, inPatch_last2 hl, List.mem_map]
    constructor
    · rintro ⟨xp, i, j, rfl, h0, c1, c2, c3, c4⟩
      exact ⟨xp ++ [j, i], mem_box.2 ((inPatch_last2 hl).2 ⟨xp, j, i, rfl, h0, c3, c4, c1, c2⟩), swapLast_eq _ _ _⟩
    · rintro ⟨x, hx, rfl⟩
      obtain ⟨xp, i, j, rfl, h0, c1, c2, c3, c4⟩ := (inPatch_last2 hl).1 (mem_box.1 hx)
      exact ⟨xp, j, i, swapLast_eq _ _ _, h0, c3, c4, c1, c2⟩
  · refine List.Nodup.map_on ?_ (nodup_box _ _)
    intro x hx y hy e
    obtain ⟨xp, i, j, rfl, _⟩ := (inPatch_last2 hl).1 (mem_box.1 hx)
    obtain ⟨yp, i', j', rfl, _⟩ := (inPatch_last2 hl).1 (mem_box.1 hy)
    rw [swapLast_eq, swapLast_eq] at e
    obtain ⟨e1, e2⟩ := List.append_inj' e rfl
    simp only [List.cons.injEq, and_true] at e2
    rw [e1, e2.1, e2.2]

end

/-! ## the two phases -/

section
variable {A : RegArray} {n : Nat}

/-- square in the last two dimensions -/
theorem square_split (h2 : 2 ≤ A.dims.length) (hs : notSquare A.dims = false) : ∃ dp d, A.dims = dp ++ [d, d] := by
  obtain ⟨dp, d, e, hd⟩ := last2 h2
  rw [hd] at hs
  simp only [notSquare, List.reverse_append, List.reverse_cons, List.reverse_nil, List.nil_append, List.cons_append,
    decide_eq_false_iff_not, not_not] at hs
  exact ⟨dp, d, by rw [hd, hs]⟩

theorem ones_append (a b : List Int) : onesL (a ++ b) = onesL a ++ onesL b := by simp [onesL]

theorem swap_in {dp : List Int} {d : Int} (hd : A.dims = dp ++ [d, d]) {x : List Int} (hx : InArray A.dims x) :
    InArray A.dims (swapLast x) := by
  have hx : InPatch (onesL A.dims) A.dims x := hx
  show InPatch (onesL A.dims) A.dims (swapLast x)
  rw [hd, ones_append] at hx ⊢
  have hl : dp.length = (onesL dp).length := by simp [onesL]
  have e : onesL [d, d] = [1, 1] := rfl
  rw [e] at hx ⊢
  obtain ⟨xp, i, j, rfl, h0, c1, c2, c3, c4⟩ := (inPatch_last2 hl).1 hx
  rw [swapLast_eq]
  exact (inPatch_last2 hl).2 ⟨xp, j, i, rfl, h0, c3, c4, c1, c2⟩

/-- the elements of all processes -/
def ownPairs (A : RegArray) (n : Nat) : List (Nat × List Int) :=
  (List.range n).flatMap fun p : Nat =>
    if p < gridSize A.nblock then (box (owns A p).1 (owns A p).2).map fun x => (p, x) else []

theorem ownPairs_snd (hA : Sound (.reg A n)) (hd : DenseMap A.nblock A.dims A.mapc) :
    ((ownPairs A n).map Prod.snd).Perm (box (onesL A.dims) A.dims) := by
  refine List.Perm.trans (List.Perm.of_eq ?_) (dense_cover hA hd)
  unfold ownPairs
  rw [List.map_flatMap]
  congr 1
  funext p
  split
  · rw [List.map_map]
    exact List.map_id _
  · rfl

theorem mem_ownPairs {p : Nat} {x : List Int} : (p, x) ∈ ownPairs A n ↔
    p < n ∧ p < gridSize A.nblock ∧ InPatch (owns A p).1 (owns A p).2 x := by
  unfold ownPairs
  rw [List.mem_flatMap]
  constructor
  · rintro ⟨q, hq, h⟩
    split at h
    · next hg =>
      obtain ⟨y, hy, e⟩ := List.mem_map.1 h
      simp only [Prod.mk.injEq] at e
      obtain ⟨rfl, rfl⟩ := e
      exact ⟨List.mem_range.1 hq, hg, mem_box.1 hy⟩
    · cases h
  · rintro ⟨h1, h2, h3⟩
    exact ⟨p, List.mem_range.2 h1, by rw [if_pos h2]; exact List.mem_map.2 ⟨x, mem_box.2 h3, rfl⟩⟩

/-- position of the transposed subscript in the buffer -/
def symPos (A : RegArray) (w : Nat × List Int) : Int :=
  bufPos (swapLast (owns A w.1).1) (edges (swapLast (owns A w.1).1) (swapLast (owns A w.1).2)).dropLast (swapLast w.2)

theorem pair_in (hA : Sound (.reg A n)) (hd : DenseMap A.nblock A.dims A.mapc) {w : Nat × List Int}
    (hw : w ∈ ownPairs A n) : InArray A.dims w.2 :=
  mem_ones_box.1 ((ownPairs_snd hA hd).mem_iff.1 (List.mem_map.2 ⟨w, hw, rfl⟩))

theorem ownPairs_nodup (hA : Sound (.reg A n)) (hd : DenseMap A.nblock A.dims A.mapc) : (ownPairs A n).Nodup :=
  List.Nodup.of_map Prod.snd ((ownPairs_snd hA hd).nodup_iff.2 (nodup_box _ _))

theorem haveData_true {p : Nat} (hA : Sound (.reg A n)) (hd : DenseMap A.nblock A.dims A.mapc)
    (hin : InPatch (owns A p).1 (owns A p).2 (owns A p).1) (hp : p < gridSize A.nblock) :
    haveData (owns A p).2 = true := by
  have hi := inArray_pos (pair_in hA hd (w := (p, (owns A p).2)) (mem_ownPairs.2 ⟨by have := hA.2; omega, hp, inPatch_upper hin⟩))
  simp only [haveData, List.all_eq_true, decide_eq_true_eq]
  intro x hx
  have := hi x hx
  omega

theorem haveData_false {p : Nat} (hA : ArrOK A) (hp : ¬ p < gridSize A.nblock) : haveData (owns A p).2 = false := by
  rw [reg_outside hp]
  have hl := mapOK_length hA.map
  have hne := hA.ne
  simp only [haveData]
  cases hb : A.nblock with
  | nil =>
    rw [hb] at hl
    exact absurd (List.length_eq_zero_iff.1 (by simpa using hl.symm)) hne
  | cons b bs => simp

/-- first phase: `x` of process `p` is fetched from the transposed place -/
def symF1 (a t : Nat) (A : RegArray) (w : Nat × List Int) : LAct :=
  ⟨(t, ((w.1 : Int), symPos A w)), [(a, cell A (swapLast w.2))]⟩

/-- second phase -/
def symF2 (a t : Nat) (A : RegArray) (w : Nat × List Int) : LAct :=
  ⟨(a, cell A w.2), [(a, cell A w.2), (t, ((w.1 : Int), symPos A w))]⟩

theorem swapLast_len (l : List Int) : (swapLast l).length = l.length := by
  by_cases h : 2 ≤ l.length
  · obtain ⟨p, x, y, rfl⟩ := last2 h
    rw [swapLast_eq]; simp
  · match l, h with
    | [], _ => rfl
    | [_], _ => rfl
    | _ :: _ :: _, h => simp at h

theorem swapLast_ne {l : List Int} (h : 2 ≤ l.length) : swapLast l ≠ [] := by
  intro e
  have := swapLast_len l
  rw [e] at this
  simp at this; omega

variable {a t : Nat} {dp : List Int} {d : Int}

private theorem own_ok (hA : Sound (.reg A n)) (hdn : DenseMap A.nblock A.dims A.mapc) (hd : A.dims = dp ++ [d, d]) {p : Nat}
    (hp : p < gridSize A.nblock) :
    InPatch (owns A p).1 (owns A p).2 (owns A p).1 ∧ 2 ≤ (owns A p).1.length ∧ (owns A p).2.length = (owns A p).1.length ∧
    PatchOK A.dims (swapLast (owns A p).1) (swapLast (owns A p).2) := by
  have hin : InPatch (owns A p).1 (owns A p).2 (owns A p).1 := by
    have := dense_nonempty hA.1.map hdn p
    unfold owns
    rw [if_neg (by omega)]
    simpa using this
  have hl := owns_len hA.1 p
  have h2 : 2 ≤ (owns A p).1.length := by rw [hl.1, hd]; simp
  have hn : p < n := by have := hA.2; omega
  have i1 := swap_in hd (pair_in hA hdn (w := (p, _)) (mem_ownPairs.2 ⟨hn, hp, hin⟩))
  have i2 := swap_in hd (pair_in hA hdn (w := (p, _)) (mem_ownPairs.2 ⟨hn, hp, inPatch_upper hin⟩))
  refine ⟨hin, h2, by omega, i1, i2, ?_⟩
  rw [← mem_box, (box_swapLast h2 (by omega)).mem_iff]
  exact List.mem_map.2 ⟨_, mem_box.2 hin, rfl⟩

theorem symGet_acts (hA : Sound (.reg A n)) (hdn : DenseMap A.nblock A.dims A.mapc) (hd : A.dims = dp ++ [d, d])
    {E : Nat → Env} (hE : ∀ p, EnvOK (E p) A) :
    (∀ l, mapOpt (symGet E a A n t) (List.range n) = some l → l.flatten.Perm ((ownPairs A n).map (symF1 a t A))) ∧
    ((∀ p, 0 ≤ (E p).elemsize ∧ (E p).elemsize * prodI (edges (onesL A.dims) A.dims) ≤ (E p).maxInt) →
      ∃ l, mapOpt (symGet E a A n t) (List.range n) = some l) := by
  constructor
  · intro l hl
    refine flatten_perm _ hl ?_
    intro p hp bs hbs
    have hp := List.mem_range.1 hp
    unfold symGet at hbs
    by_cases hq : p < gridSize A.nblock
    · obtain ⟨hin, h2, hlen, hok⟩ := own_ok hA hdn hd hq
      simp only [haveData_true hA hdn hin hq, if_true, extents_eq] at hbs
      rw [if_pos hq]
      cases hx : (GArr.reg A n).xfers (E p) (swapLast (owns A p).1) (swapLast (owns A p).2)
          (edges (swapLast (owns A p).1) (swapLast (owns A p).2)).dropLast with
      | none => rw [hx] at hbs; cases hbs
      | some ts =>
        simp only [hx, Option.some.injEq] at hbs
        subst hbs
        have hld : (edges (swapLast (owns A p).1) (swapLast (owns A p).2)).dropLast.length + 1 =
            (swapLast (owns A p).1).length := by
          rw [List.length_dropLast, edges_len (by rw [swapLast_len, swapLast_len]; exact hlen), swapLast_len]; omega
        obtain ⟨_, hm⟩ := gXfers_moves' hA (hE p) (fun _ e => by cases e) hld hx
        refine ((hm.trans ((box_swapLast h2 hlen).map _)).map _).trans (List.Perm.of_eq ?_)
        rw [List.map_map, List.map_map, List.map_map]
        rfl
    · simp only [haveData_false hA.1 hq, Bool.false_eq_true, if_false, Option.some.injEq] at hbs
      rw [← hbs, if_neg hq]
      exact List.Perm.refl _
  · intro hf
    apply mapOpt_some
    intro p hp
    have hp := List.mem_range.1 hp
    unfold symGet
    by_cases hq : p < gridSize A.nblock
    · obtain ⟨hin, h2, hlen, hok⟩ := own_ok hA hdn hd hq
      simp only [haveData_true hA hdn hin hq, if_true, extents_eq]
      obtain ⟨ts, hx⟩ := gXfers_some hA (hE p) (edges (swapLast (owns A p).1) (swapLast (owns A p).2)).dropLast hok
        (by
          refine le_trans (Int.mul_le_mul_of_nonneg_left ?_ (hf p).1) (hf p).2
          exact prodI_edges_mono hok.2.2 fun x hx => hok.inArray hx)
      exact ⟨_, by rw [hx]⟩
    · exact ⟨[], by simp only [haveData_false hA.1 hq, Bool.false_eq_true, if_false]⟩

theorem symAdd_acts (hA : Sound (.reg A n)) (hdn : DenseMap A.nblock A.dims A.mapc) (hd : A.dims = dp ++ [d, d])
    (hg : hasGhosts A = false) :
    ∃ l, mapOpt (symAdd a A t) (List.range n) = some l ∧ l.flatten.Perm ((ownPairs A n).map (symF2 a t A)) := by
  have key : ∀ p, p < n → ∃ bs, symAdd a A t p = some bs ∧
      bs.Perm ((if p < gridSize A.nblock then (box (owns A p).1 (owns A p).2).map fun x => (p, x) else []).map (symF2 a t A)) := by
    intro p hp
    unfold symAdd
    by_cases hq : p < gridSize A.nblock
    · obtain ⟨hin, h2, hlen, hok⟩ := own_ok hA hdn hd hq
      obtain ⟨l, e1, e2⟩ := symOffs_perm h2 hin
      obtain ⟨_, _, _, hc⟩ := ownSeg_some hA.1 hg hdn hq
      simp only [haveData_true hA hdn hin hq, if_true, e1, if_pos hq]
      refine ⟨_, rfl, (e2.map _).trans (List.Perm.of_eq ?_)⟩
      rw [List.map_map, List.map_map]
      apply List.map_congr_left
      intro x hx
      simp only [Function.comp_apply, symF2, symPos, hc x (mem_box.1 hx)]
    · exact ⟨[], by simp only [haveData_false hA.1 hq, Bool.false_eq_true, if_false], by rw [if_neg hq]; exact List.Perm.refl _⟩
  obtain ⟨l, hl⟩ := mapOpt_some (f := symAdd a A t) (as := List.range n)
    (fun p hp => ⟨_, (key p (List.mem_range.1 hp)).choose_spec.1⟩)
  refine ⟨l, hl, flatten_perm _ hl ?_⟩
  intro p hp bs hbs
  obtain ⟨bs', e1, e2⟩ := key p (List.mem_range.1 hp)
  rw [hbs, Option.some.injEq] at e1
  rw [e1]; exact e2

/-- buffers of different elements of a process are different -/
theorem symPos_inj (hA : Sound (.reg A n)) (hdn : DenseMap A.nblock A.dims A.mapc) (hd : A.dims = dp ++ [d, d])
    {w w' : Nat × List Int} (hw : w ∈ ownPairs A n) (hw' : w' ∈ ownPairs A n) (h1 : w.1 = w'.1)
    (h : symPos A w = symPos A w') : w = w' := by
  obtain ⟨p, x⟩ := w
  obtain ⟨q, y⟩ := w'
  simp only at h1
  subst h1
  obtain ⟨_, hq, hx⟩ := mem_ownPairs.1 hw
  obtain ⟨_, _, hy⟩ := mem_ownPairs.1 hw'
  obtain ⟨hin, h2, hlen, hok⟩ := own_ok hA hdn hd hq
  unfold symPos at h
  simp only at h
  have bx : ∀ z, InPatch (owns A p).1 (owns A p).2 z → InPatch (swapLast (owns A p).1) (swapLast (owns A p).2) (swapLast z) := by
    intro z hz
    rw [← mem_box, (box_swapLast h2 hlen).mem_iff]
    exact List.mem_map.2 ⟨_, mem_box.2 hz, rfl⟩
  rw [bufPos_tight (bx x hx) (swapLast_ne h2), bufPos_tight (bx y hy) (swapLast_ne h2)] at h
  have e := fb_inj (fb_sub (bx x hx)) (fb_sub (bx y hy)) h
  have lx := (inPatch_lengths (bx x hx)).2
  have ly := (inPatch_lengths (bx y hy)).2
  have e' : swapLast x = swapLast y := by
    rw [← addL_subL lx, ← addL_subL ly, e]
  have inv : ∀ z : List Int, InPatch (owns A p).1 (owns A p).2 z → swapLast (swapLast z) = z := by
    intro z hz
    obtain ⟨zp, i, j, rfl⟩ := last2 (l := z) (by rw [(inPatch_lengths hz).2]; exact h2)
    rw [swapLast_eq, swapLast_eq]
  rw [← inv x hx, ← inv y hy, e']

end

end GA
