import Verif.Model.LocalPatch
import Verif.Lemmas.OneSided

/-! # Lemmas: the row loop of the patch operations visits every element of a patch once -/

namespace GA
open Spec Model

/-- the odometer reading at step `i` -/
def odo : (ext : List Int) → (i : Int) → List Int
  | e :: es, i => i % e :: odo es (i / e)
  | [], _ => []

theorem bNext_odo {es : List Int} (u i : Int) (hu : 0 < u) (he : ∀ e ∈ es, 0 < e) (hi : 0 ≤ i) :
    bNext i (bUnits u es) es (odo es (i / u)) = odo es ((i + 1) / u) := by
  induction es generalizing u with
  | nil => rfl
  | cons e es ih =>
    have he' : 0 < e := he e (by simp)
    have hrec := ih (u * e) (Int.mul_pos hu he') (fun e h => he e (by simp [h]))
    simp only [bUnits, odo, bNext]
    rw [Int.ediv_ediv_of_nonneg (by omega : (0:Int) ≤ u), Int.ediv_ediv_of_nonneg (by omega : (0:Int) ≤ u),
      hrec]
    congr 1
    unfold bNext1
    have hq0 : 0 ≤ i / u := Int.ediv_nonneg hi (by omega)
    by_cases hm : (i + 1) % u = 0
    · have h1 : (i + 1) / u = i / u + 1 := by
        have hdvd : u ∣ i + 1 := Int.dvd_of_emod_eq_zero hm
        obtain ⟨k, hk⟩ := hdvd
        have e1 : (i + 1) / u = k := by rw [hk]; exact Int.mul_ediv_cancel_left _ (by omega)
        have e2 : i / u = k - 1 := by
          have : i = (u - 1) + u * (k - 1) := by
            have : u * (k - 1) = u * k - u := by ring
            omega
          rw [this, Int.add_mul_ediv_left _ _ (by omega), Int.ediv_eq_zero_of_lt (by omega) (by omega)]
          omega
        omega
      simp only [if_pos hm, h1]
      have hb := Int.emod_nonneg (i / u) (show e ≠ 0 by omega)
      have hb' := Int.emod_lt_of_pos (i / u) he'
      rw [Int.add_emod (i / u) 1 e]
      by_cases hw : i / u % e + 1 > e - 1
      · rw [if_pos hw]
        have : i / u % e = e - 1 := by omega
        rw [this]
        by_cases h1e : e = 1
        · subst h1e; rfl
        · rw [Int.emod_eq_of_lt (show (0:Int) ≤ 1 by omega) (show (1:Int) < e by omega)]
          have : e - 1 + 1 = e := by omega
          rw [this, Int.emod_self]
      · rw [if_neg hw]
        rw [Int.emod_eq_of_lt (show (0:Int) ≤ 1 by omega) (show (1:Int) < e by omega),
          Int.emod_eq_of_lt (a := i / u % e + 1) (by omega) (by omega)]
    · have h1 : (i + 1) / u = i / u := by
        have ha := Int.mul_ediv_add_emod i u
        have hb := Int.emod_nonneg i (show u ≠ 0 by omega)
        have hc := Int.emod_lt_of_pos i hu
        have hne : i % u ≠ u - 1 := by
          intro h
          apply hm
          have : i + 1 = u * (i / u + 1) := by
            have : u * (i / u + 1) = u * (i / u) + u := by ring
            omega
          rw [this]; exact Int.mul_emod_right _ _
        have e : i + 1 = (i % u + 1) + u * (i / u) := by omega
        rw [e, Int.add_mul_ediv_left _ _ (by omega), Int.ediv_eq_zero_of_lt (by omega) (by omega)]
        omega
      simp only [if_neg hm, h1]
      have hb := Int.emod_lt_of_pos (i / u) he'
      rw [if_neg (by omega)]

theorem rowLoop_odo {base es : List Int} (he : ∀ e ∈ es, 0 < e) (n : Nat) (i : Nat) :
    rowLoop base (bUnits 1 es) es n i (odo es i) =
      (List.range' i n).map fun k : Nat => dotI (odo es k) base := by
  induction n generalizing i with
  | zero => rfl
  | succ n ih =>
    rw [rowLoop, List.range'_succ, List.map_cons]
    have h := bNext_odo 1 (i : Int) (by omega) he (by omega)
    rw [Int.ediv_one, Int.ediv_one] at h
    have hc : (i : Int) + 1 = ((i + 1 : Nat) : Int) := by omega
    rw [h, hc, ih (i + 1)]

theorem odo_zero (es : List Int) : odo es 0 = es.map fun _ => 0 := by
  induction es with
  | nil => rfl
  | cons e es ih => simp [odo, ih]

theorem range_mul (e m : Nat) :
    List.range (e * m) = (List.range m).flatMap fun k => (List.range e).map fun j => j + e * k := by
  induction m with
  | zero => simp
  | succ m ih =>
    rw [Nat.mul_succ, List.range_add, ih, List.range_succ, List.flatMap_append]
    simp [Nat.add_comm]

theorem odo_box {es : List Int} (he : ∀ e ∈ es, 0 < e) :
    (List.range (prodI es).toNat).map (fun i : Nat => odo es i) =
      box (es.map fun _ => 0) (es.map (· - 1)) := by
  induction es with
  | nil => rfl
  | cons e es ih =>
    have he' : 0 < e := he e (by simp)
    have ih' := ih fun e h => he e (by simp [h])
    obtain ⟨n, rfl⟩ : ∃ n : Nat, e = n := ⟨e.toNat, by omega⟩
    have hp : (prodI ((n : Int) :: es)).toNat = n * (prodI es).toNat := by
      simp only [prodI]
      rw [Int.toNat_mul (by omega)]
      · simp
      · clear ih ih'
        induction es with
        | nil => simp [prodI]
        | cons a es ih2 =>
          have h1 : 0 < a := he a (by simp)
          have h2 := ih2 fun e h => he e (by
            rcases List.mem_cons.1 h with h | h
            · simp [h]
            · simp [h])
          exact Int.mul_nonneg (by omega) h2
    rw [hp, range_mul, List.map_flatMap]
    simp only [List.map_cons, box, ← ih', List.flatMap_map, List.map_map]
    apply List.flatMap_congr
    intro k _
    unfold irange
    rw [List.map_map]
    have : ((n : Int) - 1 + 1 - 0).toNat = n := by omega
    rw [this]
    apply List.map_congr_left
    intro j hj
    have hj' := List.mem_range.1 hj
    simp only [Function.comp_apply, odo]
    have h1 : ((j + n * k : Nat) : Int) % n = j := by
      push_cast
      rw [Int.add_mul_emod_self_left, Int.emod_eq_of_lt (by omega) (by omega)]
    have h2 : ((j + n * k : Nat) : Int) / n = k := by
      push_cast
      rw [Int.add_mul_ediv_left _ _ (by omega), Int.ediv_eq_zero_of_lt (by omega) (by omega)]
      omega
    rw [h1, h2]
    simp

theorem dotI_comm (a b : List Int) : dotI a b = dotI b a := by
  induction a generalizing b with
  | nil => cases b <;> simp [dotI]
  | cons x a ih =>
    cases b with
    | nil => simp [dotI]
    | cons y b => simp only [dotI, ih b]; ring

theorem extents_eq (lo hi : List Int) : extents lo hi = edges lo hi := by
  induction lo generalizing hi with
  | nil => cases hi <;> rfl
  | cons l lo ih =>
    cases hi with
    | nil => rfl
    | cons h hi => simp only [extents, edges, ih]

theorem edgesL_pos {lo hi : List Int} (h : InPatch lo hi lo) : ∀ e ∈ edges lo hi, 0 < e := by
  induction lo generalizing hi with
  | nil => cases hi <;> simp [edges]
  | cons l lo ih =>
    match hi, h with
    | k :: hi, h =>
      simp only [InPatch] at h
      intro e he
      simp only [edges, List.mem_cons] at he
      rcases he with rfl | he
      · omega
      · exact ih h.2 e he

theorem edges_len {lo hi : List Int} (h : hi.length = lo.length) : (edges lo hi).length = lo.length := by
  induction lo generalizing hi with
  | nil => cases hi <;> simp_all [edges]
  | cons l lo ih =>
    match hi, h with
    | k :: hi, h => simp [edges, ih (hi := hi) (by simpa using h)]

/-- The elements of a nonempty patch are visited once each, in the order of `box`. -/
theorem patchOffs_eq {lo hi ld : List Int} (h : InPatch lo hi lo) (hld : ld.length + 1 = lo.length) :
    patchOffs lo hi ld = (box lo hi).map (bufPos lo ld) := by
  have hl := h.length.2
  have hpos := edgesL_pos h
  have hel := edges_len (lo := lo) (hi := hi) (by omega)
  have hmap : (box lo hi).map (bufPos lo ld) =
      (box ((edges lo hi).map fun _ => 0) ((edges lo hi).map (· - 1))).map
        (strideOff (setstride 1 ld)) := by
    rw [box_shift (by omega), List.map_map]
    have hz : (lo.map fun _ => (0 : Int)) = (edges lo hi).map fun _ => 0 := by
      apply List.ext_getElem
      · simp [hel]
      · intros; simp
    rw [hz]
    apply List.map_congr_left
    intro i hi'
    have hil : i.length = lo.length := by
      have := (mem_box.1 hi').length
      simp [hel] at this; omega
    simp only [Function.comp_apply]
    rw [bufPos_eq (by rw [addL_length (by omega)]) hld, subL_addL hil, strideOff_eq (by omega)]
  rw [hmap]
  unfold patchOffs
  rw [extents_eq]
  generalize edges lo hi = E at *
  match E, hpos with
  | [], _ => simp at hel; omega
  | e0 :: es, hpos =>
    have hes : ∀ e ∈ es, 0 < e := fun e h => hpos e (by simp [h])
    have h0 : 0 < e0 := hpos e0 (by simp)
    have hr := rowLoop_odo (base := setstride 1 ld) hes (prodI es).toNat 0
    rw [Nat.cast_zero, odo_zero] at hr
    simp only [List.map_cons, box]
    rw [hr, ← List.range_eq_range', ← odo_box hes, List.flatMap_map, List.flatMap_map, List.map_flatMap]
    apply List.flatMap_congr
    intro k _
    unfold irange
    rw [List.map_map, List.map_map]
    have : (e0 - 1 + 1 - 0).toNat = e0.toNat := by omega
    rw [this]
    apply List.map_congr_left
    intro j _
    simp only [Function.comp_apply, strideOff, dotI_comm (setstride 1 ld)]
    omega

/-! ## corner offset -/

theorem cornerOff_eq {s a ld : List Int} (t : Int) (h1 : a.length = s.length)
    (h2 : ld.length + 1 = s.length) : cornerOff s a ld t = t * bufPos s ld a := by
  induction s generalizing a ld t with
  | nil => simp at h2
  | cons s ss ih =>
    match a, h1 with
    | a :: as, h1 =>
      cases ld with
      | nil => simp only [cornerOff, bufPos]; ring
      | cons d ds =>
        simp only [cornerOff, bufPos]
        rw [ih (t * d) (by simpa using h1) (by simpa using h2)]
        ring

theorem bufPos_add {s a x ld : List Int} (h1 : a.length = s.length) (h2 : x.length = s.length) :
    bufPos s ld a + bufPos a ld x = bufPos s ld x := by
  induction s generalizing a x ld with
  | nil => cases a <;> cases x <;> simp_all [bufPos]
  | cons s ss ih =>
    match a, x, h1, h2 with
    | a :: as, x :: xs, h1, h2 =>
      cases ld with
      | nil => simp [bufPos]
      | cons d ds =>
        simp only [bufPos]
        rw [← ih (a := as) (x := xs) (ld := ds) (by simpa using h1) (by simpa using h2)]
        ring

theorem bufPos_self (s ld : List Int) : bufPos s ld s = 0 := by
  induction s generalizing ld with
  | nil => simp [bufPos]
  | cons s ss ih => cases ld <;> simp [bufPos, ih]

/-! ## intersection -/

theorem anyEmpty_false {lo hi : List Int} (hl : hi.length = lo.length) :
    anyEmpty lo hi = false ↔ InPatch lo hi lo := by
  induction lo generalizing hi with
  | nil => cases hi <;> simp_all [anyEmpty, InPatch]
  | cons l lo ih =>
    match hi, hl with
    | h :: hi, hl =>
      simp only [anyEmpty, InPatch, Bool.or_eq_false_iff, decide_eq_false_iff_not,
        ih (hi := hi) (by simpa using hl)]
      constructor
      · rintro ⟨a, b⟩; exact ⟨by omega, b⟩
      · rintro ⟨a, b⟩; exact ⟨by omega, b⟩

theorem inPatch_lower {lo hi x : List Int} (h : InPatch lo hi x) : InPatch lo hi lo := by
  induction lo generalizing hi x with
  | nil => cases hi <;> cases x <;> simp_all [InPatch]
  | cons l lo ih =>
    match hi, x, h with
    | h :: hi, x :: xs, hx =>
      simp only [InPatch] at hx ⊢
      exact ⟨by omega, ih hx.2⟩

theorem inter_mem {lo hi lp hp x : List Int} (h1 : hi.length = lo.length)
    (h2 : lp.length = lo.length) (h3 : hp.length = lo.length) :
    InPatch (List.zipWith max lo lp) (List.zipWith min hi hp) x ↔
      InPatch lo hi x ∧ InPatch lp hp x := by
  induction lo generalizing hi lp hp x with
  | nil =>
    match hi, lp, hp, h1, h2, h3 with
    | [], [], [], _, _, _ => cases x <;> simp [InPatch]
  | cons l lo ih =>
    match hi, lp, hp, h1, h2, h3 with
    | h :: hi, a :: lp, b :: hp, h1, h2, h3 =>
      cases x with
      | nil => simp [InPatch]
      | cons y xs =>
        simp only [List.zipWith_cons_cons, InPatch,
          ih (hi := hi) (lp := lp) (hp := hp) (x := xs) (by simpa using h1) (by simpa using h2)
            (by simpa using h3)]
        constructor
        · rintro ⟨a, b, c⟩; exact ⟨⟨by omega, b⟩, by omega, c⟩
        · rintro ⟨⟨a, b⟩, c, d⟩; exact ⟨by omega, b, d⟩

theorem disjoint_false {lo hi lp hp : List Int} (h1 : hi.length = lo.length)
    (h2 : lp.length = lo.length) (h3 : hp.length = lo.length) (he : InPatch lo hi lo)
    (hp' : InPatch lp hp lp) :
    disjointPatch lo hi lp hp = false ↔
      InPatch (List.zipWith max lo lp) (List.zipWith min hi hp) (List.zipWith max lo lp) := by
  induction lo generalizing hi lp hp with
  | nil =>
    match hi, lp, hp, h1, h2, h3 with
    | [], [], [], _, _, _ => simp [disjointPatch, InPatch]
  | cons l lo ih =>
    match hi, lp, hp, h1, h2, h3 with
    | h :: hi, a :: lp, b :: hp, h1, h2, h3 =>
      simp only [InPatch] at he hp'
      simp only [disjointPatch, List.zipWith_cons_cons, InPatch, Bool.or_eq_false_iff,
        decide_eq_false_iff_not,
        ih (hi := hi) (lp := lp) (hp := hp) (by simpa using h1) (by simpa using h2)
          (by simpa using h3) he.2 hp'.2]
      constructor
      · rintro ⟨⟨a, b⟩, c⟩; exact ⟨by omega, c⟩
      · rintro ⟨a, c⟩; exact ⟨⟨by omega, by omega⟩, c⟩

theorem anyLt_false {s a : List Int} (h : anyLt s a = false) (hl : a.length = s.length)
    (hm : ∀ p ∈ s.zip a, p.1 ≤ p.2) : a = s := by
  induction s generalizing a with
  | nil => cases a <;> simp_all
  | cons x s ih =>
    match a, hl with
    | y :: a, hl =>
      simp only [anyLt, Bool.or_eq_false_iff, decide_eq_false_iff_not] at h
      have h1 := hm (x, y) (by simp)
      have := ih h.2 (by simpa using hl) fun p hp => hm p (by simp [hp])
      simp only at h1
      rw [this]; congr 1; omega

theorem zip_max_le (lo lp : List Int) : ∀ p ∈ lp.zip (List.zipWith max lo lp), p.1 ≤ p.2 := by
  induction lp generalizing lo with
  | nil => simp
  | cons a lp ih =>
    cases lo with
    | nil => simp
    | cons b lo =>
      intro p hp
      simp only [List.zipWith_cons_cons, List.zip_cons_cons, List.mem_cons] at hp
      rcases hp with rfl | hp
      · simp only; omega
      · exact ih lo p hp

/-- The cells touched in one block: those of the elements of the block that lie in the patch. -/
theorem itemPatch_eq {lo hi : List Int} {it : LItem} (h1 : hi.length = lo.length)
    (h2 : it.lo.length = lo.length) (h3 : it.hi.length = lo.length)
    (h4 : it.ld.length + 1 = lo.length) :
    (itemPatch lo hi it).Perm (((box it.lo it.hi).filter fun x => decide (InPatch lo hi x)).map
      fun x => ((it.proc : Int), it.off + bufPos it.lo it.ld x)) := by
  unfold itemPatch
  have hempty : (∀ x, InPatch it.lo it.hi x → ¬ InPatch lo hi x) →
      ((box it.lo it.hi).filter fun x => decide (InPatch lo hi x)) = [] := by
    intro h
    rw [List.filter_eq_nil_iff]
    intro x hx
    simpa using h x (mem_box.1 hx)
  cases hpi : patchIntersect lo hi it.lo it.hi with
  | none =>
    simp only
    rw [hempty]
    · simp
    · intro x hx hx'
      unfold patchIntersect at hpi
      have e1 := (anyEmpty_false (lo := it.lo) (hi := it.hi) (by omega)).2 (inPatch_lower hx)
      have e2 := (anyEmpty_false (lo := lo) (hi := hi) (by omega)).2 (inPatch_lower hx')
      have e3 := (disjoint_false h1 h2 h3 (inPatch_lower hx') (inPatch_lower hx)).2
        (inPatch_lower ((inter_mem h1 h2 h3).2 ⟨hx', hx⟩))
      simp [e1, e2, e3] at hpi
  | some r =>
    obtain ⟨loA, hiA⟩ := r
    unfold patchIntersect at hpi
    split at hpi
    · cases hpi
    rename_i he
    simp only [Bool.or_eq_true, not_or, Bool.not_eq_true] at he
    split at hpi
    · cases hpi
    rename_i hd
    simp only [Option.some.injEq, Prod.mk.injEq] at hpi
    obtain ⟨rfl, rfl⟩ := hpi
    simp only [Bool.not_eq_true] at hd
    have hne := (disjoint_false h1 h2 h3 ((anyEmpty_false (by omega)).1 he.1)
      ((anyEmpty_false (by omega)).1 he.2)).1 hd
    have hmem := fun x => inter_mem (x := x) h1 h2 h3
    have hle := zip_max_le lo it.lo
    have hlen : (List.zipWith max lo it.lo).length = it.lo.length := by simp; omega
    generalize List.zipWith max lo it.lo = loA at *
    generalize List.zipWith min hi it.hi = hiA at *
    have hoff : (if anyLt it.lo loA then cornerOff it.lo loA it.ld 1 else 0) =
        bufPos it.lo it.ld loA := by
      by_cases hc : anyLt it.lo loA = true
      · rw [if_pos hc, cornerOff_eq _ hlen (by omega)]; omega
      · rw [if_neg hc]
        rw [anyLt_false (by simpa using hc) hlen hle, bufPos_self]
    simp only
    rw [hoff, patchOffs_eq hne (by omega), List.map_map]
    have hperm : (box loA hiA).Perm ((box it.lo it.hi).filter fun x => decide (InPatch lo hi x)) := by
      rw [List.perm_ext_iff_of_nodup (nodup_box _ _) ((nodup_box _ _).filter _)]
      intro x
      simp only [mem_box, List.mem_filter, decide_eq_true_eq, hmem, and_comm]
    refine List.Perm.trans (List.Perm.of_eq ?_) (hperm.map _)
    apply List.map_congr_left
    intro x hx
    have hxl := (mem_box.1 hx).length
    simp only [Function.comp_apply]
    rw [← bufPos_add (s := it.lo) (a := loA) (x := x) (by omega) (by omega)]
    congr 1
    omega

end GA
