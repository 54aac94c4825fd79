import Verif.Lemmas.Odometer
import Verif.Lemmas.BlockAccess
import Verif.Lemmas.PutGet

/-! # Lemmas: the local iterator shows every element of the array exactly once -/

namespace GA
open Spec Model

/-- lower corner of the array -/
def onesL (dims : List Int) : List Int := dims.map fun _ => 1

/-- What the local iterators of all processes deliver. -/
structure View (G : GArr) (items : Nat → List LItem) (cl : List Int → Addr) : Prop where
  iter : ∀ p, p < G.nproc → G.localIter p = some (items p)
  shape : ∀ p, p < G.nproc → ∀ it ∈ items p, it.proc = p ∧ it.lo.length = G.dims.length ∧
    it.hi.length = G.dims.length ∧ it.ld.length + 1 = G.dims.length
  cell : ∀ p, p < G.nproc → ∀ it ∈ items p, ∀ x, InPatch it.lo it.hi x →
    cl x = ((p : Int), it.off + bufPos it.lo it.ld x)
  cover : ((List.range G.nproc).flatMap fun p => (items p).flatMap fun it => box it.lo it.hi).Perm
    (box (onesL G.dims) G.dims)
  inj : ∀ x y, InArray G.dims x → InArray G.dims y → cl x = cl y → x = y

theorem mem_ones_box {dims x : List Int} : x ∈ box (onesL dims) dims ↔ InArray dims x := mem_box

/-! ## REGULAR arrays -/

theorem regLocal_mem {A : RegArray} (hA : ArrOK A) {p : Nat} (hp : p < gridSize A.nblock) :
    owns A p = (coordLo A.nblock A.mapc (digits A.nblock p),
      coordHi A.nblock A.dims A.mapc (digits A.nblock p)) := by
  have := owns_of_coord (A := A) (digits_ok hp)
  rw [undigits_digits hp] at this
  exact this

theorem reg_outside {A : RegArray} {p : Nat} (hp : ¬ p < gridSize A.nblock) :
    owns A p = (A.nblock.map fun _ => 0, A.nblock.map fun _ => -1) := by
  unfold owns
  rw [if_pos (by omega)]

theorem reg_outside_empty {A : RegArray} (hA : ArrOK A) {p : Nat} (hp : ¬ p < gridSize A.nblock) :
    anyEmpty (owns A p).1 (owns A p).2 = true := by
  rw [reg_outside hp]
  have hl := mapOK_length hA.map
  cases hn : A.nblock with
  | nil =>
    rw [hn] at hl
    exact absurd (List.length_eq_zero_iff.1 hl.symm) hA.ne
  | cons n ns => simp [anyEmpty]

/-- address of an element of the block of process `p` -/
theorem reg_cell {A : RegArray} (hA : ArrOK A) {p : Nat} (hp : p < gridSize A.nblock) {x : List Int}
    (hx : InPatch (owns A p).1 (owns A p).2 x) :
    cell A x = ((p : Int), locOffset A p (owns A p).1 +
      bufPos (owns A p).1 (ldRem (owns A p).1 (owns A p).2 A.width) x) := by
  have hc := digits_ok hp
  have ho := regLocal_mem hA hp
  have hl := owns_length hA hc
  rw [ho] at hx
  have hxl := hx.length
  have h1 := cell_of_coord hA hc hx
  rw [undigits_digits hp] at h1
  rw [h1]
  unfold locOffset
  rw [ho]
  simp only at hxl hl ⊢
  rw [loc_step (x := x) (p := coordLo A.nblock A.mapc (digits A.nblock p)) (by omega) rfl
    (by rw [hA.width]; omega) (by omega) (by
      intro hn; rw [hn] at hl; simp at hl; exact hA.ne (List.length_eq_zero_iff.1 hl.1.symm))]

theorem regItems {A : RegArray} (hA : ArrOK A) (p : Nat) :
    (regLocalIter A p = [] ∧ ∀ x, ¬ (p < gridSize A.nblock ∧ InPatch (owns A p).1 (owns A p).2 x)) ∨
    (p < gridSize A.nblock ∧ InPatch (owns A p).1 (owns A p).2 (owns A p).1 ∧
      regLocalIter A p = [⟨(owns A p).1, (owns A p).2, p, locOffset A p (owns A p).1,
        ldRem (owns A p).1 (owns A p).2 A.width⟩]) := by
  unfold regLocalIter
  simp only
  by_cases hp : p < gridSize A.nblock
  · have ho := regLocal_mem hA hp
    have hl := owns_length hA (digits_ok hp)
    have hlen : (owns A p).2.length = (owns A p).1.length := by rw [ho]; simp only; omega
    by_cases he : anyEmpty (owns A p).1 (owns A p).2 = true
    · left
      rw [if_pos he]
      refine ⟨rfl, ?_⟩
      rintro x ⟨_, hx⟩
      have := (anyEmpty_false hlen).2 (inPatch_lower hx)
      rw [this] at he; cases he
    · right
      rw [if_neg he]
      exact ⟨hp, (anyEmpty_false hlen).1 (by simpa using he), rfl⟩
  · left
    rw [if_pos (reg_outside_empty hA hp)]
    exact ⟨rfl, fun x h => hp h.1⟩

theorem reg_view {A : RegArray} (hA : ArrOK A) {n : Nat} (hn : gridSize A.nblock ≤ n) :
    View (.reg A n) (regLocalIter A) (cell A) where
  iter := fun p _ => rfl
  shape := by
    intro p _ it hit
    rcases regItems hA p with ⟨h, _⟩ | ⟨h1, h2, h3⟩
    · rw [h] at hit; simp at hit
    · rw [h3] at hit
      simp only [List.mem_singleton] at hit
      subst hit
      have ho := regLocal_mem hA h1
      have hl := owns_length hA (digits_ok h1)
      refine ⟨rfl, by simp only [GArr.dims]; rw [ho]; exact hl.1, by simp only [GArr.dims]; rw [ho]; exact hl.2, ?_⟩
      simp only [GArr.dims]
      rw [ho]
      have hne : coordLo A.nblock A.mapc (digits A.nblock p) ≠ [] := by
        intro hn; rw [hn] at hl; simp at hl; exact hA.ne (List.length_eq_zero_iff.1 hl.1.symm)
      have := ldRem_length (l := coordLo A.nblock A.mapc (digits A.nblock p))
        (h := coordHi A.nblock A.dims A.mapc (digits A.nblock p)) (w := A.width) (by omega)
        (by rw [hA.width]; omega) hne
      simp only
      omega
  cell := by
    intro p _ it hit x hx
    rcases regItems hA p with ⟨h, _⟩ | ⟨h1, h2, h3⟩
    · rw [h] at hit; simp at hit
    · rw [h3] at hit
      simp only [List.mem_singleton] at hit
      subst hit
      exact reg_cell hA h1 hx
  cover := by
    rw [List.perm_ext_iff_of_nodup ?_ (nodup_box _ _)]
    · intro x
      rw [mem_ones_box]
      simp only [List.mem_flatMap, List.mem_range, mem_box, GArr.dims, GArr.nproc]
      constructor
      · rintro ⟨p, hp, it, hit, hx⟩
        rcases regItems hA p with ⟨h, _⟩ | ⟨h1, h2, h3⟩
        · rw [h] at hit; simp at hit
        · rw [h3] at hit
          simp only [List.mem_singleton] at hit
          subst hit
          simp only at hx
          rw [regLocal_mem hA h1] at hx
          exact coord_inArray hA.map (digits_ok h1) hx
      · intro hx
        obtain ⟨h1, h2⟩ := ownerC_ok hA.map hx
        have hlt := undigits_lt h1
        have ho := owns_of_coord (A := A) h1
        refine ⟨undigits A.nblock (ownerC A x), by omega, ?_⟩
        rcases regItems hA (undigits A.nblock (ownerC A x)) with ⟨h, h'⟩ | ⟨h3, h4, h5⟩
        · exact absurd ⟨hlt, by rw [ho]; exact h2⟩ (h' x)
        · rw [h5]
          refine ⟨_, by simp only [List.mem_singleton]; rfl, ?_⟩
          simp only
          rw [ho]; exact h2
    · rw [List.nodup_flatMap]
      refine ⟨?_, ?_⟩
      · intro p _
        rcases regItems hA p with ⟨h, _⟩ | ⟨h1, h2, h3⟩
        · rw [h]; simp
        · rw [h3]; simp [nodup_box]
      · refine List.nodup_range.imp ?_
        intro a b hab
        simp only [Function.onFun, List.disjoint_left, List.mem_flatMap, mem_box]
        rintro x ⟨it, hit, hx⟩ ⟨it', hit', hx'⟩
        rcases regItems hA a with ⟨h, _⟩ | ⟨h1, h2, h3⟩
        · rw [h] at hit; simp at hit
        rcases regItems hA b with ⟨h, _⟩ | ⟨k1, k2, k3⟩
        · rw [h] at hit'; simp at hit'
        rw [h3] at hit; rw [k3] at hit'
        simp only [List.mem_singleton] at hit hit'
        subst hit; subst hit'
        simp only at hx hx'
        rw [regLocal_mem hA h1] at hx
        rw [regLocal_mem hA k1] at hx'
        have := coord_unique hA.map (digits_ok h1) (digits_ok k1) hx hx'
        apply hab
        rw [← undigits_digits h1, ← undigits_digits k1, this]
  inj := fun x y hx hy => cell_inj hA hx hy

/-! ## block-cyclic arrays -/

theorem slLds_length {ds bs : List Int} {gs cs : List Nat} (h1 : bs.length = ds.length)
    (h2 : gs.length = ds.length) (h3 : cs.length = ds.length) (hne : ds ≠ []) :
    (slLds ds bs gs cs).length + 1 = ds.length := by
  induction ds generalizing bs gs cs with
  | nil => exact absurd rfl hne
  | cons d ds ih =>
    cases ds with
    | nil => simp [slLds]
    | cons d' ds =>
      match bs, gs, cs, h1, h2, h3 with
      | b :: bs, g :: gs, c :: cs, h1, h2, h3 =>
        have := ih (bs := bs) (gs := gs) (cs := cs) (by simpa using h1) (by simpa using h2)
          (by simpa using h3) (by simp)
        simp only [slLds, List.length_cons] at this ⊢
        omega

theorem extents_length {l h : List Int} (hl : h.length = l.length) : (extents l h).length = l.length := by
  rw [extents_eq]; exact edges_len hl

theorem ld_of_extents {l h : List Int} (hl : h.length = l.length) (hne : l ≠ []) :
    (extents l h).dropLast.length + 1 = l.length := by
  have := extents_length hl
  have : 0 < l.length := List.length_pos_iff.2 hne
  rw [List.length_dropLast]; omega

section
variable {A : BArray}

theorem accessGrid_ld (h : BOK A) {idx : List Nat} (hi : CoordOK A.nblocks idx) {q : Nat} {off : Int}
    {ld : List Int} (ha : accessGrid A idx = some (q, off, ld)) : ld.length + 1 = A.dims.length := by
  unfold accessGrid at ha
  by_cases hc : A.kind = .cyclic
  · simp [hc] at ha
  rw [if_neg hc, idxOK_of hi] at ha
  obtain ⟨c1, c2, c3⟩ := cLo_edge h hi
  obtain ⟨b1, b2⟩ := itBounds_eq h hi
  have hne : cLo A idx ≠ [] := by
    intro hn; rw [hn] at c2; exact h.ne (List.length_eq_zero_iff.1 c2.symm)
  have hl := h.lens hc
  obtain ⟨g1, g2, g3⟩ := h.grid hc
  simp only [Bool.not_true, Bool.false_eq_true, if_false, splitIdx_eq] at ha
  cases hk : A.kind with
  | cyclic => exact absurd hk hc
  | scalapack =>
    obtain ⟨l1, l2⟩ := slLens h hk
    simp only [hk, Option.some.injEq, Prod.mk.injEq] at ha
    rw [← ha.2.2]
    exact slLds_length l1 l2 (by rw [digits_length, l2]) h.ne
  | tiled =>
    simp only [hk, Option.some.injEq, Prod.mk.injEq] at ha
    have b1' : unifLo A.bdims idx = cLo A idx := by
      have : itLo A idx = cLo A idx := b1
      rw [← this]; simp [itLo, hk]
    have b2' : unifHi A.dims A.bdims idx = cHi A idx := by
      have : itHi A idx = cHi A idx := b2
      rw [← this]; simp [itHi, hk]
    rw [← ha.2.2, b1', b2', ld_of_extents (by omega) hne, c2]
  | tiledIrreg =>
    simp only [hk, Option.some.injEq, Prod.mk.injEq] at ha
    have hs : starts A = A.mapc := by simp [starts, hk]
    have b1' : irrLo A.nblocks A.mapc idx = cLo A idx := by rw [irrLo_eq, cLo, hs]
    have b2' : irrHi A.nblocks A.dims A.mapc idx = cHi A idx := by rw [irrHi_eq hi, cHi, hs]
    rw [← ha.2.2, b1', b2', ld_of_extents (by omega) hne, c2]

theorem accessBlock_ld (h : BOK A) {b : Nat} (hb : b < bTotal A) {q : Nat} {off : Int}
    {ld : List Int} (ha : accessBlock A b = some (q, off, ld)) : ld.length + 1 = A.dims.length := by
  unfold accessBlock at ha
  rw [if_neg (by omega)] at ha
  simp only [Int.toNat_natCast] at ha
  have hi := digits_ok hb
  by_cases hc : A.kind = .cyclic
  · rw [if_pos hc] at ha
    simp only [Option.some.injEq, Prod.mk.injEq] at ha
    obtain ⟨c1, c2, c3⟩ := cLo_edge h hi
    have ho : bOwns A b = (cLo A (digits A.nblocks b), cHi A (digits A.nblocks b)) := bOwns_eq h hb
    have hne : cLo A (digits A.nblocks b) ≠ [] := by
      intro hn; rw [hn] at c2; exact h.ne (List.length_eq_zero_iff.1 c2.symm)
    rw [← ha.2.2, ho]
    simp only
    rw [ld_of_extents (by omega) hne, c2]
  · rw [if_neg hc, splitIdx_eq] at ha
    exact accessGrid_ld h hi ha

/-- the block handed out for coordinates `idx` -/
theorem itemC_spec (h : BOK A) (hk : PtrKind A) {p : Nat} {idx : List Nat}
    (v1 : CoordOK A.nblocks idx) (v2 : procC A idx = p) :
    ∃ off ld, itemC A idx = ⟨cLo A idx, cHi A idx, p, off, ld⟩ ∧ ld.length + 1 = A.dims.length ∧
      ∀ x, InPatch (cLo A idx) (cHi A idx) x →
        cellB A x = ((p : Int), off + bufPos (cLo A idx) ld x) := by
  have hlt : undigits A.nblocks idx < bTotal A := undigits_lt v1
  by_cases hc : A.kind = .cyclic
  · obtain ⟨off, ld, ha⟩ := accessBlock_some h hlt
    have hbp : bProc A (undigits A.nblocks idx) = p := by
      rw [bProc_eq h hlt, digits_undigits v1, v2]
    rw [hbp] at ha
    refine ⟨off, ld, by unfold itemC; rw [if_pos hc, ha], accessBlock_ld h hlt ha, ?_⟩
    intro x hx
    have hb : bOwns A (undigits A.nblocks idx) = (cLo A idx, cHi A idx) := by
      rw [bOwns_eq h hlt, digits_undigits v1]; rfl
    have := accessBlock_cell h hk hlt ha (x := x) (by rw [hb]; exact hx)
    rwa [hb] at this
  · obtain ⟨off, ld, ha⟩ := accessGrid_some h hc v1
    rw [v2] at ha
    refine ⟨off, ld, by unfold itemC; rw [if_neg hc, ha], accessGrid_ld h v1 ha, ?_⟩
    intro x hx
    exact accessGrid_cell h hk v1 ha hx

theorem blk_view (h : BOK A) (he : EnoughBlocks A) (hk : PtrKind A) :
    View (.blk A) (fun p => (List.range (vcount A p)).map fun k => itemC A (vis A p k)) (cellB A) where
  iter := fun p hp => localIter_eq h he.2 hp
  shape := by
    intro p hp it hit
    obtain ⟨k, hk', rfl⟩ := List.mem_map.1 hit
    obtain ⟨v1, v2, v3⟩ := vis_ok h hp (List.mem_range.1 hk')
    obtain ⟨off, ld, e, h2, h3⟩ := itemC_spec h hk v1 v2
    obtain ⟨c1, c2, c3⟩ := cLo_edge h v1
    simp only [e]
    exact ⟨trivial, c2, c3, h2⟩
  cell := by
    intro p hp it hit x hx
    obtain ⟨k, hk', rfl⟩ := List.mem_map.1 hit
    obtain ⟨v1, v2, v3⟩ := vis_ok h hp (List.mem_range.1 hk')
    obtain ⟨off, ld, e, h2, h3⟩ := itemC_spec h hk v1 v2
    simp only [e] at hx ⊢
    exact h3 x hx
  cover := by
    have hbox : ∀ p, p < A.nproc → ∀ k, k < vcount A p →
        (itemC A (vis A p k)).lo = cLo A (vis A p k) ∧ (itemC A (vis A p k)).hi = cHi A (vis A p k) := by
      intro p hp k hk'
      obtain ⟨v1, v2, v3⟩ := vis_ok h hp hk'
      obtain ⟨off, ld, e, h2, h3⟩ := itemC_spec h hk v1 v2
      simp only [e]
      exact ⟨trivial, trivial⟩
    rw [List.perm_ext_iff_of_nodup ?_ (nodup_box _ _)]
    · intro x
      rw [mem_ones_box]
      simp only [List.mem_flatMap, List.mem_range, mem_box, GArr.dims, GArr.nproc, List.mem_map]
      constructor
      · rintro ⟨p, hp, it, ⟨k, hk', rfl⟩, hx⟩
        obtain ⟨b1, b2⟩ := hbox p hp k hk'
        rw [b1, b2] at hx
        obtain ⟨v1, v2, v3⟩ := vis_ok h hp hk'
        exact (blkC_unique h v1 hx).1
      · intro hx
        obtain ⟨c1, c2⟩ := blkC_ok h hx
        obtain ⟨s1, s2, s3⟩ := vis_surj h c1
        refine ⟨_, s1, _, ⟨_, s2, rfl⟩, ?_⟩
        obtain ⟨b1, b2⟩ := hbox _ s1 _ s2
        rw [b1, b2, s3]
        exact c2
    · rw [List.nodup_flatMap]
      refine ⟨?_, ?_⟩
      · intro p hp
        have hp' := List.mem_range.1 hp
        rw [List.nodup_flatMap]
        refine ⟨fun it _ => nodup_box _ _, ?_⟩
        rw [List.pairwise_map]
        refine List.Pairwise.imp_of_mem ?_ (List.nodup_range (n := vcount A p))
        intro a b ha hb hab
        simp only [Function.onFun, List.disjoint_left, mem_box]
        intro x hx hx'
        obtain ⟨b1, b2⟩ := hbox p hp' a (List.mem_range.1 ha)
        obtain ⟨b3, b4⟩ := hbox p hp' b (List.mem_range.1 hb)
        rw [b1, b2] at hx
        rw [b3, b4] at hx'
        obtain ⟨v1, v2, v3⟩ := vis_ok h hp' (List.mem_range.1 ha)
        obtain ⟨w1, w2, w3⟩ := vis_ok h hp' (List.mem_range.1 hb)
        apply hab
        rw [← v3, ← w3, ← (blkC_unique h v1 hx).2, (blkC_unique h w1 hx').2]
      · refine List.Pairwise.imp_of_mem ?_ (List.nodup_range (n := A.nproc))
        intro p q hp hq hpq
        simp only [Function.onFun, List.disjoint_left, List.mem_flatMap, mem_box, List.mem_map,
          List.mem_range]
        rintro x ⟨it, ⟨a, ha, rfl⟩, hx⟩ ⟨it', ⟨b, hb, rfl⟩, hx'⟩
        have hp' := List.mem_range.1 hp
        have hq' := List.mem_range.1 hq
        obtain ⟨b1, b2⟩ := hbox p hp' a ha
        obtain ⟨b3, b4⟩ := hbox q hq' b hb
        rw [b1, b2] at hx
        rw [b3, b4] at hx'
        obtain ⟨v1, v2, v3⟩ := vis_ok h hp' ha
        obtain ⟨w1, w2, w3⟩ := vis_ok h hq' hb
        apply hpq
        rw [← v2, ← w2, ← (blkC_unique h v1 hx).2, (blkC_unique h w1 hx').2]
  inj := fun x y hx hy => cellB_inj h hx hy

end

/-! ## cells touched by a patch operation -/

theorem allCells_some {n : Nat} {cells : Nat → Option (List Addr)} {ls : Nat → List Addr}
    (h : ∀ p, p < n → cells p = some (ls p)) :
    allCells n cells = some ((List.range n).flatMap ls) := by
  unfold allCells
  have : ∀ l : List Nat, (∀ p ∈ l, p < n) → mapOpt cells l = some (l.map ls) := by
    intro l
    induction l with
    | nil => intro _; rfl
    | cons a l ih =>
      intro hl
      simp only [mapOpt, h a (hl a (by simp)), ih fun p hp => hl p (by simp [hp]), List.map_cons]
  rw [this _ fun p hp => List.mem_range.1 hp]
  simp [List.flatMap_def]

theorem patchCells_perm {G : GArr} {items : Nat → List LItem} {cl : List Int → Addr}
    (v : View G items cl) {lo hi : List Int} (h1 : lo.length = G.dims.length)
    (h2 : hi.length = G.dims.length) :
    ∃ L, allCells G.nproc (patchCells G lo hi) = some L ∧
      L.Perm (((box (onesL G.dims) G.dims).filter fun x => decide (InPatch lo hi x)).map cl) := by
  refine ⟨_, allCells_some (ls := fun p => (items p).flatMap (itemPatch lo hi)) ?_, ?_⟩
  · intro p hp
    simp only [patchCells, v.iter p hp, Option.map_some]
  · have step : ∀ p ∈ List.range G.nproc, ((items p).flatMap (itemPatch lo hi)).Perm
        ((((items p).flatMap fun it => box it.lo it.hi).filter fun x => decide (InPatch lo hi x)).map cl) := by
      intro p hp
      have hp' := List.mem_range.1 hp
      rw [List.filter_flatMap, List.map_flatMap]
      apply List.Perm.flatMap_left
      intro it hit
      obtain ⟨s1, s2, s3, s4⟩ := v.shape p hp' it hit
      refine (itemPatch_eq (by omega) (by omega) (by omega) (by omega)).trans (List.Perm.of_eq ?_)
      apply List.map_congr_left
      intro x hx
      simp only [List.mem_filter, mem_box] at hx
      rw [v.cell p hp' it hit x hx.1, s1]
    refine (List.Perm.flatMap_left _ step).trans ?_
    rw [← List.map_flatMap, ← List.filter_flatMap]
    exact (v.cover.filter _).map cl

theorem mapCells_apply {V} (f : V → V) {as : List Addr} (hn : as.Nodup) (m : Addr → V) (a : Addr) :
    mapCells f as m a = if a ∈ as then f (m a) else m a := by
  unfold mapCells
  induction as generalizing m with
  | nil => simp
  | cons b as ih =>
    rw [List.nodup_cons] at hn
    rw [List.foldl_cons, ih hn.2]
    by_cases hab : a = b
    · subst hab
      simp [hn.1, upd]
    · simp [upd, hab]

/-- address of an element of any kind of array -/
def cellG : GArr → List Int → Addr
  | .reg A _ => cell A
  | .blk A => cellB A

theorem reg_bounds {A : RegArray} (hA : ArrOK A) {n : Nat} (hn : gridSize A.nblock ≤ n) {x : List Int}
    (hx : InArray A.dims x) :
    ∃ p : Nat, (cell A x).1 = p ∧ p < n ∧ p < gridSize A.nblock ∧ InPatch (owns A p).1 (owns A p).2 x ∧
      0 ≤ (cell A x).2 ∧ (cell A x).2 < allocElems A p := by
  obtain ⟨h1, h2⟩ := ownerC_ok hA.map hx
  have hlt := undigits_lt h1
  have hl := owns_length hA h1
  refine ⟨undigits A.nblock (ownerC A x), rfl, by omega, hlt, by rw [owns_of_coord h1]; exact h2, ?_⟩
  have hw : A.width.length = (coordLo A.nblock A.mapc (ownerC A x)).length := by
    rw [hl.1, hA.width]
  have hb := fb_bound (loc_fb h2 hw)
  unfold cell
  simp only
  rw [locOffset_coord h1, locLoop_eq]
  unfold allocElems
  rw [owns_of_coord h1, allocLoop_eq]
  simp only
  omega

theorem mem_segment {p : Nat} {off n : Int} {a : Addr} :
    a ∈ segment p off n ↔ a.1 = p ∧ off ≤ a.2 ∧ a.2 < off + n := by
  unfold segment
  simp only [List.mem_map, List.mem_range]
  constructor
  · rintro ⟨i, hi, rfl⟩
    exact ⟨rfl, by simp only; omega, by simp only; omega⟩
  · rintro ⟨h1, h2, h3⟩
    refine ⟨(a.2 - off).toNat, by omega, ?_⟩
    ext
    · simp only; omega
    · simp only; omega

theorem nodup_segment (p : Nat) (off n : Int) : (segment p off n).Nodup := by
  unfold segment
  refine List.Nodup.map ?_ List.nodup_range
  intro a b hab
  simp only [Prod.mk.injEq] at hab
  omega

/-- lists of the cells of different processes, put together -/
theorem nodup_procs {n : Nat} {ls : Nat → List Addr} (h1 : ∀ p, p < n → (ls p).Nodup)
    (h2 : ∀ p, p < n → ∀ a ∈ ls p, a.1 = (p : Int)) : ((List.range n).flatMap ls).Nodup := by
  rw [List.nodup_flatMap]
  refine ⟨fun p hp => h1 p (List.mem_range.1 hp), ?_⟩
  refine List.Pairwise.imp_of_mem ?_ (List.nodup_range (n := n))
  intro a b ha hb hab
  simp only [Function.onFun, List.disjoint_left]
  intro x hx hx'
  have e1 := h2 a (List.mem_range.1 ha) x hx
  have e2 := h2 b (List.mem_range.1 hb) x hx'
  apply hab
  omega

end GA
