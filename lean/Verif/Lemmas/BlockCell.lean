import Verif.Lemmas.BlockPut

/-! # Lemmas: where an element of a block-cyclic array lives -/

namespace GA
open Spec Model
variable {A : BArray}

/-- coordinates of the block that holds `x` -/
def blkC (A : BArray) (x : List Int) : List Nat :=
  digits A.nblocks (bLocate A (A.nblocks.map fun _ => 0) x)

theorem candOK_zero (ns : List Nat) : CandOK ns (ns.map fun _ => 0) := by
  induction ns with
  | nil => trivial
  | cons n ns ih => exact ⟨Nat.zero_le _, ih⟩

theorem blkC_ok (h : BOK A) {x : List Int} (hx : InArray A.dims x) :
    CoordOK A.nblocks (blkC A x) ∧ InPatch (cLo A (blkC A x)) (cHi A (blkC A x)) x := by
  obtain ⟨c, h1, h2, h3⟩ := bLocate_ok h (candOK_zero A.nblocks) hx
  unfold blkC
  rw [h2, digits_undigits h1]
  exact ⟨h1, h3⟩

theorem blkC_unique (h : BOK A) {x : List Int} {c : List Nat} (hc : CoordOK A.nblocks c)
    (hx : InPatch (cLo A c) (cHi A c) x) : InArray A.dims x ∧ blkC A x = c := by
  have hin := coord_inArray h.map hc hx
  obtain ⟨h1, h2⟩ := blkC_ok h hin
  exact ⟨hin, coord_unique h.map h1 hc h2 hx⟩

/-- address of an element -/
def cellB (A : BArray) (x : List Int) : Addr :=
  let idx := blkC A x
  ((procC A idx : Nat),
    if A.kind = .scalapack then slOff A.dims A.bdims A.grid (digits A.grid (procC A idx)) x (cLo A idx) 0 1
    else blkOff x (cLo A idx) (cHi A idx) 0 1 + offAt A (procC A idx) (posC A idx))

theorem cLo_edge (h : BOK A) {c : List Nat} (hc : CoordOK A.nblocks c) :
    EdgeNN (cLo A c) (cHi A c) ∧ (cLo A c).length = A.dims.length ∧
      (cHi A c).length = A.dims.length := by
  obtain ⟨a, b⟩ := coord_edgeNN h.map hc
  exact ⟨a, b, by rw [← b]; exact a.length⟩

theorem sizeC_nonneg (h : BOK A) {c : List Nat} (hc : CoordOK A.nblocks c) : 0 ≤ sizeC A c :=
  blkSize_nonneg (cLo_edge h hc).1

theorem blkLd_length {l h : List Int} (hl : h.length = l.length) (hne : l ≠ []) :
    (blkLd l h).length + 1 = l.length := by
  induction l generalizing h with
  | nil => exact absurd rfl hne
  | cons a l ih =>
    match l, h, hl with
    | [], [_], _ => simp [blkLd]
    | b :: l, c :: d :: h, hl =>
      have := ih (h := d :: h) (by simpa using hl) (by simp)
      simp only [blkLd, List.length_cons] at this ⊢
      omega

theorem slLens (h : BOK A) (hk : A.kind = .scalapack) :
    A.bdims.length = A.dims.length ∧ A.grid.length = A.dims.length := by
  have hu := h.unif (by simp [hk])
  refine ⟨?_, (h.grid (by simp [hk])).1⟩
  generalize A.nblocks = ns at hu
  generalize A.dims = ds at *
  generalize A.bdims = bs at *
  clear h
  induction ds generalizing bs ns with
  | nil => cases bs <;> cases ns <;> simp_all [UnifOK]
  | cons d ds ih =>
    match bs, ns, hu with
    | b :: bs, n :: ns, hu => simp [ih _ _ hu.2]

/-- the piece of a block transfers each element from and to its cell -/
theorem pieceC_ok (h : BOK A) {lo hi : List Int} (hp : PatchOK A.dims lo hi) {idx : List Nat}
    (hi' : CoordOK A.nblocks idx) (ho : overlap (cLo A idx) (cHi A idx) lo hi = true) :
    let p := pieceC A (procC A idx) (offAt A (procC A idx) (posC A idx)) idx lo hi
    EdgeNN p.plo p.phi ∧ p.plo.length = lo.length ∧ p.ldrem.length + 1 = lo.length ∧
      (∀ x, InPatch p.plo p.phi x ↔ InPatch (cLo A idx) (cHi A idx) x ∧ InPatch lo hi x) ∧
      ∀ x, InPatch p.plo p.phi x → (p.proc, p.prem + bufPos p.plo p.ldrem x) = cellB A x := by
  obtain ⟨e1, e2, e3⟩ := cLo_edge h hi'
  have hll : lo.length = A.dims.length := hp.1.length
  obtain ⟨a, b, c⟩ := (patch_spec e1 hp.2.2 (by omega)).1 ho
  have hne : cLo A idx ≠ [] := by
    intro hn; rw [hn] at e2; exact h.ne (List.length_eq_zero_iff.1 e2.symm)
  by_cases hk : A.kind = .scalapack
  · obtain ⟨l1, l2⟩ := slLens h hk
    have l3 : (digits A.grid (procC A idx)).length = A.dims.length := by rw [digits_length, l2]
    simp only [pieceC, hk, if_true]
    refine ⟨a, b, by rw [(slD_dropLast l1 l2 l3 h.ne).2, hll], c, ?_⟩
    intro x hx
    obtain ⟨x1, x2⟩ := (c x).1 hx
    have hxl := x1.length
    rw [cellB, (blkC_unique h hi' x1).2]
    simp only [hk, if_true]
    rw [sl_step h.ne l1 l2 l3 (by omega) (by omega) (by omega)]
  · simp only [pieceC, hk, if_false]
    refine ⟨a, b, by rw [blkLd_length (by omega) hne]; omega, c, ?_⟩
    intro x hx
    obtain ⟨x1, x2⟩ := (c x).1 hx
    have hxl := x1.length
    rw [cellB, (blkC_unique h hi' x1).2]
    simp only [hk, if_false]
    rw [← blk_step (x := x) (p := patchLo (cLo A idx) (cHi A idx) lo) (by omega) (by omega)
      (by omega) hne]
    congr 1
    ring

/-! ## the pieces cover the patch -/

/-- all (process, position) pairs -/
def visits (A : BArray) : List (Nat × Nat) :=
  (List.range A.nproc).flatMap fun p => (List.range (vcount A p)).map fun k => (p, k)

theorem mem_visits {v : Nat × Nat} : v ∈ visits A ↔ v.1 < A.nproc ∧ v.2 < vcount A v.1 := by
  obtain ⟨p, k⟩ := v
  simp only [visits, List.mem_flatMap, List.mem_range, List.mem_map, Prod.mk.injEq]
  constructor
  · rintro ⟨q, hq, j, hj, rfl, rfl⟩; exact ⟨hq, hj⟩
  · rintro ⟨a, b⟩; exact ⟨p, a, k, b, rfl, rfl⟩

theorem nodup_visits : (visits A).Nodup := by
  unfold visits
  rw [List.nodup_flatMap]
  refine ⟨?_, ?_⟩
  · intro p _
    exact List.nodup_range.map (by intro a b h; simpa using h)
  · refine List.nodup_range.pairwise_of_forall_ne ?_
    intro p _ q _ hpq
    simp only [Function.onFun]
    intro v hv hv'
    obtain ⟨_, _, rfl⟩ := List.mem_map.1 hv
    obtain ⟨_, _, h⟩ := List.mem_map.1 hv'
    simp only [Prod.mk.injEq] at h
    exact hpq h.1.symm

theorem bPieces_visits (h : BOK A) (he : EnoughBlocks A) (lo hi : List Int) :
    bPieces A lo hi = some ((visits A).flatMap fun v =>
      emitC A lo hi v.1 (offAt A v.1 v.2) (vis A v.1 v.2)) := by
  rw [bPieces_eq h he, visits, List.flatMap_assoc]
  congr 1
  apply List.flatMap_congr
  intro p _
  rw [procPieces, List.flatMap_map]

theorem visit_emit (h : BOK A) {lo hi : List Int} {v : Nat × Nat} (hv : v ∈ visits A)
    {p : RPiece} (hp : p ∈ emitC A lo hi v.1 (offAt A v.1 v.2) (vis A v.1 v.2)) :
    CoordOK A.nblocks (vis A v.1 v.2) ∧
    overlap (cLo A (vis A v.1 v.2)) (cHi A (vis A v.1 v.2)) lo hi = true ∧
    p = pieceC A (procC A (vis A v.1 v.2)) (offAt A (procC A (vis A v.1 v.2))
      (posC A (vis A v.1 v.2))) (vis A v.1 v.2) lo hi := by
  obtain ⟨h1, h2⟩ := mem_visits.1 hv
  obtain ⟨v1, v2, v3⟩ := vis_ok h h1 h2
  unfold emitC at hp
  split at hp
  · rename_i ho
    refine ⟨v1, ho, ?_⟩
    rw [v2, v3]
    simpa using hp
  · simp at hp

theorem pieces_cover (h : BOK A) {lo hi : List Int} (hp : PatchOK A.dims lo hi) :
    (((visits A).flatMap fun v => emitC A lo hi v.1 (offAt A v.1 v.2) (vis A v.1 v.2)).flatMap
      fun p => box p.plo p.phi).Perm (box lo hi) := by
  rw [List.flatMap_assoc]
  -- what one visit contributes
  have key : ∀ v ∈ visits A, ∀ x,
      x ∈ ((emitC A lo hi v.1 (offAt A v.1 v.2) (vis A v.1 v.2)).flatMap fun p => box p.plo p.phi) ↔
        InPatch (cLo A (vis A v.1 v.2)) (cHi A (vis A v.1 v.2)) x ∧ InPatch lo hi x := by
    intro v hv x
    obtain ⟨h1, h2⟩ := mem_visits.1 hv
    obtain ⟨v1, v2, v3⟩ := vis_ok h h1 h2
    obtain ⟨e1, e2, e3⟩ := cLo_edge h v1
    have hll : lo.length = A.dims.length := hp.1.length
    cases ho : overlap (cLo A (vis A v.1 v.2)) (cHi A (vis A v.1 v.2)) lo hi with
    | false =>
      have := (patch_spec e1 hp.2.2 (by omega)).2 ho x
      simp only [emitC, ho, Bool.false_eq_true, if_false, List.flatMap_nil, List.not_mem_nil, false_iff, not_and]
      exact this
    | true =>
      have hpc := (pieceC_ok h hp v1 ho).2.2.2.1 x
      rw [v2, v3] at hpc
      simp only [emitC, ho, if_true, List.flatMap_cons, List.flatMap_nil, List.append_nil, mem_box]
      exact hpc
  rw [List.perm_ext_iff_of_nodup]
  · intro x
    rw [List.mem_flatMap, mem_box]
    constructor
    · rintro ⟨v, hv, hx⟩
      exact ((key v hv x).1 hx).2
    · intro hx
      obtain ⟨b1, b2⟩ := blkC_ok h (hp.inArray hx)
      obtain ⟨s1, s2, s3⟩ := vis_surj h b1
      have hv : (procC A (blkC A x), posC A (blkC A x)) ∈ visits A := mem_visits.2 ⟨s1, s2⟩
      exact ⟨_, hv, (key _ hv x).2 (by rw [s3]; exact ⟨b2, hx⟩)⟩
  · rw [List.nodup_flatMap]
    refine ⟨?_, ?_⟩
    · intro v _
      unfold emitC
      split
      · simp [nodup_box]
      · simp
    · refine nodup_visits.pairwise_of_forall_ne ?_
      intro v hv w hw hne
      simp only [Function.onFun]
      intro x hx hx'
      have a1 := ((key v hv x).1 hx).1
      have a2 := ((key w hw x).1 hx').1
      obtain ⟨v1, v2, v3⟩ := vis_ok h (mem_visits.1 hv).1 (mem_visits.1 hv).2
      obtain ⟨w1, w2, w3⟩ := vis_ok h (mem_visits.1 hw).1 (mem_visits.1 hw).2
      have e := coord_unique h.map v1 w1 a1 a2
      apply hne
      exact Prod.ext (by rw [← v2, ← w2, e]) (by rw [← v3, ← w3, e])
  · exact nodup_box _ _

theorem bPieces_implements (h : BOK A) (he : EnoughBlocks A) {lo hi ld : List Int}
    (hp : PatchOK A.dims lo hi) (hld : LdOK lo hi ld) (f : Int → Bool) :
    ∃ ps, bPieces A lo hi = some ps ∧ Implements (cellB A) lo hi ld (xfers f lo ld ps) := by
  refine ⟨_, bPieces_visits h he lo hi, ?_⟩
  refine xfers_implements' f hld.length.2 (pieces_cover h hp) ?_
  intro p hpm
  obtain ⟨v, hv, hpv⟩ := List.mem_flatMap.1 hpm
  obtain ⟨a, b, rfl⟩ := visit_emit h hv hpv
  obtain ⟨c1, c2, c3, _, c5⟩ := pieceC_ok h hp a b
  exact ⟨c1, c2, c3, c5⟩

/-! ## different elements live at different addresses -/

theorem offAt_mono (h : BOK A) {p k j : Nat} (hp : p < A.nproc) (hj : k + j ≤ vcount A p) :
    offAt A p k ≤ offAt A p (k + j) := by
  induction j with
  | zero => simp
  | succ j ih =>
    have := sizeC_nonneg h (vis_ok h hp (by omega : k + j < vcount A p)).1
    have := ih (by omega)
    show _ ≤ offAt A p (k + j) + sizeC A (vis A p (k + j))
    omega

theorem offAt_step (h : BOK A) {p k k' : Nat} (hp : p < A.nproc) (hk : k < k')
    (hj : k' ≤ vcount A p) : offAt A p k + sizeC A (vis A p k) ≤ offAt A p k' := by
  obtain ⟨j, rfl⟩ : ∃ j, k' = k + 1 + j := ⟨k' - (k + 1), by omega⟩
  exact offAt_mono (k := k + 1) h hp hj

theorem procC_modL (h : BOK A) (hk : A.kind ≠ .cyclic) {idx : List Nat}
    (hi : CoordOK A.nblocks idx) : digits A.grid (procC A idx) = modL A.grid idx := by
  unfold procC
  rw [if_neg hk]
  apply digits_undigits
  exact modL_ok (by rw [hi.length, h.lens hk]) (h.grid hk).2.1

theorem slStart (h : BOK A) (hk : A.kind = .scalapack) {idx : List Nat}
    (hi : CoordOK A.nblocks idx) : cLo A idx = unifLo A.bdims idx ∧
      cHi A idx = unifHi A.dims A.bdims idx := by
  have hn : A.kind ≠ .tiledIrreg := by simp [hk]
  unfold cLo cHi starts
  rw [if_neg hn, unifLo_eq (h.unif hn) hi, unifHi_eq (h.unif hn) hi]
  exact ⟨rfl, rfl⟩

theorem cellB_inj (h : BOK A) {x y : List Int} (hx : InArray A.dims x) (hy : InArray A.dims y)
    (he : cellB A x = cellB A y) : x = y := by
  obtain ⟨x1, x2⟩ := blkC_ok h hx
  obtain ⟨y1, y2⟩ := blkC_ok h hy
  unfold cellB at he
  simp only [Prod.mk.injEq, Int.natCast_inj] at he
  obtain ⟨hpr, ho⟩ := he
  by_cases hk : A.kind = .scalapack
  · obtain ⟨l1, l2⟩ := slLens h hk
    have hc : A.kind ≠ .cyclic := by simp [hk]
    have hn : A.kind ≠ .tiledIrreg := by simp [hk]
    have lx := x2.length
    have ly := y2.length
    have e1 := cLo_edge h x1
    have e2 := cLo_edge h y1
    simp only [hk, if_true] at ho
    rw [slOff_eq _ _ _ _ _ _ _ _ l1 l2 (by rw [digits_length, l2]) (by omega) (by omega),
      slOff_eq _ _ _ _ _ _ _ _ l1 l2 (by rw [digits_length, l2]) (by omega) (by omega),
      procC_modL h hc x1, procC_modL h hc y1, (slStart h hk x1).1, (slStart h hk y1).1] at ho
    have hm : modL A.grid (blkC A x) = modL A.grid (blkC A y) := by
      rw [← procC_modL h hc x1, ← procC_modL h hc y1, hpr]
    rw [(slStart h hk x1).1, (slStart h hk x1).2] at x2
    rw [(slStart h hk y1).1, (slStart h hk y1).2] at y2
    have fx := sl_fb (h.unif hn) x1 l2 (h.grid hc).2.1 x2
    have fy := sl_fb (h.unif hn) y1 l2 (h.grid hc).2.1 y2
    rw [hm] at fx ho
    exact sl_inj (h.unif hn) x1 y1 l2 (h.grid hc).2.1 x2 y2 hm (fb_inj fx fy (by omega))
  · simp only [hk, if_false] at ho
    obtain ⟨bx0, bx1⟩ := blk_bound x2
    obtain ⟨by0, by1⟩ := blk_bound y2
    obtain ⟨sx1, sx2, sx3⟩ := vis_surj h x1
    obtain ⟨sy1, sy2, sy3⟩ := vis_surj h y1
    have hpos : posC A (blkC A x) = posC A (blkC A y) := by
      rcases Nat.lt_trichotomy (posC A (blkC A x)) (posC A (blkC A y)) with hlt | heq | hgt
      · have := offAt_step h sx1 hlt (by rw [hpr]; omega)
        rw [sx3, sizeC, hpr] at this
        rw [hpr] at ho
        omega
      · exact heq
      · have := offAt_step h sy1 hgt (by rw [← hpr]; omega)
        rw [sy3, sizeC, ← hpr] at this
        rw [← hpr] at ho
        omega
    have hidx : blkC A x = blkC A y := by rw [← sx3, ← sy3, hpr, hpos]
    rw [hidx] at ho x2
    exact blk_inj x2 y2 (by omega)

/-! ## the allocation is large enough -/

theorem forStep_eq (f s n g : Nat) (hg : 0 < g) (hf : cnt s n g ≤ f) :
    forStep f s n g = (List.range (cnt s n g)).map fun k => s + g * k := by
  induction f generalizing s with
  | zero => simp [forStep, Nat.le_zero.1 hf]
  | succ f ih =>
    simp only [forStep]
    by_cases h : s < n
    · have hc : cnt s n g = cnt (s + g) n g + 1 := by
        apply le_antisymm
        · by_contra hlt
          have h1 := (lt_cnt (c := s) (n := n) hg (k := cnt (s + g) n g + 1)).1 (by omega)
          have h2 := (lt_cnt (c := s + g) (n := n) hg (k := cnt (s + g) n g)).2
            (by rw [Nat.mul_add] at h1; omega)
          omega
        · rcases Nat.eq_zero_or_pos (cnt (s + g) n g) with h0 | h0
          · rw [h0]
            exact (lt_cnt hg).2 (by omega)
          · have h1 := (lt_cnt (c := s + g) (n := n) hg (k := cnt (s + g) n g - 1)).1 (by omega)
            apply (lt_cnt hg).2
            have e : g * cnt (s + g) n g = g * (cnt (s + g) n g - 1) + g := by
              conv_lhs => rw [show cnt (s + g) n g = cnt (s + g) n g - 1 + 1 by omega, Nat.mul_add]
              simp
            omega
      rw [if_pos h, hc, List.range_succ_eq_map, ih _ (by omega)]
      simp only [List.map_cons, List.map_map, Nat.mul_zero, Nat.add_zero]
      congr 1
      apply List.map_congr_left
      intro k _
      simp only [Function.comp_apply, Nat.succ_eq_add_one]
      ring
    · have : cnt s n g = 0 := by
        by_contra hne
        have := (lt_cnt (c := s) (n := n) hg (k := 0)).1 (by omega)
        omega
      rw [if_neg h, this]
      rfl

theorem sumI_append (a b : List Int) : sumI (a ++ b) = sumI a + sumI b := by
  induction a with
  | nil => simp [sumI]
  | cons x a ih => simp [sumI, ih]; ring

theorem offAt_eq (A : BArray) (p k : Nat) :
    offAt A p k = sumI ((List.range k).map fun k => sizeC A (vis A p k)) := by
  induction k with
  | zero => rfl
  | succ k ih => simp [offAt, ih, List.range_succ, sumI_append, sumI]

/-- extent of block `i` of one axis -/
def extB (n : Nat) (d : Int) (m : List Int) (i : Nat) : Int :=
  (if i = n - 1 then d else m.getD (i + 1) 0 - 1) - m.getD i 0 + 1

/-- product over the dimensions of the sums of the block extents -/
def genAlloc : (ns : List Nat) → (ds m : List Int) → (gs cs : List Nat) → Int
  | n :: ns, d :: ds, m, g :: gs, c :: cs =>
    sumI ((List.range (cnt c n g)).map fun k => extB n d m (c + g * k)) *
      genAlloc ns ds (m.drop n) gs cs
  | _, _, _, _, _ => 1

theorem sumI_flatMap {α} (l : List α) (f : α → List Int) :
    sumI (l.flatMap f) = sumI (l.map fun a => sumI (f a)) := by
  induction l with
  | nil => rfl
  | cons a l ih => simp [sumI_append, ih, sumI]

theorem sumI_mul {α} (l : List α) (f : α → Int) (c : Int) :
    sumI (l.map fun a => f a * c) = sumI (l.map f) * c := by
  induction l with
  | nil => simp [sumI]
  | cons a l ih => simp [sumI, ih]; ring

theorem sumI_mul' {α} (l : List α) (f : α → Int) (c : Int) :
    sumI (l.map fun a => c * f a) = c * sumI (l.map f) := by
  induction l with
  | nil => simp [sumI]
  | cons a l ih => simp [sumI, ih]; ring

theorem gen_sum {ns : List Nat} {ds m : List Int} {gs cs : List Nat} (h1 : ds.length = ns.length)
    (h2 : gs.length = ns.length) (h3 : cs.length = ns.length) :
    sumI ((List.range (gridSize (cnts cs ns gs))).map fun t =>
      blkSize (coordLo ns m (toIdx cs gs (digits (cnts cs ns gs) t)))
        (coordHi ns ds m (toIdx cs gs (digits (cnts cs ns gs) t)))) = genAlloc ns ds m gs cs := by
  induction ns generalizing ds m gs cs with
  | nil =>
    match ds, gs, cs, h1, h2, h3 with
    | [], [], [], _, _, _ => simp [cnts, gridSize, genAlloc, sumI, blkSize, toIdx, coordLo]
  | cons n ns ih =>
    match ds, gs, cs, h1, h2, h3 with
    | d :: ds, g :: gs, c :: cs, h1, h2, h3 =>
      have ih' := ih (ds := ds) (m := m.drop n) (gs := gs) (cs := cs) (by simpa using h1)
        (by simpa using h2) (by simpa using h3)
      simp only [cnts, gridSize, genAlloc]
      rw [range_mul_map, sumI_flatMap, ← ih', ← sumI_mul']
      congr 1
      apply List.map_congr_left
      intro q _
      rw [← sumI_mul]
      congr 1
      apply List.map_congr_left
      intro r hr
      have hr' := List.mem_range.1 hr
      have e1 : (r + cnt c n g * q) % cnt c n g = r := by
        rw [Nat.add_mul_mod_self_left, Nat.mod_eq_of_lt hr']
      have e2 : (r + cnt c n g * q) / cnt c n g = q := by
        rw [Nat.add_mul_div_left _ _ (by omega), Nat.div_eq_of_lt hr', Nat.zero_add]
      simp only [digits, e1, e2, toIdx, coordLo, coordHi, blkSize, extB]

theorem irrLen_eq {d : Int} {m : List Int} {n g c : Nat} (hg : 0 < g) :
    irrLen d m n g c = sumI ((List.range (cnt c n g)).map fun k => extB n d m (c + g * k)) := by
  unfold irrLen
  rw [forStep_eq _ _ _ _ hg (cnt_le hg), List.map_map]
  congr 1
  apply List.map_congr_left
  intro k hk
  have := (lt_cnt hg).1 (List.mem_range.1 hk)
  simp only [Function.comp_apply, extB]
  by_cases he : c + g * k = n - 1
  · rw [if_pos he, if_neg (by omega)]
  · rw [if_neg he, if_pos (by omega)]

theorem irrAlloc_eq {ns : List Nat} {ds m : List Int} {gs cs : List Nat}
    (hg : ∀ g ∈ gs, 0 < g) : irrAlloc ds m ns gs cs = genAlloc ns ds m gs cs := by
  induction ns generalizing ds m gs cs with
  | nil => cases ds <;> simp [irrAlloc, genAlloc]
  | cons n ns ih =>
    match ds, gs, cs with
    | [], _, _ => simp [irrAlloc, genAlloc]
    | d :: ds, [], _ => simp [irrAlloc, genAlloc]
    | d :: ds, g :: gs, [] => simp [irrAlloc, genAlloc]
    | d :: ds, g :: gs, c :: cs =>
      simp only [irrAlloc, genAlloc, irrLen_eq (hg g (by simp))]
      rw [ih (gs := gs) (fun g' h' => hg g' (by simp [h']))]

theorem unifLen_clamp {d b : Int} {n g c : Nat} (hd : 1 ≤ d) (hb : 1 ≤ b) (hn : n = numBlk d b)
    (hg : 0 < g) : unifLen d b n g c =
      sumI ((List.range (cnt c n g)).map fun k : Nat => clampB b (d - ((c + g * k : Nat) : Int) * b)) := by
  unfold unifLen
  rw [forStep_eq _ _ _ _ hg (cnt_le hg), List.map_map]
  congr 1
  apply List.map_congr_left
  intro k hk
  have hlt := (lt_cnt hg).1 (List.mem_range.1 hk)
  obtain ⟨_, n2, _⟩ := numBlk_spec hd hb
  rw [← hn] at n2
  simp only [Function.comp_apply]
  generalize c + g * k = j at *
  have : (j : Int) ≤ n - 1 := by omega
  have hjb : (j : Int) * b < d := by nlinarith
  have e : ((j : Int) + 1) * b = j * b + b := by ring
  unfold clampB
  rw [e]
  split <;> split <;> (try split) <;> omega

theorem unifAlloc_gen {ds bs : List Int} {ns gs cs : List Nat} (hu : UnifOK ds bs ns)
    (hg : ∀ g ∈ gs, 0 < g) : unifAlloc ds bs ns gs cs = genAlloc ns ds (unifStarts bs ns) gs cs := by
  induction ds generalizing bs ns gs cs with
  | nil => cases bs <;> cases ns <;> simp_all [UnifOK, unifAlloc, genAlloc]
  | cons d ds ih =>
    match bs, ns, gs, cs, hu with
    | b :: bs, n :: ns, [], _, hu => simp [unifAlloc, genAlloc]
    | b :: bs, n :: ns, g :: gs, [], hu => simp [unifAlloc, genAlloc]
    | b :: bs, n :: ns, g :: gs, c :: cs, hu =>
      obtain ⟨⟨h1, h2, h3⟩, h4⟩ := hu
      have hg0 := hg g (by simp)
      obtain ⟨n1, n2, n3⟩ := numBlk_spec h1 h2
      rw [← h3] at n1 n2 n3
      simp only [unifAlloc, genAlloc]
      rw [ih h4 (fun g' h' => hg g' (by simp [h'])), unifLen_clamp h1 h2 h3 hg0]
      congr 1
      · congr 1
        apply List.map_congr_left
        intro k hk
        have hlt := (lt_cnt hg0).1 (List.mem_range.1 hk)
        generalize c + g * k = j at *
        unfold extB
        simp only [unifStarts]
        rw [range_map_append_getD _ _ hlt]
        have hj1 : (j : Int) ≤ n - 1 := by omega
        have hjb : (j : Int) * b < d := by nlinarith
        unfold clampB
        rw [if_neg (by omega)]
        by_cases he : j = n - 1
        · rw [if_pos he]
          have : (j : Int) = n - 1 := by omega
          rw [this] at *
          have e : ((n : Int) - 1) * b = n * b - b := by ring
          rw [if_neg (by omega)]
          omega
        · rw [if_neg he, range_map_append_getD _ _ (by omega)]
          have : (j : Int) + 1 ≤ n - 1 := by omega
          have hjb2 : ((j : Int) + 1) * b < d := by nlinarith
          have e : ((j : Int) + 1) * b = j * b + b := by ring
          rw [if_pos (by omega)]
          push_cast
          omega
      · simp only [unifStarts]
        rw [List.drop_append_of_le_length (by simp), List.drop_of_length_le (by simp)]
        simp

/-- closed form of the sum of the clamped extents -/
theorem clamp_sum {d b : Int} {g c : Nat} (hd : 1 ≤ d) (hb : 1 ≤ b) (hc : c < g) (K : Nat) :
    sumI ((List.range K).map fun k : Nat => clampB b (d - ((c + g * k : Nat) : Int) * b)) =
      if (K : Int) ≤ d / (b * g) then K * b
      else d / (b * g) * b + clampB b (d - d / (b * g) * (b * g) - c * b) := by
  have hbg : 0 < b * (g : Int) := Int.mul_pos (by omega) (by omega)
  have e1 := Int.emod_add_mul_ediv d (b * g)
  have e2 := Int.emod_nonneg d (by omega : b * (g : Int) ≠ 0)
  have e3 := Int.emod_lt_of_pos d hbg
  have hQ : 0 ≤ d / (b * g) := Int.ediv_nonneg (by omega) (by omega)
  generalize d / (b * g) = Q at *
  have hcb : 0 ≤ (c : Int) * b := Int.mul_nonneg (by omega) (by omega)
  have hcb2 : ((c : Int) + 1) * b ≤ b * g := by
    rw [Int.mul_comm b]; exact Int.mul_le_mul_of_nonneg_right (by omega) (by omega)
  have e4 : ((c : Int) + 1) * b = c * b + b := by ring
  have eQ : Q * (b * g) = b * g * Q := by ring
  induction K with
  | zero => simp [sumI, hQ]
  | succ K ih =>
    rw [List.range_succ, List.map_append, sumI_append, ih]
    simp only [List.map_cons, List.map_nil, sumI, Int.add_zero]
    have ek : ((c + g * K : Nat) : Int) * b = c * b + K * (b * g) := by push_cast; ring
    rw [ek]
    push_cast
    rcases lt_trichotomy (K : Int) Q with hlt | heq | hgt
    · rw [if_pos (by omega), if_pos (by omega)]
      have : ((K : Int) + 1) * (b * g) ≤ Q * (b * g) :=
        Int.mul_le_mul_of_nonneg_right (by omega) (by omega)
      have e5 : ((K : Int) + 1) * (b * g) = K * (b * g) + b * g := by ring
      have : clampB b (d - (c * b + K * (b * g))) = b := by
        unfold clampB
        split
        · omega
        · split <;> omega
      rw [this]; ring
    · rw [if_pos (by omega), if_neg (by omega), heq]
      congr 2
      ring
    · rw [if_neg (by omega), if_neg (by omega)]
      have : (Q + 1) * (b * g) ≤ (K : Int) * (b * g) :=
        Int.mul_le_mul_of_nonneg_right (by omega) (by omega)
      have e5 : (Q + 1) * (b * g) = Q * (b * g) + b * g := by ring
      have : clampB b (d - (c * b + K * (b * g))) = 0 := by
        unfold clampB
        rw [if_pos (by omega)]
      rw [this]; ring

/-- the ScaLAPACK leading dimension is the number of local elements of the axis -/
theorem unifLen_eq {d b : Int} {n g c : Nat} (hd : 1 ≤ d) (hb : 1 ≤ b) (hn : n = numBlk d b)
    (hc : c < g) : unifLen d b n g c = slLd d b g c := by
  have hg : 0 < g := by omega
  rw [unifLen_clamp hd hb hn hg, clamp_sum hd hb hc, slLd_eq hd hb hg]
  obtain ⟨n1, n2, n3⟩ := numBlk_spec hd hb
  rw [← hn] at n1 n2 n3
  have hbg : 0 < b * (g : Int) := Int.mul_pos (by omega) (by omega)
  have e1 := Int.emod_add_mul_ediv d (b * g)
  have e2 := Int.emod_nonneg d (by omega : b * (g : Int) ≠ 0)
  have hQ : 0 ≤ d / (b * g) := Int.ediv_nonneg (by omega) (by omega)
  generalize hq : d / (b * g) = Q at *
  obtain ⟨q, rfl⟩ : ∃ q : Nat, Q = q := ⟨Q.toNat, by omega⟩
  have eQ : (q : Int) * (b * g) = b * g * q := by ring
  split
  · rename_i hle
    -- no partial block: `cnt = q`
    have hK : cnt c n g = q := by
      apply le_antisymm (by exact_mod_cast hle)
      rcases Nat.eq_zero_or_pos q with h0 | h0
      · omega
      · have : q - 1 < cnt c n g := by
          rw [lt_cnt hg]
          have : ((c + g * (q - 1) : Nat) : Int) * b < n * b := by
            have ee : (((q - 1 : Nat)) : Int) = q - 1 := by omega
            push_cast
            rw [ee]
            have h5 : ((c : Int) + 1) * b ≤ g * b := Int.mul_le_mul_of_nonneg_right (by omega) (by omega)
            have h6 : ((c : Int) + g * ((q : Int) - 1)) * b = (c + 1) * b - b + b * g * q - g * b := by ring
            omega
          have := lt_of_mul_lt_mul_right this (by omega)
          exact_mod_cast this
        omega
    have hnot : ¬ c + g * q < n := by rw [← lt_cnt hg]; omega
    have : ((n : Int)) * b ≤ ((c + g * q : Nat) : Int) * b :=
      Int.mul_le_mul_of_nonneg_right (by omega) (by omega)
    have ek : ((c + g * q : Nat) : Int) * b = c * b + q * (b * g) := by push_cast; ring
    rw [hK]
    have : clampB b (d - q * (b * g) - c * b) = 0 := by
      unfold clampB
      split
      · rfl
      · split <;> omega
    rw [this]; ring
  · rfl

theorem unifAlloc_sl {ds bs : List Int} {ns gs cs : List Nat} (hu : UnifOK ds bs ns)
    (hl : gs.length = ds.length) (hc : CoordOK gs cs) :
    unifAlloc ds bs ns gs cs = prodI (slD ds bs gs cs) := by
  induction ds generalizing bs ns gs cs with
  | nil => cases bs <;> cases ns <;> simp_all [UnifOK, unifAlloc, slD, prodI]
  | cons d ds ih =>
    match bs, ns, gs, cs, hu, hl, hc with
    | b :: bs, n :: ns, g :: gs, c :: cs, hu, hl, hc =>
      simp only [unifAlloc, slD, prodI]
      rw [unifLen_eq hu.1.1 hu.1.2.1 hu.1.2.2 hc.1, ih hu.2 (by simpa using hl) hc.2]

theorem offAt_total (h : BOK A) (hk : A.kind ≠ .scalapack) {p : Nat} (hp : p < A.nproc) :
    offAt A p (vcount A p) = bAlloc A p := by
  rw [offAt_eq]
  by_cases hc : A.kind = .cyclic
  · unfold bAlloc vcount
    simp only [hc, if_true]
    rw [forStep_eq _ _ _ _ h.np (cnt_le h.np), List.map_map]
    congr 1
    apply List.map_congr_left
    intro k hk'
    have hlt := (lt_cnt h.np).1 (List.mem_range.1 hk')
    simp only [Function.comp_apply, sizeC, vis, hc, if_true, bOwns_eq h hlt, cLo, cHi]
  · have hl := h.lens hc
    have hl2 := mapOK_length h.map
    obtain ⟨g1, g2, g3⟩ := h.grid hc
    have hgen := gen_sum (ns := A.nblocks) (ds := A.dims) (m := starts A) (gs := A.grid)
      (cs := digits A.grid p) (by omega) (by omega) (by rw [digits_length]; omega)
    have e : sumI ((List.range (vcount A p)).map fun k => sizeC A (vis A p k)) =
        genAlloc A.nblocks A.dims (starts A) A.grid (digits A.grid p) := by
      rw [← hgen]
      unfold vcount vis sizeC cLo cHi
      simp only [hc, if_false]
    rw [e]
    unfold bAlloc
    cases hkk : A.kind with
    | cyclic => exact absurd hkk hc
    | scalapack => exact absurd hkk hk
    | tiled =>
      simp only [splitIdx_eq]
      rw [unifAlloc_gen (h.unif (by simp [hkk])) g2]
      simp [starts, hkk]
    | tiledIrreg =>
      simp only [splitIdx_eq]
      rw [irrAlloc_eq g2]
      simp [starts, hkk]

theorem cellB_bounds (h : BOK A) {x : List Int} (hx : InArray A.dims x) :
    ∃ p : Nat, (cellB A x).1 = p ∧ p < A.nproc ∧ 0 ≤ (cellB A x).2 ∧ (cellB A x).2 < bAlloc A p := by
  obtain ⟨x1, x2⟩ := blkC_ok h hx
  obtain ⟨s1, s2, s3⟩ := vis_surj h x1
  refine ⟨procC A (blkC A x), rfl, s1, ?_⟩
  by_cases hk : A.kind = .scalapack
  · obtain ⟨l1, l2⟩ := slLens h hk
    have hc : A.kind ≠ .cyclic := by simp [hk]
    have hn : A.kind ≠ .tiledIrreg := by simp [hk]
    have lx := x2.length
    have e1 := cLo_edge h x1
    have hal : bAlloc A (procC A (blkC A x)) =
        prodI (slD A.dims A.bdims A.grid (modL A.grid (blkC A x))) := by
      unfold bAlloc
      simp only [hk, splitIdx_eq]
      rw [procC_modL h hc x1]
      exact unifAlloc_sl (h.unif hn) l2 (modL_ok (by rw [x1.length, h.lens hc]) (h.grid hc).2.1)
    unfold cellB
    simp only [hk, if_true]
    rw [slOff_eq _ _ _ _ _ _ _ _ l1 l2 (by rw [digits_length, l2]) (by omega) (by omega),
      procC_modL h hc x1, (slStart h hk x1).1, hal]
    rw [(slStart h hk x1).1, (slStart h hk x1).2] at x2
    have := fb_bound (sl_fb (h.unif hn) x1 l2 (h.grid hc).2.1 x2)
    omega
  · unfold cellB
    simp only [hk, if_false]
    obtain ⟨b0, b1⟩ := blk_bound x2
    have o0 := offAt_mono (k := 0) (j := posC A (blkC A x)) h s1 (by omega)
    have o1 := offAt_step h s1 s2 (Nat.le_refl _)
    rw [s3, sizeC, offAt_total h hk s1] at o1
    rw [Nat.zero_add] at o0
    have : offAt A (procC A (blkC A x)) 0 = 0 := rfl
    omega

end GA
