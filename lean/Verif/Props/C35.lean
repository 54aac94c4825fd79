import Verif.Props.Content

/-!
# C35: whole-array operations act on every element exactly once; C51: patch operations

`GA_Zero`, `GA_Fill`, `GA_Scale` and `NGA_Fill_patch`, `NGA_Scale_patch`, `NGA_Zero_patch`. What the
array contains is what `NGA_Get` returns: see `Holds`. An execution of a collective operation is
`Phase n cells f m m'`: all `n` processes apply `f` to their cells, interleaved in any way.
-/

namespace GA
open Spec Model

section
variable {V : Type}

/-- On REGULAR arrays without ghost cells every process of the grid owns an element. -/
def NoEmptyBlock : GArr → Prop
  | .reg A _ => hasGhosts A = false → ∀ p : Nat, p < gridSize A.nblock → ∃ x, OwnedBy A p x
  | .blk _ => True

/-- cells of a whole-array operation -/
private structure Whole (G : GArr) (cells : Nat → Option (List Addr)) : Prop where
  ex : ∀ p, p < G.nproc → ∃ l, cells p = some l ∧ l.Nodup ∧ (∀ a ∈ l, a.1 = (p : Int)) ∧
    ∀ x, InArray G.dims x → (cellG G x).1 = (p : Int) → cellG G x ∈ l

private theorem whole_phase {G : GArr} (hG : Sound G) {cells : Nat → Option (List Addr)}
    (hw : Whole G cells) (g : V → V) (m : Addr → V) (f : List Int → V) (hm : Holds G m f) :
    (∃ m', Phase G.nproc cells g m m') ∧
    ∀ m', Phase G.nproc cells g m m' → Holds G m' fun x => g (f x) := by
  have hc : ∀ p, ∃ l, p < G.nproc → cells p = some l ∧ l.Nodup ∧ (∀ a ∈ l, a.1 = (p : Int)) ∧
      ∀ x, InArray G.dims x → (cellG G x).1 = (p : Int) → cellG G x ∈ l := by
    intro p
    by_cases hp : p < G.nproc
    · obtain ⟨l, hl⟩ := hw.ex p hp
      exact ⟨l, fun _ => hl⟩
    · exact ⟨[], fun h => absurd h hp⟩
  obtain ⟨ls, hls⟩ := Classical.axiomOfChoice hc
  have hall := allCells_some (n := G.nproc) (ls := ls) fun p hp => (hls p hp).1
  refine ⟨⟨_, _, _, hall, List.Perm.refl _, rfl⟩, ?_⟩
  rintro m' ⟨l, sched, h1, h2, rfl⟩
  rw [hall, Option.some.injEq] at h1
  subst h1
  have hnd : ((List.range G.nproc).flatMap ls).Nodup :=
    nodup_procs (fun p hp => (hls p hp).2.1) (fun p hp => (hls p hp).2.2.1)
  rw [holds_iff hG] at hm ⊢
  intro x hx
  rw [mapCells_apply _ (h2.nodup_iff.2 hnd), if_pos, hm x hx]
  rw [h2.mem_iff, List.mem_flatMap]
  obtain ⟨p, b1, b2, b3, b4⟩ := cellG_bounds hG hx
  exact ⟨p, List.mem_range.2 b2, (hls p b2).2.2.2 x hx b1⟩

/-- **C35 (fill).** `GA_Fill` gives every element the value, whatever the interleaving of the
processes, and it never fails. -/
theorem C35_fill (G : GArr) (hG : Sound G) (v : V) (m : Addr → V) (f : List Int → V)
    (hm : Holds G m f) :
    (∃ m', Phase G.nproc (fillCells G) (fun _ => v) m m') ∧
    ∀ m', Phase G.nproc (fillCells G) (fun _ => v) m m' → Holds G m' fun _ => v := by
  refine whole_phase hG ⟨fun p hp => ⟨_, rfl, nodup_segment _ _ _, ?_, ?_⟩⟩ _ m f hm
  · intro a ha
    exact (mem_segment.1 ha).1
  · intro x hx hc
    obtain ⟨q, b1, b2, b3, b4⟩ := cellG_bounds hG hx
    have : q = p := by omega
    subst this
    exact mem_segment.2 ⟨hc, by omega, by omega⟩

private theorem ldRem_noghost {A : RegArray} (hg : hasGhosts A = false) {l : List Int}
    (hl : A.width.length = l.length) : A.width = l.map fun _ => 0 := by
  apply List.ext_getElem
  · simp [hl]
  · intro i h1 h2
    unfold hasGhosts at hg
    rw [List.any_eq_false] at hg
    have := hg _ (List.getElem_mem h1)
    simp only [decide_eq_true_eq, Nat.not_lt, Nat.le_zero_eq] at this
    simp [this]

private theorem own_whole {A : RegArray} {n : Nat} (hA : ArrOK A) (hn : gridSize A.nblock ≤ n)
    (hg : hasGhosts A = false) {p : Nat} (hp : p < gridSize A.nblock)
    (he : ∃ x, OwnedBy A p x) :
    ∃ l, ownCells A p = some l ∧ l.Nodup ∧ (∀ a ∈ l, a.1 = (p : Int)) ∧
      ∀ x, InArray A.dims x → (cell A x).1 = (p : Int) → cell A x ∈ l := by
  obtain ⟨x0, hx0⟩ := he
  unfold OwnedBy at hx0
  have ho := regLocal_mem hA hp
  have hl := owns_length hA (digits_ok hp)
  have hlen : (owns A p).2.length = (owns A p).1.length := by rw [ho]; simp only; omega
  have hlen' : (owns A p).1.length = A.dims.length := by rw [ho]; exact hl.1
  have hne : (owns A p).1 ≠ [] := by
    intro h0; rw [h0] at hlen'; exact hA.ne (List.length_eq_zero_iff.1 hlen'.symm)
  have hwz := ldRem_noghost hg (l := (owns A p).1) (by rw [hA.width, hlen'])
  have hld : ldRem (owns A p).1 (owns A p).2 A.width = (extents (owns A p).1 (owns A p).2).dropLast := by
    rw [extents_dropLast hlen, blkLd_eq, ← hwz]
  have hemp := (anyEmpty_false hlen).2 (inPatch_lower hx0)
  refine ⟨segment p (locOffset A p (owns A p).1) (prodI (extents (owns A p).1 (owns A p).2)), ?_,
    nodup_segment _ _ _, fun a ha => (mem_segment.1 ha).1, ?_⟩
  · unfold ownCells getElems
    simp only [hemp, Bool.false_eq_true, if_false, hld, if_true, Option.map_some]
  · intro x hx hc
    obtain ⟨q, b1, b2, b3, b4, b5, b6⟩ := reg_bounds hA hn hx
    have : q = p := by omega
    subst this
    refine mem_segment.2 ⟨hc, ?_⟩
    have hb := blk_bound b4
    have hxl := b4.length
    have h1 : (cell A x).2 = blkOff x (owns A q).1 (owns A q).2 0 1 := by
      rw [reg_cell hA hp b4]
      simp only
      have hstep := blk_step (x := x) (p := (owns A q).1) (l := (owns A q).1) (h := (owns A q).2)
        (by omega) rfl (by omega) hne
      rw [← hstep, hld, extents_dropLast hlen]
      congr 1
      unfold locOffset
      rw [blkOff_eq _ _ _ _ _ (by omega), ← hwz]
    have h2 : locOffset A q (owns A q).1 = 0 := by
      have : locOffset A q (owns A q).1 = blkOff (owns A q).1 (owns A q).1 (owns A q).2 0 1 := by
        unfold locOffset
        rw [blkOff_eq _ _ _ _ _ (by omega), ← hwz]
      rw [this, blkOff_self hlen]
    rw [h1, h2, extents_prod]
    omega

/-- The branch for arrays with ghost cells: a patch operation on the own block. -/
private theorem ghost_whole {A : RegArray} {n : Nat} (hA : ArrOK A) (hn : gridSize A.nblock ≤ n)
    {p : Nat} (hp : p < n) :
    ∃ l, patchCells (.reg A n) (owns A p).1 (owns A p).2 p = some l ∧ l.Nodup ∧
      (∀ a ∈ l, a.1 = (p : Int)) ∧ ∀ x, InArray A.dims x → (cell A x).1 = (p : Int) → cell A x ∈ l := by
  have v := reg_view hA hn
  refine ⟨_, rfl, ?_⟩
  rcases regItems hA p with ⟨h, h'⟩ | ⟨h1, h2, h3⟩
  · simp only [h, List.flatMap_nil, List.nodup_nil, List.not_mem_nil, false_imp_iff, implies_true,
      true_and]
    intro x hx hc
    obtain ⟨q, b1, b2, b3, b4, b5, b6⟩ := reg_bounds hA hn hx
    have : q = p := by omega
    subst this
    exact h' x ⟨b3, b4⟩
  · obtain ⟨s1, s2, s3, s4⟩ := v.shape p hp _ (by rw [h3]; exact List.mem_singleton.2 rfl)
    simp only [GArr.dims] at s2 s3 s4
    simp only [h3, List.flatMap_cons, List.flatMap_nil, List.append_nil]
    have hperm := itemPatch_eq (lo := (owns A p).1) (hi := (owns A p).2)
      (it := ⟨(owns A p).1, (owns A p).2, p, locOffset A p (owns A p).1,
        ldRem (owns A p).1 (owns A p).2 A.width⟩) (by omega) rfl (by simp only; omega) (by simp only; omega)
    have hmap : ((box (owns A p).1 (owns A p).2).filter
        (fun x => decide (InPatch (owns A p).1 (owns A p).2 x))).map
          (fun x => ((p : Int), locOffset A p (owns A p).1 +
            bufPos (owns A p).1 (ldRem (owns A p).1 (owns A p).2 A.width) x)) =
        (box (owns A p).1 (owns A p).2).map (cell A) := by
      rw [List.filter_eq_self.2]
      · apply List.map_congr_left
        intro x hx
        rw [reg_cell hA h1 (mem_box.1 hx)]
      · intro x hx; simpa using mem_box.1 hx
    simp only at hperm
    rw [hmap] at hperm
    refine ⟨?_, ?_, ?_⟩
    · rw [hperm.nodup_iff]
      refine List.Nodup.map_on ?_ (nodup_box _ _)
      intro x hx y hy hxy
      have hx' := mem_box.1 hx
      have hy' := mem_box.1 hy
      rw [regLocal_mem hA h1] at hx' hy'
      exact cell_inj hA (coord_inArray hA.map (digits_ok h1) hx') (coord_inArray hA.map (digits_ok h1) hy') hxy
    · intro a ha
      obtain ⟨x, hx, rfl⟩ := List.mem_map.1 (hperm.mem_iff.1 ha)
      rw [reg_cell hA h1 (mem_box.1 hx)]
    · intro x hx hc
      obtain ⟨q, b1, b2, b3, b4, b5, b6⟩ := reg_bounds hA hn hx
      have : q = p := by omega
      subst this
      exact hperm.mem_iff.2 (List.mem_map.2 ⟨x, mem_box.2 b4, rfl⟩)

private theorem blk_whole {A : BArray} (hA : BOK A) {p : Nat} (hp : p < A.nproc) :
    ∃ l, some (segment p 0 (bAlloc A p)) = some l ∧ l.Nodup ∧
      (∀ a ∈ l, a.1 = (p : Int)) ∧ ∀ x, InArray A.dims x → (cellB A x).1 = (p : Int) → cellB A x ∈ l := by
  refine ⟨_, rfl, nodup_segment _ _ _, fun a ha => (mem_segment.1 ha).1, ?_⟩
  intro x hx hc
  obtain ⟨q, b1, b2, b3, b4⟩ := cellB_bounds hA hx
  have : q = p := by omega
  subst this
  exact mem_segment.2 ⟨hc, by omega, by omega⟩

private theorem outside_none {A : RegArray} {n : Nat} (hA : ArrOK A) (hn : gridSize A.nblock ≤ n)
    {p : Nat} (hp : ¬ p < gridSize A.nblock) :
    ∃ l : List Addr, some [] = some l ∧ l.Nodup ∧
      (∀ a ∈ l, a.1 = (p : Int)) ∧ ∀ x, InArray A.dims x → (cell A x).1 = (p : Int) → cell A x ∈ l := by
  refine ⟨[], rfl, List.nodup_nil, by simp, ?_⟩
  intro x hx hc
  obtain ⟨q, b1, b2, b3, b4, b5, b6⟩ := reg_bounds hA hn hx
  omega

theorem headPos_iff {A : RegArray} (hA : ArrOK A) (p : Nat) :
    headPos (owns A p).1 = true ↔ p < gridSize A.nblock := by
  constructor
  · intro h
    by_contra hp
    rw [reg_outside hp] at h
    cases hn : A.nblock <;> simp [hn, headPos] at h
  · intro hp
    rw [regLocal_mem hA hp]
    have hc := digits_ok hp
    have hm := hA.map
    have hl := mapOK_length hm
    simp only
    generalize digits A.nblock p = c at hc
    cases hn : A.nblock with
    | nil => rw [hn] at hl; exact absurd (List.length_eq_zero_iff.1 hl.symm) hA.ne
    | cons k ns =>
      rw [hn] at hm hc
      cases hd : A.dims with
      | nil => exact absurd hd hA.ne
      | cons d ds =>
        rw [hd] at hm
        cases c with
        | nil => exact absurd hc id
        | cons c cs =>
          obtain ⟨⟨m1, m2, m3, m4, m5, m6⟩, _⟩ := hm
          simp only [coordLo, headPos, decide_eq_true_eq]
          have hck : c < k := hc.1
          have hmem : A.mapc.getD c 0 ∈ A.mapc.take k := by
            have hcl : c < A.mapc.length := by omega
            rw [List.getD_eq_getElem?_getD, List.getElem?_eq_getElem hcl, Option.getD_some,
              List.mem_take_iff_getElem]
            exact ⟨c, by omega, rfl⟩
          match hmt : A.mapc.take k, m4, m5, hmem with
          | a :: r, m4, m5, hmem =>
            simp only [List.head?_cons, Option.some.injEq] at m4
            rw [List.pairwise_cons] at m5
            rcases List.mem_cons.1 hmem with h | h
            · omega
            · have := m5.1 _ h; omega

/-- **C35 (zero), partial.** `GA_Zero` clears every element, whatever the interleaving. Missing:
REGULAR arrays without ghost cells on which some process of the grid owns nothing, where the
call fails (`C35_empty_block_error`). -/
theorem C35_zero_partial [Zero V] (G : GArr) (hG : Sound G) (hne : NoEmptyBlock G) (m : Addr → V)
    (f : List Int → V) (hm : Holds G m f) :
    (∃ m', Phase G.nproc (zeroCells G) (fun _ => (0 : V)) m m') ∧
    ∀ m', Phase G.nproc (zeroCells G) (fun _ => (0 : V)) m m' → Holds G m' fun _ => 0 := by
  refine whole_phase hG ⟨fun p hp => ?_⟩ _ m f hm
  cases G with
  | reg A n =>
    simp only [zeroCells]
    by_cases hh : headPos (owns A p).1 = true
    · rw [if_pos hh]
      by_cases hg : hasGhosts A = true
      · rw [if_pos hg]; exact ghost_whole hG.1 hG.2 hp
      · rw [if_neg hg]
        have hp' := (headPos_iff hG.1 p).1 hh
        exact own_whole hG.1 hG.2 (by simpa using hg) hp' (hne (by simpa using hg) p hp')
    · rw [if_neg hh]
      exact outside_none hG.1 hG.2 fun h => hh ((headPos_iff hG.1 p).2 h)
  | blk A => exact blk_whole hG.1.ok hp

/-- **C35 (scale), partial.** `GA_Scale` multiplies every element exactly once, whatever the
interleaving. Same restriction. -/
theorem C35_scale_partial [Mul V] (G : GArr) (hG : Sound G) (hne : NoEmptyBlock G) (alpha : V)
    (m : Addr → V) (f : List Int → V) (hm : Holds G m f) :
    (∃ m', Phase G.nproc (scaleCells G) (· * alpha) m m') ∧
    ∀ m', Phase G.nproc (scaleCells G) (· * alpha) m m' → Holds G m' fun x => f x * alpha := by
  refine whole_phase hG ⟨fun p hp => ?_⟩ _ m f hm
  cases G with
  | reg A n =>
    simp only [scaleCells]
    by_cases hg : hasGhosts A = true
    · rw [if_pos hg]; exact ghost_whole hG.1 hG.2 hp
    · rw [if_neg hg]
      by_cases hh : headPos (owns A p).1 = true
      · rw [if_pos hh]
        have hp' := (headPos_iff hG.1 p).1 hh
        exact own_whole hG.1 hG.2 (by simpa using hg) hp' (hne (by simpa using hg) p hp')
      · rw [if_neg hh]
        exact outside_none hG.1 hG.2 fun h => hh ((headPos_iff hG.1 p).2 h)
  | blk A => exact blk_whole hG.1.ok hp

/-! ## C51: patch operations -/

private theorem patch_phase (G : GArr) (hG : Sound G) (hp : PtrOK G) (lo hi : List Int)
    (h1 : lo.length = G.dims.length) (h2 : hi.length = G.dims.length) (g : V → V) (m : Addr → V)
    (f : List Int → V) (hm : Holds G m f) :
    (∃ m', Phase G.nproc (patchCells G lo hi) g m m') ∧
    ∀ m', Phase G.nproc (patchCells G lo hi) g m m' →
      Holds G m' (fun x => if InPatch lo hi x then g (f x) else f x) ∧
      ∀ a, (∀ x, InArray G.dims x → cellG G x ≠ a) → m' a = m a := by
  obtain ⟨items, v⟩ := view_of hG hp
  obtain ⟨L, hL, hperm⟩ := patchCells_perm v h1 h2
  refine ⟨⟨_, L, L, hL, List.Perm.refl _, rfl⟩, ?_⟩
  rintro m' ⟨l, sched, e1, e2, rfl⟩
  rw [hL, Option.some.injEq] at e1
  subst e1
  have hps := e2.trans hperm
  have hnd : sched.Nodup := by
    rw [hps.nodup_iff]
    refine List.Nodup.map_on ?_ ((nodup_box _ _).filter _)
    intro x hx y hy
    simp only [List.mem_filter, mem_ones_box] at hx hy
    exact v.inj x y hx.1 hy.1
  constructor
  · rw [holds_iff hG] at hm ⊢
    intro x hx
    rw [mapCells_apply _ hnd, hm x hx]
    have : cellG G x ∈ sched ↔ InPatch lo hi x := by
      rw [hps.mem_iff, List.mem_map]
      constructor
      · rintro ⟨y, hy, hxy⟩
        simp only [List.mem_filter, mem_ones_box, decide_eq_true_eq] at hy
        rw [← v.inj y x hy.1 hx hxy]; exact hy.2
      · intro h
        exact ⟨x, by simp only [List.mem_filter, mem_ones_box, decide_eq_true_eq]; exact ⟨hx, h⟩, rfl⟩
    by_cases hin : InPatch lo hi x
    · rw [if_pos hin, if_pos (this.2 hin)]
    · rw [if_neg hin, if_neg fun h => hin (this.1 h)]
  · intro a ha
    rw [mapCells_apply _ hnd, if_neg]
    rw [hps.mem_iff, List.mem_map]
    rintro ⟨y, hy, hxy⟩
    simp only [List.mem_filter, mem_ones_box] at hy
    exact ha y hy.1 hxy

/-- **C51 (fill patch), partial.** `NGA_Fill_patch` (and `NGA_Zero_patch`, with the value zero)
gives the value to the elements inside the patch and leaves all others as they are, whatever the
interleaving; the part of a patch that lies outside the array is ignored and an empty patch changes
nothing. It never fails. Missing: tiled arrays on process grids with an extent other than 2, whose
block pointers are wrong (C48), and arrays with too few blocks (C09). -/
theorem C51_fill_patch_partial (G : GArr) (hG : Sound G) (hp : PtrOK G) (lo hi : List Int)
    (h1 : lo.length = G.dims.length) (h2 : hi.length = G.dims.length) (v : V) (m : Addr → V)
    (f : List Int → V) (hm : Holds G m f) :
    (∃ m', Phase G.nproc (patchCells G lo hi) (fun _ => v) m m') ∧
    ∀ m', Phase G.nproc (patchCells G lo hi) (fun _ => v) m m' →
      Holds G m' fun x => if InPatch lo hi x then v else f x :=
  have h := patch_phase G hG hp lo hi h1 h2 (fun _ => v) m f hm
  ⟨h.1, fun m' hm' => (h.2 m' hm').1⟩

/-- **C51 (scale patch), partial.** The same for `NGA_Scale_patch`: every element of the patch is
multiplied exactly once. -/
theorem C51_scale_patch_partial [Mul V] (G : GArr) (hG : Sound G) (hp : PtrOK G) (lo hi : List Int)
    (h1 : lo.length = G.dims.length) (h2 : hi.length = G.dims.length) (alpha : V) (m : Addr → V)
    (f : List Int → V) (hm : Holds G m f) :
    (∃ m', Phase G.nproc (patchCells G lo hi) (· * alpha) m m') ∧
    ∀ m', Phase G.nproc (patchCells G lo hi) (· * alpha) m m' →
      Holds G m' fun x => if InPatch lo hi x then f x * alpha else f x :=
  have h := patch_phase G hG hp lo hi h1 h2 (· * alpha) m f hm
  ⟨h.1, fun m' hm' => (h.2 m' hm').1⟩

/-- **C51 (memory safety), partial.** A patch operation touches only memory that the processes have
allocated for the array, and every process only its own. -/
theorem C51_in_bounds_partial (G : GArr) (hG : Sound G) (hp : PtrOK G) (lo hi : List Int)
    (h1 : lo.length = G.dims.length) (h2 : hi.length = G.dims.length) (p : Nat) (hpn : p < G.nproc) :
    ∃ l, patchCells G lo hi p = some l ∧
      ∀ a ∈ l, a.1 = (p : Int) ∧ 0 ≤ a.2 ∧ a.2 < segElems G p := by
  obtain ⟨items, v⟩ := view_of hG hp
  refine ⟨(items p).flatMap (itemPatch lo hi), by simp only [patchCells, v.iter p hpn, Option.map_some], ?_⟩
  intro a ha
  obtain ⟨it, hit, ha⟩ := List.mem_flatMap.1 ha
  obtain ⟨s1, s2, s3, s4⟩ := v.shape p hpn it hit
  have hq := (itemPatch_eq (lo := lo) (hi := hi) (it := it) (by omega) (by omega) (by omega)
    (by omega)).mem_iff.1 ha
  obtain ⟨x, hx, rfl⟩ := List.mem_map.1 hq
  have hx' := mem_box.1 (List.mem_filter.1 hx).1
  have hin : InArray G.dims x := by
    rw [← mem_ones_box, ← v.cover.mem_iff]
    exact List.mem_flatMap.2 ⟨p, List.mem_range.2 hpn, List.mem_flatMap.2 ⟨it, hit, mem_box.2 hx'⟩⟩
  have hc := v.cell p hpn it hit x hx'
  obtain ⟨q, b1, b2, b3, b4⟩ := cellG_bounds hG hin
  rw [hc] at b1 b3 b4
  simp only at b1 b3 b4 ⊢
  have : q = p := by omega
  subst this
  exact ⟨by rw [s1], b3, b4⟩

end

/-! ## Negative results -/

/-- 3 elements on 4 processes; the last one has an empty block -/
def exEmpty : RegArray := ⟨[3], [4], [1, 2, 3, 4], [0]⟩

/-- **C35, negative result.** With an empty block in the grid `GA_Zero` and `GA_Scale` end in an
error although the array is well-formed. -/
theorem C35_empty_block_error :
    Sound (.reg exEmpty 4) ∧ allCells 4 (zeroCells (.reg exEmpty 4)) = none ∧
    allCells 4 (scaleCells (.reg exEmpty 4)) = none :=
  ⟨⟨⟨by decide, by decide, by decide⟩, by decide⟩, by decide, by decide⟩

/-! ## Non-vacuity -/

/-- the ghosted array of C07 on seven processes (one more than the grid) -/
example : Sound (.reg exG 7) ∧ PtrOK (.reg exG 7) ∧ NoEmptyBlock (.reg exG 7) :=
  ⟨⟨⟨by decide, by decide, by decide⟩, by decide⟩, trivial, fun h => absurd h (by decide)⟩
example : Sound (.blk exScl) ∧ PtrOK (.blk exScl) ∧ Sound (.blk exIrr) ∧ PtrOK (.blk exIrr) ∧
    Sound (.blk exTil) ∧ PtrOK (.blk exTil) :=
  ⟨⟨exScl_created, by decide⟩, by simp only [PtrOK]; decide, ⟨exIrr_created, by decide⟩,
    by simp only [PtrOK]; decide, ⟨exTil_created, by decide⟩, by simp only [PtrOK]; decide⟩
/-- scaling a patch: the cells of the seven processes -/
example : (List.range 7).map (patchCells (.reg exG 7) [3, 2] [7, 5]) ≠ List.replicate 7 (some []) := by
  decide
example : ∀ (m : Addr → Int), ∃ f, Holds (.reg exG 7) m f := fun m =>
  ⟨fun x => m (cell exG x),
    (holds_iff (G := .reg exG 7) ⟨⟨by decide, by decide, by decide⟩, by decide⟩).2 fun _ _ => rfl⟩

end GA
