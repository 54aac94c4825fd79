import Verif.Lemmas.BlockAccess

/-!
# C05: block-cyclic ownership is a partition

`NGA_Locate` is `Model.bLocate`, the corners of block `b` (`NGA_Distribution`) are `Model.bOwns A b`,
`GA_Total_blocks` is `Model.bTotal`. Conversions between block numbers and block coordinates are
`Model.splitIdx` and `Model.joinIdx`; the blocks a process walks through with the local iterator
are `Model.localIter A p`.
-/

namespace GA
open Spec Model

/-- `x` lies in block `b` -/
def InBlock (A : BArray) (b : Nat) (x : List Int) : Prop := InPatch (bOwns A b).1 (bOwns A b).2 x

instance (A : BArray) (b : Nat) (x : List Int) : Decidable (InBlock A b x) := by
  unfold InBlock; infer_instance

private theorem coordOK_iff {ns c : List Nat} : CoordOK ns c ↔ List.Forall₂ (· < ·) c ns := by
  induction ns generalizing c with
  | nil => cases c <;> simp [CoordOK]
  | cons n ns ih => cases c <;> simp [CoordOK, ih]

/-- **C05.** In every array made by the block-cyclic creation calls an in-range subscript lies in
exactly one block, and that is the block the locate call returns, whatever floating point guesses
it starts from. A subscript out of range lies in no block. -/
theorem C05_partition (A : BArray) (hA : Created A) (x : List Int) :
    (InArray A.dims x → ∀ cand, CandOK A.nblocks cand →
      bLocate A cand x < bTotal A ∧ InBlock A (bLocate A cand x) x ∧
      ∀ b, b < bTotal A → InBlock A b x → b = bLocate A cand x) ∧
    (¬ InArray A.dims x → ∀ b, b < bTotal A → ¬ InBlock A b x) := by
  have h := hA.ok
  constructor
  · intro hx cand hc
    obtain ⟨c, c1, c2, c3⟩ := bLocate_ok h hc hx
    have hlt : bLocate A cand x < bTotal A := by rw [c2]; exact undigits_lt c1
    refine ⟨hlt, ?_, ?_⟩
    · unfold InBlock
      rw [bOwns_eq h hlt, c2, digits_undigits c1]
      exact c3
    · intro b hb hxb
      unfold InBlock at hxb
      rw [bOwns_eq h hb] at hxb
      have := coord_unique h.map (digits_ok hb) c1 hxb c3
      rw [c2, ← this, undigits_digits hb]
  · intro hx b hb hxb
    unfold InBlock at hxb
    rw [bOwns_eq h hb] at hxb
    exact hx (coord_inArray h.map (digits_ok hb) hxb)

/-- **C05 (numbering).** Block numbers and block coordinates convert back and forth without loss. -/
theorem C05_numbering (A : BArray) :
    (∀ b, b < bTotal A → List.Forall₂ (· < ·) (splitIdx A.nblocks b) A.nblocks ∧
      joinIdx A.nblocks (splitIdx A.nblocks b) = b) ∧
    (∀ idx, List.Forall₂ (· < ·) idx A.nblocks → joinIdx A.nblocks idx < bTotal A ∧
      splitIdx A.nblocks (joinIdx A.nblocks idx) = idx) := by
  constructor
  · intro b hb
    rw [splitIdx_eq, joinIdx_eq]
    exact ⟨coordOK_iff.1 (digits_ok hb), undigits_digits hb⟩
  · intro idx hi
    rw [splitIdx_eq, joinIdx_eq]
    exact ⟨undigits_lt (coordOK_iff.2 hi), digits_undigits (coordOK_iff.2 hi)⟩

/-- **C05 (processes).** Every block belongs to one process: the local iterators of the processes
together hand out every block exactly once, each block to the process that holds it. For process
grids the grid must not be larger than the number of blocks in any dimension; see
`C05_grid_too_large`. -/
theorem C05_processes_partial (A : BArray) (hA : Created A)
    (hg : A.kind ≠ .cyclic → GridLe A.grid A.nblocks) :
    (∀ b, b < bTotal A → bProc A b < A.nproc) ∧
    ∃ items : Nat → List LItem,
      (∀ p, p < A.nproc → localIter A p = some (items p) ∧ ∀ it ∈ items p, it.proc = p) ∧
      (((List.range A.nproc).flatMap items).map fun it => (it.lo, it.hi, it.proc)).Perm
        ((List.range (bTotal A)).map fun b => ((bOwns A b).1, (bOwns A b).2, bProc A b)) := by
  have h := hA.ok
  refine ⟨fun b _ => bProc_lt h b, ?_⟩
  have hitem : ∀ idx, CoordOK A.nblocks idx → (itemC A idx).lo = cLo A idx ∧
      (itemC A idx).hi = cHi A idx ∧ (itemC A idx).proc = procC A idx := by
    intro idx hi
    unfold itemC
    by_cases hc : A.kind = .cyclic
    · have hlt : undigits A.nblocks idx < bTotal A := undigits_lt hi
      obtain ⟨off, ld, ha⟩ := accessBlock_some h hlt
      rw [if_pos hc, ha]
      refine ⟨rfl, rfl, ?_⟩
      show bProc A _ = _
      rw [bProc_eq h hlt, digits_undigits hi]
    · obtain ⟨off, ld, ha⟩ := accessGrid_some h hc hi
      rw [if_neg hc, ha]
      exact ⟨rfl, rfl, rfl⟩
  refine ⟨fun p => (List.range (vcount A p)).map fun k => itemC A (vis A p k), ?_, ?_⟩
  · intro p hp
    refine ⟨localIter_eq h hg hp, ?_⟩
    intro it hit
    obtain ⟨k, hk, rfl⟩ := List.mem_map.1 hit
    obtain ⟨v1, v2, _⟩ := vis_ok h hp (List.mem_range.1 hk)
    rw [(hitem _ v1).2.2, v2]
  · have e : ((List.range A.nproc).flatMap fun p => (List.range (vcount A p)).map fun k =>
        itemC A (vis A p k)) = (visits A).map fun v => itemC A (vis A v.1 v.2) := by
      rw [visits, List.map_flatMap]
      apply List.flatMap_congr
      intro p _
      rw [List.map_map]; rfl
    rw [e, List.map_map]
    -- both sides are images of lists of block coordinates
    have e1 : (visits A).map ((fun it : LItem => (it.lo, it.hi, it.proc)) ∘
          fun v => itemC A (vis A v.1 v.2)) =
        ((visits A).map fun v => vis A v.1 v.2).map fun idx => (cLo A idx, cHi A idx, procC A idx) := by
      rw [List.map_map]
      apply List.map_congr_left
      intro v hv
      obtain ⟨a, b⟩ := mem_visits.1 hv
      obtain ⟨q1, q2, q3⟩ := hitem _ (vis_ok h a b).1
      simp only [Function.comp_apply, q1, q2, q3]
    have e2 : ((List.range (bTotal A)).map fun b => ((bOwns A b).1, (bOwns A b).2, bProc A b)) =
        ((List.range (bTotal A)).map fun b => digits A.nblocks b).map
          fun idx => (cLo A idx, cHi A idx, procC A idx) := by
      rw [List.map_map]
      apply List.map_congr_left
      intro b hb
      have hb' := List.mem_range.1 hb
      simp only [Function.comp_apply, bOwns_eq h hb', bProc_eq h hb', cLo, cHi]
    rw [e1, e2]
    apply List.Perm.map
    rw [List.perm_ext_iff_of_nodup]
    · intro idx
      simp only [List.mem_map, List.mem_range]
      constructor
      · rintro ⟨v, hv, rfl⟩
        obtain ⟨a, b⟩ := mem_visits.1 hv
        have hv' := (vis_ok h a b).1
        exact ⟨_, undigits_lt hv', digits_undigits hv'⟩
      · rintro ⟨b, hb, rfl⟩
        obtain ⟨s1, s2, s3⟩ := vis_surj h (digits_ok hb)
        exact ⟨(_, _), mem_visits.2 ⟨s1, s2⟩, s3⟩
    · rw [List.nodup_map_iff_inj_on nodup_visits]
      intro v hv w hw heq
      obtain ⟨_, v2, v3⟩ := vis_ok h (mem_visits.1 hv).1 (mem_visits.1 hv).2
      obtain ⟨_, w2, w3⟩ := vis_ok h (mem_visits.1 hw).1 (mem_visits.1 hw).2
      exact Prod.ext (by rw [← v2, ← w2, heq]) (by rw [← v3, ← w3, heq])
    · rw [List.nodup_map_iff_inj_on List.nodup_range]
      intro a ha b hb heq
      rw [← undigits_digits (List.mem_range.1 ha), heq, undigits_digits (List.mem_range.1 hb)]

/-! ## Negative result: grids larger than the number of blocks -/

/-- 3x3 array in 2x2 blocks on a 3x1 process grid: 2 block rows, 3 process rows -/
def exWide : BArray := ⟨.scalapack, [3, 3], [2, 2], [2, 2], [3, 1], [], 3⟩

theorem exWide_created : Created exWide :=
  .grid false 3 [3, 3] [2, 2] [3, 1] exWide (by decide) rfl rfl (by decide)

/-- **C05, negative result.** On a process grid with more rows than there are blocks, the local
iterator of a process without blocks does not stop: it asks for a block that does not exist and
the program ends with an error. -/
theorem C05_grid_too_large :
    Created exWide ∧ 2 < exWide.nproc ∧ (∀ b, b < bTotal exWide → bProc exWide b ≠ 2) ∧
      localIter exWide 2 = none :=
  ⟨exWide_created, by decide, by decide, by decide⟩

/-! ## Non-vacuity: one array of every kind, with edge blocks of different size -/

/-- 7x5 in 3x2 blocks on 4 processes -/
def exCyc : BArray := ⟨.cyclic, [7, 5], [3, 2], [3, 3], [], [], 4⟩
/-- the same blocks on a 2x2 process grid -/
def exScl : BArray := ⟨.scalapack, [7, 5], [3, 2], [3, 3], [2, 2], [], 4⟩
/-- the same, tiled -/
def exTil : BArray := ⟨.tiled, [7, 5], [3, 2], [3, 3], [2, 2], [], 4⟩
/-- irregular tiles, one of them empty, on a 3x1 grid -/
def exIrr : BArray := ⟨.tiledIrreg, [7, 5], [], [4, 2], [3, 1], [1, 3, 3, 6, 1, 4], 3⟩

theorem exCyc_created : Created exCyc :=
  .cyclic 4 [7, 5] [3, 2] exCyc (by decide) (by decide) rfl (by decide)
theorem exScl_created : Created exScl :=
  .grid false 4 [7, 5] [3, 2] [2, 2] exScl (by decide) rfl rfl (by decide)
theorem exTil_created : Created exTil :=
  .grid true 4 [7, 5] [3, 2] [2, 2] exTil (by decide) rfl rfl (by decide)
theorem exIrr_created : Created exIrr :=
  .irreg 3 [7, 5] [1, 3, 3, 6, 1, 4] [4, 2] [3, 1] exIrr (by decide) rfl rfl rfl (by decide) (by decide)

example : InArray exCyc.dims [7, 4] ∧ bLocate exCyc [0, 0] [7, 4] = 5 ∧ bLocate exIrr [2, 1] [7, 4] = 7
    ∧ bOwns exIrr 7 = ([6, 4], [7, 5]) := by decide
example : GridLe exScl.grid exScl.nblocks ∧ GridLe exTil.grid exTil.nblocks ∧
    GridLe exIrr.grid exIrr.nblocks := by decide
example : (localIter exScl 1).map (fun l => l.map fun it => (it.lo, it.hi)) =
    some [([4, 1], [6, 2]), ([4, 5], [6, 5])] := by decide

end GA
