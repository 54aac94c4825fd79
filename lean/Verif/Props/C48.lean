import Verif.Props.C09

/-!
# C48: direct access to blocks sees the same data as put and get

`NGA_Access_block(b)` is `Model.accessBlock A b`: it returns the process, the element offset in
the memory of that process and the leading dimensions. Reading element `x` of the block through
this pointer means reading at offset `off + bufPos blo ld x`.
-/

namespace GA
open Spec Model

/-- **C48, partial.** The pointer to block `b` belongs to the process that holds the block, and an
element of the block read through the pointer has the value a get returns for it. Proved for
simple block-cyclic, ScaLAPACK and irregular tiled arrays, and for tiled arrays on process grids
with extent 2 in every dimension. Missing: tiled arrays on other grids, where the pointers are
wrong (`C48_tiled_wrong_pointer`), and arrays with too few blocks (see C09). -/
theorem C48_access_block_partial {V : Type} (A : BArray) (hA : Created A) (he : EnoughBlocks A)
    (hk : PtrKind A) (b : Nat) (hb : b < bTotal A) :
    ∃ off ld, accessBlock A b = some (bProc A b, off, ld) ∧
      ∀ (m : Addr → V) (fl : Int → Bool) (lo hi ul : List Int) (buf : Int → V),
        PatchOK A.dims lo hi → LdOK lo hi ul →
        ∃ buf', bGet fl A lo hi buf ul m = some buf' ∧
          ∀ x, InPatch lo hi x → InBlock A b x →
            buf' (bufPos lo ul x) = m (bProc A b, off + bufPos (bOwns A b).1 ld x) := by
  have h := hA.ok
  obtain ⟨off, ld, ha⟩ := accessBlock_some h hb
  refine ⟨off, ld, ha, ?_⟩
  intro m fl lo hi ul buf hok hld
  obtain ⟨ps, hps, himp⟩ := bPieces_implements h he hok hld fl
  refine ⟨applyGet (xfers fl lo ul ps) m buf, by simp only [bGet, hps, Option.map_some], ?_⟩
  intro x hx hxb
  rw [get_hit himp hld buf m hx, accessBlock_cell h hk hb ha hxb]

/-- **C48 (local iterator), partial.** The same for every block handed out by the local iterator of
process `p`. Same restrictions. -/
theorem C48_local_iterator_partial {V : Type} (A : BArray) (hA : Created A) (he : EnoughBlocks A)
    (hk : PtrKind A) (p : Nat) (hp : p < A.nproc) :
    ∃ items, localIter A p = some items ∧ ∀ it ∈ items, it.proc = p ∧
      ∀ (m : Addr → V) (fl : Int → Bool) (lo hi ul : List Int) (buf : Int → V),
        PatchOK A.dims lo hi → LdOK lo hi ul →
        ∃ buf', bGet fl A lo hi buf ul m = some buf' ∧
          ∀ x, InPatch lo hi x → InPatch it.lo it.hi x →
            buf' (bufPos lo ul x) = m (p, it.off + bufPos it.lo it.ld x) := by
  have h := hA.ok
  refine ⟨_, localIter_eq h he.2 hp, ?_⟩
  intro it hit
  obtain ⟨k, hk', rfl⟩ := List.mem_map.1 hit
  obtain ⟨v1, v2, v3⟩ := vis_ok h hp (List.mem_range.1 hk')
  generalize hidx : vis A p k = idx at *
  have hlt : undigits A.nblocks idx < bTotal A := undigits_lt v1
  have key : ∃ off ld, itemC A idx = ⟨cLo A idx, cHi A idx, p, off, ld⟩ ∧
      ∀ x, InPatch (cLo A idx) (cHi A idx) x →
        cellB A x = ((p : Int), off + bufPos (cLo A idx) ld x) := by
    by_cases hc : A.kind = .cyclic
    · obtain ⟨off, ld, ha⟩ := accessBlock_some h hlt
      have hbp : bProc A (undigits A.nblocks idx) = p := by
        rw [bProc_eq h hlt, digits_undigits v1, v2]
      rw [hbp] at ha
      refine ⟨off, ld, by unfold itemC; rw [if_pos hc, ha], ?_⟩
      intro x hx
      have hb : bOwns A (undigits A.nblocks idx) = (cLo A idx, cHi A idx) := by
        rw [bOwns_eq h hlt, digits_undigits v1]; rfl
      have := accessBlock_cell h hk hlt ha (x := x) (by rw [hb]; exact hx)
      rwa [hb] at this
    · obtain ⟨off, ld, ha⟩ := accessGrid_some h hc v1
      rw [v2] at ha
      refine ⟨off, ld, by unfold itemC; rw [if_neg hc, ha], ?_⟩
      intro x hx
      exact accessGrid_cell h hk v1 ha hx
  obtain ⟨off, ld, e, hcell⟩ := key
  rw [e]
  refine ⟨rfl, ?_⟩
  intro m fl lo hi ul buf hok hld
  obtain ⟨ps, hps, himp⟩ := bPieces_implements h he hok hld fl
  refine ⟨applyGet (xfers fl lo ul ps) m buf, by simp only [bGet, hps, Option.map_some], ?_⟩
  intro x hx hxb
  rw [get_hit himp hld buf m hx, hcell x hxb]

/-- **C48 (range).** Access succeeds exactly for the block numbers `0 .. total-1`, and access by
block coordinates (not available for simple block-cyclic arrays) returns the same as access by
block number, for the coordinates inside the block grid and for no others. -/
theorem C48_range (A : BArray) (hA : Created A) :
    (∀ b : Int, (∃ r, accessBlock A b = some r) ↔ 0 ≤ b ∧ b < bTotal A) ∧
    (A.kind ≠ .cyclic → ∀ idx, idx.length = A.dims.length →
      (List.Forall₂ (· < ·) idx A.nblocks → accessGrid A idx = accessBlock A (joinIdx A.nblocks idx)) ∧
      (¬ List.Forall₂ (· < ·) idx A.nblocks → accessGrid A idx = none)) := by
  have h := hA.ok
  constructor
  · intro b
    constructor
    · rintro ⟨r, hr⟩
      by_contra hc
      rw [accessBlock, if_pos (by omega)] at hr
      cases hr
    · rintro ⟨h0, h1⟩
      obtain ⟨off, ld, ha⟩ := accessBlock_some h (b := b.toNat) (by omega)
      rw [Int.toNat_of_nonneg h0] at ha
      exact ⟨_, ha⟩
  · intro hk idx hl
    constructor
    · intro hi
      obtain ⟨h1, h2⟩ := (C05_numbering A).2 idx hi
      rw [accessBlock, if_neg (by omega)]
      simp only [if_neg hk, Int.toNat_natCast, h2]
    · intro hi
      rw [accessGrid, if_neg hk, if_pos]
      have hlen : A.nblocks.length = idx.length := by rw [hl]; exact h.map.length.symm
      clear hl
      have key : ∀ (ns idx : List Nat), ns.length = idx.length →
          ¬ List.Forall₂ (· < ·) idx ns → (!idxOK ns idx) = true := by
        intro ns
        induction ns with
        | nil => intro idx he hn; cases idx <;> simp_all
        | cons n ns ih =>
          intro idx he hn
          cases idx with
          | nil => simp at he
          | cons i is =>
            simp only [idxOK, Bool.not_and, Bool.or_eq_true, Bool.not_eq_true', decide_eq_false_iff_not]
            by_cases hin : i < n
            · right
              have := ih is (by simpa using he) (fun hf => hn (.cons hin hf))
              simpa using this
            · left; exact hin
      exact key _ _ hlen hi

/-! ## Negative results: tiled arrays -/

/-- 6 elements in tiles of 2 on one process -/
def exT1 : BArray := ⟨.tiled, [6], [2], [3], [1], [], 1⟩
/-- 14x4 in tiles of 2x2 on a 3x1 grid -/
def exT3 : BArray := ⟨.tiled, [14, 4], [2, 2], [7, 2], [3, 1], [], 3⟩

theorem exT1_created : Created exT1 := .grid true 1 [6] [2] [1] exT1 (by decide) rfl rfl (by decide)
theorem exT3_created : Created exT3 :=
  .grid true 3 [14, 4] [2, 2] [3, 1] exT3 (by decide) rfl rfl (by decide)

/-- **C48, negative result.** On a grid of extent 1 the pointer to the last tile points behind the
allocated memory (offset 6 of 6), and the pointer to the first tile points to the second: a value
put into element 1 and 2 is not seen through the pointer to block 0. -/
theorem C48_tiled_wrong_pointer :
    Created exT1 ∧ EnoughBlocks exT1 ∧ bAlloc exT1 0 = 6 ∧
    accessBlock exT1 2 = some (0, 6, []) ∧ accessBlock exT1 0 = some (0, 2, []) ∧
    (bPut (fun _ => true) exT1 [1] [2] (fun _ => (7 : Int)) [] (fun _ => 0)).map
      (fun m => (m (0, 2), m (0, 3))) = some (0, 0) :=
  ⟨exT1_created, by decide, by decide, by decide, by decide, by decide⟩

/-- **C48, negative result.** Also on a grid of extent 3: the pointer to block 9 (third row, second
column of tiles) differs from the place where put stores element (5,3), the first one of that
block. -/
theorem C48_tiled_wrong_pointer3 :
    Created exT3 ∧ EnoughBlocks exT3 ∧ bOwns exT3 9 = ([5, 3], [6, 4]) ∧
    (accessBlock exT3 9).map (fun r => (r.1, r.2.1)) ≠
      (bPieces exT3 [5, 3] [5, 3]).bind (fun ps => (ps.map fun p => (p.proc.toNat, p.prem)).head?) :=
  ⟨exT3_created, by decide, by decide, by decide⟩

/-! ## Non-vacuity -/

example : PtrKind exCyc ∧ PtrKind exScl ∧ PtrKind exTil ∧ PtrKind exIrr := by decide
example : accessBlock exTil 8 = some (0, 11, [1]) ∧ accessBlock exScl 8 = some (0, 11, [4]) ∧
    accessBlock exCyc 8 = some (0, 12, [1]) := by decide

end GA
