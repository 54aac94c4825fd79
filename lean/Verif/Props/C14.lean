import Verif.Lemmas.Skip
import Verif.Props.C12

/-!
# C14: strided put, get and accumulate

`NGA_Strided_put`, `NGA_Strided_get`, `NGA_Strided_acc`: `Model.ngaSPut`, `ngaSGet`, `ngaSAcc`. The
elements addressed and their buffer positions are specified in `Spec.Skip`.

Proved for arrays on the world group, without empty blocks (`FullBlocks`), and for patches that
extend in the first two dimensions only (`hi.drop 2 = lo.drop 2`; all patches of one and
two-dimensional arrays). The negative results below show that each of the three restrictions is
needed.
-/

namespace GA
open Spec Model

open Classical in
private theorem skipXfers_moves {G : GArr} (hG : Sound G) {E : Env} (hE : EnvG E G) (hf : FullBlocks G)
    {lo hi skip ld : List Int} (hp : PatchOK G.dims lo hi) (hld : SkipLdOK lo hi skip ld)
    (hthin : hi.drop 2 = lo.drop 2) {ts : List Xfer} (h : skipXfers E G none lo hi skip ld = some ts) :
    SkipOK skip ∧ Moves (cellG G) (skipPos lo skip ld) ((box lo hi).filter fun x => Selected lo hi skip x) ts := by
  unfold skipXfers at h
  split at h
  · simp at h
  · rename_i hs
    have hs : SkipOK skip := by
      intro s hsm
      by_contra hc
      apply hs
      rw [List.any_eq_true]
      exact ⟨s, hsm, by simp; omega⟩
    obtain ⟨ps, hps, rfl⟩ := Option.map_eq_some_iff.1 h
    obtain ⟨_, h2, h3, h4⟩ := gPieces_ok hG hE (fun _ _ => hp) hps
    obtain ⟨l1, l2⟩ := skipLdOK_length hld
    refine ⟨hs, ?_⟩
    unfold Moves
    refine List.Perm.trans (List.Perm.flatMap_left (g := fun p => ((box p.plo p.phi).filter fun x =>
      decide (Selected lo hi skip x)).map fun x => (⟨skipPos lo skip ld x, cellG G x⟩ : Xfer)) _ ?_) ?_
    · intro p hpm
      refine skipPiece_moves hs l1 l2 (h3 p hpm) (h4 hf p hpm) ?_ hthin _ (by simp)
      intro x hx
      rw [← mem_box, ← h2.mem_iff, List.mem_flatMap]
      exact ⟨p, hpm, mem_box.2 hx⟩
    · rw [← List.map_flatMap]
      refine List.Perm.map _ ?_
      rw [← List.filter_flatMap]
      exact h2.filter _

section
variable {V : Type} (G : GArr) (hG : Sound G) (E : Env) (hE : EnvG E G) (hf : FullBlocks G)
  (lo hi skip ld : List Int) (hp : PatchOK G.dims lo hi) (hld : SkipLdOK lo hi skip ld)
  (hthin : hi.drop 2 = lo.drop 2)
include hG hE hp

/-- **C14 (errors).** A skip below one is an error; a call with skips of at least one is served if
the whole patch fits into one message, or if the array is block-cyclic. -/
theorem C14_served (grp : Option (List Int)) (buf : Int → V) (m : Addr → V) :
    ((∃ s ∈ skip, s < 1) → ngaSPut E G grp lo hi skip ld buf m = none ∧
      ngaSGet E G grp lo hi skip ld buf m = none ∧
      ∀ [Add V] [Mul V] (alpha : V), ngaSAcc E G grp lo hi skip ld alpha buf m = none) ∧
    ((∀ s ∈ skip, 1 ≤ s) → ((∃ A, G = .blk A) ∨ E.elemsize * numElems lo hi ≤ E.maxInt) →
      (∃ m', ngaSPut E G grp lo hi skip ld buf m = some m') ∧
      (∃ b', ngaSGet E G grp lo hi skip ld buf m = some b') ∧
      ∀ [Add V] [Mul V] (alpha : V), ∃ m', ngaSAcc E G grp lo hi skip ld alpha buf m = some m') := by
  constructor
  · rintro ⟨s, hs, h1⟩
    have : skipXfers E G grp lo hi skip ld = none := by
      unfold skipXfers
      rw [if_pos]
      rw [List.any_eq_true]
      exact ⟨s, hs, by simpa using h1⟩
    simp [ngaSPut, ngaSGet, ngaSAcc, this]
  · intro hs hfit
    have : ∃ ts, skipXfers E G grp lo hi skip ld = some ts := by
      unfold skipXfers
      rw [if_neg]
      · have : ∃ ps, G.pieces E lo hi = some ps := by
          cases G with
          | reg A n =>
            rcases hfit with ⟨A', h⟩ | hfit
            · simp at h
            · exact regPieces_fits hG.1 hE hp (by unfold FitsOne; rw [prodI_edges]; exact hfit)
          | blk A => exact ⟨_, bPieces_visits hG.1.ok hG.2 lo hi⟩
        obtain ⟨ps, hps⟩ := this
        exact ⟨_, by rw [hps]; rfl⟩
      · rw [List.any_eq_true]
        rintro ⟨s, h1, h2⟩
        have := hs s h1
        simp at h2
        omega
    obtain ⟨ts, hts⟩ := this
    simp [ngaSPut, ngaSGet, ngaSAcc, hts]

include hf hld hthin

/-- **C14 (put), partial.** After the call every selected element has the value at its position of
the buffer, no other element has changed, and no memory cell outside the selected elements has
changed. -/
theorem C14_put_partial (buf : Int → V) (m m' : Addr → V) (f : List Int → V) (hm : Holds G m f)
    (h : ngaSPut E G none lo hi skip ld buf m = some m') :
    ∃ f', Holds G m' f' ∧ (∀ x, Selected lo hi skip x → f' x = buf (skipPos lo skip ld x)) ∧
      (∀ x, ¬ Selected lo hi skip x → f' x = f x) ∧
      (∀ a, (∀ x, Selected lo hi skip x → cellG G x ≠ a) → m' a = m a) := by
  classical
  obtain ⟨ts, hts, rfl⟩ := Option.map_eq_some_iff.1 h
  obtain ⟨hs, hmv⟩ := skipXfers_moves hG hE hf hp hld hthin hts
  rw [holds_iff hG] at hm
  have hmem : ∀ x, x ∈ ((box lo hi).filter fun x => decide (Selected lo hi skip x)) ↔ Selected lo hi skip x := by
    intro x
    simp only [List.mem_filter, mem_box, decide_eq_true_eq, and_iff_right_iff_imp]
    exact selected_inPatch hs
  have hinj : ∀ x ∈ ((box lo hi).filter fun x => decide (Selected lo hi skip x)), ∀ y ∈ ((box lo hi).filter
      fun x => decide (Selected lo hi skip x)), cellG G x = cellG G y → x = y := by
    intro x hx y hy e
    exact cellG_inj hG (hp.inArray (selected_inPatch hs ((hmem x).1 hx)))
      (hp.inArray (selected_inPatch hs ((hmem y).1 hy))) e
  have hmiss : ∀ a, (∀ x, Selected lo hi skip x → cellG G x ≠ a) → applyPut ts buf m a = m a := by
    intro a ha
    exact hmv.put_miss buf m fun x hx => ha x ((hmem x).1 hx)
  refine ⟨fun x => if Selected lo hi skip x then buf (skipPos lo skip ld x) else f x, ?_, ?_, ?_, hmiss⟩
  · rw [holds_iff hG]
    intro x hx
    by_cases hsx : Selected lo hi skip x
    · rw [if_pos hsx, hmv.put_hit ((nodup_box _ _).filter _) hinj buf m ((hmem x).2 hsx)]
    · rw [if_neg hsx, hmiss _ fun y hy e =>
        hsx (cellG_inj hG (hp.inArray (selected_inPatch hs hy)) hx e ▸ hy), hm x hx]
  · intro x hx; simp [hx]
  · intro x hx; simp [hx]

/-- **C14 (accumulate), partial.** After the call `alpha` times the value at its position of the
buffer has been added once to every selected element, no other element has changed, and no memory
cell outside the selected elements has changed. -/
theorem C14_acc_partial [Add V] [Mul V] (alpha : V) (buf : Int → V) (m m' : Addr → V) (f : List Int → V)
    (hm : Holds G m f) (h : ngaSAcc E G none lo hi skip ld alpha buf m = some m') :
    ∃ f', Holds G m' f' ∧
      (∀ x, InArray G.dims x → Selected lo hi skip x → f' x = f x + alpha * buf (skipPos lo skip ld x)) ∧
      (∀ x, ¬ Selected lo hi skip x → f' x = f x) ∧
      (∀ a, (∀ x, Selected lo hi skip x → cellG G x ≠ a) → m' a = m a) := by
  classical
  obtain ⟨ts, hts, rfl⟩ := Option.map_eq_some_iff.1 h
  obtain ⟨hs, hmv⟩ := skipXfers_moves hG hE hf hp hld hthin hts
  rw [holds_iff hG] at hm
  have hmem : ∀ x, x ∈ ((box lo hi).filter fun x => decide (Selected lo hi skip x)) ↔ Selected lo hi skip x := by
    intro x
    simp only [List.mem_filter, mem_box, decide_eq_true_eq, and_iff_right_iff_imp]
    exact selected_inPatch hs
  have hinj : ∀ x ∈ ((box lo hi).filter fun x => decide (Selected lo hi skip x)), ∀ y ∈ ((box lo hi).filter
      fun x => decide (Selected lo hi skip x)), cellG G x = cellG G y → x = y := by
    intro x hx y hy e
    exact cellG_inj hG (hp.inArray (selected_inPatch hs ((hmem x).1 hx)))
      (hp.inArray (selected_inPatch hs ((hmem y).1 hy))) e
  have hmiss : ∀ a, (∀ x, Selected lo hi skip x → cellG G x ≠ a) → applyAcc ts alpha buf m a = m a := by
    intro a ha
    exact hmv.acc_miss alpha buf m fun x hx => ha x ((hmem x).1 hx)
  refine ⟨fun x => if Selected lo hi skip x then f x + alpha * buf (skipPos lo skip ld x) else f x, ?_, ?_, ?_, hmiss⟩
  · rw [holds_iff hG]
    intro x hx
    by_cases hsx : Selected lo hi skip x
    · rw [if_pos hsx, hmv.acc_hit ((nodup_box _ _).filter _) hinj alpha buf m ((hmem x).2 hsx), hm x hx]
    · rw [if_neg hsx, hmiss _ fun y hy e =>
        hsx (cellG_inj hG (hp.inArray (selected_inPatch hs hy)) hx e ▸ hy), hm x hx]
  · intro x _ hx; simp [hx]
  · intro x hx; simp [hx]

/-- **C14 (get), partial.** After the call the buffer holds every selected element at its position,
and the rest of the user's memory has not changed. -/
theorem C14_get_partial (buf buf' : Int → V) (m : Addr → V) (f : List Int → V) (hm : Holds G m f)
    (h : ngaSGet E G none lo hi skip ld buf m = some buf') :
    (∀ x, Selected lo hi skip x → buf' (skipPos lo skip ld x) = f x) ∧
      (∀ i, (∀ x, Selected lo hi skip x → skipPos lo skip ld x ≠ i) → buf' i = buf i) := by
  classical
  obtain ⟨ts, hts, rfl⟩ := Option.map_eq_some_iff.1 h
  obtain ⟨hs, hmv⟩ := skipXfers_moves hG hE hf hp hld hthin hts
  rw [holds_iff hG] at hm
  have hmem : ∀ x, x ∈ ((box lo hi).filter fun x => decide (Selected lo hi skip x)) ↔ Selected lo hi skip x := by
    intro x
    simp only [List.mem_filter, mem_box, decide_eq_true_eq, and_iff_right_iff_imp]
    exact selected_inPatch hs
  constructor
  · intro x hx
    rw [hmv.get_hit ((nodup_box _ _).filter _)
      (fun a ha b hb e => skipPos_inj hs hld ((hmem a).1 ha) ((hmem b).1 hb) e) buf m ((hmem x).2 hx)]
    exact hm x (hp.inArray (selected_inPatch hs hx))
  · intro i hi'
    exact hmv.get_miss buf m fun x hx => hi' x ((hmem x).1 hx)

end

/-! ## Non-vacuity -/

/-- every second row and third column of a patch that crosses the blocks of `exG` -/
example : Sound (.reg exG 7) ∧ EnvG exE2 (.reg exG 7) ∧ FullBlocks (.reg exG 7) ∧
    PatchOK exG.dims [2, 2] [9, 7] ∧ SkipLdOK [2, 2] [9, 7] [2, 3] [5] ∧ ([9, 7] : List Int).drop 2 = [] :=
  ⟨⟨exG_ok, by decide⟩, exE_ok.2, trivial, by decide, by decide, rfl⟩
example : (ngaSGet exE2 (.reg exG 7) none [2, 2] [9, 7] [2, 3] [5] (fun _ => -1)
    (fun a => a.1 * 100 + a.2)).map (fun b => [b 0, b 1, b 3, b 4, b 5, b 8, b 9]) =
    some ([[2, 2], [4, 2], [8, 2]].map (fun x => (cell exG x).1 * 100 + (cell exG x).2) ++ [-1] ++
      [[2, 5], [8, 5]].map (fun x => (cell exG x).1 * 100 + (cell exG x).2) ++ [-1]) := by decide +kernel
example : Selected [2, 2] [9, 7] [2, 3] [8, 5] ∧ skipPos [2, 2] [2, 3] [5] [8, 5] = 8 :=
  ⟨⟨⟨3, by decide⟩, ⟨1, by decide⟩, trivial⟩, by decide⟩
example : Sound (.blk exScl) ∧ FullBlocks (.blk exScl) ∧ PatchOK exScl.dims [2, 1] [7, 5] ∧
    SkipLdOK [2, 1] [7, 5] [2, 2] [3] :=
  ⟨⟨exScl_created, by unfold EnoughBlocks; decide⟩, (by unfold FullBlocks; intro h; cases h), by decide, by decide⟩
example : (ngaSPut exE (.blk exScl) none [2, 1] [7, 5] [2, 2] [3] (fun i => i) (fun _ => (-1 : Int))).map
    (fun m => [m (cellB exScl [4, 3]), m (cellB exScl [5, 3]), m (cellB exScl [6, 5])]) =
    some [4, -1, 8] := by decide +kernel

/-! ## Negative results -/

/-- 4x4x4 array in blocks of 2x2x2 on 8 processes -/
def exCube : RegArray := ⟨[4, 4, 4], [2, 2, 2], [1, 3, 1, 3, 1, 3], [0, 0, 0]⟩

theorem exCube_ok : ArrOK exCube := ⟨by decide, by decide, by decide⟩

/-- environment of a call on `exCube` -/
def exCubeE : Env := ⟨[0, 0, 0], [0, 0, 0], fun i => i, fun _ => false, 8, 2147483648⟩

/-- **C14, negative result.** With three dimensions the buffer position of a block that does not
start at the corner of the patch is computed with `ld[1]` instead of `ld[0]*ld[1]`: a strided get
of a whole 4x4x4 array with skips 1 puts element (1,1,3) at position 8 of the buffer, where element
(1,3,1) belongs, and leaves position 40, where element (1,3,3) belongs, as it was. -/
theorem C14_3d_wrong_position :
    Sound (.reg exCube 8) ∧ EnvG exCubeE (.reg exCube 8) ∧ PatchOK exCube.dims [1, 1, 1] [4, 4, 4] ∧
    SkipLdOK [1, 1, 1] [4, 4, 4] [1, 1, 1] [4, 4] ∧
    skipPos [1, 1, 1] [1, 1, 1] [4, 4] [1, 3, 3] = 40 ∧ skipPos [1, 1, 1] [1, 1, 1] [4, 4] [1, 3, 1] = 8 ∧
    (ngaSGet exCubeE (.reg exCube 8) none [1, 1, 1] [4, 4, 4] [1, 1, 1] [4, 4] (fun _ => (-1, -1)) (fun a => a)).map
      (fun b => [b 8, b 40]) = some [cell exCube [1, 1, 3], (-1, -1)] :=
  ⟨⟨exCube_ok, by decide⟩, ⟨by simp [CandOK, exCube, exCubeE], by simp [CandOK, exCube, exCubeE], by decide, by decide⟩, by decide, by decide, by decide,
    by decide, by decide +kernel⟩

/-- two blocks of three elements -/
def exPair : RegArray := ⟨[6], [2], [1, 4], [0]⟩

/-- **C14, negative result.** For an array on a processor group the rank is translated to a process
twice. With the group of processes 1 and 2 (`inv_map_proc_list` = 1, 2), a strided put to the first
block, which process 1 holds, is sent to process 2. The model numbers processes as the iterator
reports them before the second translation, so `inv.getD 0` is the right destination. -/
theorem C14_group_wrong_process :
    Sound (.reg exPair 2) ∧
    (skipXfers ⟨[0], [0], fun i => i, fun _ => false, 8, 2147483648⟩ (.reg exPair 2) (some [1, 2]) [1] [3] [2] []).map
      (fun ts => ts.map fun t => t.addr.1) = some [2, 2] ∧ ([1, 2] : List Int).getD 0 0 = 1 :=
  ⟨⟨⟨by decide, by decide, by decide⟩, by decide⟩, by decide +kernel, rfl⟩

/-- **C14, negative result.** An empty tile starting at the corner of the patch adds an element: the
tile is rows 3..2, and with skip 2 the last row is "corrected" from 2 to 2-(-1) = 3. The put of a
single element (3,1) then also stores into memory of the process of the empty tile. -/
theorem C14_empty_tile :
    Sound (.blk exIrr) ∧ ¬ FullBlocks (.blk exIrr) ∧ PatchOK exIrr.dims [3, 1] [3, 1] ∧
    SkipLdOK [3, 1] [3, 1] [2, 2] [1] ∧
    (skipXfers exE (.blk exIrr) none [3, 1] [3, 1] [2, 2] [1]).map (fun ts => ts.map fun t => t.addr) =
      some [(1, 0), cellB exIrr [3, 1]] ∧ cellB exIrr [3, 1] ≠ (1, 0) := by
  refine ⟨⟨exIrr_created, by unfold EnoughBlocks; decide⟩, ?_, by decide, by decide, by decide +kernel, by decide⟩
  intro h
  have := h rfl 1 (by decide)
  revert this
  decide

end GA
