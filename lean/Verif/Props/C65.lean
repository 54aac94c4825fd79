import Verif.Props.C64
import Verif.Props.C03
import Verif.Props.C43
import Verif.Props.C08
import Verif.Props.C63

/-!
# C65: creation and inquiry calls of the C interface agree on the row-major, 0-based view
-/

namespace GA
open Spec Model

/-- the block that `NGA_Distribution` reports for process `p` contains `x` -/
def COwned (A : RegArray) (p : Int) (x : List Int) : Prop := InPatch (cDistribution A p).1 (cDistribution A p).2 x

private theorem cOwned_iff {A : RegArray} {p : Int} {x : List Int} : COwned A p x ↔ OwnedBy A p (indexC2F x) := inPatch_F2C

/-- **C65 (owner).** For a legal subscript `NGA_Locate` returns the one process in whose reported block it lies; for an
illegal one it returns -1, and it lies in no reported block. -/
theorem C65_locate (A : RegArray) (hA : ArrOK A) (cand : List Nat) (hc : CandOK A.nblock cand) (x : List Int)
    (hl : x.length = A.dims.length) :
    (InArrayC A.dims.reverse x → 0 ≤ cLocate A cand x ∧ ∀ p, COwned A p x ↔ p = cLocate A cand x) ∧
    (¬ InArrayC A.dims.reverse x → cLocate A cand x = -1 ∧ ∀ p, ¬ COwned A p x) := by
  obtain ⟨h1, h2⟩ := C01_unique_owner A hA.ne hA.map cand hc (indexC2F x) (by simpa using hl)
  constructor
  · intro hx
    obtain ⟨p, k1, k2, _, k4, k5⟩ := h1 (inArray_C2F'.2 hx)
    have e : cLocate A cand x = p := by unfold cLocate; rw [k1]; rfl
    rw [e]
    refine ⟨k2, fun q => ?_⟩
    rw [cOwned_iff]
    exact ⟨k5 q, fun h => h ▸ k4⟩
  · intro hx
    obtain ⟨k1, k2⟩ := h2 (fun h => hx (inArray_C2F'.1 h))
    refine ⟨by unfold cLocate; rw [k1]; rfl, fun p => ?_⟩
    rw [cOwned_iff]
    exact k2 p

/-- **C65 (default creation).** `NGA_Create` on `n` processes: the array has the given dimensions, every legal subscript is in the block of one
of the `n` processes and of no other, and `NGA_Locate` finds this process. -/
theorem C65_create (less : Waste → Waste → Bool) (n : Nat) (hn : 0 < n) (dims chunk : List Int) (hd : dims ≠ [])
    (hp : ∀ d ∈ dims, 1 ≤ d) (hc : chunk.length = dims.length) :
    ∃ A, cCreate less n dims chunk = some A ∧ A.dims.reverse = dims ∧
      ∀ x, InArrayC dims x → ∃ p, (0 ≤ p ∧ p < (n : Int)) ∧ (∀ q, COwned A q x ↔ q = p) ∧
        ∀ cand, CandOK A.nblock cand → cLocate A cand x = p := by
  obtain ⟨A, a1, a2, _, _, a5, _⟩ := C03_default_distribution less n hn (copyC2F dims) (copyC2F chunk) (dims.map fun _ => 0)
    (by simpa [copyC2F] using hd) (by simpa [copyC2F] using hp) (by simpa [copyC2F] using hc)
  refine ⟨A, a1, by rw [a2]; simp [copyC2F], ?_⟩
  intro x hx
  obtain ⟨p, p1, p2, p3, p4⟩ := a5 _ (inArray_C2F.2 hx)
  refine ⟨p, p1, fun q => ?_, fun cand hcand => ?_⟩
  · rw [cOwned_iff]; exact ⟨p3 q, fun h => h ▸ p2⟩
  · unfold cLocate; rw [p4 cand hcand]; rfl

/-! ## irregular arrays -/

private theorem cutMap_length (block : List Nat) (map : List Int) : (cutMap block map).length = block.length := by
  induction block generalizing map with
  | nil => rfl
  | cons n ns ih => simp [cutMap, ih]

private theorem cutMap_lengths {block : List Nat} {map : List Int} (h : map.length = block.sum) :
    (cutMap block map).map List.length = block := by
  induction block generalizing map with
  | nil => rfl
  | cons n ns ih =>
    simp only [List.sum_cons] at h
    simp only [cutMap, List.map_cons, List.length_take]
    rw [ih (by simp; omega)]
    congr 1; omega

private theorem copyMapLoop_eq (block : List Nat) (map done : List Int) :
    copyMapLoop block map done = ((cutMap block map).map fun s => s.map fun v => v + 1).reverse.flatten ++ done := by
  induction block generalizing map done with
  | nil => simp [copyMapLoop, cutMap]
  | cons n ns ih => simp [copyMapLoop, cutMap, ih]

private theorem coordLo_parts {parts : List (List Int)} {c : List Nat} (hc : List.Forall₂ (fun c s => c < s.length) c parts) :
    coordLo (parts.map List.length) parts.flatten c = gridLo parts c := by
  induction hc with
  | nil => rfl
  | cons h _ ih =>
    simp only [List.map_cons, List.flatten_cons, coordLo, gridLo, List.drop_left, ih]
    congr 1
    simp [List.getD_eq_getElem?_getD, List.getElem?_append_left h]

/-- the upper corner in 1-based numbering -/
private def gridHi1 : (dims : List Int) → (starts : List (List Int)) → (c : List Nat) → List Int
  | d :: ds, s :: ss, c :: cs => (if c + 1 = s.length then d else s.getD (c + 1) 0 - 1) :: gridHi1 ds ss cs
  | _, _, _ => []

private theorem coordHi_parts {dims : List Int} {parts : List (List Int)} {c : List Nat} (hc : List.Forall₂ (fun c s => c < s.length) c parts) :
    coordHi (parts.map List.length) dims parts.flatten c = gridHi1 dims parts c := by
  induction hc generalizing dims with
  | nil => cases dims <;> rfl
  | @cons c s cs ss h _ ih =>
    cases dims with
    | nil => simp [coordHi, gridHi1]
    | cons d ds =>
      simp only [List.map_cons, List.flatten_cons, coordHi, gridHi1, List.drop_left, ih]
      congr 1
      by_cases e : c + 1 = s.length
      · rw [if_pos (by omega), if_pos e]
      · rw [if_neg (by omega), if_neg e]
        simp [List.getD_eq_getElem?_getD, List.getElem?_append_left (show c + 1 < s.length by omega)]

private theorem gridLo_snoc {ss : List (List Int)} {cs : List Nat} (s : List Int) (c : Nat) (h : cs.length = ss.length) :
    gridLo (ss ++ [s]) (cs ++ [c]) = gridLo ss cs ++ [s.getD c 0] := by
  induction ss generalizing cs with
  | nil => cases cs <;> simp_all [gridLo]
  | cons a ss ih =>
    cases cs with
    | nil => simp at h
    | cons b cs => simp only [List.cons_append, gridLo]; rw [ih (by simpa using h)]

private theorem gridHi1_snoc {ds : List Int} {ss : List (List Int)} {cs : List Nat} (d : Int) (s : List Int) (c : Nat)
    (h : cs.length = ss.length) (h' : ds.length = ss.length) :
    gridHi1 (ds ++ [d]) (ss ++ [s]) (cs ++ [c]) = gridHi1 ds ss cs ++ [if c + 1 = s.length then d else s.getD (c + 1) 0 - 1] := by
  induction ss generalizing cs ds with
  | nil => cases cs <;> cases ds <;> simp_all [gridHi1]
  | cons a ss ih =>
    cases cs with
    | nil => simp at h
    | cons b cs =>
      cases ds with
      | nil => simp at h'
      | cons e ds => simp only [List.cons_append, gridHi1]; rw [ih (by simpa using h) (by simpa using h')]

private theorem gridLo_rev {ss : List (List Int)} {cs : List Nat} (hc : List.Forall₂ (fun c s => c < s.length) cs ss) :
    gridLo ((ss.map fun s => s.map fun v => v + 1).reverse) cs.reverse = indexC2F (gridLo ss cs) := by
  induction hc with
  | nil => rfl
  | @cons c s cs ss h t ih =>
    simp only [List.map_cons, List.reverse_cons, gridLo]
    rw [gridLo_snoc _ _ (by simpa using t.length_eq), ih]
    simp [indexC2F, h]

private theorem gridHi_rev {ds : List Int} {ss : List (List Int)} {cs : List Nat} (hc : List.Forall₂ (fun c s => c < s.length) cs ss)
    (hd : ds.length = ss.length) :
    gridHi1 ds.reverse ((ss.map fun s => s.map fun v => v + 1).reverse) cs.reverse = indexC2F (gridHi ds ss cs) := by
  induction hc generalizing ds with
  | nil => cases ds <;> simp_all [gridHi1, gridHi, indexC2F]
  | @cons c s cs ss h t ih =>
    cases ds with
    | nil => simp at hd
    | cons d ds =>
      simp only [List.map_cons, List.reverse_cons, gridHi]
      rw [gridHi1_snoc _ _ _ (by simpa using t.length_eq) (by simpa using hd), ih (by simpa using hd)]
      simp only [indexC2F, List.map_cons, List.reverse_cons, List.length_map]
      congr 2
      by_cases e : c + 1 = s.length
      · rw [if_pos e, if_pos e]; omega
      · rw [if_neg e, if_neg e]
        have : c + 1 < s.length := by omega
        simp [this]

private theorem undigits_snoc {ns cs : List Nat} (n c : Nat) (h : cs.length = ns.length) :
    undigits (ns ++ [n]) (cs ++ [c]) = undigits ns cs + gridSize ns * c := by
  induction ns generalizing cs with
  | nil => cases cs <;> simp_all [undigits, gridSize]
  | cons a ns ih =>
    cases cs with
    | nil => simp at h
    | cons b cs =>
      simp only [List.cons_append, undigits, gridSize]
      rw [ih (by simpa using h)]
      ring

private theorem gridSize_prod (ns : List Nat) : gridSize ns = ns.prod := by
  induction ns with
  | nil => rfl
  | cons n ns ih => simp [gridSize, ih]

private theorem rowNum_eq {ns cs : List Nat} (acc : Nat) (h : cs.length = ns.length) :
    rowNum acc ns cs = undigits ns.reverse cs.reverse + gridSize ns * acc := by
  induction ns generalizing cs acc with
  | nil => cases cs <;> simp_all [rowNum, undigits, gridSize]
  | cons n ns ih =>
    cases cs with
    | nil => simp at h
    | cons c cs =>
      simp only [rowNum, List.reverse_cons, gridSize]
      rw [ih _ (by simpa using h), undigits_snoc _ _ (by simpa using h)]
      simp only [gridSize_prod, List.prod_reverse]
      ring

private theorem coordOK_iff {ns cs : List Nat} : CoordOK ns cs ↔ List.Forall₂ (· < ·) cs ns := by
  induction ns generalizing cs with
  | nil => cases cs <;> simp [CoordOK]
  | cons n ns ih => cases cs <;> simp [CoordOK, ih]

private theorem created_fields {dims : List Int} {block : List Nat} {map : List Int} {A : RegArray} (hm : map.length = block.sum)
    (h : cCreateIrreg dims block map = some A) :
    A.dims = dims.reverse ∧ A.nblock = block.reverse ∧
      A.mapc = ((cutMap block map).map fun s => s.map fun v => v + 1).reverse.flatten ∧
      A.nblock = ((cutMap block map).map fun s => s.map fun v => v + 1).reverse.map List.length := by
  have hlen : ((cutMap block map).map fun s => s.map fun v => v + 1).reverse.map List.length = block.reverse := by
    rw [List.map_reverse, List.map_map]
    congr 1
    conv_rhs => rw [← cutMap_lengths hm]
    apply List.map_congr_left
    intro s _
    simp
  unfold cCreateIrreg setIrreg at h
  split at h
  · cases h
  split at h
  · cases h
  simp only [Option.some.injEq] at h
  subst h
  have e : copyMap block map = ((cutMap block map).map fun s => s.map fun v => v + 1).reverse.flatten := by
    unfold copyMap; rw [copyMapLoop_eq]; simp
  refine ⟨rfl, rfl, ?_, hlen.symm⟩
  simp only [e]
  apply List.take_of_length_le
  rw [List.length_flatten, hlen]

/-- **C65 (irregular arrays).** `NGA_Create_irreg(dims, block, map)`: the process with grid coordinates `c` (counted row by row) owns exactly
the block described by the map entries, in the C order of the dimensions. Processes outside the grid have `lo = -1`, `hi = -2`. -/
theorem C65_irreg (dims : List Int) (block : List Nat) (map : List Int) (A : RegArray) (hl : dims.length = block.length)
    (hm : map.length = block.sum) (h : cCreateIrreg dims block map = some A) :
    A.dims.reverse = dims ∧
    (∀ c, List.Forall₂ (· < ·) c block →
      cDistribution A (rowNum 0 block c : Nat) = (gridLo (cutMap block map) c, gridHi dims (cutMap block map) c)) ∧
    (∀ p : Int, p < 0 ∨ (block.prod : Int) ≤ p → cDistribution A p = (dims.map fun _ => -1, dims.map fun _ => -2)) := by
  obtain ⟨a1, a2, a3, a4⟩ := created_fields hm h
  refine ⟨by rw [a1]; simp, ?_, ?_⟩
  · intro c hc
    have hco : CoordOK A.nblock c.reverse := by rw [a2, coordOK_iff]; exact List.forall₂_reverse_iff.2 hc
    have hc' : List.Forall₂ (fun c s => c < s.length) c (cutMap block map) := by
      have := cutMap_lengths hm
      rw [← this, List.forall₂_map_right_iff] at hc
      exact hc
    have hc'' : List.Forall₂ (fun c s => c < s.length) c.reverse ((cutMap block map).map fun s => s.map fun v => v + 1).reverse := by
      rw [List.forall₂_reverse_iff, List.forall₂_map_right_iff]
      simpa using hc'
    rw [rowNum_eq 0 hc.length_eq, Nat.mul_zero, Nat.add_zero, ← a2]
    unfold cDistribution
    rw [owns_of_coord hco, a1, a3, a4, coordLo_parts hc'', coordHi_parts hc'', gridLo_rev hc',
      gridHi_rev hc' (by rw [cutMap_length]; exact hl), indexF2C_C2F, indexF2C_C2F]
  · intro p hp
    unfold cDistribution owns
    rw [a2, gridSize_prod, List.prod_reverse, if_pos (by omega)]
    simp only [indexF2C, List.map_map, List.map_reverse, List.reverse_reverse, Function.comp_def, Prod.mk.injEq]
    constructor
    · apply List.ext_getElem <;> simp [hl]
    · apply List.ext_getElem <;> simp [hl]

/-! ## regions -/

/-- **C65 (regions).** `NGA_Locate_region` of a legal patch of a REGULAR array: every element of the patch is in exactly one of the
reported pieces, nothing else is, and every piece lies in the block of its process. The count with which the C function sizes its temporary lists is right. -/
theorem C65_region (A : RegArray) (hA : ArrOK A) (candT candB : List Nat) (hT : CandOK A.nblock candT) (hB : CandOK A.nblock candB)
    (lo hi : List Int) (hok : PatchOKC A.dims.reverse lo hi) :
    ∃ ps, cLocateRegion A candT candB lo hi = some ps ∧
      (∀ x, timesVisited (ps.map fun p => (p.plo, p.phi)) x = if InPatch lo hi x then 1 else 0) ∧
      ∀ p ∈ ps, ∀ x, InPatch p.plo p.phi x → COwned A p.proc x := by
  obtain ⟨h1, h2⟩ := C08_locate_region A hA candT candB hT hB (indexC2F lo) (indexC2F hi)
  obtain ⟨ps, hps⟩ := h1.1 (patchOK_C2F.2 hok)
  obtain ⟨h3, h4⟩ := h2 ps hps
  refine ⟨ps.map fun p => ⟨p.proc, indexF2C p.plo, indexF2C p.phi⟩, ?_, ?_, ?_⟩
  · unfold cLocateRegion
    rw [C63_nnodes_regular, hps]
    simp
  · intro x
    have := h3 (indexC2F x)
    simp only [inPatch_C2F] at this
    rw [← this]
    unfold timesVisited
    rw [List.countP_map, List.countP_map, List.countP_map]
    congr 1
    funext p
    simp only [Function.comp_apply, inPatch_F2C]
  · intro p hp x hx
    obtain ⟨q, hq, rfl⟩ := List.mem_map.1 hp
    rw [cOwned_iff]
    exact h4 q hq _ (inPatch_F2C.1 hx)

/-- **C65, negative result (illegal patches).** For no illegal patch the behaviour of `NGA_Locate_region` is defined: the count of processes is used
although it was not computed. -/
theorem C65_region_illegal (A : RegArray) (candT candB : List Nat) (lo hi : List Int) (hno : ¬ PatchOKC A.dims.reverse lo hi) :
    cLocateRegion A candT candB lo hi = none := by
  have : locateRegion A candT candB (indexC2F lo) (indexC2F hi) = none := by
    unfold locateRegion
    rw [if_neg]
    intro hr
    exact hno (patchOK_C2F.1 (regionOK_iff.1 hr))
  unfold cLocateRegion
  rw [C63_nnodes_regular, this]
  rfl

/-- **C65 (regions of simple block-cyclic arrays).** The call succeeds on a legal patch. Its pieces cover an element of the patch once if its block does not surround the
patch in any dimension, and not at all if it does (C63); every piece lies in the patch and in its block. -/
theorem C65_region_cyclic (A : BArray) (hA : Created A) (hk : A.kind = .cyclic) (candT candB : List Nat) (lo hi : List Int) (hok : PatchOKC A.dims.reverse lo hi) :
    ∃ ps, cLocateRegionB A candT candB lo hi = some ps ∧
      (∀ x b, b < bTotal A → InBlock A b (indexC2F x) → timesVisited (ps.map fun p => (p.plo, p.phi)) x =
        if InPatch lo hi x ∧ ¬ Surrounds (bOwns A b).1 (bOwns A b).2 (indexC2F lo) (indexC2F hi) then 1 else 0) ∧
      ∀ p ∈ ps, ∃ b : Nat, p.proc = b ∧ b < bTotal A ∧ ∀ x, InPatch p.plo p.phi x → InPatch lo hi x ∧ InBlock A b (indexC2F x) := by
  obtain ⟨h1, h2⟩ := C63_cyclic A hA hk candT candB (indexC2F lo) (indexC2F hi)
  obtain ⟨ps, hps⟩ := h1.1 (patchOK_C2F.2 hok)
  obtain ⟨h3, h4⟩ := h2 ps hps
  refine ⟨ps.map fun p => ⟨p.proc, indexF2C p.plo, indexF2C p.phi⟩, ?_, ?_, ?_⟩
  · have hn : locateNNodesB A (indexC2F lo) (indexC2F hi) = some ps.length := by
      unfold locateBlocks at hps
      unfold locateNNodesB
      split at hps
      · rename_i hr
        rw [hk] at hps
        simp only [Option.some.injEq] at hps
        rw [if_pos hr, ← hps, List.length_map]
      · cases hps
    unfold cLocateRegionB
    rw [hn, hps]
    simp
  · intro x b hb hx
    have := h3 (indexC2F x) b hb hx
    simp only [inPatch_C2F] at this
    rw [← this]
    unfold timesVisited
    rw [List.countP_map, List.countP_map, List.countP_map]
    congr 1
    funext p
    simp only [Function.comp_apply, inPatch_F2C]
  · intro p hp
    obtain ⟨q, hq, rfl⟩ := List.mem_map.1 hp
    obtain ⟨b, b1, b2, b3⟩ := h4 q hq
    refine ⟨b, b1, b2, fun x hx => ?_⟩
    obtain ⟨b4, b5⟩ := b3 _ (inPatch_F2C.1 hx)
    exact ⟨inPatch_C2F.1 b4, b5⟩

example : Created exCyc ∧ exCyc.kind = .cyclic ∧ PatchOKC exCyc.dims.reverse [0, 0] [4, 6] ∧
    (cLocateRegionB exCyc [0, 0] [0, 0] [0, 0] [1, 6]).map (fun l => l.map fun p => (p.proc, p.plo, p.phi)) =
      some [(0, [0, 0], [1, 2]), (1, [0, 3], [1, 5]), (2, [0, 6], [1, 6])] := ⟨exCyc_created, rfl, by decide, by decide⟩

/-- **C65, negative result (block-cyclic arrays).** A legal patch of one element: the temporary lists of `NGA_Locate_region` have no room, and one piece
is written to them. -/
theorem C65_region_blocks : Created exIrr ∧ PatchOKC exIrr.dims.reverse [1, 3] [1, 3] ∧
    locateNNodesB exIrr (indexC2F [1, 3]) (indexC2F [1, 3]) = some 0 ∧
    (locateBlocks exIrr [0, 0] [0, 0] (indexC2F [1, 3]) (indexC2F [1, 3])).map List.length = some 1 ∧
    cLocateRegionB exIrr [0, 0] [0, 0] [1, 3] [1, 3] = none :=
  ⟨exIrr_created, by decide, by decide, by decide, by decide⟩

/-! ## process grid -/

/-- **C65 (number of blocks).** `GA_Nblock` of an irregular array returns the block counts given at its creation. -/
theorem C65_nblock (dims : List Int) (block : List Nat) (map : List Int) (A : RegArray) (hm : map.length = block.sum)
    (h : cCreateIrreg dims block map = some A) : cNblock A = block := by
  rw [cNblock, (created_fields hm h).2.1, List.reverse_reverse]

private theorem topology_eq (ns : List Nat) (p : Nat) : Ghost.procTopology ns p = digits ns p := by
  induction ns generalizing p with
  | nil => rfl
  | cons n ns ih => simp [Ghost.procTopology, digits, ih]

/-- **C65, negative result (process grid).** `NGA_Proc_topology` and `NGA_Get_proc_grid` return the grid coordinates of a process and the extents of the
grid in reversed order: the process with grid coordinates `c`, whose block is `gridLo .. c`, gets `c` reversed. -/
theorem C65_topology_reversed (dims : List Int) (block : List Nat) (map : List Int) (A : RegArray) (hm : map.length = block.sum)
    (h : cCreateIrreg dims block map = some A) (c : List Nat) (hc : List.Forall₂ (· < ·) c block) :
    cTopology A (rowNum 0 block c) = c.reverse ∧ cProcGrid A = block.reverse := by
  obtain ⟨_, a2, _, _⟩ := created_fields hm h
  constructor
  · unfold cTopology
    rw [topology_eq, rowNum_eq 0 hc.length_eq, Nat.mul_zero, Nat.add_zero, a2, digits_undigits]
    rw [coordOK_iff]
    exact List.forall₂_reverse_iff.2 hc
  · exact a2

/-- so for a grid of 2x3 blocks a C program is told that process 1 has coordinates (1,0) in a 3x2 grid, although its block is the second one of the first row -/
theorem C65_topology_wrong : ∃ A, cCreateIrreg [4, 6] [2, 3] [0, 2, 0, 2, 4] = some A ∧ cNblock A = [2, 3] ∧ cProcGrid A = [3, 2] ∧
    cDistribution A 1 = ([0, 2], [1, 3]) ∧ cTopology A 1 = [1, 0] :=
  ⟨_, rfl, by decide, by decide, by decide, by decide⟩

/-! ## ghost cells -/

/-- **C65, negative result.** A direction is a list of -1, 0 and 1. `NGA_NbGet_ghost_dir` adds one to every component: no direction with a
component 1 reaches the library as a direction, and the other ones reach it as different ones than the reversed list. -/
theorem C65_ghost_dir_wrong (mask : List Int) (hm : ∀ d ∈ mask, d = -1 ∨ d = 0 ∨ d = 1) (hne : mask ≠ []) :
    cGhostDirMask mask ≠ mask.reverse ∧ (1 ∈ mask → ∃ d ∈ cGhostDirMask mask, d = 2) := by
  constructor
  · intro e
    unfold cGhostDirMask indexC2F at e
    rw [List.reverse_inj] at e
    cases mask with
    | nil => exact hne rfl
    | cons d ds => simp only [List.map_cons, List.cons.injEq] at e; omega
  · intro h
    exact ⟨2, by simp [cGhostDirMask, indexC2F]; exact ⟨1, h, rfl⟩, rfl⟩

/-! Non-vacuity -/

example : cLocate exG [0, 0] [3, 4] = 5 ∧ cDistribution exG 5 = ([3, 4], [6, 9]) ∧ cLocate exG [0, 0] [7, 4] = -1 := by decide
example : ∃ A, cCreateIrreg [7, 10] [2, 3] [0, 3, 0, 4, 4] = some A ∧ List.Forall₂ (· < ·) [1, 2] [2, 3] ∧
    rowNum 0 [2, 3] [1, 2] = 5 ∧ cutMap [2, 3] [0, 3, 0, 4, 4] = [[0, 3], [0, 4, 4]] ∧
    cDistribution A 5 = (gridLo [[0, 3], [0, 4, 4]] [1, 2], gridHi [7, 10] [[0, 3], [0, 4, 4]] [1, 2]) ∧
    gridLo [[0, 3], [0, 4, 4]] [1, 2] = [3, 4] := ⟨_, rfl, by simp, by decide, by decide, by decide, by decide⟩
example : PatchOKC exG.dims.reverse [1, 2] [4, 6] ∧ (cLocateRegion exG [0, 0] [0, 0] [1, 2] [4, 6]).map List.length = some 6 := by decide
example : ¬ PatchOKC exG.dims.reverse [1, 2] [4, 10] := by decide

end GA
