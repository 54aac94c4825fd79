import Verif.Lemmas.MirrorCopy

/-!
# C90: mirrored arrays

A mirrored array has one copy on every node. One-sided calls act on the copy of the node of the
caller; the merge makes all copies equal to their element-wise sum; the merge into a distributed
array stores the sum of the copies there; copies between a mirrored and a distributed array keep
the content. The nodes may have any numbers of processes and any number of them.
-/

namespace GA
open Spec Model Mirror

section
variable {V : Type} {sizes : List Nat} {A : Nat → RegArray} {dims : List Int}

/-- The copy on node `k` has content `f`: every get of a process of node `k` that runs without
error returns `f` on its patch and leaves the rest of the buffer alone. -/
def CopyHolds (sizes : List Nat) (A : Nat → RegArray) (m : Addr → V) (k : Nat) (f : List Int → V) : Prop :=
  ∀ (E : Env) (lo hi ld : List Int) (buf buf' : Int → V), EnvOK E (A k) → LdOK lo hi ld →
    mirGet sizes A k E lo hi buf ld m = some buf' → GetResult lo hi ld f buf buf'

theorem copyHolds_iff (hA : MirOK sizes A dims) {k : Nat} (hk : k < sizes.length) {m : Addr → V} {f : List Int → V} :
    CopyHolds sizes A m k f ↔ CopyRepr sizes A k m f := by
  have hS : Sound (.reg (A k) (nodeSize sizes k)) := hA.ok k hk
  have := holds_iff hS (m := nodeMem sizes k m) (f := f)
  simp only [Holds] at this
  unfold CopyHolds
  simp only [mirGet_eq]
  exact this

/-- **C90 (one-sided calls).** A put or accumulate by a process of node `k` that runs without error
changes the copy on that node as it would change a plain array and leaves the copies on all other
nodes as they are. Every node has a copy with a content. -/
theorem C90_one_sided [Add V] [Mul V] (hA : MirOK sizes A dims) (m : Addr → V) :
    (∀ k, k < sizes.length → ∃ f, CopyHolds sizes A m k f) ∧
    ∀ (k : Nat), k < sizes.length → ∀ (E : Env), EnvOK E (A k) → ∀ (o : Op V), o.LdOK → ∀ m',
      (match o with
        | .put lo hi ld buf => mirPut sizes A k E lo hi buf ld m
        | .acc lo hi ld alpha buf => mirAcc sizes A k E lo hi buf ld alpha m) = some m' →
      (∀ f, CopyHolds sizes A m k f → CopyHolds sizes A m' k (specStep f o)) ∧
      ∀ j, j < sizes.length → j ≠ k → ∀ f, CopyHolds sizes A m j f → CopyHolds sizes A m' j f := by
  constructor
  · intro k hk
    exact ⟨fun x => m (shiftA (nodeStart sizes k) (cell (A k) x)), (copyHolds_iff hA hk).2 fun _ _ => rfl⟩
  · intro k hk E hE o ho m' h
    cases o with
    | put lo hi ld buf =>
      obtain ⟨h1, h2⟩ := mirPut_repr hA hk hE ho h
      exact ⟨fun f hf => (copyHolds_iff hA hk).2 (h1 f ((copyHolds_iff hA hk).1 hf)),
        fun j hj hne f hf => (copyHolds_iff hA hj).2 (h2 j hj hne f ((copyHolds_iff hA hj).1 hf))⟩
    | acc lo hi ld alpha buf =>
      obtain ⟨h1, h2⟩ := mirAcc_repr hA hk hE ho h
      exact ⟨fun f hf => (copyHolds_iff hA hk).2 (h1 f ((copyHolds_iff hA hk).1 hf)),
        fun j hj hne f hf => (copyHolds_iff hA hj).2 (h2 j hj hne f ((copyHolds_iff hA hj).1 hf))⟩

/-- **C90 (one-sided calls are served).** A legal patch that fits into one message is served, an
illegal one is refused. -/
theorem C90_served (hA : MirOK sizes A dims) {k : Nat} (hk : k < sizes.length) (E : Env) (hE : EnvOK E (A k))
    (lo hi ld : List Int) (buf : Int → V) (m : Addr → V) :
    (¬ PatchOK dims lo hi → mirPut sizes A k E lo hi buf ld m = none ∧ mirGet sizes A k E lo hi buf ld m = none) ∧
    (PatchOK dims lo hi → E.elemsize * numElems lo hi ≤ E.maxInt →
      (∃ m', mirPut sizes A k E lo hi buf ld m = some m') ∧ ∃ b', mirGet sizes A k E lo hi buf ld m = some b') := by
  have h := C07_rejects (V := Int) (A k) (hA.ok k hk).1 E hE lo hi ld (fun _ => 0) 0 (fun _ => 0)
  rw [hA.dims k hk] at h
  constructor
  · intro hn
    have := (h.1 hn).1
    simp only [ngaPut, Option.map_eq_none_iff] at this
    simp [mirPut, mirGet, this]
  · intro hp hf
    obtain ⟨m', hm⟩ := (h.2 hp hf).1
    obtain ⟨rs, hrs, _⟩ := Option.map_eq_some_iff.1 hm
    simp [mirPut, mirGet, hrs]

/-- **C90 (merge), partial.** `GA_Merge_mirrored`: on a cluster whose nodes have the same number of
processes, and without ghost cells, the merge never fails and afterwards every copy is the
element-wise sum of all copies. Missing: nodes with different numbers of processes
(`C90_merge_mixed_nodes`: the collective calls do not match) and ghost cells
(`C90_merge_ghosts`: some elements are not merged). -/
theorem C90_merge_partial [AddCommMonoid V] {N c : Nat} {A : RegArray} (hA : ArrOK A) (hn : gridSize A.nblock ≤ c)
    (hg : hasGhosts A = false) (m : Addr → V) (F : Nat → List Int → V)
    (hF : ∀ k, k < N → CopyHolds (List.replicate N c) (fun _ => A) m k (F k)) :
    ∃ m', mergeMirrored (List.replicate N c) (fun _ => A) m = some m' ∧
      ∀ k, k < N → CopyHolds (List.replicate N c) (fun _ => A) m' k fun x => ((List.range N).map fun j => F j x).sum := by
  have hM : MirOK (List.replicate N c) (fun _ => A) A.dims :=
    ⟨fun _ _ => rfl, fun k hk => ⟨hA, by rw [uni_size (by simpa using hk)]; exact hn⟩⟩
  obtain ⟨m', h1, h2⟩ := merge_uniform hA hn hg m
  refine ⟨m', h1, fun k hk => (copyHolds_iff hM (by simpa using hk)).2 ?_⟩
  intro x hx
  rw [h2 k hk x hx]
  congr 1
  apply List.map_congr_left
  intro j hj
  have hj' := List.mem_range.1 hj
  exact (copyHolds_iff hM (by simpa using hj')).1 (hF j hj') x hx

/-- **C90 (merge into a distributed array), partial.** `NGA_Merge_distr_patch`, on every cluster and
with ghost cells or without: if it accepts a legal patch and no process ends in an error, then
every element of the patch of the distributed array is the sum over all nodes of the
corresponding element of the copies, and all other elements keep their values; whatever the
interleaving. Missing: patches that reach the last element of a dimension are refused
(`C90_distr_last_refused`) and empty blocks can end in an error (`C90_distr_empty_block`). -/
theorem C90_distr_partial [Semiring V] (hA : MirOK sizes A dims) (hs : sizes ≠ []) {B : RegArray} (hB : ArrOK B)
    (hBn : gridSize B.nblock ≤ total sizes) {alo ahi blo bhi : List Int} (hp : PatchOK dims alo ahi)
    (hpb : PatchOK B.dims blo bhi)
    {mA mB mB' : Addr → V} (F : Nat → List Int → V) (hF : ∀ k, k < sizes.length → CopyHolds sizes A mA k (F k))
    (g : List Int → V) (hg : Holds (.reg B (total sizes)) mB g)
    (m1 : Addr → V) (order : List (Env × Nat)) (hE : ∀ e ∈ order, EnvOK e.1 B)
    (hacc : distrAccepts (A 0) B alo ahi blo bhi = true)
    (hz : Phase (total sizes) (patchCells (.reg B (total sizes)) blo bhi) (fun _ => (0 : V)) mB m1)
    (ho : (order.map Prod.snd).Perm (List.range (total sizes)))
    (h : distrAccs sizes A B mA alo ahi blo order m1 = some mB') :
    MergeDistr sizes A B alo ahi blo bhi mA mB mB' ∧
    Holds (.reg B (total sizes)) mB' fun y => if InPatch blo bhi y then
      ((List.range sizes.length).map fun k => F k (List.zipWith (· + ·) alo (List.zipWith (· - ·) y blo))).sum else g y := by
  have h0 : 0 < sizes.length := List.length_pos_iff.2 hs
  refine ⟨⟨hacc, m1, order, hz, ho, h⟩, ?_⟩
  simp only [distrAccepts, Bool.and_eq_true, decide_eq_true_eq] at hacc
  obtain ⟨⟨⟨hdl, _⟩, _⟩, hsh⟩ := hacc
  rw [hA.dims 0 h0] at hdl
  have hSB : Sound (.reg B (total sizes)) := ⟨hB, hBn⟩
  have l1 := hp.1.length
  have l2 := inPatch_lengths hp.2.2
  have l3 := hpb.1.length
  have l4 := inPatch_lengths hpb.2.2
  have hm1 := (C51_fill_patch_partial (.reg B (total sizes)) hSB trivial blo bhi l3
    (by simp only [GArr.dims]; omega) (0 : V) mB g hg).2 m1 hz
  rw [holds_iff hSB] at hm1 ⊢
  have hF' := fun k hk => (copyHolds_iff hA hk).1 (hF k hk)
  have hr := distrAccs_repr hA hB hdl.symm hF' hp (by omega) order
    (fun e he => ⟨hE e he, List.mem_range.1 (ho.mem_iff.1 (List.mem_map.2 ⟨e, he, rfl⟩))⟩) (fun y hy => hm1 y hy) h
  intro y hy
  have hy' := hr y hy
  refine hy'.trans ?_
  dsimp only
  have hsum : (order.map fun e => contrib sizes A F alo ahi blo e.2 y).sum =
      ((List.range (total sizes)).map fun r => contrib sizes A F alo ahi blo r y).sum := by
    rw [show (order.map fun e => contrib sizes A F alo ahi blo e.2 y) =
      (order.map Prod.snd).map fun r => contrib sizes A F alo ahi blo r y by rw [List.map_map]; rfl]
    exact (ho.map _).sum_eq
  have hyl := hy.length
  simp only [GArr.dims] at hyl
  have hsame := inPatch_same (alo := alo) (ahi := ahi) (blo := blo) (bhi := bhi) (y := y) (by omega) (by omega)
    (by omega) (by omega) hsh
  obtain ⟨c1, c2⟩ := contrib_sum hA F (alo := alo) (ahi := ahi) (blo := blo) hp y
  rw [hsum]
  by_cases hin : InPatch blo bhi y
  · rw [if_pos hin, if_pos hin, zero_add, c1 (hsame.2 hin)]
    congr 1
    apply List.map_congr_left
    intro k _
    congr 1
    have : ∀ (a y b : List Int), shiftP a y b = List.zipWith (· + ·) a (List.zipWith (· - ·) y b) := by
      intro a
      induction a with
      | nil => intro y b; cases y <;> cases b <;> simp [shiftP]
      | cons a as ih =>
        intro y b
        cases y with
        | nil => simp [shiftP]
        | cons y ys =>
          cases b with
          | nil => simp [shiftP]
          | cons b bs =>
            simp only [shiftP, List.zipWith_cons_cons, ih, List.cons.injEq, and_true]
            omega
    rw [this]
  · rw [if_neg hin, if_neg hin, c2 fun h => hin (hsame.1 h), add_zero]

/-- **C90 (merge into a distributed array, refused patches).** A patch that reaches the last
element of some dimension of the mirrored array is refused, although it is legal; so is one that
reaches the last element of the distributed array. In particular a whole array is never accepted. -/
theorem C90_distr_last_refused (a b : RegArray) (alo ahi blo bhi : List Int) (i : Nat) (hi : i < a.dims.length)
    (h1 : alo.length = a.dims.length) (h2 : ahi.length = a.dims.length) (hlast : ahi[i]? = a.dims[i]?) :
    distrAccepts a b alo ahi blo bhi = false := by
  have : distrCheck a.dims alo ahi = false := by
    generalize a.dims = d at *
    induction d generalizing alo ahi i with
    | nil => simp at hi
    | cons d ds ih =>
      match alo, ahi, h1, h2 with
      | l :: ls, u :: us, h1, h2 =>
        simp only [distrCheck, Bool.and_eq_false_iff, decide_eq_false_iff_not]
        cases i with
        | zero =>
          left
          simp only [List.getElem?_cons_zero, Option.some.injEq] at hlast
          omega
        | succ i =>
          right
          exact ih ls us i (by simpa using hi) (by simpa using h1) (by simpa using h2) (by simpa using hlast)
  simp [distrAccepts, this]

/-- **C90 (copy to a mirrored array), partial.** `GA_Copy` from a distributed array to a mirrored one
on nodes with equal numbers of processes, without ghost cells in the mirrored array: whatever the
interleaving, if no process ends in an error all copies get the content of the distributed array.
Missing: as for the merge, and empty blocks. -/
theorem C90_copy_to_partial [AddCommMonoid V] {N c : Nat} {A D : RegArray} (hA : ArrOK A) (hn : gridSize A.nblock ≤ c)
    (hg : hasGhosts A = false) (hne : NoEmptyBlock (.reg A c)) (hD : ArrOK D) (hDn : gridSize D.nblock ≤ N * c)
    (hdim : D.dims = A.dims) {mD m m1 m2 m' : Addr → V} (f : List Int → V) (hf : Holds (.reg D (N * c)) mD f)
    (order : List (Env × Nat)) (hE : ∀ e ∈ order, EnvOK e.1 A)
    (hz : Phase (total (List.replicate N c)) (mirZeroCells (List.replicate N c) fun _ => A) (fun _ => (0 : V)) m m1)
    (ho : (order.map Prod.snd).Perm (List.range (total (List.replicate N c))))
    (h : copyPuts (List.replicate N c) (fun _ => A) D mD order m1 = some m2)
    (h' : mergeMirrored (List.replicate N c) (fun _ => A) m2 = some m') :
    CopyToMirrored (List.replicate N c) (fun _ => A) D mD m m' ∧
    ∀ k, k < N → CopyHolds (List.replicate N c) (fun _ => A) m' k f := by
  refine ⟨⟨m1, m2, order, hz, ho, h, h'⟩, ?_⟩
  have hM : MirOK (List.replicate N c) (fun _ => A) A.dims :=
    ⟨fun _ _ => rfl, fun k hk => ⟨hA, by rw [uni_size (by simpa using hk)]; exact hn⟩⟩
  have htot : total (List.replicate N c) = N * c := by simp [total]
  have hSD : Sound (.reg D (N * c)) := ⟨hD, hDn⟩
  have hfr : Repr D mD f := fun x hx => (holds_iff hSD).1 hf x hx
  have hzr : ∀ k, k < (List.replicate N c).length → CopyRepr (List.replicate N c) (fun _ => A) k m1 fun _ => 0 :=
    fun k hk => mirZero_repr hM (fun k hk => by rw [uni_size (by simpa using hk)]; exact hne) hz hk
  have hput := fun (k : Nat) (hk : k < (List.replicate N c).length) => copyPuts_repr hM hD hdim hfr order
    (fun e he => ⟨hE e he, List.mem_range.1 (ho.mem_iff.1 (List.mem_map.2 ⟨e, he, rfl⟩))⟩) hzr h hk
  obtain ⟨m'', q1, q2⟩ := merge_uniform (N := N) hA hn hg m2
  rw [q1, Option.some.injEq] at h'
  subst h'
  intro k hk
  refine (copyHolds_iff hM (by simpa using hk)).2 ?_
  intro x hx
  rw [q2 k hk x hx]
  obtain ⟨r0, a1, a2, a3⟩ := own_iff hD (n := total (List.replicate N c)) (by rw [htot]; exact hDn) (x := x) (by rw [hdim]; exact hx)
  have hr0 := (rank_split a1).2.2
  rw [List.length_replicate] at hr0
  rw [← sum_one N hr0 (f x)]
  congr 1
  apply List.map_congr_left
  intro j hj
  have hj' := List.mem_range.1 hj
  rw [hput j (by simpa using hj') x hx]
  dsimp only
  by_cases hc : j = nodeOf (List.replicate N c) r0
  · have : r0 ∈ order.map Prod.snd := ho.mem_iff.2 (List.mem_range.2 a1)
    obtain ⟨e, he, rfl⟩ := List.mem_map.1 this
    rw [if_pos hc, if_pos ⟨e, he, hc.symm, (a3 _).2 rfl⟩]
  · rw [if_neg hc, if_neg]
    rintro ⟨e, he, e1, e2⟩
    rw [(a3 _).1 e2] at e1
    exact hc e1.symm

/-- **C90 (copy from a mirrored array).** `GA_Copy` from a mirrored array whose copies agree to a
distributed one, on every cluster: if no process ends in an error, the distributed array gets the
content of the copies, in whatever order the processes run. -/
theorem C90_copy_from (hA : MirOK sizes A dims) {D : RegArray} (hD : ArrOK D) (hDn : gridSize D.nblock ≤ total sizes)
    (hdim : D.dims = dims) {m mD mD' : Addr → V} (f : List Int → V)
    (hf : ∀ k, k < sizes.length → CopyHolds sizes A m k f) (order : List (Env × Nat))
    (hE : ∀ e ∈ order, EnvOK e.1 (A (nodeOf sizes e.2)))
    (ho : (order.map Prod.snd).Perm (List.range (total sizes)))
    (h : copyGets sizes A D m order mD = some mD') : Holds (.reg D (total sizes)) mD' f := by
  have hSD : Sound (.reg D (total sizes)) := ⟨hD, hDn⟩
  have := copyGets_repr hA hD hdim (fun k hk => (copyHolds_iff hA hk).1 (hf k hk)) order
    (fun e he => ⟨hE e he, List.mem_range.1 (ho.mem_iff.1 (List.mem_map.2 ⟨e, he, rfl⟩))⟩) h
  rw [holds_iff hSD]
  intro x hx
  refine (this x hx).trans ?_
  dsimp only
  obtain ⟨r0, a1, a2, a3⟩ := own_iff hD hDn hx
  have hr : r0 ∈ order.map Prod.snd := ho.mem_iff.2 (List.mem_range.2 a1)
  obtain ⟨e, he, rfl⟩ := List.mem_map.1 hr
  rw [if_pos ⟨e, he, (a3 _).2 rfl⟩]

end

/-! ## What goes wrong -/

/-- **C90 (nodes of different sizes).** Two nodes with one and two processes: a mirrored array of
10 elements is one block on the first node and two blocks of 5 elements on the second. The
processes hand buffers of different lengths to one and the same global sum. -/
def mixedArr : Nat → RegArray
  | 0 => ⟨[10], [1], [1], [0]⟩
  | _ => ⟨[10], [2], [1, 6], [0]⟩

theorem C90_merge_mixed_nodes : MirOK [1, 2] mixedArr [10] ∧
    ∀ m : Addr → Int, mergeMirrored [1, 2] mixedArr m = none := by
  refine ⟨⟨fun k hk => ?_, fun k hk => ?_⟩, fun m => ?_⟩
  · match k, hk with
    | 0, _ => rfl
    | 1, _ => rfl
  · match k, hk with
    | 0, _ => exact ⟨⟨by decide, by decide, by decide⟩, by decide⟩
    | 1, _ => exact ⟨⟨by decide, by decide, by decide⟩, by decide⟩
  · unfold mergeMirrored
    rw [if_neg (by decide)]

/-- a 2 x 2 array with ghost cells of width 1, one process per node -/
def ghostArr : RegArray := ⟨[2, 2], [1, 1], [1, 1], [1, 1]⟩

/-- **C90 (ghost cells).** The sum runs over as many consecutive elements as the block has, but
with ghost cells the columns of the block are not consecutive: on two nodes with one process
each, all elements of both copies equal to 1, the element (1,2) is still 1 after the merge. -/
theorem C90_merge_ghosts : ArrOK ghostArr ∧
    ∃ m' : Addr → Int, mergeMirrored [1, 1] (fun _ => ghostArr) (fun _ => 1) = some m' ∧
      m' (shiftA 0 (cell ghostArr [1, 1])) = 2 ∧ m' (shiftA 0 (cell ghostArr [1, 2])) = 1 := by
  refine ⟨⟨by decide, by decide, by decide⟩, _, rfl, ?_, ?_⟩ <;> decide +kernel

/-- an array of 3 elements on three processes, the second of which has an empty block -/
def gapArr : RegArray := ⟨[3], [3], [1, 3, 3], [0]⟩

/-- **C90 (empty blocks).** On a mirrored array with an empty block the merge into a distributed array
ends in an error although the patch is legal and accepted: the empty block 3..2 passes the
intersection test with the patch 2..3. -/
theorem C90_distr_empty_block (mA : Addr → Int) : ArrOK gapArr ∧
    distrOp [3] (fun _ => gapArr) mA [2] [3] [2] 1 = none := by
  refine ⟨⟨by decide, by decide, by decide⟩, ?_⟩
  unfold distrOp
  rfl

/-- **C90 (subscript 0).** The tests let a patch of the mirrored array pass that starts at the
subscript 0, which does not exist. -/
theorem C90_distr_zero_accepted : distrAccepts (mixedArr 0) (mixedArr 1) [0] [3] [1] [4] = true ∧
    ¬ PatchOK (mixedArr 0).dims [0] [3] := by decide

/-! ## The hypotheses are met -/

/-- two nodes with three processes each -/
def mirArr : RegArray := ⟨[10, 7], [3, 1], [1, 5, 8, 1], [0, 0]⟩

example : ArrOK mirArr ∧ gridSize mirArr.nblock ≤ 3 ∧ hasGhosts mirArr = false :=
  ⟨⟨by decide, by decide, by decide⟩, by decide, by decide⟩

example : NoEmptyBlock (.reg mirArr 3) := by
  intro _ p hp
  match p, hp with
  | 0, _ => exact ⟨[1, 1], by decide⟩
  | 1, _ => exact ⟨[5, 1], by decide⟩
  | 2, _ => exact ⟨[8, 1], by decide⟩

/-- nodes with 2 and 3 processes, ghost cells -/
def mirArr2 : Nat → RegArray
  | 0 => ⟨[10, 7], [2, 1], [1, 6, 1], [1, 0]⟩
  | _ => ⟨[10, 7], [3, 1], [1, 5, 8, 1], [1, 0]⟩

theorem mirArr2_ok : MirOK [2, 3] mirArr2 [10, 7] := by
  refine ⟨fun k hk => ?_, fun k hk => ?_⟩
  · match k, hk with
    | 0, _ => rfl
    | 1, _ => rfl
  · match k, hk with
    | 0, _ => exact ⟨⟨by decide, by decide, by decide⟩, by decide⟩
    | 1, _ => exact ⟨⟨by decide, by decide, by decide⟩, by decide⟩

/-- a distributed array on the same five processes -/
def mirDist : RegArray := ⟨[12, 8], [5, 1], [1, 4, 6, 9, 11, 1], [0, 0]⟩

def mirEnv : Env := ⟨[1, 0], [0, 0], fun i => i + 1, fun _ => true, 8, 2147483647⟩

example : ArrOK mirDist ∧ gridSize mirDist.nblock ≤ total [2, 3] ∧ PatchOK [10, 7] [2, 2] [9, 5] ∧
    PatchOK mirDist.dims [3, 1] [10, 4] ∧
    distrAccepts (mirArr2 0) mirDist [2, 2] [9, 5] [3, 1] [10, 4] = true ∧
    (distrAccs [2, 3] mirArr2 mirDist (fun _ => (1 : Int)) [2, 2] [9, 5] [3, 1]
      [(mirEnv, 4), (mirEnv, 1), (mirEnv, 0), (mirEnv, 2), (mirEnv, 3)] fun _ => 0).isSome = true :=
  ⟨⟨by decide, by decide, by decide⟩, by decide, by decide, by decide, by decide +kernel, by decide +kernel⟩

example : EnvOK mirEnv mirDist ∧ EnvOK mirEnv (mirArr2 0) ∧ EnvOK mirEnv (mirArr2 1) :=
  ⟨⟨by simp [CandOK, mirDist, mirEnv], by simp [CandOK, mirDist, mirEnv], by decide, by decide⟩,
   ⟨by simp [CandOK, mirArr2, mirEnv], by simp [CandOK, mirArr2, mirEnv], by decide, by decide⟩,
   ⟨by simp [CandOK, mirArr2, mirEnv], by simp [CandOK, mirArr2, mirEnv], by decide, by decide⟩⟩

/-- a distributed array of the same shape, for the copies -/
def mirSame : RegArray := ⟨[10, 7], [3, 2], [1, 5, 8, 1, 4], [0, 0]⟩

example : (copyPuts [3, 3] (fun _ => mirArr) mirSame (fun _ => (1 : Int))
      ((List.range 6).map fun r => (mirEnv, r)) fun _ => 0).isSome = true ∧
    (copyGets [2, 4] (fun _ => mirArr2 0) mirSame (fun _ => (1 : Int))
      ((List.range 6).map fun r => (mirEnv, r)) fun _ => 0).isSome = true ∧
    (allCells 6 (mirZeroCells [3, 3] fun _ => mirArr)).isSome = true := by
  decide +kernel

end GA
