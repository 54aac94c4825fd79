import Verif.Props.C05
import Verif.Spec.Ops

/-!
# C09: put/get/accumulate on block-cyclic arrays act like on one shared memory
-/

namespace GA
open Spec Model

section
variable {V : Type} [Add V] [Mul V]

/-- Run one request; `isLocal` says which processes are on the caller's node. -/
def bRunOp (A : BArray) (isLocal : Int → Bool) : Op V → (Addr → V) → Option (Addr → V)
  | .put lo hi ld buf, m => bPut isLocal A lo hi buf ld m
  | .acc lo hi ld alpha buf, m => bAcc isLocal A lo hi buf ld alpha m

/-- Run a history of requests. -/
def bRunOps (A : BArray) : List ((Int → Bool) × Op V) → (Addr → V) → Option (Addr → V)
  | [], m => some m
  | (f, o) :: os, m => (bRunOp A f o m).bind (bRunOps A os)

/-- the request addresses a legal patch -/
def BOpOK (A : BArray) : Op V → Prop
  | .put lo hi ld _ => PatchOK A.dims lo hi ∧ LdOK lo hi ld
  | .acc lo hi ld _ _ => PatchOK A.dims lo hi ∧ LdOK lo hi ld

theorem bRunOp_repr {A : BArray} (h : BOK A) (he : EnoughBlocks A) (fl : Int → Bool)
    {o : Op V} (ho : BOpOK A o) {m : Addr → V} {f : List Int → V}
    (hm : ∀ x, InArray A.dims x → m (cellB A x) = f x) :
    ∃ m', bRunOp A fl o m = some m' ∧ (∀ x, InArray A.dims x → m' (cellB A x) = specStep f o x) ∧
      ∀ a, (∀ x, InArray A.dims x → cellB A x ≠ a) → m' a = m a := by
  cases o with
  | put lo hi ld buf =>
    obtain ⟨hok, hld⟩ : PatchOK A.dims lo hi ∧ LdOK lo hi ld := ho
    obtain ⟨ps, hps, himp⟩ := bPieces_implements h he hok hld fl
    refine ⟨applyPut (xfers fl lo ld ps) buf m, by simp only [bRunOp, bPut, hps, Option.map_some], ?_, ?_⟩
    · intro x hx
      simp only [specStep]
      split
      · rename_i hp
        exact put_hit himp (fun x y hx hy => cellB_inj h (hok.inArray hx) (hok.inArray hy)) buf m hp
      · rename_i hp
        rw [put_miss himp]
        · exact hm x hx
        · intro y hy e
          exact hp (cellB_inj h (hok.inArray hy) hx e ▸ hy)
    · intro a ha
      exact put_miss himp buf m fun x hx => ha x (hok.inArray hx)
  | acc lo hi ld alpha buf =>
    obtain ⟨hok, hld⟩ : PatchOK A.dims lo hi ∧ LdOK lo hi ld := ho
    obtain ⟨ps, hps, himp⟩ := bPieces_implements h he hok hld fl
    refine ⟨applyAcc (xfers fl lo ld ps) alpha buf m,
      by simp only [bRunOp, bAcc, hps, Option.map_some], ?_, ?_⟩
    · intro x hx
      simp only [specStep]
      split
      · rename_i hp
        rw [acc_hit himp (fun x y hx hy => cellB_inj h (hok.inArray hx) (hok.inArray hy)) alpha buf m
          hp, hm x hx]
      · rename_i hp
        rw [acc_miss himp]
        · exact hm x hx
        · intro y hy e
          exact hp (cellB_inj h (hok.inArray hy) hx e ▸ hy)
    · intro a ha
      exact acc_miss himp alpha buf m fun x hx => ha x (hok.inArray hx)

private theorem bRunOps_repr {A : BArray} (h : BOK A) (he : EnoughBlocks A)
    (hist : List ((Int → Bool) × Op V)) (hh : ∀ e ∈ hist, BOpOK A e.2) {m : Addr → V}
    {f : List Int → V} (hm : ∀ x, InArray A.dims x → m (cellB A x) = f x) :
    ∃ m', bRunOps A hist m = some m' ∧
      ∀ x, InArray A.dims x → m' (cellB A x) = specRun f (hist.map Prod.snd) x := by
  induction hist generalizing m f with
  | nil => exact ⟨m, rfl, hm⟩
  | cons e hist ih =>
    obtain ⟨fl, o⟩ := e
    obtain ⟨m1, h1, h2, _⟩ := bRunOp_repr h he fl (hh _ (List.mem_cons_self ..)) hm
    obtain ⟨m2, h3, h4⟩ := ih (fun e he => hh e (by simp [he])) h2
    exact ⟨m2, by simp only [bRunOps, h1, Option.bind_some, h3], h4⟩

/-- **C09, partial.** For every array made by the block-cyclic creation calls and every initial
memory there is an array content `f₀` such that every history of puts and accumulates of legal
patches runs without error, and every get of a legal patch afterwards returns the content the
plain array has after the same history and leaves the rest of the user buffer alone.
Missing: arrays with fewer blocks than processes (or a process grid larger than the number of
blocks in some dimension), where the code is wrong: `C09_more_processes_than_blocks`,
`C09_grid_too_large`. -/
theorem C09_shared_memory_partial (A : BArray) (hA : Created A) (he : EnoughBlocks A)
    (m0 : Addr → V) :
    ∃ f0 : List Int → V, ∀ (hist : List ((Int → Bool) × Op V)), (∀ e ∈ hist, BOpOK A e.2) →
      ∃ m, bRunOps A hist m0 = some m ∧
        ∀ (fl : Int → Bool) (lo hi ld : List Int) (buf : Int → V), PatchOK A.dims lo hi →
          LdOK lo hi ld → ∃ buf', bGet fl A lo hi buf ld m = some buf' ∧
            GetResult lo hi ld (specRun f0 (hist.map Prod.snd)) buf buf' := by
  have h := hA.ok
  refine ⟨fun x => m0 (cellB A x), ?_⟩
  intro hist hh
  obtain ⟨m, hr, hm⟩ := bRunOps_repr h he hist hh (m := m0) (fun x _ => rfl)
  refine ⟨m, hr, ?_⟩
  intro fl lo hi ld buf hok hld
  obtain ⟨ps, hps, himp⟩ := bPieces_implements h he hok hld fl
  refine ⟨applyGet (xfers fl lo ld ps) m buf, by simp only [bGet, hps, Option.map_some], ?_, ?_⟩
  · intro x hx
    rw [get_hit himp hld buf m hx, hm x (hok.inArray hx)]
  · intro i hi'
    exact get_miss himp buf m hi'

/-- **C09 (memory safety), partial.** Every transfer of a request goes to the memory of an existing
process and stays inside what this process has allocated for the array. Same restriction as
above. -/
theorem C09_in_bounds_partial (A : BArray) (hA : Created A) (he : EnoughBlocks A)
    (lo hi ld : List Int) (hok : PatchOK A.dims lo hi) (hld : LdOK lo hi ld) (fl : Int → Bool) :
    ∃ ps, bPieces A lo hi = some ps ∧ ∀ t ∈ xfers fl lo ld ps, ∃ p : Nat,
      t.addr.1 = p ∧ p < A.nproc ∧ 0 ≤ t.addr.2 ∧ t.addr.2 < bAlloc A p := by
  have h := hA.ok
  obtain ⟨ps, hps, himp⟩ := bPieces_implements h he hok hld fl
  refine ⟨ps, hps, ?_⟩
  intro t ht
  obtain ⟨x, hx, rfl⟩ := List.mem_map.1 (himp.mem_iff.1 ht)
  exact cellB_bounds h (hok.inArray (mem_box.1 hx))

end

/-! ## Negative results -/

/-- one block, two processes -/
def exOne : BArray := ⟨.cyclic, [4], [10], [1], [], [], 2⟩

theorem exOne_created : Created exOne :=
  .cyclic 2 [4] [10] exOne (by decide) (by decide) rfl (by decide)

/-- **C09, negative result.** With more processes than blocks, a put of a legal patch also writes to
the memory of a process that has allocated nothing for the array. -/
theorem C09_more_processes_than_blocks :
    Created exOne ∧ PatchOK exOne.dims [1] [4] ∧ LdOK [1] [4] [] ∧ bAlloc exOne 1 = 0 ∧
    (bPieces exOne [1] [4]).map (fun ps => (xfers (fun _ => true) [1] [] ps).map (·.addr)) =
      some [(0, 0), (0, 1), (0, 2), (0, 3), (1, 0), (1, 1), (1, 2), (1, 3)] :=
  ⟨exOne_created, by decide, by decide, by decide, by decide⟩

/-- **C09, negative result.** With a process grid larger than the number of blocks, the iterator
returns a piece whose upper corner is below its lower corner: for the process row without blocks
the piece starts in row 5 of an array with 3 rows and ends in row 3. -/
theorem C09_grid_too_large :
    Created exWide ∧ PatchOK exWide.dims [1, 1] [3, 3] ∧
    (bPieces exWide [1, 1] [3, 3]).map (fun ps => ps.map fun p => (p.proc, p.plo, p.phi)) =
      some [(0, [1, 1], [2, 2]), (0, [1, 3], [2, 3]), (1, [3, 1], [3, 2]), (1, [3, 3], [3, 3]),
        (2, [5, 1], [3, 2]), (2, [5, 3], [3, 3])] :=
  ⟨exWide_created, by decide, by decide⟩

/-- **C09, negative result.** Unlike for regular arrays (C07), a patch beyond the array is not
rejected: a get of rows 1..9 of an array with 7 rows runs without error and silently transfers
the 7 rows that exist. -/
theorem C09_no_bounds_check :
    Created exCyc ∧ ¬ PatchOK exCyc.dims [1, 1] [9, 1] ∧
    (bGet (fun _ => true) exCyc [1, 1] [9, 1] (fun _ => (-1 : Int)) [9] (fun _ => 5)).map
      (fun b => (List.range 9).map fun (i : Nat) => b i) = some [5, 5, 5, 5, 5, 5, 5, -1, -1] :=
  ⟨exCyc_created, by decide, by decide⟩

/-! ## Non-vacuity -/

example : EnoughBlocks exCyc ∧ EnoughBlocks exScl ∧ EnoughBlocks exTil ∧ EnoughBlocks exIrr := by
  decide
example : PatchOK exScl.dims [2, 2] [7, 4] ∧ LdOK [2, 2] [7, 4] [8] := by decide
/-- a put followed by an acc followed by a get of another patch, on all four kinds -/
example : [exCyc, exScl, exTil, exIrr].map (fun A =>
    ((bRunOps A [(fun _ => true, .put [2, 2] [7, 4] [8] fun i => i),
        (fun p => p == 1, .acc [3, 1] [4, 3] [2] 10 fun i => i)] (fun _ => (0 : Int))).bind fun m =>
      bGet (fun _ => false) A [3, 2] [5, 3] (fun _ => -1) [4] m).map
        (fun b => (List.range 8).map fun (i : Nat) => b i)) =
    List.replicate 4 (some [21, 32, 3, -1, 49, 60, 11, -1]) := by
  decide

end GA
