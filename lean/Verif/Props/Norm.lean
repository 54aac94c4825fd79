import Verif.Lemmas.Elem

/-!
# C59 (`GA_Norm1`, `GA_Norm_infinity`)

`size`: the absolute value of an element. `GA_Norm1` is the sum and `GA_Norm_infinity` the maximum of
the absolute values of all elements, which is what the code computes for arrays of one and two
dimensions.
-/

namespace GA
open Spec Model

/-- every process owns at most one block, and no block is empty -/
def OneBlock (G : GArr) : Prop :=
  ∀ p, p < G.nproc → ∀ items, G.localIter p = some items →
    items.length ≤ 1 ∧ ∀ it ∈ items, InPatch it.lo it.hi it.lo

/-- true for all REGULAR arrays -/
theorem oneBlock_reg {A : RegArray} {n : Nat} (hA : ArrOK A) : OneBlock (.reg A n) := by
  intro p _ items h
  have h : regLocalIter A p = items := Option.some.inj h
  rcases regItems hA p with ⟨h1, _⟩ | ⟨_, h2, h3⟩
  · rw [← h, h1]; simp
  · rw [← h, h3]
    refine ⟨le_refl _, fun it hit => ?_⟩
    rw [List.mem_singleton] at hit
    rw [hit]
    exact h2

section
variable {V K : Type} [LinearOrder K] {G : GArr}

private theorem dims_two (hG : Sound G) (hd : G.dims.length ≤ 2) : ¬ (G.dims.length = 0 ∨ 2 < G.dims.length) := by
  have : G.dims ≠ [] := by
    cases G with
    | reg A n => exact hG.1.ne
    | blk A => exact hG.1.ok.ne
  have := mt List.length_eq_zero_iff.1 this
  omega

/-- local results of all processes -/
private theorem all_local [Zero K] {block : K → LItem → K} {items : Nat → List LItem} (v : View G items (cellG G)) :
    mapOpt (normLocal block G) (List.range G.nproc) =
      some ((List.range G.nproc).map fun p => (items p).foldl block 0) := by
  have : ∀ ps : List Nat, (∀ p ∈ ps, p < G.nproc) →
      mapOpt (normLocal block G) ps = some (ps.map fun p => (items p).foldl block 0) := by
    intro ps
    induction ps with
    | nil => intro _; rfl
    | cons p ps ih =>
      intro h
      unfold mapOpt
      rw [ih fun q hq => h q (List.mem_cons_of_mem _ hq)]
      simp only [normLocal, v.iter p (h p (List.mem_cons_self ..)), Option.map_some, List.map_cons]
  exact this _ fun p hp => List.mem_range.1 hp

/-- **C59 (norm1), partial.** `GA_Norm1` returns the sum of the absolute values of all elements, if no
process owns more than one block. Missing: block-cyclic and tiled arrays with more blocks than processes
(`C59_norm1_blocks`), processor groups. -/
theorem C59_norm1_partial [AddCommMonoid K] (size : V → K) (hG : Sound G) (hp : PtrOK G) (ho : OneBlock G)
    (hd : G.dims.length ≤ 2) (m : Addr → V) (f : List Int → V) (hm : Holds G m f) :
    norm1Run size G m = some (patchSum (onesL G.dims) G.dims fun x => size (f x)) := by
  have hm := (holds_iff hG).1 hm
  obtain ⟨items, v, hoff⟩ := view_off hG hp
  have key : ∀ p, p < G.nproc → (items p).foldl (norm1Block size m) 0 =
      (((items p).flatMap fun it => box it.lo it.hi).map fun x => size (f x)).sum := by
    intro p hp'
    have h1 := (ho p hp' _ (v.iter p hp')).1
    have h2 := fun it => blockVals_eq v hoff hm hp' (it := it)
    revert h1 h2
    generalize items p = its
    intro h1 h2
    match its, h1 with
    | [], _ => simp
    | [it], _ =>
      simp only [List.foldl_cons, List.foldl_nil, norm1Block, List.flatMap_cons, List.flatMap_nil, List.append_nil]
      rw [foldl_sum, zero_add, h2 it (List.mem_singleton_self it), List.map_map]
      rfl
  unfold norm1Run
  rw [if_neg (dims_two hG hd), all_local v, Option.map_some, Option.some.injEq, patchSum_eq]
  rw [← (v.cover.map fun x => size (f x)).sum_eq, List.map_flatMap]
  have : ∀ ps : List Nat, (∀ p ∈ ps, p < G.nproc) →
      (ps.map fun p => (items p).foldl (norm1Block size m) 0).sum =
      (ps.flatMap fun p => ((items p).flatMap fun it => box it.lo it.hi).map fun x => size (f x)).sum := by
    intro ps
    induction ps with
    | nil => intro _; rfl
    | cons p ps ih =>
      intro h
      rw [List.map_cons, List.sum_cons, List.flatMap_cons, List.sum_append, ih fun q hq => h q (List.mem_cons_of_mem _ hq),
        key p (h p (List.mem_cons_self ..))]
  exact this _ fun p hp => List.mem_range.1 hp

/-- **C59 (norm_infinity), partial.** `GA_Norm_infinity` returns the largest absolute value, if no process owns more
than one block (`first`: start value computed from the first element of a block). Missing: block-cyclic and tiled arrays
with more blocks than processes (`C59_norm_infinity_blocks`), processor groups. -/
theorem C59_norm_infinity_partial [Zero K] (first size : V → K) (hsize : ∀ v, 0 ≤ size v) (hfirst : ∀ v, first v ≤ size v)
    (hG : Sound G) (hp : PtrOK G) (ho : OneBlock G) (hd : G.dims.length ≤ 2) (m : Addr → V) (f : List Int → V)
    (hm : Holds G m f) :
    ∃ v, normInfRun first size G m = some v ∧ (∀ x, InArray G.dims x → size (f x) ≤ v) ∧
      ∃ x, InArray G.dims x ∧ v = size (f x) := by
  have hm := (holds_iff hG).1 hm
  obtain ⟨items, v, hoff⟩ := view_off hG hp
  have hone := (patch_all hG).1
  -- the local maximum
  have key : ∀ p, p < G.nproc →
      (∀ x ∈ (items p).flatMap fun it => box it.lo it.hi, size (f x) ≤ (items p).foldl (normInfBlock first size m) 0) ∧
      ((items p).foldl (normInfBlock first size m) 0 = 0 ∨
        ∃ x ∈ (items p).flatMap fun it => box it.lo it.hi, (items p).foldl (normInfBlock first size m) 0 = size (f x)) := by
    intro p hp'
    have h1 := (ho p hp' _ (v.iter p hp')).1
    have h2 := fun it => blockVals_eq v hoff hm hp' (it := it)
    revert h1 h2
    generalize items p = its
    intro h1 h2
    match its, h1 with
    | [], _ => simp
    | [it], _ =>
      simp only [List.foldl_cons, List.foldl_nil, normInfBlock, List.flatMap_cons, List.flatMap_nil, List.append_nil,
        h2 it (List.mem_singleton_self it)]
      cases hb : box it.lo it.hi with
      | nil => simp
      | cons y ys =>
        simp only [List.map_cons]
        change (∀ x ∈ y :: ys, size (f x) ≤ ((y :: ys).map f).foldl (fun s v => if size v > s then size v else s) (first (f y))) ∧
          (((y :: ys).map f).foldl (fun s v => if size v > s then size v else s) (first (f y)) = 0 ∨
            ∃ x ∈ y :: ys, ((y :: ys).map f).foldl (fun s v => if size v > s then size v else s) (first (f y)) = size (f x))
        rw [foldl_gt]
        obtain ⟨q1, q2, q3⟩ := foldl_max (((y :: ys).map f).map size) (first (f y))
        refine ⟨fun x hx => q1 _ (List.mem_map.2 ⟨_, List.mem_map.2 ⟨x, hx, rfl⟩, rfl⟩), Or.inr ?_⟩
        rcases q3 with q3 | q3
        · refine ⟨y, List.mem_cons_self .., le_antisymm ?_ ?_⟩
          · rw [q3]; exact hfirst _
          · exact q1 _ (by simp)
        · obtain ⟨w, hw, e⟩ := List.mem_map.1 q3
          obtain ⟨x, hx, rfl⟩ := List.mem_map.1 hw
          exact ⟨x, hx, e.symm⟩
  have hmem : ∀ x, InArray G.dims x ↔ ∃ p, p < G.nproc ∧ x ∈ (items p).flatMap fun it => box it.lo it.hi := by
    intro x
    rw [← mem_ones_box, ← v.cover.mem_iff, List.mem_flatMap]
    simp only [List.mem_range]
  unfold normInfRun
  rw [if_neg (dims_two hG hd), all_local v, Option.bind_some]
  -- some process exists
  obtain ⟨p0, hp0, _⟩ := (hmem _).1 hone
  have hlen : ((List.range G.nproc).map fun p => (items p).foldl (normInfBlock first size m) 0) ≠ [] := by
    intro h
    have := congrArg List.length h
    simp at this
    omega
  generalize hl : ((List.range G.nproc).map fun p => (items p).foldl (normInfBlock first size m) 0) = l at *
  match l, hlen with
  | w :: ws, _ =>
    obtain ⟨q1, q2, q3⟩ := foldl_max ws w
    have hall : ∀ u ∈ w :: ws, u ≤ ws.foldl max w := by
      intro u hu
      rcases List.mem_cons.1 hu with rfl | hu
      · exact q2
      · exact q1 u hu
    have up : ∀ x, InArray G.dims x → size (f x) ≤ ws.foldl max w := by
      intro x hx
      obtain ⟨p, hp', hx⟩ := (hmem x).1 hx
      refine le_trans ((key p hp').1 x hx) (hall _ ?_)
      rw [← hl]
      exact List.mem_map.2 ⟨p, List.mem_range.2 hp', rfl⟩
    refine ⟨_, rfl, up, ?_⟩
    have hin : ws.foldl max w ∈ w :: ws := by
      rcases q3 with q3 | q3
      · rw [q3]; exact List.mem_cons_self ..
      · exact List.mem_cons_of_mem _ q3
    rw [← hl] at hin
    obtain ⟨p, hp', e⟩ := List.mem_map.1 hin
    rcases (key p (List.mem_range.1 hp')).2 with h0 | ⟨x, hx, h0⟩
    · refine ⟨_, hone, le_antisymm ?_ (up _ hone)⟩
      rw [← e, h0]
      exact hsize _
    · exact ⟨x, (hmem x).2 ⟨p, List.mem_range.1 hp', hx⟩, by rw [← e, h0]⟩

/-- **C59 refused.** Both functions stop for arrays with more than two dimensions. -/
theorem C59_refused [AddCommMonoid K] (first size : V → K) (hd : 2 < G.dims.length) (m : Addr → V) :
    norm1Run size G m = none ∧ normInfRun first size G m = none := by
  unfold norm1Run normInfRun
  rw [if_pos (Or.inr hd), if_pos (Or.inr hd)]
  exact ⟨rfl, rfl⟩

end

/-! ## more than one block on a process -/

/-- **C59 fails for block-cyclic arrays (norm1)**: the sum is reset at every block, so that only the last block of each
process counts. All 35 elements of a 7 x 5 array are 1 and the result is not 35. -/
theorem C59_norm1_blocks :
    Sound (.blk exScl) ∧ PtrOK (.blk exScl) ∧
    ∃ (m : Addr → Int) (v : Int), Holds (.blk exScl) m (fun _ => 1) ∧ norm1Run (fun x => |x|) (.blk exScl) m = some v ∧
      v ≠ patchSum (onesL exScl.dims) exScl.dims fun _ => |(1 : Int)| := by
  have s : Sound (.blk exScl) := ⟨exScl_created, by decide⟩
  refine ⟨s, by simp only [PtrOK]; decide, fun _ => 1, _, (holds_iff s).2 fun _ _ => rfl, rfl, by decide +kernel⟩

/-- **C59 fails for block-cyclic arrays (norm_infinity)**: the element 9 in the first block is not found. -/
theorem C59_norm_infinity_blocks :
    Sound (.blk exScl) ∧ PtrOK (.blk exScl) ∧
    ∃ (m : Addr → Int) (v : Int), Holds (.blk exScl) m (fun x => if x = [1, 1] then 9 else 1) ∧
      normInfRun (fun x => |x|) (fun x => |x|) (.blk exScl) m = some v ∧ v ≠ 9 := by
  have s : Sound (.blk exScl) := ⟨exScl_created, by decide⟩
  refine ⟨s, by simp only [PtrOK]; decide, fun a => if a = cellG (.blk exScl) [1, 1] then 9 else 1, _,
    (holds_iff s).2 ?_, rfl, by decide +kernel⟩
  intro x hx
  by_cases h : x = [1, 1]
  · simp [h]
  · rw [if_neg h, if_neg]
    exact fun e => h (cellG_inj s hx (by decide) e)

/-! ## Non-vacuity -/

/-- a REGULAR array with a ghost layer on 7 processes -/
example : Sound (.reg exG 7) ∧ PtrOK (.reg exG 7) ∧ OneBlock (.reg exG 7) ∧ (GArr.reg exG 7).dims.length ≤ 2 := by
  have s : Sound (.reg exG 7) := ⟨⟨by decide, by decide, by decide⟩, by decide⟩
  exact ⟨s, trivial, oneBlock_reg s.1, by decide⟩
/-- the start values of the code: the absolute value itself, or the element -/
example : (∀ v : Int, 0 ≤ |v|) ∧ (∀ v : Int, |v| ≤ |v|) ∧ ∀ v : Int, v ≤ |v| :=
  ⟨abs_nonneg, fun _ => le_refl _, le_abs_self⟩

end GA
