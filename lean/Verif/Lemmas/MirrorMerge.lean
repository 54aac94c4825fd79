import Verif.Lemmas.Mirror
import Verif.Lemmas.Select

/-! # Merging the copies of a mirrored array -/

namespace GA.Mirror
open Spec Model

/-- block of an array without ghost cells: consecutive elements -/
theorem noghost_cell {A : RegArray} (hA : ArrOK A) (hg : hasGhosts A = false) {p : Nat}
    (hp : p < gridSize A.nblock) {x : List Int} (hx : InPatch (owns A p).1 (owns A p).2 x) :
    anyEmpty (owns A p).1 (owns A p).2 = false ∧
    cell A x = ((p : Int), locOffset A p (owns A p).1 + bufPos (owns A p).1 (edges (owns A p).1 (owns A p).2).dropLast x) ∧
    0 ≤ bufPos (owns A p).1 (edges (owns A p).1 (owns A p).2).dropLast x ∧
    bufPos (owns A p).1 (edges (owns A p).1 (owns A p).2).dropLast x < prodI (edges (owns A p).1 (owns A p).2) := by
  have hl := owns_len hA p
  have hlen : (owns A p).2.length = (owns A p).1.length := by omega
  have hne : (owns A p).1 ≠ [] := by
    intro h
    rw [h] at hl
    exact hA.ne (List.length_eq_zero_iff.1 hl.1.symm)
  have hw : A.width = (owns A p).1.map fun _ => 0 := by
    rw [width_zero hA hg]
    apply List.ext_getElem
    · simp [hl.1]
    · intros; simp
  have hld : ownLd A p = (edges (owns A p).1 (owns A p).2).dropLast := by
    unfold ownLd
    rw [← extents_eq, extents_dropLast hlen, blkLd_eq, ← hw]
  refine ⟨(anyEmpty_false hlen).2 ?_, ?_, bufPos_lt hx hne⟩
  · have : ∀ {l h x : List Int}, InPatch l h x → InPatch l h l := by
      intro l
      induction l with
      | nil => intro h x hx; cases h <;> cases x <;> simp_all [InPatch]
      | cons a l ih =>
        intro h x hx
        match h, x, hx with
        | b :: h, y :: x, hx => exact ⟨⟨by omega, by have := hx.1; omega⟩, ih hx.2⟩
    exact this hx
  · rw [reg_cell hA hp hx]
    have : ldRem (owns A p).1 (owns A p).2 A.width = (edges (owns A p).1 (owns A p).2).dropLast := hld
    rw [this]

section uniform
variable {N c : Nat}

theorem uni_start {k : Nat} (hk : k ≤ N) : nodeStart (List.replicate N c) k = k * c := by
  unfold nodeStart
  rw [List.take_replicate, Nat.min_eq_left hk, List.sum_replicate]
  simp

theorem uni_size {k : Nat} (hk : k < N) : nodeSize (List.replicate N c) k = c := by
  unfold nodeSize
  rw [List.getD_eq_getElem?_getD, List.getElem?_replicate, if_pos hk]
  rfl

theorem uni_group {k l : Nat} (hk : k < N) (hl : l < c) :
    mirrorGroup (List.replicate N c) (nodeStart (List.replicate N c) k + l) =
      (List.range N).map fun i => nodeStart (List.replicate N c) i + l := by
  have h : l < nodeSize (List.replicate N c) k := by rw [uni_size hk]; exact hl
  unfold mirrorGroup
  rw [(rank_node h).1, rank_local h, uni_size hk, if_pos (by simp), List.length_replicate]
  apply List.map_congr_left
  intro i hi
  rw [uni_start (le_of_lt (List.mem_range.1 hi))]

theorem uni_seg (A : RegArray) {k l : Nat} (hk : k < N) (hl : l < c) :
    mergeSeg (List.replicate N c) (fun _ => A) (nodeStart (List.replicate N c) k + l) =
      if anyEmpty (owns A l).1 (owns A l).2 then none
      else some (locOffset A l (owns A l).1, prodI (edges (owns A l).1 (owns A l).2)) := by
  have h : l < nodeSize (List.replicate N c) k := by rw [uni_size hk]; exact hl
  unfold mergeSeg
  rw [rank_local h]

theorem uni_matches (A : RegArray) : mergeMatches (List.replicate N c) (fun _ => A) = true := by
  unfold mergeMatches
  rw [List.all_eq_true]
  intro r hr
  obtain ⟨h1, h2, h3⟩ := rank_split (List.mem_range.1 hr)
  rw [List.length_replicate] at h3
  rw [uni_size h3] at h1
  generalize nodeOf (List.replicate N c) r = k at *
  generalize localRank (List.replicate N c) r = l at *
  subst h2
  rw [uni_seg A h3 h1]
  split
  · rfl
  · rename_i s hs
    rw [List.all_eq_true]
    intro q hq
    rw [uni_group h3 h1, List.mem_map] at hq
    obtain ⟨i, hi, rfl⟩ := hq
    rw [uni_seg A (List.mem_range.1 hi) h1, hs]
    simp

/-- the merge on nodes with equal numbers of processes -/
theorem merge_uniform {V : Type} [AddCommMonoid V] {A : RegArray} (hA : ArrOK A) (hn : gridSize A.nblock ≤ c)
    (hg : hasGhosts A = false) (m : Addr → V) :
    ∃ m', mergeMirrored (List.replicate N c) (fun _ => A) m = some m' ∧
      ∀ k, k < N → ∀ x, InArray A.dims x → m' (shiftA (nodeStart (List.replicate N c) k) (cell A x)) =
        ((List.range N).map fun j => m (shiftA (nodeStart (List.replicate N c) j) (cell A x))).sum := by
  unfold mergeMirrored
  rw [if_pos (uni_matches A)]
  refine ⟨_, rfl, ?_⟩
  intro k hk x hx
  have hn' : gridSize A.nblock ≤ nodeSize (List.replicate N c) k := by rw [uni_size hk]; exact hn
  obtain ⟨l, h1, h2, h3, h4, h5⟩ := cell_node hA hn' hx
  obtain ⟨e1, e2, e3, e4⟩ := noghost_cell hA hg h4 h3
  have ht := (rank_node h1).2.1
  have h1c : l < c := by rw [uni_size hk] at h1; exact h1
  rw [h5, if_pos (by omega), Int.toNat_natCast, uni_seg A hk h1c, e1, if_neg (by simp)]
  dsimp only
  have hs2 : (shiftA (nodeStart (List.replicate N c) k) (cell A x)).2 = (cell A x).2 := rfl
  rw [hs2, e2, if_pos (by dsimp only; omega), uni_group hk h1c, List.map_map]
  congr 1
  apply List.map_congr_left
  intro j hj
  simp only [Function.comp_apply]
  rw [uni_seg A (List.mem_range.1 hj) h1c, e1, if_neg (by simp)]
  simp only [Option.map_some, Option.getD_some, shiftA]
  congr 1
  rw [Prod.mk.injEq]
  constructor <;> omega

end uniform

end GA.Mirror
