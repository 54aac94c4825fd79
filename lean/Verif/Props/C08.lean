import Verif.Props.C07

/-!
# C08: the patch decomposition visits every element exactly once
-/

namespace GA
open Spec Model

/-- How many of the pieces contain `x`. -/
def timesVisited (ps : List (List Int × List Int)) (x : List Int) : Nat :=
  ps.countP fun p => decide (InPatch p.1 p.2 x)

theorem countP_cover {ps : List (List Int × List Int)} {lo hi : List Int}
    (h : (ps.flatMap fun p => box p.1 p.2).Perm (box lo hi)) (x : List Int) :
    timesVisited ps x = if InPatch lo hi x then 1 else 0 := by
  have h1 : (ps.flatMap fun p => box p.1 p.2).count x = (box lo hi).count x := h.count_eq x
  have hbox : ∀ l h : List Int, (box l h).count x = if InPatch l h x then 1 else 0 := by
    intro l h
    by_cases hx : InPatch l h x
    · rw [if_pos hx]
      exact List.count_eq_one_of_mem (nodup_box l h) (mem_box.2 hx)
    · rw [if_neg hx]
      exact List.count_eq_zero.2 fun h' => hx (mem_box.1 h')
  rw [hbox lo hi] at h1
  rw [← h1]
  clear h h1
  unfold timesVisited
  induction ps with
  | nil => rfl
  | cons p ps ih =>
    rw [List.flatMap_cons, List.count_append, List.countP_cons, ih, hbox, Nat.add_comm]
    congr 1
    by_cases hx : InPatch p.1 p.2 x <;> simp [hx]

/-- **C08 (`NGA_Locate_region`).** The call succeeds exactly for legal patches; the reported
pieces cover every element of the patch exactly once and no other subscript, and the elements of
each piece are owned by the process reported with it. -/
theorem C08_locate_region (A : RegArray) (hA : ArrOK A) (candT candB : List Nat)
    (hT : CandOK A.nblock candT) (hB : CandOK A.nblock candB) (lo hi : List Int) :
    (PatchOK A.dims lo hi ↔ ∃ ps, locateRegion A candT candB lo hi = some ps) ∧
    ∀ ps, locateRegion A candT candB lo hi = some ps →
      (∀ x, timesVisited (ps.map fun p => (p.plo, p.phi)) x = if InPatch lo hi x then 1 else 0) ∧
      (∀ p ∈ ps, ∀ x, InPatch p.plo p.phi x → OwnedBy A p.proc x) := by
  constructor
  · unfold locateRegion
    by_cases hr : regionOK A.dims lo hi = true
    · rw [if_pos hr]; exact ⟨fun _ => ⟨_, rfl⟩, fun _ => regionOK_iff.1 hr⟩
    · rw [if_neg hr]
      constructor
      · intro h; exact absurd (regionOK_iff.2 h) hr
      · rintro ⟨_, h⟩; simp at h
  · intro ps hps
    obtain ⟨h1, h2⟩ := locateRegion_spec hA.map hT hB hps
    have hok : PatchOK A.dims lo hi := by
      unfold locateRegion at hps
      by_cases hr : regionOK A.dims lo hi = true
      · exact regionOK_iff.1 hr
      · rw [if_neg hr] at hps; simp at hps
    constructor
    · intro x
      apply countP_cover
      rw [List.flatMap_map]
      exact h1
    · intro p hp x hx
      obtain ⟨c, hc, e1, e2, e3⟩ := h2 p hp
      rw [e2, e3, mem_clip hA.map hc (by rw [hok.1.length, hA.map.length])
        (by rw [hok.2.1.length, hA.map.length])] at hx
      unfold OwnedBy
      rw [e1, owns_of_coord hc]
      exact hx.2

/-- **C08 (iteration).** The messages of put/get/acc cover every element of the patch exactly
once, in any random order and however oversized pieces are split; each message stays inside the
patch and the block of its target process, is not empty and has at most `maxInt` bytes. -/
theorem C08_iterator (A : RegArray) (hA : ArrOK A) (E : Env) (hE : EnvOK E A) (lo hi : List Int)
    (rs : List RPiece) (h : regPieces E A lo hi = some rs) :
    (∀ x, timesVisited (rs.map fun r => (r.plo, r.phi)) x = if InPatch lo hi x then 1 else 0) ∧
    (∀ r ∈ rs, InPatch r.plo r.phi r.plo ∧ E.elemsize * numElems r.plo r.phi ≤ E.maxInt ∧
      ∀ x, InPatch r.plo r.phi x → InPatch lo hi x ∧ OwnedBy A r.proc x) := by
  obtain ⟨h1, h2, h3⟩ := regPieces_spec hA hE h
  constructor
  · intro x
    apply countP_cover
    rw [List.flatMap_map]
    exact h2
  · intro r hr
    obtain ⟨a, b, c, d, e⟩ := h3 r hr
    exact ⟨a, by rw [← prodI_edges]; exact c, fun x hx => ⟨(e x hx).1, (e x hx).2.1⟩⟩

example : locateRegion exG [3, 0] [0, 2] [3, 2] [7, 5] =
    some [⟨0, [3, 2], [4, 3]⟩, ⟨1, [5, 2], [4, 3]⟩, ⟨2, [5, 2], [7, 3]⟩,
      ⟨3, [3, 4], [4, 5]⟩, ⟨4, [5, 4], [4, 5]⟩, ⟨5, [5, 4], [7, 5]⟩] := by decide

end GA
