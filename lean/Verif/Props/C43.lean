import Verif.Props.C03
import Verif.Model.Restrict
import Verif.Lemmas.BlockCreate

/-!
# C43: irregular distributions are validated

`GA_Set_irreg_distr` is `Model.setIrreg`; `none` means that the call is rejected.
-/

namespace GA
open Spec Model

private theorem sum_eq_mapLen (ns : List Nat) : ns.sum = mapLen ns := by
  induction ns with
  | nil => rfl
  | cons n ns ih => simp [mapLen, ih]

private theorem irregCheck_eq {ns : List Nat} {ds m : List Int} (h : ∀ n ∈ ns, 0 < n) :
    irregCheck ns ds m = mapCheck ns ds m := by
  induction ns generalizing ds m with
  | nil => cases ds <;> simp [irregCheck, mapCheck]
  | cons n ns ih =>
    cases ds with
    | nil => simp [irregCheck, mapCheck]
    | cons d ds =>
      have h0 : max n 1 = n := by have := h n (by simp); omega
      simp only [irregCheck, mapCheck, h0]
      rw [ih fun x hx => h x (by simp [hx])]

private theorem mapCheck_take {ns : List Nat} {ds m : List Int} :
    mapCheck ns ds (m.take ns.sum) = mapCheck ns ds m := by
  induction ns generalizing ds m with
  | nil => cases ds <;> simp [mapCheck]
  | cons n ns ih =>
    cases ds with
    | nil => simp [mapCheck]
    | cons d ds =>
      simp only [mapCheck, List.sum_cons]
      rw [List.take_take, min_eq_left (by omega), List.drop_take, Nat.add_sub_cancel_left, ih]

private theorem startsAtOne_take {ns : List Nat} {m : List Int} :
    StartsAtOne ns (m.take ns.sum) ↔ StartsAtOne ns m := by
  induction ns generalizing m with
  | nil => simp [StartsAtOne]
  | cons n ns ih =>
    simp only [StartsAtOne, List.sum_cons]
    rw [List.take_take, min_eq_left (by omega), List.drop_take, Nat.add_sub_cancel_left, ih]

/-- **C43, partial.** If `GA_Set_irreg_distr` accepts a map in which every dimension has at least
one block and its first block starts at 1, then every element is owned by exactly one block, and
`NGA_Locate` returns it. Missing: the call also accepts maps whose first entry is not 1 and maps
with zero blocks, for which elements have no owner (`C43_first_entry_unchecked`,
`C43_zero_blocks`), and more blocks than there are processes (`C43_too_many_blocks`). -/
theorem C43_accepted_partial (dims mapc : List Int) (nblock width : List Nat) (A : RegArray)
    (hd : DimsPos dims) (hl : nblock.length = dims.length) (hm : mapc.length = nblock.sum)
    (h1 : StartsAtOne nblock mapc) (h : setIrreg dims mapc nblock width = some A) (x : List Int)
    (hx : InArray dims x) :
    ∃ p, (0 ≤ p ∧ p < (nblock.prod : Int)) ∧ OwnedBy A p x ∧ (∀ q, OwnedBy A q x → q = p) ∧
      ∀ cand, CandOK A.nblock cand → locate A cand x = some p := by
  unfold setIrreg at h
  split at h
  · simp at h
  split at h
  · simp at h
  rename_i h2 h3
  simp only [Option.some.injEq] at h
  subst h
  have hpos : ∀ n ∈ nblock, 0 < n := by
    clear * - h1
    induction nblock generalizing mapc with
    | nil => simp
    | cons n ns ih =>
      intro k hk
      rcases List.mem_cons.1 hk with rfl | hk
      · rcases Nat.eq_zero_or_pos k with h0 | h0
        · have := h1.1; rw [h0] at this; simp at this
        · exact h0
      · exact ih _ h1.2 k hk
  have hck : mapCheck nblock dims mapc = true := by
    rw [← irregCheck_eq hpos]; simpa using h3
  have hok : MapOK nblock dims (mapc.take nblock.sum) :=
    mapCheck_mapOK hd.2 hl (by rw [List.length_take, ← sum_eq_mapLen]; omega)
      (startsAtOne_take.2 h1) (by rw [mapCheck_take]; exact hck)
  have hA := C01_unique_owner ⟨dims, nblock, mapc.take nblock.sum, width⟩ hd.1 hok
  have hcand : CandOK nblock (nblock.map fun _ => 0) := by
    clear * -
    induction nblock with
    | nil => simp [CandOK]
    | cons a l ih => exact ⟨Nat.zero_le _, ih⟩
  obtain ⟨p, e1, e2, e3, e4, e5⟩ := (hA _ hcand x hx.length).1 hx
  refine ⟨p, ⟨e2, ?_⟩, e4, e5, ?_⟩
  · simp only at e3; rwa [gridSize_eq_prod] at e3
  · intro cand hc
    obtain ⟨p', f1, _, _, f4, _⟩ := (hA cand hc x hx.length).1 hx
    rw [f1, e5 p' f4]

/-- **C43 (completeness).** The call accepts every map with at most `dim` blocks in each dimension
whose block starts do not decrease and lie between 1 and `dim + 1`; and it accepts no map with a
decreasing pair, an entry out of this range or too many blocks (block counts at least one). -/
theorem C43_accepts_iff (dims mapc : List Int) (nblock width : List Nat)
    (hl : nblock.length = dims.length) (hm : mapc.length = nblock.sum) (hpos : ∀ n ∈ nblock, 0 < n) :
    (∃ A, setIrreg dims mapc nblock width = some A) ↔
      List.Forall₂ (fun n d => (n : Int) ≤ d) nblock dims ∧
      List.Forall₂ (fun d m => m.Pairwise (· ≤ ·) ∧ ∀ s ∈ m, 1 ≤ s ∧ s ≤ d + 1) dims
        (axisStarts nblock mapc) := by
  have key : (∃ A, setIrreg dims mapc nblock width = some A) ↔
      tooMany nblock dims = false ∧ irregCheck nblock dims mapc = true := by
    unfold setIrreg
    cases tooMany nblock dims <;> cases irregCheck nblock dims mapc <;> simp
  rw [key, irregCheck_eq hpos]
  apply and_congr
  · clear * - hl
    induction nblock generalizing dims with
    | nil => cases dims <;> simp_all [tooMany]
    | cons n ns ih =>
      match dims, hl with
      | d :: ds, hl =>
        simp [tooMany, ih ds (by simpa using hl)]
  · clear key
    induction nblock generalizing dims mapc with
    | nil => cases dims <;> simp_all [mapCheck, axisStarts]
    | cons n ns ih =>
      match dims, hl with
      | d :: ds, hl =>
        simp only [mapCheck, axisStarts, List.forall₂_cons, Bool.and_eq_true]
        rw [ih ds (mapc.drop n) (by simpa using hl) (by simp [hm]) fun x hx => hpos x (by simp [hx])]
        apply and_congr_left'
        generalize mapc.take n = l
        have mono : ∀ (ichk : Int) (l : List Int), axisMonotone d ichk l = true ↔
            (ichk :: l).Pairwise (· ≤ ·) ∧ ∀ s ∈ l, 1 ≤ s ∧ s ≤ d + 1 := by
          intro ichk l
          induction l generalizing ichk with
          | nil => simp [axisMonotone]
          | cons a l ih =>
            simp only [axisMonotone, Bool.and_eq_true, Bool.not_eq_true', Bool.or_eq_false_iff,
              decide_eq_false_iff_not, ih, List.forall_mem_cons]
            rw [List.pairwise_cons (a := ichk)]
            constructor
            · rintro ⟨⟨h1, h2, h3⟩, h4, h5⟩
              refine ⟨⟨?_, h4⟩, ⟨by omega, by omega⟩, h5⟩
              intro b hb
              rcases List.mem_cons.1 hb with rfl | hb
              · omega
              · have := (List.pairwise_cons.1 h4).1 b hb; omega
            · rintro ⟨⟨h1, h4⟩, ⟨h2, h3⟩, h5⟩
              have := h1 a (by simp)
              exact ⟨⟨by omega, by omega, by omega⟩, h4, h5⟩
        cases l with
        | nil => simp [axisCheck]
        | cons a l =>
          simp only [axisCheck, Bool.and_eq_true, Bool.not_eq_true', Bool.or_eq_false_iff,
            decide_eq_false_iff_not, mono, List.forall_mem_cons]
          constructor
          · rintro ⟨⟨h1, h2⟩, h3, h4⟩; exact ⟨h3, ⟨by omega, by omega⟩, h4⟩
          · rintro ⟨h3, ⟨h1, h2⟩, h4⟩; exact ⟨⟨by omega, by omega⟩, h3, h4⟩

/-- **C43, negative result.** The first block may start behind 1: then nobody owns element 1, while
`NGA_Locate` claims that block 1 has it. -/
theorem C43_first_entry_unchecked :
    setIrreg [6] [3, 5] [2] [0] = some ⟨[6], [2], [3, 5], [0]⟩ ∧ InArray [6] [1] ∧
    (∀ p, ¬ OwnedBy ⟨[6], [2], [3, 5], [0]⟩ p [1]) ∧
    locate ⟨[6], [2], [3, 5], [0]⟩ [0] [1] = some 1 := by
  refine ⟨by decide, by decide, ?_, by decide⟩
  intro p hp
  unfold OwnedBy owns at hp
  split at hp
  · revert hp; decide
  · rename_i h
    have e : gridSize [2] = 2 := by decide
    simp only [e] at h
    have : p = 0 ∨ p = 1 := by omega
    rcases this with rfl | rfl <;> revert hp <;> decide

/-- **C43, negative result.** A dimension may have zero blocks: then nobody owns anything. -/
theorem C43_zero_blocks :
    setIrreg [6] [1] [0] [0] = some ⟨[6], [0], [], [0]⟩ ∧ InArray [6] [1] ∧
    ∀ p, ¬ OwnedBy ⟨[6], [0], [], [0]⟩ p [1] := by
  refine ⟨by decide, by decide, ?_⟩
  intro p hp
  unfold OwnedBy owns at hp
  split at hp
  · revert hp; decide
  · rename_i h
    have e : gridSize [0] = 0 := by decide
    simp only [e] at h
    omega

/-- **C43, negative result.** The number of blocks is not compared with the number of processes (no
argument of the call or field of the array tells it): four blocks are accepted also when there are
two processes, and element 6 is located on process 3. -/
theorem C43_too_many_blocks :
    setIrreg [6] [1, 2, 3, 5] [4] [0] = some ⟨[6], [4], [1, 2, 3, 5], [0]⟩ ∧
    locate ⟨[6], [4], [1, 2, 3, 5], [0]⟩ [0] [6] = some 3 := by
  decide

/-! ## Non-vacuity -/

example : DimsPos [10, 7] ∧ StartsAtOne [3, 2] [1, 5, 5, 1, 4] ∧
    setIrreg [10, 7] [1, 5, 5, 1, 4] [3, 2] [0, 0] = some exA := by decide
example : setIrreg [10, 7] [1, 5, 4, 1, 4] [3, 2] [0, 0] = none := by decide
example : setIrreg [10, 7] [1, 5, 12, 1, 4] [3, 2] [0, 0] = none := by decide

end GA
