import Verif.Props.C72
import Verif.Lemmas.Sketch

/-!
# C96: count sketch of a sparse array
-/

namespace GA
open Spec Model Spec.Sprs
open GA.Sprs

section
variable {V : Type} [Semiring V] {idim jdim : Int} {n : Nat}

/-- the blocks of columns in which process `p` has elements are the first ones -/
def C96_first (idim jdim : Int) (n : Nat) (M : List (Entry V)) (p : Nat) : Prop :=
  ∀ c, c < n → C71_has idim jdim n M p c → ∀ c', c' < c → C71_has idim jdim n M p c'

omit [Semiring V] in
private theorem blocks_iff (hi : (n : Int) ≤ idim) {loc : Nat → Loc V} {M : List (Entry V)} (hg : Good n idim jdim loc M) {p c : Nat} (hp : p < n)
    (hc : c < n) : c ∈ (loc p).blkidx ↔ C71_has idim jdim n M p c := by
  have hs := C71_shows_of_good hi hg p c hp hc
  cases hw : accessColBlock (loc p) c with
  | none =>
    rw [hw] at hs
    have hf : findBlock (loc p).blkidx c = none := by simpa [accessColBlock] using hw
    exact ⟨fun h => absurd h (find_none.1 hf), fun h => absurd h hs⟩
  | some w =>
    rw [hw] at hs
    have hf : findBlock (loc p).blkidx c ≠ none := by
      intro h
      simp [accessColBlock, h] at hw
    refine ⟨fun _ => hs.1, fun _ => ?_⟩
    by_contra hm
    exact hf (find_none.2 hm)

/-- **C96, the sketch.** `lab i` and `w i` are the label and the weight drawn for row `i`. If every process has its elements in the first blocks of columns
and no label is too large, the result has in row `k` the sum of the rows with label `k`, multiplied by their weights, in whatever order the processes
accumulate; with `trans` the result is transposed. Missing: other matrices (`C96_missing_block`), labels that are too large (`C96_label_overflow`). -/
theorem C96_sketch_partial {loc : Nat → Loc V} {M : List (Entry V)} (h : C72_Reach n idim jdim loc M) (hfirst : ∀ p, p < n → C96_first idim jdim n M p)
    {sizeK : Nat} (hK : (sizeK : Int) ≤ idim) (lab : Int → Nat) (hlab : ∀ i, 0 ≤ i → i < idim → lab i < sizeK) (w : Int → V) (raw : Nat → Nat → Int) :
    ∃ cs, countSketch idim n sizeK raw loc (fun p r => lab ((rowDistribution idim n p p).1 + r)) (fun p r => w ((rowDistribution idim n p p).1 + r)) = some cs ∧
      ∀ cs', cs'.Perm cs → ∀ (trans : Bool) (k : Nat) (j : Int), k < sizeK → 0 ≤ j → j < jdim →
        sketchResult jdim trans cs' (if trans then j else k) (if trans then k else j) = sketchAt M lab w k j := by
  obtain ⟨hn, hi, hj⟩ := C72_dims h
  obtain ⟨hg, hM⟩ := C72_good h
  have hlim : ∀ p, p < n → (loc p).ilo = bound idim n p ∧ (loc p).ihi = limHi idim n p := fun p hp => by
    obtain ⟨B, -, b2, b3, -⟩ := hg p hp
    exact ⟨b2, b3⟩
  have hlo : ∀ p, (rowDistribution idim n p p).1 = bound idim n p := fun p => by rw [C71_dist hn hi p]
  have hloc : ∀ p ∈ List.range n, sketchLocal (raw p) (loc p) (fun r => lab ((rowDistribution idim n p p).1 + r)) (fun r => w ((rowDistribution idim n p p).1 + r)) sizeK =
      some (((List.range sizeK).filter fun kk => decide (binTop (raw p) (fun r : Nat => lab ((loc p).ilo + r)) (List.range (loc p).nrows) kk > -1)).map fun kk =>
        (kk, procVal M (loc p) (fun r => lab ((loc p).ilo + r)) (fun r => w ((loc p).ilo + r)) kk)) := by
    intro p hp
    have hp := List.mem_range.1 hp
    obtain ⟨B, b1, b2, b3, b4, b5⟩ := hg p hp
    rw [hlo p, ← b2]
    refine sketchLocal_eq hn hj hM b1 b4 b5 (prefix_blocks b1.hnodup fun c hc c' hlt => ?_) (raw p) _ fun r hr => ?_
    · have hcn := b4 c hc
      exact (blocks_iff hi hg hp (by omega)).2 (hfirst p hp c hcn ((blocks_iff hi hg hp hcn).1 hc) c' hlt)
    · have h0 : (0 : Int) ≤ bound idim n p := bound_nonneg hn hi
      have h1 := limHi_lt hp hi
      simp only [Loc.nrows, b2, b3] at hr
      refine hlab _ ?_ ?_ <;> rw [b2] <;> omega
  refine ⟨_, by rw [countSketch, if_neg (by omega), mapM_map hloc, Option.map_some], ?_⟩
  intro cs' hcs trans k j hk j0 j1
  rw [sketchResult_eq trans cs' j0 j1, (hcs.map _).sum_eq, ← List.flatMap_def, sum_flatMap]
  simp only [local_sum _ _ _ hk, procVal_eq]
  rw [← sum_flatMap (fun p => (List.range (loc p).nrows).flatMap fun r : Nat => M.filter fun e => decide (e.row = (loc p).ilo + (r : Int)))
    (fun e => if lab e.row = k ∧ e.col = j then w e.row * e.val else 0), ((proc_rows hn hi hM hlim).map _).sum_eq, filter_sum]

/-- **C96, negation: a missing block.** If a process has an element in a block of columns and none in an earlier block, it dereferences a null pointer, whatever
the labels and weights: blocks are asked for by their position among the blocks of the process. -/
theorem C96_missing_block {loc : Nat → Loc V} {M : List (Entry V)} (h : C72_Reach n idim jdim loc M) {p : Nat} (hp : p < n)
    (hnot : ¬ C96_first idim jdim n M p) (sizeK : Nat) (raw : Nat → Nat → Int) (lab : Nat → Nat → Nat) (w : Nat → Nat → V) :
    countSketch idim n sizeK raw loc lab w = none := by
  obtain ⟨hn, hi, hj⟩ := C72_dims h
  obtain ⟨hg, hM⟩ := C72_good h
  unfold C96_first at hnot
  push Not at hnot
  obtain ⟨c, hc, hcm, c', hlt, hcn⟩ := hnot
  obtain ⟨m, hm, hx⟩ := missing_block ((blocks_iff hi hg hp hc).2 hcm) hlt (fun hx => hcn ((blocks_iff hi hg hp (by omega)).1 hx))
  have hrow : 0 < (loc p).nrows := by
    obtain ⟨B, b1, b2, b3, b4, b5⟩ := hg p hp
    obtain ⟨e, -, e1, e2, -⟩ := hcm
    rw [C71_dist hn hi p] at e1 e2
    simp only [Loc.nrows, b2, b3]
    dsimp only at e1 e2
    omega
  unfold countSketch
  split
  · rfl
  · rw [mapM_fails (f := fun p => sketchLocal (raw p) (loc p) (lab p) (w p) sizeK) (List.mem_range.2 hp) (sketchLocal_missing hm hx hrow _ _ _ _), Option.map_none]

/-- A sketch with more rows than the matrix is refused. -/
theorem C96_too_many {sizeK : Nat} (hK : idim < sizeK) (raw : Nat → Nat → Int) (loc : Nat → Loc V) (lab : Nat → Nat → Nat) (w : Nat → Nat → V) :
    countSketch idim n sizeK raw loc lab w = none := if_pos hK

/-- **C96, labels.** The labels are in range for all random numbers but the largest one. -/
theorem C96_label_range {sizeK y : Nat} (hK : 0 < sizeK) (hy : y < 4294967295) : sketchLabel sizeK y < sizeK :=
  Nat.div_lt_of_lt_mul (by rw [Nat.mul_comm 4294967295]; exact Nat.mul_lt_mul_of_pos_left hy hK)

/-- **C96, labels.** Every label occurs. -/
theorem C96_label_all {sizeK k : Nat} (hK : sizeK ≤ 4294967295) (hk : k < sizeK) : ∃ y, y < 4294967295 ∧ sketchLabel sizeK y = k := by
  have hd := Nat.div_add_mod (k * 4294967295 + sizeK - 1) sizeK
  have hm := Nat.mod_lt (k * 4294967295 + sizeK - 1) (show sizeK > 0 by omega)
  have h1 : k * 4294967295 ≤ sizeK * ((k * 4294967295 + sizeK - 1) / sizeK) := by omega
  have h2 : sizeK * ((k * 4294967295 + sizeK - 1) / sizeK) < (k + 1) * 4294967295 := by omega
  refine ⟨(k * 4294967295 + sizeK - 1) / sizeK, ?_, ?_⟩
  · have h3 : (k + 1) * 4294967295 ≤ sizeK * 4294967295 := Nat.mul_le_mul_right _ hk
    exact Nat.lt_of_mul_lt_mul_left (Nat.lt_of_lt_of_le h2 h3)
  · exact Nat.div_eq_of_lt_le h1 h2

/-- **C96, negation: the largest random number.** It gives the label `sizeK`, which is one too large, and the process writes out of bounds. -/
theorem C96_label_overflow (sizeK : Nat) (raw : Nat → Int) (l : Loc V) (hrow : l.ilo ≤ l.ihi) (lab : Nat → Nat) (h0 : lab 0 = sketchLabel sizeK 4294967295)
    (w : Nat → V) : lab 0 = sizeK ∧ sketchLocal raw l lab w sizeK = none := by
  have h1 : lab 0 = sizeK := by rw [h0, sketchLabel]; omega
  refine ⟨h1, ?_⟩
  unfold sketchLocal
  rw [if_pos]
  exact List.any_eq_true.2 ⟨0, List.mem_range.2 (by omega), by simp [h1]⟩

end

/-- **C96, vectors of labels and weights.** With indices of eight bytes all processes ask for the same distribution of the two vectors: block `i` begins
where the rows of process `i` begin (counted from one). -/
theorem C96_maps {idim : Int} {n : Nat} (hn : 0 < n) (hi : (n : Int) ≤ idim) (me : Nat) {i : Nat} (h : i < n) :
    (sketchMap true n (fun q => ((rowDistribution idim n q q).2 - (rowDistribution idim n q q).1 + 1).toNat) me i : Int) = (rowDistribution idim n i i).1 + 1 := by
  simp only [C71_dist hn hi]
  unfold sketchMap
  suffices hs : ((((List.range i).map (sketchSizes true n (fun q => (limHi idim n q - bound idim n q + 1).toNat) me)).sum : Nat) : Int) = bound idim n i by
    push_cast at hs ⊢
    omega
  induction i with
  | zero =>
    have h1 := bound_nonneg (p := 0) hn hi
    have h2 := (bound_le_iff (p := 0) (x := 0) hn hi).2 (by simp)
    simp only [List.range_zero, List.map_nil, List.sum_nil]
    push_cast at h1 ⊢
    omega
  | succ i ih =>
    rw [List.range_succ, List.map_append, List.sum_append, Nat.cast_add, ih (by omega)]
    have h1 : limHi idim n i = bound idim n (i + 1) - 1 := by
      unfold limHi
      rw [if_pos (by omega)]
    have h2 := limits_nonempty (dim := idim) (n := n) (p := i) (by omega) hi
    simp only [sketchSizes, List.map_singleton, List.sum_singleton, true_or, if_true]
    push_cast
    omega

/-- **C96, negation: indices of four bytes.** With four or more processes, two processes ask for different distributions of the same vectors. -/
theorem C96_maps_differ {n : Nat} (hn : 4 ≤ n) (nrows : Nat → Nat) (hrow : 0 < nrows (n - 2)) :
    sketchMap false n nrows 0 (n - 1) < sketchMap false n nrows (n - 2) (n - 1) := by
  rw [sizes_differ hn nrows]
  omega

/-! ## concrete cases -/

/-- the matrix of C72 meets the hypotheses -/
example : C72_Reach (V := Int) 2 4 4 C72_exLoc (C71_all 2 C72_ex) ∧
    (∀ p, p < 2 → ∀ c, c < 2 → C71_has 4 4 2 (C71_all 2 C72_ex) p c → ∀ c', c' < c → C71_has 4 4 2 (C71_all 2 C72_ex) p c') ∧
    (countSketch 4 2 3 (fun _ _ => 77) C72_exLoc (fun p r => if p = r then 2 else 0) (fun _ r => if r = 0 then 1 else -1)).map (fun cs =>
      (sketchResult 4 false cs.reverse 2 1, sketchResult 4 false cs 0 2, sketchResult 4 true cs 0 2, sketchResult 4 true cs 1 1)) = some (2, 2, -4, 0) := by
  refine ⟨C72_ex_assembled, by decide +kernel, ?_⟩
  decide +kernel

/-- a diagonal matrix, as it is added by two processes -/
def C96_diag (p : Nat) : List (Entry Int) := if p = 0 then [⟨0, 0, 5⟩, ⟨1, 1, 6⟩, ⟨2, 2, 7⟩] else [⟨3, 3, 8⟩]

/-- Diagonal matrices have no sketch with more than one process: the second process has nothing in the first block. -/
example : C71_enough 4 4 2 (C71_all 2 C96_diag) ∧ C71_has 4 4 2 (C71_all 2 C96_diag) 1 1 ∧ ¬ C71_has 4 4 2 (C71_all 2 C96_diag) 1 0 ∧
    (assemble C71_exRaw (fun _ => ⟨9, 9, 9⟩) 4 4 2 C96_diag [(0, 0), (0, 1), (1, 1)] [(1, 1), (0, 0), (0, 1)]).map (fun o =>
      countSketch 4 2 2 (fun _ _ => 0) (fun p => (o p).getD ⟨0, 0, [], [], [], fun _ => 0, fun _ => 0, fun _ => 0, 0⟩) (fun _ _ => 0) (fun _ _ => (1 : Int))
        |>.isNone) = some true := by decide +kernel

/-- a label of each kind -/
example : sketchLabel 10 4294967295 = 10 ∧ sketchLabel 10 4294967294 = 9 ∧ sketchLabel 10 0 = 0 := by decide +kernel

/-- five processes with two rows each: process 3 asks for another last block than process 0 -/
example : sketchMap true 5 (fun _ => 2) 0 4 = 9 ∧ sketchMap false 5 (fun _ => 2) 0 4 = 7 ∧ sketchMap false 5 (fun _ => 2) 3 4 = 9 := by decide +kernel

end GA
