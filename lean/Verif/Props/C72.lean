import Verif.Props.C71
import Verif.Lemmas.SprsProd

/-!
# C72: operations on sparse arrays
-/

namespace GA
open Spec Model Spec.Sprs
open GA.Sprs

/-- `loc` are the local parts of a sparse array that was assembled and then changed by any number of collective operations; `M` is the matrix it is
meant to be: the added elements, and what the operations do to the elements of a matrix -/
inductive C72_Reach {V : Type} [Semiring V] (n : Nat) : Int → Int → (Nat → Loc V) → List (Entry V) → Prop
  /-- all processes have added their elements and assembled the array -/
  | assembled {idim jdim : Int} (hn : 0 < n) (hi : (n : Int) ≤ idim) (hj : (n : Int) ≤ jdim) (es : Nat → List (Entry V))
      (hin : ∀ p, p < n → ∀ e ∈ es p, e.In idim jdim) (raw : Nat → Raw V) (g0 : Nat → Entry V) (s1 s2 : List (Nat × Nat))
      (h1 : Interleaving n (program (fun p => (raw p).list) idim n es) s1) (h2 : Interleaving n (program (fun p => (raw p).list) idim n es) s2)
      (loc : Nat → Loc V) (h : ∃ o, assemble raw g0 idim jdim n es s1 s2 = some o ∧ ∀ p, p < n → o p = some (loc p)) :
      C72_Reach n idim jdim loc (C71_all n es)
  /-- multiplication of row `i` by `d i` -/
  | left {idim jdim : Int} {loc : Nat → Loc V} {M : List (Entry V)} (h : C72_Reach n idim jdim loc M) (d : Vec V) (loc' : Nat → Loc V)
      (hl : ∀ p, p < n → leftMultiply idim n d (loc p) = some (loc' p)) : C72_Reach n idim jdim loc' (M.map fun e => { e with val := d.at' e.row * e.val })
  /-- multiplication of column `j` by `d j` -/
  | right {idim jdim : Int} {loc : Nat → Loc V} {M : List (Entry V)} (h : C72_Reach n idim jdim loc M) (d : Vec V) (loc' : Nat → Loc V)
      (hl : ∀ p, p < n → rightMultiply idim jdim n d (loc p) = some (loc' p)) :
      C72_Reach n idim jdim loc' (M.map fun e => { e with val := e.val * d.at' e.col })
  /-- addition of `s` to the elements on the diagonal -/
  | shift {idim jdim : Int} {loc : Nat → Loc V} {M : List (Entry V)} (h : C72_Reach n idim jdim loc M) (s : V) :
      C72_Reach n idim jdim (fun p => shiftDiag n s (loc p)) (M.map fun e => if e.row = e.col then { e with val := e.val + s } else e)
  /-- multiplication of all elements by `a` -/
  | scale {idim jdim : Int} {loc : Nat → Loc V} {M : List (Entry V)} (h : C72_Reach n idim jdim loc M) (a : V) :
      C72_Reach n idim jdim (fun p => scale a (loc p)) (M.map fun e => { e with val := a * e.val })
  /-- a product of two sparse arrays -/
  | product {idim kdim jdim : Int} {locA locB : Nat → Loc V} {A B : List (Entry V)} (hA : C72_Reach n idim kdim locA A) (hB : C72_Reach n kdim jdim locB B)
      (raw : Nat → Raw V) (d0 : Nat → Nat → Entry V) (loc : Nat → Loc V)
      (h : ∃ o, matmat raw d0 kdim kdim jdim n locA locB = some o ∧ ∀ p, p < n → o p = some (loc p)) (C : List (Entry V)) (hC : IsProduct kdim A B C) :
      C72_Reach n idim jdim loc C

section
variable {V : Type} [Semiring V] {idim jdim : Int} {n : Nat}

omit [Semiring V] in
private theorem good_congr {loc loc' : Nat → Loc V} {M : List (Entry V)} (h : Good n idim jdim loc M) (he : ∀ p, p < n → loc p = loc' p) :
    Good n idim jdim loc' M := by
  intro p hp
  obtain ⟨B, hB⟩ := h p hp
  rw [he p hp] at hB
  exact ⟨B, hB⟩

private theorem shift_entry (M : List (Entry V)) (s : V) :
    (M.map fun e => if e.row = e.col then { e with val := e.val + s } else e) = newVals (fun i j v => if i = j then v + s else v) M := by
  apply List.map_congr_left
  intro e _
  dsimp only
  split <;> rfl

private theorem right_cond (hn : 0 < n) {d : Vec V} {l l' : Loc V} (h : rightMultiply idim jdim n d l = some l') : d.len = idim ∧ jdim ≤ idim := by
  unfold rightMultiply at h
  split at h
  · cases h
  · next h1 =>
    split at h
    · cases h
    · next h2 =>
      have e1 : d.len = idim := by omega
      have e2 : ¬ (colDistribution jdim n (n - 1)).2 ≥ d.len := by
        intro hc
        exact h2 (List.any_eq_true.2 ⟨n - 1, List.mem_range.2 (by omega), by simpa using hc⟩)
      have e3 : (colDistribution jdim n (n - 1)).2 = jdim - 1 := by
        simp only [colDistribution, limHi]
        rw [if_neg (by omega)]
      omega

/-- the dimensions of a reachable array -/
theorem C72_dims {loc : Nat → Loc V} {M : List (Entry V)} (h : C72_Reach n idim jdim loc M) : 0 < n ∧ (n : Int) ≤ idim ∧ (n : Int) ≤ jdim := by
  induction h with
  | assembled hn hi hj => exact ⟨hn, hi, hj⟩
  | left _ _ _ _ ih => exact ih
  | right _ _ _ _ ih => exact ih
  | shift _ _ ih => exact ih
  | scale _ _ ih => exact ih
  | product _ _ _ _ _ _ _ _ ihA ihB => exact ⟨ihA.1, ihA.2.1, ihB.2.2⟩

theorem C72_good {loc : Nat → Loc V} {M : List (Entry V)} (h : C72_Reach n idim jdim loc M) :
    Good n idim jdim loc M ∧ ∀ e ∈ M, e.In idim jdim := by
  induction h with
  | assembled hn hi hj es hin raw g0 s1 s2 h1 h2 loc h =>
    refine ⟨?_, ?_⟩
    · obtain ⟨loc0, g1, g2, g3, g4⟩ := assemble_good (g0 := g0) hn hi hj hin h1 h2
      obtain ⟨o, ho, hs⟩ := h
      rw [g3] at ho
      split at ho
      · cases ho
        refine good_congr g1 fun p hp => ?_
        exact Option.some.inj ((g4 p hp).symm.trans (hs p hp))
      · cases ho
    · intro e he
      obtain ⟨p, hp, he⟩ := List.mem_flatMap.1 he
      exact hin p (List.mem_range.1 hp) e he
  | @left idim jdim loc M hr d loc' hl ih =>
    obtain ⟨hn, hi, hj⟩ := C72_dims hr
    have hlen : d.len = idim := by
      have := hl 0 hn
      unfold leftMultiply at this
      split at this
      · cases this
      · next h => omega
    obtain ⟨loc2, e1, e2⟩ := left_good hlen ih.1
    refine ⟨good_congr e2 fun p hp => Option.some.inj ((e1 p).symm.trans (hl p hp)), ?_⟩
    intro e he
    obtain ⟨e', he', rfl⟩ := List.mem_map.1 he
    exact ih.2 e' he'
  | right hr d loc' hl ih =>
    obtain ⟨hn, hi, hj⟩ := C72_dims hr
    obtain ⟨c1, c2⟩ := right_cond hn (hl 0 hn)
    obtain ⟨loc2, e1, e2⟩ := right_good c1 hj c2 ih.1
    refine ⟨good_congr e2 fun p hp => Option.some.inj ((e1 p).symm.trans (hl p hp)), ?_⟩
    intro e he
    obtain ⟨e', he', rfl⟩ := List.mem_map.1 he
    exact ih.2 e' he'
  | shift _ s ih =>
    refine ⟨by rw [shift_entry]; exact shift_good s ih.1, ?_⟩
    intro e he
    obtain ⟨e', he', rfl⟩ := List.mem_map.1 he
    have := ih.2 e' he'
    split <;> exact this
  | scale _ a ih =>
    refine ⟨scale_good a ih.1, ?_⟩
    intro e he
    obtain ⟨e', he', rfl⟩ := List.mem_map.1 he
    exact ih.2 e' he'
  | product hA hB raw d0 loc h C hC ihA ihB =>
    obtain ⟨hn, hi, hk⟩ := C72_dims hA
    obtain ⟨C', c1, c2, loc', c3, o, c4, c5⟩ := matmat_good raw d0 hn hi hk (C72_dims hB).2.2 ihA.2 ihB.2 ihA.1 ihB.1
    obtain ⟨o', h1, h2⟩ := h
    have hp := c1.perm hC
    refine ⟨good_congr (good_perm c3 hp) fun p hp => ?_, fun e he => c2 e (hp.mem_iff.2 he)⟩
    rw [c4] at h1
    split at h1
    · cases h1
      exact Option.some.inj ((c5 p hp).symm.trans (h2 p hp))
    · cases h1

/-- **C72, histories.** After any sequence of multiplications with diagonal matrices, shifts of the diagonal, scalings and products of assembled arrays, every
process sees the matrix that these operations make of the added elements. Missing: more processes than rows or columns. -/
theorem C72_history_partial {loc : Nat → Loc V} {M : List (Entry V)}
    (h : C72_Reach n idim jdim loc M) : C71_Shows idim jdim n loc M :=
  C71_shows_of_good (C72_dims h).2.1 (C72_good h).1

/-- **C72, progress.** Multiplication from the left returns for every vector with one element per row; multiplication from the right for every vector with one
element per row, if there are not more columns than rows. -/
theorem C72_progress_partial {loc : Nat → Loc V} {M : List (Entry V)}
    (h : C72_Reach n idim jdim loc M) (d : Vec V) (hd : d.len = idim) :
    (∃ loc' : Nat → Loc V, ∀ p, p < n → leftMultiply idim n d (loc p) = some (loc' p)) ∧
    (jdim ≤ idim → ∃ loc' : Nat → Loc V, ∀ p, p < n → rightMultiply idim jdim n d (loc p) = some (loc' p)) := by
  obtain ⟨hn, hi, hj⟩ := C72_dims h
  have hg := (C72_good h).1
  refine ⟨?_, fun hij => ?_⟩
  · obtain ⟨loc', h1, -⟩ := left_good hd hg
    exact ⟨loc', fun p _ => h1 p⟩
  · obtain ⟨loc', h1, -⟩ := right_good hd hj hij hg
    exact ⟨loc', fun p _ => h1 p⟩

/-- **C72, negation: right multiplication.** A matrix with more columns than rows cannot be multiplied from the right with a diagonal matrix, whatever the
length of the vector: the length is compared with the number of rows. -/
theorem C72_right_wide (hn : 0 < n) (hij : idim < jdim) (d : Vec V) (l : Loc V) : rightMultiply idim jdim n d l = none := by
  cases h : rightMultiply idim jdim n d l with
  | none => rfl
  | some l' =>
    have := (right_cond hn h).2
    omega

/-- also a vector with one element per column is not accepted for fewer columns than rows -/
theorem C72_right_narrow (hij : jdim < idim) (d : Vec V) (hd : d.len = jdim) (l : Loc V) : rightMultiply idim jdim n d l = none := by
  unfold rightMultiply
  rw [if_pos (by omega)]

/-! ## matrix times vector -/

omit [Semiring V] in
private theorem blocks_of_has (hi : (n : Int) ≤ idim) {loc : Nat → Loc V} {M : List (Entry V)} (hg : Good n idim jdim loc M) {p c : Nat} (hp : p < n)
    (hc : c < n) : c ∈ (loc p).blkidx ↔ C71_has idim jdim n M p c := by
  have hs := C71_shows_of_good hi hg p c hp hc
  cases hw : accessColBlock (loc p) c with
  | none =>
    rw [hw] at hs
    have hf : findBlock (loc p).blkidx c = none := by simpa [accessColBlock] using hw
    exact ⟨fun h => absurd h (find_none.1 hf), fun h => absurd h hs⟩
  | some w =>
    rw [hw] at hs
    have hf : findBlock (loc p).blkidx c ≠ none := by
      intro h
      simp [accessColBlock, h] at hw
    refine ⟨fun _ => hs.1, fun _ => ?_⟩
    by_contra hm
    exact hf (find_none.2 hm)

/-- process `p` has an element -/
def C72_some (idim : Int) (n : Nat) (M : List (Entry V)) (p : Nat) : Prop :=
  ∃ e ∈ M, (rowDistribution idim n p p).1 ≤ e.row ∧ e.row ≤ (rowDistribution idim n p p).2

/-- **C72, matrix times vector.** If every process has an element in its rows, there are not more rows than columns, and both vectors have one element per
column, the product is that of the matrix and the vector, whatever is in the memory used for the sums (`vsum`) and in every order of the
accumulations (`ord`). Missing: complex elements (`C72_complex`), a process without elements (`C72_empty_process`), a result with one element per row
(`C72_result_length`). -/
theorem C72_matvec_partial (hij : idim ≤ jdim) {loc : Nat → Loc V} {M : List (Entry V)}
    (h : C72_Reach n idim jdim loc M) (hsome : ∀ p, p < n → C72_some idim n M p) (a : Vec V) (ha : a.len = jdim) (vsum : Nat → Nat → V) (ord : List Nat)
    (hord : ord.Perm (List.range n)) :
    ∃ g, matvec realBody jdim n a jdim vsum loc ord = some g ∧ ∀ i, 0 ≤ i → i < idim → g i = mulVec M a.at' i := by
  obtain ⟨hn, hi, hj⟩ := C72_dims h
  obtain ⟨hg, hM⟩ := C72_good h
  refine matvec_eq hn hi hj hij hM hg ?_ ha hord
  intro p hp h0
  obtain ⟨e, he, e1, e2⟩ := hsome p hp
  obtain ⟨-, -, m3, m4⟩ := hM e he
  have hc : owner jdim n e.col < n := owner_lt hn
  have hr := (owner_iff hj hc m3 m4).1 rfl
  have := (blocks_of_has hi hg hp hc).2 ⟨e, he, e1, e2, hr.1, hr.2⟩
  rw [h0] at this
  simp at this

/-- **C72, negation: a process without elements.** If process `p` has no element in its rows, the product has in these rows whatever was in the memory
that the process allocated, not zero. -/
theorem C72_empty_process (hij : idim ≤ jdim) {loc : Nat → Loc V} {M : List (Entry V)}
    (h : C72_Reach n idim jdim loc M) {p : Nat} (hp : p < n) (hnone : ¬ C72_some idim n M p) (a : Vec V) (ha : a.len = jdim) (vsum : Nat → Nat → V)
    (ord : List Nat) (hord : ord.Perm (List.range n)) :
    ∃ g, matvec realBody jdim n a jdim vsum loc ord = some g ∧
      ∀ i, (rowDistribution idim n p p).1 ≤ i → i ≤ (rowDistribution idim n p p).2 → g i = vsum p (i - (rowDistribution idim n p p).1).toNat := by
  obtain ⟨hn, hi, hj⟩ := C72_dims h
  obtain ⟨hg, hM⟩ := C72_good h
  have hlt : ∀ p ∈ ord, p < n := fun p hp => List.mem_range.1 (hord.mem_iff.1 hp)
  have hany : (ord.any fun p => decide ((loc p).ilo ≤ (loc p).ihi ∧ (loc p).ihi ≥ jdim)) = false := by
    rw [List.any_eq_false]
    intro p hp
    obtain ⟨B, -, -, h3, -⟩ := hg p (hlt p hp)
    have := limHi_lt (hlt p hp) hi
    rw [decide_eq_true_eq]
    omega
  simp only [matvec, ha, hany, ne_eq, not_true, or_self, if_false, Bool.false_eq_true]
  refine ⟨_, rfl, ?_⟩
  have hd := C71_dist hn hi p
  rw [hd]
  intro i i1 i2
  have h0 : 0 ≤ i := Int.le_trans (bound_nonneg hn hi) i1
  have h1 : i < idim := Int.lt_of_le_of_lt i2 (limHi_lt hp hi)
  obtain ⟨B, b1, b2, b3, b4, b5⟩ := hg p hp
  have hf := fold_acc (fun p i => localSum realBody jdim n a (vsum p) (loc p) (i - (loc p).ilo).toNat) (fun p i => (loc p).ilo ≤ i ∧ i ≤ (loc p).ihi)
    ord (fun _ => (0 : V)) i p (hord.nodup_iff.2 List.nodup_range) (hord.mem_iff.2 (List.mem_range.2 hp)) (by rw [b2, b3]; exact ⟨i1, i2⟩) (by
      intro q hq hqi
      obtain ⟨B', -, c2, c3, -⟩ := hg q (hlt q hq)
      rw [c2, c3] at hqi
      rw [← (owner_iff hi (hlt q hq) h0 h1).2 hqi, (owner_iff hi hp h0 h1).2 ⟨i1, i2⟩])
  rw [hf]
  simp only [zero_add]
  have hacc : ∀ c ∈ List.range n, accessColBlock (loc p) c = none := by
    intro c hc
    have hc := List.mem_range.1 hc
    have : c ∉ (loc p).blkidx := by
      rw [blocks_of_has hi hg hp hc]
      rintro ⟨e, he, e1, e2, -⟩
      exact hnone ⟨e, he, e1, e2⟩
    simp [accessColBlock, find_none.2 this]
  have hl : localSum realBody jdim n a (vsum p) (loc p) = vsum p := by
    have key : ∀ (L : List Nat) (s : Bool × (Nat → V)), (∀ c ∈ L, accessColBlock (loc p) c = none) →
        L.foldl (fun (s : Bool × (Nat → V)) c =>
          match accessColBlock (loc p) c with
          | none => s
          | some w =>
            let jlo := (colDistribution jdim n c).1
            let s0 := if s.1 then fun _ => 0 else s.2
            (false, (cells ((loc p).ihi - (loc p).ilo + 1).toNat w).foldl (realBody w (getBuf a jlo) jlo) s0)) s = s := by
      intro L
      induction L with
      | nil => intro s _; rfl
      | cons c L ih =>
        intro s hL
        rw [List.foldl_cons]
        rw [hL c List.mem_cons_self]
        exact ih s fun c hc => hL c (List.mem_cons_of_mem _ hc)
    exact congrArg (·.2) (key (List.range n) (true, vsum p) hacc)
  rw [hl, b2]

omit [Semiring V] in
/-- **C72, negation: length of the result.** A result vector with one element per row is not accepted unless the matrix is square. -/
theorem C72_result_length [Zero V] [Add V] (body : GA.Sprs.View V → (Int → V) → Int → (Nat → V) → Nat × Nat → Nat → V) (hij : idim ≠ jdim) (a : Vec V)
    (vsum : Nat → Nat → V) (loc : Nat → Loc V) (ord : List Nat) : matvec body jdim n a idim vsum loc ord = none := by
  unfold matvec
  rw [if_pos (Or.inr hij)]

/-! ## diagonal -/

/-- the sum of the elements at position `i`, `i` -/
def C72_diag (M : List (Entry V)) (i : Int) : V := ((M.filter fun e => e.row = i ∧ e.col = i).map fun e => e.val).sum

omit [Semiring V] in
private theorem foldl_filter (L : List (Int × V)) (i : Int) (d : V) :
    L.foldl (fun a jv => if i = jv.1 then jv.2 else a) d = (L.filter fun jv => jv.1 = i).foldl (fun _ jv => jv.2) d := by
  induction L generalizing d with
  | nil => rfl
  | cons x L ih =>
    rw [List.foldl_cons, ih, List.filter_cons]
    by_cases hx : x.1 = i
    · simp [hx]
    · have hx' : ¬ i = x.1 := fun h => hx h.symm
      simp [hx, hx']

/-- **C72, diagonal.** For a square matrix with at most one element in every position of the diagonal, process `p` gets the diagonal of its rows, zero where
there is no element, provided the diagonal block of the process is not empty. -/
theorem C72_get_diag_partial {loc : Nat → Loc V} {M : List (Entry V)} (h : C72_Reach n idim idim loc M) {p : Nat}
    (hp : p < n) (hblk : C71_has idim idim n M p p) (hone : ∀ i, (M.filter fun e => e.row = i ∧ e.col = i).length ≤ 1) :
    ∃ d, getDiag p (loc p) = some d ∧
      ∀ r : Nat, (rowDistribution idim n p p).1 + r ≤ (rowDistribution idim n p p).2 → d r = C72_diag M ((rowDistribution idim n p p).1 + r) := by
  obtain ⟨hn, hi, -⟩ := C72_dims h
  obtain ⟨hg, hM⟩ := C72_good h
  have hb := (blocks_of_has hi hg hp hp).2 hblk
  obtain ⟨B, b1, b2, b3, b4, b5⟩ := hg p hp
  obtain ⟨d, d1, d2⟩ := getDiag_eq b1 hb
  refine ⟨d, d1, ?_⟩
  rw [C71_dist hn hi p]
  intro r hr
  dsimp only at hr ⊢
  have hr' : r < (loc p).nrows := by
    simp only [Loc.nrows, b2, b3]
    omega
  rw [d2 r hr', foldl_filter, b2]
  have hperm := ((b5 p r hp hr').filter fun jv => decide (jv.1 = (loc p).ilo + (r : Int)))
  rw [b2] at hperm
  have hrow : (rowPart M (bound idim n p + r) (bound idim n p) (limHi idim n p)).filter (fun jv => decide (jv.1 = bound idim n p + (r : Int)))
      = (M.filter fun e => e.row = bound idim n p + r ∧ e.col = bound idim n p + r).map fun e => (e.col, e.val) := by
    rw [rowPart, List.filter_map, List.filter_filter]
    congr 1
    apply List.filter_congr
    intro e _
    rw [Bool.eq_iff_iff]
    simp only [Function.comp, Bool.and_eq_true, decide_eq_true_eq]
    omega
  rw [hrow] at hperm
  have h1 := hone (bound idim n p + r)
  rw [C72_diag]
  generalize hL : (M.filter fun e => decide (e.row = bound idim n p + r ∧ e.col = bound idim n p + r)) = L at hperm h1
  cases L with
  | nil =>
    simp only [List.map_nil] at hperm
    rw [hperm.eq_nil]
    simp
  | cons e L =>
    cases L with
    | nil =>
      simp only [List.map_cons, List.map_nil] at hperm
      rw [List.perm_singleton.1 hperm]
      simp
    | cons e' L => simp at h1

omit [Semiring V] in
/-- **C72, negation: empty diagonal block.** If the diagonal block of a process has no element, the call dereferences a null pointer. -/
theorem C72_get_diag_empty [Zero V] {p : Nat} {l : Loc V} (h : accessColBlock l p = none) : getDiag p l = none := by simp [getDiag, h]

end

/-! ## a concrete history, and wrong results -/

/-- two processes add the elements of a 4 x 4 matrix -/
def C72_ex (p : Nat) : List (Entry Int) := if p = 0 then [⟨3, 0, 5⟩, ⟨0, 0, 1⟩, ⟨0, 1, 2⟩] else [⟨1, 2, 7⟩, ⟨2, 2, 9⟩, ⟨1, 1, 4⟩]

/-- the assembled parts -/
def C72_exLoc (p : Nat) : Loc Int :=
  (((assemble C71_exRaw (fun _ => ⟨9, 9, 9⟩) 4 4 2 C72_ex [(1, 1), (0, 0), (1, 0), (0, 1)] [(0, 0), (1, 1), (0, 1), (1, 0)]).getD fun _ => none) p).getD
    ⟨0, 0, [], [], [], fun _ => 0, fun _ => 0, fun _ => 0, 0⟩

private theorem exAsm : ∃ o, assemble C71_exRaw (fun _ => ⟨9, 9, 9⟩) 4 4 2 C72_ex [(1, 1), (0, 0), (1, 0), (0, 1)] [(0, 0), (1, 1), (0, 1), (1, 0)] = some o ∧
    ∀ p, p < 2 → o p = some (C72_exLoc p) := by
  have h1 : (assemble C71_exRaw (fun _ => ⟨9, 9, 9⟩) 4 4 2 C72_ex [(1, 1), (0, 0), (1, 0), (0, 1)] [(0, 0), (1, 1), (0, 1), (1, 0)]).isSome = true := by
    decide +kernel
  obtain ⟨o, ho⟩ := Option.isSome_iff_exists.1 h1
  refine ⟨o, ho, ?_⟩
  have h2 : ∀ p, p < 2 → (((assemble C71_exRaw (fun _ => ⟨9, 9, 9⟩) 4 4 2 C72_ex [(1, 1), (0, 0), (1, 0), (0, 1)]
      [(0, 0), (1, 1), (0, 1), (1, 0)]).getD fun _ => none) p).isSome = true := by decide +kernel
  intro p hp
  have := h2 p hp
  rw [ho, Option.getD_some] at this
  obtain ⟨l, hl⟩ := Option.isSome_iff_exists.1 this
  rw [hl]
  simp [C72_exLoc, ho, hl]

/-- the array is reachable -/
theorem C72_ex_assembled : C72_Reach (V := Int) 2 4 4 C72_exLoc (C71_all 2 C72_ex) :=
  .assembled (by decide) (by decide) (by decide) C72_ex (by unfold Entry.In; decide +kernel) C71_exRaw (fun _ => ⟨9, 9, 9⟩) [(1, 1), (0, 0), (1, 0), (0, 1)]
    [(0, 0), (1, 1), (0, 1), (1, 0)] (by decide +kernel) (by decide +kernel) C72_exLoc exAsm

/-- an array that is assembled, multiplied, shifted and scaled -/
theorem C72_ex_reach : ∃ loc M, C72_Reach (V := Int) 2 4 4 loc M ∧
    M = [⟨3, 0, 25⟩, ⟨0, 0, 35⟩, ⟨0, 1, 10⟩, ⟨1, 2, 70⟩, ⟨2, 2, 165⟩, ⟨1, 1, 70⟩] := by
  have h0 := C72_ex_assembled
  obtain ⟨l1, h1⟩ := (C72_progress_partial h0 ⟨4, fun i => if i = 3 then 1 else i + 1⟩ rfl).1
  have r1 := C72_Reach.left h0 _ l1 h1
  have r2 := C72_Reach.scale (C72_Reach.shift r1 6) 5
  exact ⟨_, _, r2, by decide +kernel⟩

/-- the hypotheses of the product and of the diagonal hold for that matrix -/
example : (∀ p, p < 2 → ∃ e ∈ ([⟨3, 0, 25⟩, ⟨0, 0, 35⟩, ⟨0, 1, 10⟩, ⟨1, 2, 70⟩, ⟨2, 2, 165⟩, ⟨1, 1, 70⟩] : List (Entry Int)),
      (rowDistribution 4 2 p p).1 ≤ e.row ∧ e.row ≤ (rowDistribution 4 2 p p).2) ∧
    (∀ p, p < 2 → C71_has 4 4 2 ([⟨3, 0, 25⟩, ⟨0, 0, 35⟩, ⟨0, 1, 10⟩, ⟨1, 2, 70⟩, ⟨2, 2, 165⟩, ⟨1, 1, 70⟩] : List (Entry Int)) p p) ∧
    mulVec ([⟨3, 0, 25⟩, ⟨0, 0, 35⟩, ⟨0, 1, 10⟩, ⟨1, 2, 70⟩, ⟨2, 2, 165⟩, ⟨1, 1, 70⟩] : List (Entry Int)) (fun j => j + 1) 1 = 350 := by decide +kernel

/-- **C72, negation: complex elements.** The loop for complex elements reads the elements of the vector instead of those of the matrix, and keeps only the last
product of a row. (Shown for real numbers: the arithmetic is not the reason.) -/
theorem C72_complex : (matvec complexBody 4 2 ⟨4, fun j => j + 1⟩ 4 (fun _ _ => 0) C72_exLoc [0, 1]).map (fun g => g 0) = some 2 ∧
    (matvec realBody 4 2 ⟨4, fun j => j + 1⟩ 4 (fun _ _ => 0) C72_exLoc [0, 1]).map (fun g => g 0) = some 5 := by decide +kernel

/-- **C72, negation: repeated diagonal elements.** An element added twice counts twice in a product, but the diagonal has only one of the two values. -/
theorem C72_get_diag_repeated :
    (assemble C71_exRaw (fun _ => ⟨9, 9, 9⟩) 2 2 1 (fun _ => [⟨0, 0, 1⟩, ⟨0, 0, 2⟩]) [(0, 0)] [(0, 0)]).bind (fun o => (o 0).bind fun l =>
      (getDiag 0 l).bind fun d => (matvec realBody 2 1 ⟨2, fun _ => 1⟩ 2 (fun _ _ => 0) (fun _ => l) [0]).map fun g => (d 0, g 0)) = some (1, 3) := by
  decide +kernel

end GA
