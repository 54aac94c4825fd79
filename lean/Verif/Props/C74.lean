import Verif.Props.C73
import Verif.Lemmas.SprsDns

/-!
# C74: conversions between sparse and dense arrays
-/

namespace GA
open Spec Model Spec.Sprs
open GA.Sprs

/-- the dense array with internal dimensions `d0`, `d1` and content `D` is spread over `n` processes: each has a patch `box p` that is not empty, every element is
in exactly one patch, and in the memory `mem p` of the owner, column after column without gaps (no ghost cells) -/
structure C74_Spread {V : Type} (d0 d1 : Int) (n : Nat) (box : Nat → Box) (mem : Nat → Int → V) (D : Int → Int → V) : Prop where
  patch : ∀ p, p < n → 1 ≤ (box p).lo0 ∧ (box p).lo0 ≤ (box p).hi0 ∧ (box p).hi0 ≤ d0 ∧ 1 ≤ (box p).lo1 ∧ (box p).lo1 ≤ (box p).hi1 ∧ (box p).hi1 ≤ d1
  owner : ∀ x0 x1, 1 ≤ x0 → x0 ≤ d0 → 1 ≤ x1 → x1 ≤ d1 →
    ∃! p, p < n ∧ (box p).lo0 ≤ x0 ∧ x0 ≤ (box p).hi0 ∧ (box p).lo1 ≤ x1 ∧ x1 ≤ (box p).hi1
  stored : ∀ p, p < n → ∀ x0 x1, (box p).lo0 ≤ x0 → x0 ≤ (box p).hi0 → (box p).lo1 ≤ x1 → x1 ≤ (box p).hi1 →
    mem p (x0 - (box p).lo0 + (x1 - (box p).lo1) * ((box p).hi0 - (box p).lo0 + 1)) = D x0 x1

/-- element `(i, j)`, from zero, of a dense array with internal content `D`, through the C interface (`trans`) or the Fortran interface -/
def C74_user {V : Type} (trans : Bool) (D : Int → Int → V) (i j : Int) : V := if trans then D (j + 1) (i + 1) else D (i + 1) (j + 1)

section
variable {V : Type} [Semiring V] {n : Nat} {idim jdim : Int}

/-- **C74, dense and sparse are the same matrix.** If `M` holds the elements that are not zero and the diagonal, its elements are those of the dense matrix -/
theorem C74_elem {a : Int → Int → V} {M : List (Entry V)} (h : Represents idim jdim a M) {i j : Int} (i0 : 0 ≤ i) (i1 : i < idim) (j0 : 0 ≤ j) (j1 : j < jdim) :
    elem M i j = a i j := by
  by_cases hz : a i j ≠ 0 ∨ i = j
  · have hm : (⟨i, j, a i j⟩ : Entry V) ∈ M := (h.entries _).2 ⟨⟨i0, i1, j0, j1⟩, rfl, hz⟩
    exact once_value h.once hm
  · have : (M.filter fun e => e.row = i ∧ e.col = j) = [] := by
      rw [List.filter_eq_nil_iff]
      intro e he hc
      rw [decide_eq_true_eq] at hc
      have := ((h.entries e).1 he).2.2
      rw [hc.1, hc.2] at this
      exact hz this
    have h0 : a i j = 0 := by
      by_contra hne
      exact hz (Or.inl hne)
    rw [elem, this, h0]
    rfl

/-- **C74, from dense to sparse.** A dense array spread over at most as many processes as rows and columns, through both interfaces, and every interleaving of
the processes: the call returns, and the new sparse array, which every process sees, has the elements of the dense array that are not zero and the whole
diagonal, each once. It is reachable, so the histories and products of C72 and C73 apply to it. Missing: ghost cells and empty patches (see below). -/
theorem C74_from_dense_partial [DecidableEq V] {d0 d1 : Int} {box : Nat → Box} {mem : Nat → Int → V} {D : Int → Int → V} (trans : Bool)
    (hn : 0 < n) (h0 : (n : Int) ≤ d0) (h1 : (n : Int) ≤ d1) (h : C74_Spread d0 d1 n box mem D) (raw : Nat → Raw V) (g0 : Nat → Entry V) (s1 s2 : List (Nat × Nat))
    (hs1 : Interleaving n (program (fun p => (raw p).list) (if trans then d1 else d0) n fun p => filterElems trans (box p) (mem p)) s1)
    (hs2 : Interleaving n (program (fun p => (raw p).list) (if trans then d1 else d0) n fun p => filterElems trans (box p) (mem p)) s2) :
    ∃ o, fromDense raw g0 trans d0 d1 n box mem s1 s2 = some o ∧ ∃ (loc : Nat → Loc V) (M : List (Entry V)), (∀ p, p < n → o p = some (loc p)) ∧
      Represents (if trans then d1 else d0) (if trans then d0 else d1) (C74_user trans D) M ∧
      C72_Reach n (if trans then d1 else d0) (if trans then d0 else d1) loc M ∧ C71_Shows (if trans then d1 else d0) (if trans then d0 else d1) n loc M := by
  have hrep := filter_represents (n := n) (d0 := d0) (d1 := d1) (box := box) (mem := mem) (D := D) (trans := trans) (fun p hp => by have := h.patch p hp; omega)
    (fun x0 x1 a b c d => by
      obtain ⟨p, hp, -⟩ := h.owner x0 x1 a b c d
      exact ⟨p, hp.1, hp.2⟩)
    (fun x0 x1 p q hp hq hb hb' => by
      have := h.patch p hp
      obtain ⟨b1, b2, b3, b4⟩ := hb
      exact (h.owner x0 x1 (by omega) (by omega) (by omega) (by omega)).unique ⟨hp, b1, b2, b3, b4⟩ ⟨hq, hb'⟩)
    fun p hp x0 x1 hb => h.stored p hp x0 x1 hb.1 hb.2.1 hb.2.2.1 hb.2.2.2
  have hi : (n : Int) ≤ if trans then d1 else d0 := by split <;> assumption
  have hj : (n : Int) ≤ if trans then d0 else d1 := by split <;> assumption
  have hin : ∀ p, p < n → ∀ e ∈ filterElems trans (box p) (mem p), e.In (if trans then d1 else d0) (if trans then d0 else d1) := fun p hp e he =>
    ((hrep.entries e).1 (List.mem_flatMap.2 ⟨p, List.mem_range.2 hp, he⟩)).1
  obtain ⟨loc, g1, g2, g3, g4⟩ := assemble_good (g0 := g0) hn hi hj hin hs1 hs2
  have hen := enough_diag hn hi hj (fun p hp => by
    obtain ⟨B, b1, b2, b3, -⟩ := g1 p hp
    exact ⟨b2, b3⟩) g2 fun i hi0 hi1 => by
      refine ⟨⟨i, i, if trans then D (i + 1) (i + 1) else D (i + 1) (i + 1)⟩, (hrep.entries _).2 ⟨⟨hi0, by dsimp only; omega, hi0, by dsimp only; omega⟩, rfl, Or.inr rfl⟩, rfl, rfl⟩
  rw [if_pos hen] at g3
  have hany : ((List.range n).any fun p => decide ((box p).lo0 > (box p).hi0 ∨ (box p).lo1 > (box p).hi1)) = false := by
    rw [List.any_eq_false]
    intro p hp
    have := h.patch p (List.mem_range.1 hp)
    rw [decide_eq_true_eq]
    omega
  refine ⟨_, ?_, loc, _, g4, hrep, ?_, C71_shows_of_good hi g1⟩
  · unfold fromDense
    rw [hany]
    exact g3
  · exact .assembled hn hi hj _ hin raw g0 s1 s2 hs1 hs2 loc ⟨_, g3, g4⟩

/-- **C74, negation: empty patches.** If a process has no part of the dense array, the call aborts. -/
theorem C74_empty_patch [DecidableEq V] {d0 d1 : Int} {box : Nat → Box} {mem : Nat → Int → V} (trans : Bool) (raw : Nat → Raw V) (g0 : Nat → Entry V)
    (s1 s2 : List (Nat × Nat)) {p : Nat} (hp : p < n) (he : (box p).lo0 > (box p).hi0 ∨ (box p).lo1 > (box p).hi1) :
    fromDense raw g0 trans d0 d1 n box mem s1 s2 = none := by
  unfold fromDense
  rw [if_pos (List.any_eq_true.2 ⟨p, List.mem_range.2 hp, by simpa using he⟩)]

/-- **C74, from sparse to dense (C interface).** A reachable square sparse array with at most one entry per position: the call returns a dense array with the same
dimensions and elements. Missing: more entries in one position, arrays that are not square, the Fortran interface (see below). -/
theorem C74_from_sparse_partial {loc : Nat → Loc V} {M : List (Entry V)} (h : C72_Reach n idim idim loc M)
    (honce : ∀ i j, (M.filter fun e => e.row = i ∧ e.col = j).length ≤ 1) :
    ∃ D, fromSparse true idim idim n loc = some D ∧ D.d0 = idim ∧ D.d1 = idim ∧
      ∀ i j, 0 ≤ i → i < idim → 0 ≤ j → j < idim → C74_user true D.at' i j = elem M i j := by
  obtain ⟨hn, hi, -⟩ := C72_dims h
  obtain ⟨g, hin⟩ := C72_good h
  exact fromSparse_eq hn hi hin g honce

/-- **C74, there and back.** A square dense array converted to a sparse array and back has the same elements. -/
theorem C74_round_trip_partial [DecidableEq V] {box : Nat → Box} {mem : Nat → Int → V} {D : Int → Int → V}
    (hn : 0 < n) (hd : (n : Int) ≤ idim) (h : C74_Spread idim idim n box mem D) (raw : Nat → Raw V) (g0 : Nat → Entry V) (s1 s2 : List (Nat × Nat))
    (hs1 : Interleaving n (program (fun p => (raw p).list) idim n fun p => filterElems true (box p) (mem p)) s1)
    (hs2 : Interleaving n (program (fun p => (raw p).list) idim n fun p => filterElems true (box p) (mem p)) s2) :
    ∃ o, fromDense raw g0 true idim idim n box mem s1 s2 = some o ∧ ∃ loc : Nat → Loc V, (∀ p, p < n → o p = some (loc p)) ∧
      ∃ D', fromSparse true idim idim n loc = some D' ∧ D'.d0 = idim ∧ D'.d1 = idim ∧
        ∀ x0 x1, 1 ≤ x0 → x0 ≤ idim → 1 ≤ x1 → x1 ≤ idim → D'.at' x0 x1 = D x0 x1 := by
  obtain ⟨o, ho, loc, M, h1, h2, h3, -⟩ := C74_from_dense_partial true hn hd hd h raw g0 s1 s2 hs1 hs2
  have honce : ∀ i j, (M.filter fun e => e.row = i ∧ e.col = j).length ≤ 1 := by
    intro i j
    by_contra hc
    have h4 := h2.once
    have h5 : ((M.filter fun e => e.row = i ∧ e.col = j).map fun e => (e.row, e.col)).Nodup := (List.filter_sublist.map _).nodup h4
    match hf : (M.filter fun e => e.row = i ∧ e.col = j) with
    | [] => rw [hf] at hc; simp at hc
    | [_] => rw [hf] at hc; simp at hc
    | x :: y :: L =>
      have hx : x ∈ M.filter fun e => e.row = i ∧ e.col = j := by rw [hf]; simp
      have hy : y ∈ M.filter fun e => e.row = i ∧ e.col = j := by rw [hf]; simp
      have hx := (List.mem_filter.1 hx).2
      have hy := (List.mem_filter.1 hy).2
      rw [decide_eq_true_eq] at hx hy
      rw [hf, List.map_cons, List.map_cons, List.nodup_cons] at h5
      refine h5.1 ?_
      rw [hx.1, hx.2, hy.1, hy.2]
      exact List.mem_cons_self
  obtain ⟨D', d1, d2, d3, d4⟩ := C74_from_sparse_partial h3 honce
  refine ⟨o, ho, loc, h1, D', d1, d2, d3, ?_⟩
  intro x0 x1 a b c d
  have h6 := d4 (x1 - 1) (x0 - 1) (by omega) (by omega) (by omega) (by omega)
  rw [C74_elem h2 (by omega) (by simp only [if_true]; omega) (by omega) (by simp only [if_true]; omega)] at h6
  simp only [C74_user, if_true] at h6
  have e1 : x0 - 1 + 1 = x0 := by omega
  have e2 : x1 - 1 + 1 = x1 := by omega
  rw [e1, e2] at h6
  exact h6

omit [Semiring V] in
/-- **C74, negation: Fortran interface.** Through the Fortran interface the conversion of any sparse array aborts. -/
theorem C74_from_sparse_fortran [Zero V] (hn : 0 < n) (loc : Nat → Loc V) : fromSparse false idim jdim n loc = none := by
  have h : dimOK idim ((sparseMap false n loc).take n) = false := by
    unfold sparseMap
    obtain ⟨m, rfl⟩ : ∃ m, n = m + 1 := ⟨n - 1, by omega⟩
    simp [dimOK, List.set_cons_succ]
  unfold fromSparse
  simp [h]

omit [Semiring V] in
/-- **C74, negation: the dimensions are not those of the matrix.** The rows of the new dense array, seen through C, are the columns of the sparse array. -/
theorem C74_from_sparse_dims [Zero V] {loc : Nat → Loc V} {D : Dns V} (h : fromSparse true idim jdim n loc = some D) : D.d1 = jdim ∧ D.d0 = idim := by
  simp only [fromSparse, if_true] at h
  split at h
  · cases h
  · split at h
    · cases h
    · split at h
      · rw [← Option.some.inj h]
        exact ⟨rfl, rfl⟩
      · cases h

/-- **C74, negation: more rows than columns.** The conversion aborts. -/
theorem C74_from_sparse_tall {loc : Nat → Loc V} {M : List (Entry V)} (h : C72_Reach n idim jdim loc M) (hd : jdim < idim) :
    fromSparse true idim jdim n loc = none := by
  obtain ⟨hn, hi, -⟩ := C72_dims h
  obtain ⟨g, -⟩ := C72_good h
  obtain ⟨B, b1, b2, b3, -⟩ := g (n - 1) (by omega)
  have hihi : (loc (n - 1)).ihi = idim - 1 := by
    rw [b3, limHi, if_neg (by omega)]
  have hany : ((List.range n).any fun p => decide ((loc p).ilo > (loc p).ihi ∨ (loc p).ihi + 1 > jdim)) = true := by
    rw [List.any_eq_true]
    refine ⟨n - 1, List.mem_range.2 (by omega), ?_⟩
    rw [decide_eq_true_eq]
    right
    omega
  simp only [fromSparse, if_true]
  split
  · rfl
  · rfl

/-- **C74, columns.** A reachable sparse array, any column with at most one entry per row: the vector on each process is the column, in the rows of the
process. Missing: several entries in one position. -/
theorem C74_get_column_partial {loc : Nat → Loc V} {M : List (Entry V)} (h : C72_Reach n idim jdim loc M) (icol : Int)
    (honce : ∀ i, (M.filter fun e => e.row = i ∧ e.col = icol).length ≤ 1) {p : Nat} (hp : p < n) (r : Nat)
    (hr : (rowDistribution idim n p p).1 + r ≤ (rowDistribution idim n p p).2) :
    getColumn jdim n icol (loc p) r = elem M ((rowDistribution idim n p p).1 + r) icol := by
  obtain ⟨hn, hi, hj⟩ := C72_dims h
  obtain ⟨g, hin⟩ := C72_good h
  obtain ⟨B, b1, b2, b3, -⟩ := g p hp
  rw [C71_dist hn hi] at hr ⊢
  rw [getColumn_eq hn hj hin g hp icol honce (by simp only [Loc.nrows]; omega), b2]

end

/-! ## concrete cases -/

/-- a dense array of 3 rows and 4 columns on two processes, seen through C; process 1 has the rows 1 and 2 -/
def C74_exD (x0 x1 : Int) : Int := if x0 = 3 ∧ x1 = 1 then 5 else if x0 = x1 then 7 - x0 else if x0 = 1 ∧ x1 = 3 then 4 else 0

def C74_exBox (p : Nat) : Box := if p = 0 then ⟨1, 4, 1, 1⟩ else ⟨1, 4, 2, 3⟩

def C74_exMem (p : Nat) (k : Int) : Int := C74_exD (1 + k % 4) ((if p = 0 then 1 else 2) + k / 4)

private theorem exSpread : C74_Spread 4 3 2 C74_exBox C74_exMem C74_exD := by
  have hp : ∀ p, p < 2 → p = 0 ∨ p = 1 := by omega
  constructor
  · intro p h
    rcases hp p h with rfl | rfl <;> decide
  · intro x0 x1 a b c d
    by_cases h : x1 = 1
    · refine ⟨0, ⟨by omega, ?_⟩, ?_⟩
      · simp only [C74_exBox, if_true]
        omega
      · rintro q ⟨hq, hb⟩
        rcases hp q hq with rfl | rfl
        · rfl
        · simp only [C74_exBox, Nat.one_ne_zero, if_false] at hb
          omega
    · refine ⟨1, ⟨by omega, ?_⟩, ?_⟩
      · simp only [C74_exBox, Nat.one_ne_zero, if_false]
        omega
      · rintro q ⟨hq, hb⟩
        rcases hp q hq with rfl | rfl
        · simp only [C74_exBox, if_true] at hb
          omega
        · rfl
  · intro p h x0 x1 a b c d
    rcases hp p h with rfl | rfl
    · simp only [C74_exBox, if_true] at a b c d ⊢
      unfold C74_exMem
      rw [if_pos rfl]
      have e1 : x1 - 1 = 0 := by omega
      rw [e1]
      congr 1 <;> omega
    · simp only [C74_exBox, Nat.one_ne_zero, if_false] at a b c d ⊢
      unfold C74_exMem
      rw [if_neg (by omega)]
      congr 1 <;> omega

/-- the hypotheses of the conversion are met -/
example : C74_Spread 4 3 2 C74_exBox C74_exMem C74_exD ∧
    Interleaving 2 (program (fun p => (C71_exRaw p).list) 3 2 fun p => filterElems true (C74_exBox p) (C74_exMem p)) [(1, 1), (0, 0), (1, 0)] := by
  refine ⟨exSpread, ?_⟩
  decide +kernel

/-- the conversion of that array: parts of the last and of the first row -/
example : (fromDense C71_exRaw (fun _ => ⟨9, 9, 9⟩) true 4 3 2 C74_exBox C74_exMem [(1, 1), (0, 0), (1, 0)] [(1, 1), (1, 0), (0, 0)]).bind (fun o => (o 1).bind fun l =>
      (accessColBlock l 0).map fun w => csrRow w.idx w.jdx w.val 0) = some [(0, 4)] ∧
    (fromDense C71_exRaw (fun _ => ⟨9, 9, 9⟩) true 4 3 2 C74_exBox C74_exMem [(1, 1), (0, 0), (1, 0)] [(1, 1), (1, 0), (0, 0)]).bind (fun o => (o 0).bind fun l =>
      (accessColBlock l 1).map fun w => csrRow w.idx w.jdx w.val 0) = some [(2, 5)] := by decide +kernel

/-- **C74, negation: ghost cells.** The dense array is the two by two matrix with the rows 1, 2 and 3, 4 (through C), on one process, with one ghost cell on each side,
so the columns in memory are four elements apart. The elements of the sparse array are not those of the dense array: its second row has the content
99 of ghost cells. -/
theorem C74_ghost : let mem : Nat → Int → Int := fun _ k => if k = 0 then 1 else if k = 1 then 2 else if k = 4 then 3 else if k = 5 then 4 else 99
    (fromDense C71_exRaw (fun _ => ⟨9, 9, 9⟩) true 2 2 1 (fun _ => ⟨1, 2, 1, 2⟩) mem [(0, 0)] [(0, 0)]).bind (fun o => (o 0).bind fun l =>
      (accessColBlock l 0).map fun w => csrRow w.idx w.jdx w.val 1) = some [(1, 99), (0, 99)] := by decide +kernel

/-- an array with two rows and three columns on one process -/
def C74_exWide (_ : Nat) : List (Entry Int) := [⟨0, 2, 5⟩, ⟨1, 1, 7⟩]

def C74_exWideLoc (p : Nat) : Loc Int :=
  (((assemble C71_exRaw (fun _ => ⟨9, 9, 9⟩) 2 3 1 C74_exWide [(0, 0)] [(0, 0)]).getD fun _ => none) p).getD
    ⟨0, 0, [], [], [], fun _ => 0, fun _ => 0, fun _ => 0, 0⟩

/-- **C74, negation: more columns than rows.** The element in row 0 and column 2 is found, through C, in row 1 and column 0 of the dense array. -/
theorem C74_from_sparse_wide : (fromSparse true 2 3 1 C74_exWideLoc).map (fun D => (D.d1, D.d0, C74_user true D.at' 1 0)) = some (3, 2, 5) := by decide +kernel

/-- **C74, negation: repeated entries.** Two entries 5 and 6 are added to one position: both conversions keep only one of them, while the product with a
vector uses the sum (C72). -/
theorem C74_repeated : let o := (assemble C71_exRaw (fun _ => (⟨9, 9, 9⟩ : Entry Int)) 2 2 1 (fun _ => [⟨0, 1, 5⟩, ⟨0, 1, 6⟩]) [(0, 0)] [(0, 0)]).bind fun o => o 0
    (o.map fun l => getColumn 2 1 1 l 0) = some 5 ∧ (o.bind fun l => (fromSparse true 2 2 1 fun _ => l).map fun D => C74_user true D.at' 0 1) = some 5 ∧
      elem [(⟨0, 1, 5⟩ : Entry Int), ⟨0, 1, 6⟩] 0 1 = 11 := by decide +kernel

/-- the hypotheses of the conversion of sparse arrays and of columns are met -/
example : C72_Reach (V := Int) 2 4 4 C72_exLoc (C71_all 2 C72_ex) ∧
    (∀ e ∈ C71_all 2 C72_ex, ((C71_all 2 C72_ex).filter fun e' => e'.row = e.row ∧ e'.col = e.col).length ≤ 1) ∧
    (fromSparse true 4 4 2 C72_exLoc).map (fun D => (C74_user true D.at' 1 2, C74_user true D.at' 3 0, C74_user true D.at' 0 3)) = some (7, 5, 0) ∧
    getColumn 4 2 2 (C72_exLoc 1) 0 = 9 := ⟨C72_ex_assembled, by decide +kernel, by decide +kernel, by decide +kernel⟩

end GA
