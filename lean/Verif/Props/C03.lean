import Verif.Props.C01
import Verif.Lemmas.Decomp

/-!
# C03: the default distribution covers the array; C04: the process grid uses all processes;
C49: the default distribution is balanced and respects the chunk hints

`GA_Create` with dimensions `dims` and chunk hints `chunk` on `n` processes is
`Model.defaultArray less n dims chunk width`. `less` is the comparison of doubles used by the
heuristic that deals out the processes; the theorems hold whatever it answers.
-/

namespace GA
open Spec Model

/-- block starts of each dimension: cut the flat map into its parts -/
def axisStarts : (nblock : List Nat) → (mapc : List Int) → List (List Int)
  | n :: ns, m => m.take n :: axisStarts ns (m.drop n)
  | [], _ => []

private theorem axisStarts_flatten (maps : List (List Int)) :
    axisStarts (maps.map List.length) maps.flatten = maps := by
  induction maps with
  | nil => rfl
  | cons m maps ih => simp [axisStarts, ih]

private theorem axisMaps_strict {dims chunk blk : List Int} {pe : List Nat}
    (h : SplitOK dims chunk blk pe) :
    List.Forall₂ (fun d m => m.head? = some 1 ∧ m.Pairwise (· < ·) ∧ ∀ s ∈ m, s ≤ d) dims
      (axisMaps dims chunk blk pe) ∧
    List.Forall₂ (fun m p => m.length ≤ p) (axisMaps dims chunk blk pe) pe := by
  induction dims generalizing chunk blk pe with
  | nil =>
    match chunk, blk, pe, h with
    | [], [], [], _ => simp [axisMaps]
  | cons d ds ih =>
    match chunk, blk, pe, h with
    | c :: cs, b :: bs, p :: ps, ⟨⟨hd, hb, hp⟩, h⟩ =>
      rw [axisMaps_cons]
      exact ⟨.cons (axisOf_strict hd hb hp) (ih h).1, .cons (axisOf_spec hd hb).1 (ih h).2⟩

private theorem sum_le_prod (l : List Nat) (h : ∀ g ∈ l, 0 < g) :
    l.sum + 1 ≤ gridSize l + l.length := by
  induction l with
  | nil => simp [gridSize]
  | cons a l ih =>
    have h1 := ih fun g hg => h g (by simp [hg])
    have h2 : 0 < a := h a (by simp)
    have h3 : 0 < gridSize l := gridSize_pos_iff.2 fun g hg => h g (by simp [hg])
    simp only [List.sum_cons, gridSize, List.length_cons]
    nlinarith

/-- **C03.** `GA_Create` never fails to compute a distribution. In every dimension the block starts
begin with 1, increase strictly and stay inside the dimension; there are at most as many blocks as
processes in the process grid. Every element is owned by exactly one process, which is one of the
`n` processes and the one `NGA_Locate` returns. The map fits into the buffer of `n + ndim - 1`
entries in which the library builds it (base.c 424). -/
theorem C03_default_distribution (less : Waste → Waste → Bool) (n : Nat) (hn : 0 < n)
    (dims chunk : List Int) (width : List Nat) (hd : dims ≠ []) (hp : ∀ d ∈ dims, 1 ≤ d)
    (hc : chunk.length = dims.length) :
    ∃ A, defaultArray less n dims chunk width = some A ∧ A.dims = dims ∧
      List.Forall₂ (fun d m => m.head? = some 1 ∧ m.Pairwise (· < ·) ∧ ∀ s ∈ m, s ≤ d) dims
        (axisStarts A.nblock A.mapc) ∧
      List.Forall₂ (· ≤ ·) A.nblock (procGrid less n dims (startBlk dims chunk)) ∧
      (∀ x, InArray dims x → ∃ p, (0 ≤ p ∧ p < (n : Int)) ∧ OwnedBy A p x ∧
        (∀ q, OwnedBy A q x → q = p) ∧
        ∀ cand, CandOK A.nblock cand → locate A cand x = some p) ∧
      A.mapc.length ≤ n + dims.length - 1 := by
  obtain ⟨blk, b1, b2, b3⟩ := defaultArray_spec (less := less) (width := width) hn hd hp hc
  refine ⟨_, b3, rfl, ?_, ?_, ?_, ?_⟩
  · simp only [axisStarts_flatten]
    exact (axisMaps_strict b2).1
  · have := (axisMaps_strict b2).2
    rw [List.forall₂_map_left_iff]
    exact this
  · intro x hx
    obtain ⟨hm, hg⟩ := axes_mapOK b2
    have hA := C01_unique_owner ⟨dims, _, _, width⟩ hd hm
    rw [(procGrid_spec hn hd (startBlk_length hc)).1] at hg
    have hcand : CandOK ((axisMaps dims chunk blk
        (procGrid less n dims (startBlk dims chunk))).map List.length)
        (((axisMaps dims chunk blk
          (procGrid less n dims (startBlk dims chunk))).map List.length).map fun _ => 0) := by
      generalize (axisMaps dims chunk blk (procGrid less n dims (startBlk dims chunk))) = l
      induction l with
      | nil => simp [CandOK]
      | cons a l ih => exact ⟨Nat.zero_le _, ih⟩
    obtain ⟨p, h1, h2, h3, h4, h5⟩ := (hA _ hcand x hx.length).1 hx
    refine ⟨p, ⟨h2, ?_⟩, h4, h5, ?_⟩
    · simp only at h3; omega
    · intro cand hca
      obtain ⟨p', e1, _, _, e4, _⟩ := (hA cand hca x hx.length).1 hx
      rw [e1, h5 p' e4]
  · obtain ⟨hm, hg⟩ := axes_mapOK b2
    rw [(procGrid_spec hn hd (startBlk_length hc)).1] at hg
    obtain ⟨hl, hpos⟩ := axisMaps_length b2
    have := sum_le_prod ((axisMaps dims chunk blk
      (procGrid less n dims (startBlk dims chunk))).map List.length) (by simpa using hpos)
    rw [List.length_map, hl] at this
    simp only [List.length_flatten]
    omega

/-- **C04.** The process grid has one extent per dimension, and the product of the extents is the
number of processes. Numbering the grid coordinates is a bijection with the processes `0..n-1`. -/
theorem C04_process_grid (less : Waste → Waste → Bool) (n : Nat) (hn : 0 < n)
    (dims blk : List Int) (hd : dims ≠ []) (hb : blk.length = dims.length) :
    (procGrid less n dims blk).length = dims.length ∧ (procGrid less n dims blk).prod = n ∧
    (∀ c, List.Forall₂ (· < ·) c (procGrid less n dims blk) →
      0 ≤ computeIndex (c.map Int.ofNat) ((procGrid less n dims blk).map Int.ofNat) ∧
      computeIndex (c.map Int.ofNat) ((procGrid less n dims blk).map Int.ofNat) < n) ∧
    (∀ p : Nat, p < n → ∃ c, List.Forall₂ (· < ·) c (procGrid less n dims blk) ∧
      computeIndex (c.map Int.ofNat) ((procGrid less n dims blk).map Int.ofNat) = p ∧
      ∀ c', List.Forall₂ (· < ·) c' (procGrid less n dims blk) →
        computeIndex (c'.map Int.ofNat) ((procGrid less n dims blk).map Int.ofNat) = p → c' = c) := by
  obtain ⟨h1, h2⟩ := procGrid_spec (less := less) hn hd hb
  generalize procGrid less n dims blk = g at *
  have key : ∀ {gs c : List Nat}, List.Forall₂ (· < ·) c gs → CoordOK gs c := by
    intro gs c h
    induction h with
    | nil => simp [CoordOK]
    | cons hab _ ih => exact ⟨hab, ih⟩
  have key' : ∀ {gs c : List Nat}, CoordOK gs c → List.Forall₂ (· < ·) c gs := by
    intro gs
    induction gs with
    | nil => intro c h; cases c <;> simp_all [CoordOK]
    | cons g gs ih =>
      intro c h
      cases c with
      | nil => simp [CoordOK] at h
      | cons a c => exact .cons h.1 (ih h.2)
  have e : ∀ c : List Nat, computeIndex (c.map Int.ofNat) (g.map Int.ofNat) = (undigits g c : Int) :=
    fun c => by rw [computeIndex_eq, horner_cast]
  refine ⟨h2, by rw [← gridSize_eq_prod, h1], ?_, ?_⟩
  · intro c hc
    rw [e]
    have := undigits_lt (key hc)
    omega
  · intro p hpn
    rw [← h1] at hpn
    refine ⟨digits g p, key' (digits_ok hpn), by rw [e, undigits_digits hpn], ?_⟩
    intro c' hc' he
    rw [e] at he
    have : undigits g c' = p := by exact_mod_cast he
    rw [← this, digits_undigits (key hc')]

/-- number of elements process `p` owns in dimension `k` -/
def ownedExtent (A : RegArray) (p : Int) (k : Nat) : Int :=
  (owns A p).2.getD k 0 - (owns A p).1.getD k 0 + 1

/-- **C49.** In a dimension without a chunk hint (hint at most 1) the blocks of any two processes
that hold data differ by at most one element. In a dimension with a hint `c > 1` every block that
does not end at the end of the dimension has at least `min c dim` elements. -/
theorem C49_balanced (less : Waste → Waste → Bool) (n : Nat) (hn : 0 < n)
    (dims chunk : List Int) (width : List Nat) (hd : dims ≠ []) (hp : ∀ d ∈ dims, 1 ≤ d)
    (hc : chunk.length = dims.length) (A : RegArray)
    (hA : defaultArray less n dims chunk width = some A) (k : Nat) (hk : k < dims.length) :
    (chunk.getD k 0 ≤ 1 → ∀ p q : Int, 0 ≤ p → p < gridSize A.nblock → 0 ≤ q →
      q < gridSize A.nblock → ownedExtent A p k ≤ ownedExtent A q k + 1) ∧
    (chunk.getD k 0 > 1 → ∀ p : Int, 0 ≤ p → p < gridSize A.nblock →
      (owns A p).2.getD k 0 ≠ dims.getD k 0 →
      min (chunk.getD k 0) (dims.getD k 0) ≤ ownedExtent A p k) := by
  obtain ⟨blk, b1, b2, b3⟩ := defaultArray_spec (less := less) (width := width) hn hd hp hc
  rw [b3] at hA
  simp only [Option.some.injEq] at hA
  subst hA
  obtain ⟨hl, hpos⟩ := axisMaps_length b2
  obtain ⟨d, b, pe, e1, e2, e3, e4, e5, e6⟩ := axes_getD b2 b1 (startBlk_length hc) hk
  have hown : ∀ p : Int, 0 ≤ p → p < gridSize ((axisMaps dims chunk blk
      (procGrid less n dims (startBlk dims chunk))).map List.length) →
      ∃ j, j < (axisOf d (chunk.getD k 0) b pe).length ∧
        ownedExtent ⟨dims, (axisMaps dims chunk blk
          (procGrid less n dims (startBlk dims chunk))).map List.length, (axisMaps dims chunk blk
          (procGrid less n dims (startBlk dims chunk))).flatten, width⟩ p k =
          axisExt d (axisOf d (chunk.getD k 0) b pe) j ∧
        ((owns ⟨dims, (axisMaps dims chunk blk
          (procGrid less n dims (startBlk dims chunk))).map List.length, (axisMaps dims chunk blk
          (procGrid less n dims (startBlk dims chunk))).flatten, width⟩ p).2.getD k 0 ≠ d →
          j + 1 < (axisOf d (chunk.getD k 0) b pe).length) := by
    intro p h0 h1
    obtain ⟨j, j1, j2, j3⟩ := owns_axes _ dims hl hpos p.toNat k hk
    rw [e5] at j1 j2 j3
    rw [e1] at j3
    refine ⟨j, j1, ?_, ?_⟩
    · unfold ownedExtent axisExt owns
      rw [if_neg (by simp only; omega)]
      simp only [j2, j3]
    · intro hne
      unfold owns at hne
      rw [if_neg (by simp only; omega)] at hne
      simp only [j3] at hne
      by_contra hcon
      rw [if_pos (by omega)] at hne
      exact hne rfl
  constructor
  · intro hs p q p0 p1 q0 q1
    obtain ⟨i, i1, i2, _⟩ := hown p p0 p1
    obtain ⟨j, j1, j2, _⟩ := hown q q0 q1
    rw [i2, j2]
    have hbe := e6 (startBlk_small hc hk hs)
    rw [hbe] at i1 j1 ⊢
    have a := axisExt_balanced e2 e4 hs i1
    have b := axisExt_balanced e2 e4 hs j1
    omega
  · intro hs p p0 p1 hne
    obtain ⟨i, i1, i2, i3⟩ := hown p p0 p1
    rw [i2]
    rw [e1] at hne ⊢
    have := axisExt_chunk e2 e3 (i3 hne)
    unfold unitOf at this
    rwa [if_pos hs] at this

/-! ## Non-vacuity -/

/-- exact comparison of the quotients -/
def exLess : Waste → Waste → Bool
  | some (a, b), some (c, d) => a * d < c * b
  | some _, none => true
  | none, _ => false

example : defaultArray exLess 12 [10, 7] [0, 0] [0, 0] =
    some ⟨[10, 7], [6, 2], [1, 3, 5, 7, 9, 10, 1, 5], [0, 0]⟩ := by decide
example : defaultArray exLess 12 [10, 7] [3, -1] [0, 0] =
    some ⟨[10, 7], [4, 3], [1, 4, 7, 10, 1, 4, 6], [0, 0]⟩ := by decide
example : procGrid exLess 12 [100, 100] [-1, -1] = [3, 4] := by decide
example : primeDivs 60 = [2, 2, 3, 5] := by decide

end GA
