import Verif.Model.Decomp
import Verif.Lemmas.Distr
import Mathlib.Data.List.GetD
import Mathlib.Data.List.Chain
import Mathlib.Algebra.BigOperators.Group.List.Basic
import Mathlib.Tactic.Linarith
import Mathlib.Tactic.Ring

/-! # The default data distribution: process grid and distribution map -/

namespace GA
open Spec Model

/-! ## Prime factors -/

theorem sieve_prod {fuel n : Nat} {l : List Nat} (hn : 0 < n) (hnd : l.Nodup)
    (hl : ∀ q, q ∈ l ↔ 1 < q ∧ q ∣ n) (hf : l.length ≤ fuel) : (sieve fuel l).prod = n := by
  induction fuel generalizing n l with
  | zero =>
    have : l = [] := List.eq_nil_of_length_eq_zero (by omega)
    subst this
    have : n = 1 := by
      by_contra h
      exact absurd ((hl n).2 ⟨by omega, dvd_refl n⟩) (by simp)
    simp [sieve, this]
  | succ f ih =>
    cases l with
    | nil =>
      have : n = 1 := by
        by_contra h
        exact absurd ((hl n).2 ⟨by omega, dvd_refl n⟩) (by simp)
      simp [sieve, this]
    | cons p rest =>
      obtain ⟨hp1, k, rfl⟩ := (hl p).1 (by simp)
      have hk : 0 < k := by
        rcases Nat.eq_zero_or_pos k with h | h
        · subst h; simp at hn
        · exact h
      simp only [sieve, List.prod_cons]
      rw [ih hk]
      · apply List.Nodup.map_on
        · intro x hx y hy hxy
          simp only [List.mem_filter, decide_eq_true_eq] at hx hy
          have hx' := Nat.div_add_mod x p
          have hy' := Nat.div_add_mod y p
          rw [hx.2] at hx'
          rw [hy.2] at hy'
          rw [← hx', ← hy', hxy]
        · exact (List.nodup_cons.1 hnd).2.filter _
      · intro q
        simp only [List.mem_map, List.mem_filter, decide_eq_true_eq]
        constructor
        · rintro ⟨x, ⟨hx, hxp⟩, rfl⟩
          obtain ⟨hx1, hxn⟩ := (hl x).1 (by simp [hx])
          obtain ⟨y, rfl⟩ := Nat.dvd_of_mod_eq_zero hxp
          rw [Nat.mul_div_cancel_left y (by omega)]
          refine ⟨?_, Nat.dvd_of_mul_dvd_mul_left (by omega) hxn⟩
          by_contra hy
          have : y = 0 ∨ y = 1 := by omega
          rcases this with rfl | rfl
          · simp at hx1
          · exact (List.nodup_cons.1 hnd).1 (by simpa using hx)
        · rintro ⟨h1, h2⟩
          have hmem : p * q ∈ p :: rest := by
            refine (hl _).2 ⟨?_, Nat.mul_dvd_mul_left p h2⟩
            nlinarith
          rcases List.mem_cons.1 hmem with h | h
          · exfalso
            have : p * q = p * 1 := by simpa using h
            have := Nat.eq_of_mul_eq_mul_left (by omega) this
            omega
          · exact ⟨p * q, ⟨h, by simp⟩, Nat.mul_div_cancel_left q (by omega)⟩
      · rw [List.length_map]
        have := List.length_filter_le (fun q => decide (q % p = 0)) rest
        simp only [List.length_cons] at hf
        omega

theorem divisors_drop {n : Nat} (hn : 0 < n) :
    ((divisors n).drop 1).Nodup ∧ (∀ q, q ∈ (divisors n).drop 1 ↔ 1 < q ∧ q ∣ n) ∧
      ((divisors n).drop 1).length ≤ n := by
  obtain ⟨k, rfl⟩ : ∃ k, n = k + 1 := ⟨n - 1, by omega⟩
  have e : divisors (k + 1) = 1 :: (List.range' 2 k).filter fun i => (k + 1) % i = 0 := by
    unfold divisors
    rw [List.range'_succ, List.filter_cons]
    simp [Nat.mod_one]
  rw [e]
  simp only [List.drop_succ_cons, List.drop_zero]
  refine ⟨(List.nodup_range' (step := 1)).filter _, ?_, ?_⟩
  · intro q
    simp only [List.mem_filter, List.mem_range'_1, decide_eq_true_eq]
    constructor
    · rintro ⟨⟨h1, h2⟩, h3⟩
      exact ⟨by omega, Nat.dvd_of_mod_eq_zero h3⟩
    · rintro ⟨h1, h2⟩
      have := Nat.le_of_dvd (by omega) h2
      exact ⟨⟨by omega, by omega⟩, Nat.mod_eq_zero_of_dvd h2⟩
  · have := List.length_filter_le (fun i => decide ((k + 1) % i = 0)) (List.range' 2 k)
    rw [List.length_range'] at this
    omega

theorem primeDivs_prod {n : Nat} (hn : 0 < n) : (primeDivs n).prod = n := by
  obtain ⟨h1, h2, h3⟩ := divisors_drop hn
  exact sieve_prod hn h1 h2 h3

/-! ## Process grid -/

theorem gridSize_eq_prod (l : List Nat) : gridSize l = l.prod := by
  induction l with
  | nil => rfl
  | cons a l ih => simp [gridSize, ih]

theorem gridSize_modify {l : List Nat} {h p : Nat} (hh : h < l.length) :
    gridSize (l.modify h (· * p)) = gridSize l * p := by
  induction l generalizing h with
  | nil => simp at hh
  | cons a l ih =>
    cases h with
    | zero => simp only [List.modify_zero_cons, gridSize]; ring
    | succ h =>
      simp only [List.modify_succ_cons, gridSize]
      rw [ih (by simpa using hh), Nat.mul_assoc]

theorem pickLoop_lt {less : Waste → Waste → Bool} {tard : List Int} {pe : List Nat}
    {p0 istart k j h : Nat} {q : Waste} (hh : h < tard.length) :
    pickLoop less tard pe p0 istart k j q h < tard.length := by
  induction k generalizing j q h with
  | zero => exact hh
  | succ k ih =>
    simp only [pickLoop]
    split
    · exact ih (Nat.mod_lt _ (by omega))
    · exact ih hh

theorem deal_spec {less : Waste → Waste → Bool} {tard : List Int} {fs : List Nat} {istart : Nat}
    {pe : List Nat} (hl : pe.length = tard.length) (hi : istart < tard.length) :
    gridSize (deal less tard fs istart pe) = gridSize pe * fs.prod ∧
      (deal less tard fs istart pe).length = tard.length := by
  induction fs generalizing istart pe with
  | nil => simp [deal, hl]
  | cons p fs ih =>
    simp only [deal, List.prod_cons]
    have h1 : (dealOne less tard pe p istart).length = tard.length := by
      simp [dealOne, hl]
    obtain ⟨a, b⟩ := ih (istart := (istart + 1) % tard.length) h1 (Nat.mod_lt _ (by omega))
    refine ⟨?_, b⟩
    rw [a, dealOne, gridSize_modify (by rw [hl]; exact pickLoop_lt hi), Nat.mul_assoc]

theorem granules_length {dims blk : List Int} (h : blk.length = dims.length) :
    (granules dims blk).length = dims.length := by
  induction dims generalizing blk with
  | nil => simp [granules]
  | cons d ds ih =>
    match blk, h with
    | b :: bs, h => simp [granules, ih (blk := bs) (by simpa using h)]

theorem gridSize_ones (dims : List Int) : gridSize (dims.map fun _ => 1) = 1 := by
  induction dims with
  | nil => rfl
  | cons d ds ih => simpa [gridSize] using ih

theorem procGrid_spec {less : Waste → Waste → Bool} {n : Nat} {dims blk : List Int} (hn : 0 < n)
    (hd : dims ≠ []) (hb : blk.length = dims.length) :
    gridSize (procGrid less n dims blk) = n ∧ (procGrid less n dims blk).length = dims.length := by
  have hg := granules_length hb
  have hpos : 0 < dims.length := List.length_pos_iff.2 hd
  obtain ⟨a, b⟩ := deal_spec (less := less) (tard := granules dims blk)
    (fs := (primeDivs n).reverse) (istart := 0) (pe := dims.map fun _ => 1) (by simp [hg])
    (by omega)
  refine ⟨?_, by rw [procGrid, b, hg]⟩
  rw [procGrid, a, gridSize_ones, Nat.one_mul, List.prod_reverse, primeDivs_prod hn]

theorem gridSize_pos_iff {l : List Nat} : 0 < gridSize l ↔ ∀ g ∈ l, 0 < g := by
  induction l with
  | nil => simp [gridSize]
  | cons a l ih => simp [gridSize, ih, Nat.mul_pos_iff_of_pos_left, Nat.pos_iff_ne_zero]

/-! ## One axis of the map -/

/-- elements (in units) before block `p` -/
def unitsBefore (b pcut : Int) (p : Nat) : Int := p * (b - 1) + max 0 (min (p : Int) pcut)

theorem unitsBefore_succ (b pcut : Int) (p : Nat) :
    unitsBefore b pcut (p + 1) = unitsBefore b pcut p + (if (p : Int) ≥ pcut then b - 1 else b) := by
  unfold unitsBefore
  have : ((p + 1 : Nat) : Int) * (b - 1) = p * (b - 1) + (b - 1) := by push_cast; ring
  rw [this]
  split <;> push_cast <;> omega

/-- the unit of an axis: the chunk hint, or one -/
def unitOf (d c : Int) : Int := if c > 1 then min c d else 1

/-- number of units of an axis -/
def unitsOf (d c : Int) : Int := if c > 1 then (d - 1) / min c d + 1 else d

theorem unitOf_pos {d c : Int} (hd : 1 ≤ d) : 1 ≤ unitOf d c := by
  unfold unitOf; split <;> omega

theorem unitsOf_cover {d c : Int} (hd : 1 ≤ d) : d ≤ unitOf d c * unitsOf d c := by
  unfold unitOf unitsOf
  split
  · have h : 0 < min c d := by omega
    have := Int.lt_ediv_add_one_mul_self (d - 1) h
    nlinarith
  · omega

theorem unitsOf_tight {d c : Int} (hd : 1 ≤ d) : unitOf d c * (unitsOf d c - 1) < d := by
  unfold unitOf unitsOf
  split
  · have h : 0 < min c d := by omega
    have := Int.ediv_mul_le (d - 1) (b := min c d) (by omega)
    nlinarith
  · omega

theorem pcutOf_eq (d c b : Int) (pe : Nat) : pcutOf d c b pe = unitsOf d c - (b - 1) * pe := by
  unfold pcutOf unitsOf; split <;> rfl

theorem blkLen_eq (d c b pcut : Int) (p : Nat) :
    blkLen d c b pcut p = unitOf d c * (if (p : Int) ≥ pcut then b - 1 else b) := by
  unfold blkLen unitOf
  split <;> split <;> ring

/-- as long as there are elements left, the next block has at least one unit -/
theorem step_pos {d c b : Int} {pe p : Nat} (hd : 1 ≤ d) (hb : 1 ≤ b)
    (hi : unitOf d c * unitsBefore b (pcutOf d c b pe) p < d) :
    1 ≤ (if (p : Int) ≥ pcutOf d c b pe then b - 1 else b) := by
  split
  · rename_i h
    by_contra hlt
    have hb1 : b = 1 := by omega
    subst hb1
    rw [pcutOf_eq] at hi h
    have h1 := unitsOf_cover (c := c) hd
    have h2 : unitsOf d c - (1 - 1) * (pe : Int) = unitsOf d c := by ring
    rw [h2] at hi h
    have h3 : 0 < unitsOf d c := by
      have := unitOf_pos (c := c) hd
      by_contra hn
      nlinarith
    have h4 : unitsBefore 1 (unitsOf d c) p = unitsOf d c := by
      unfold unitsBefore
      simp only [sub_self, mul_zero, zero_add]
      omega
    rw [h4] at hi
    omega
  · exact hb

theorem axisMap_spec {d c b : Int} {pe : Nat} (hd : 1 ≤ d) (hb : 1 ≤ b) (k p : Nat) :
    let l := axisMap d c b (pcutOf d c b pe) k p
      (unitOf d c * unitsBefore b (pcutOf d c b pe) p)
    l.length ≤ k ∧
    (∀ j, j < l.length → l.getD j 0 = unitOf d c * unitsBefore b (pcutOf d c b pe) (p + j) + 1 ∧
      unitOf d c * unitsBefore b (pcutOf d c b pe) (p + j) < d) ∧
    (l.length < k → d ≤ unitOf d c * unitsBefore b (pcutOf d c b pe) (p + l.length)) := by
  induction k generalizing p with
  | zero => simp [axisMap]
  | succ k ih =>
    simp only [axisMap]
    split
    · rename_i hi
      have e : unitOf d c * unitsBefore b (pcutOf d c b pe) p + blkLen d c b (pcutOf d c b pe) p =
          unitOf d c * unitsBefore b (pcutOf d c b pe) (p + 1) := by
        rw [unitsBefore_succ, blkLen_eq]; ring
      rw [e]
      obtain ⟨i1, i2, i3⟩ := ih (p + 1)
      refine ⟨by simpa using i1, ?_, ?_⟩
      · intro j hj
        cases j with
        | zero => exact ⟨rfl, hi⟩
        | succ j =>
          have := i2 j (by simpa using hj)
          rw [show p + (j + 1) = p + 1 + j by omega]
          simpa only [List.getD_cons_succ] using this
      · intro hlt
        simp only [List.length_cons] at hlt ⊢
        rw [← Nat.add_assoc, Nat.add_right_comm]
        exact i3 (by omega)
    · rename_i hi
      refine ⟨by simp, by simp, ?_⟩
      intro _
      simpa using hi

theorem unitsBefore_lt {d c b : Int} {pe p : Nat} (hd : 1 ≤ d) (hb : 1 ≤ b)
    (hi : unitOf d c * unitsBefore b (pcutOf d c b pe) p < d) :
    unitOf d c * unitsBefore b (pcutOf d c b pe) p + unitOf d c ≤
      unitOf d c * unitsBefore b (pcutOf d c b pe) (p + 1) := by
  have h1 := step_pos hd hb hi
  have h2 := unitOf_pos (c := c) hd
  rw [unitsBefore_succ]
  nlinarith

/-- the map of one axis -/
def axisOf (d c b : Int) (pe : Nat) : List Int := axisMap d c b (pcutOf d c b pe) pe 0 0

theorem axisOf_spec {d c b : Int} {pe : Nat} (hd : 1 ≤ d) (hb : 1 ≤ b) :
    (axisOf d c b pe).length ≤ pe ∧
    (∀ j, j < (axisOf d c b pe).length →
      (axisOf d c b pe).getD j 0 = unitOf d c * unitsBefore b (pcutOf d c b pe) j + 1 ∧
      unitOf d c * unitsBefore b (pcutOf d c b pe) j < d) ∧
    ((axisOf d c b pe).length < pe →
      d ≤ unitOf d c * unitsBefore b (pcutOf d c b pe) (axisOf d c b pe).length) := by
  have h := axisMap_spec (c := c) (pe := pe) hd hb pe 0
  have h0 : unitsBefore b (pcutOf d c b pe) 0 = 0 := by
    unfold unitsBefore; push_cast; omega
  simp only [h0, mul_zero, Nat.zero_add] at h
  exact h

theorem axisOf_pos {d c b : Int} {pe : Nat} (hd : 1 ≤ d) (hb : 1 ≤ b) (hp : 0 < pe) :
    0 < (axisOf d c b pe).length := by
  obtain ⟨k, rfl⟩ : ∃ k, pe = k + 1 := ⟨pe - 1, by omega⟩
  unfold axisOf
  simp only [axisMap]
  rw [if_pos (by omega)]
  simp

/-- consecutive block starts -/
theorem axisOf_step {d c b : Int} {pe j : Nat} (hd : 1 ≤ d) (hb : 1 ≤ b)
    (hj : j + 1 < (axisOf d c b pe).length) :
    (axisOf d c b pe).getD j 0 + unitOf d c ≤ (axisOf d c b pe).getD (j + 1) 0 := by
  obtain ⟨_, h2, _⟩ := axisOf_spec (c := c) (pe := pe) hd hb
  obtain ⟨e1, l1⟩ := h2 j (by omega)
  obtain ⟨e2, l2⟩ := h2 (j + 1) hj
  have := unitsBefore_lt hd hb l1
  omega

theorem pairwise_of_step {l : List Int} (h : ∀ j, j + 1 < l.length → l.getD j 0 < l.getD (j + 1) 0) :
    l.Pairwise (· < ·) := by
  have key : l.IsChain (· < ·) := by
    rw [List.isChain_iff_getElem]
    intro i hi
    have := h i hi
    simpa [List.getD_eq_getElem?_getD, List.getElem?_eq_getElem, show i < l.length by omega, hi]
      using this
  exact key.pairwise

theorem axisOf_strict {d c b : Int} {pe : Nat} (hd : 1 ≤ d) (hb : 1 ≤ b) (hp : 0 < pe) :
    (axisOf d c b pe).head? = some 1 ∧ (axisOf d c b pe).Pairwise (· < ·) ∧
      ∀ m ∈ axisOf d c b pe, m ≤ d := by
  have hpos := axisOf_pos (c := c) hd hb hp
  obtain ⟨_, h2, _⟩ := axisOf_spec (c := c) (pe := pe) hd hb
  refine ⟨?_, ?_, ?_⟩
  · obtain ⟨k, rfl⟩ : ∃ k, pe = k + 1 := ⟨pe - 1, by omega⟩
    unfold axisOf
    simp only [axisMap]
    rw [if_pos (by omega)]
    simp
  · apply pairwise_of_step
    intro j hj
    have := axisOf_step hd hb hj
    have := unitOf_pos (c := c) hd
    omega
  · intro m hm
    obtain ⟨j, hj, rfl⟩ := List.getElem_of_mem hm
    obtain ⟨e1, l1⟩ := h2 j hj
    rw [List.getD_eq_getElem?_getD, List.getElem?_eq_getElem hj, Option.getD_some] at e1
    omega

/-! ## All axes -/

/-- the parameters of all axes are sensible -/
def SplitOK : (dims chunk blk : List Int) → (pe : List Nat) → Prop
  | d :: ds, _ :: cs, b :: bs, p :: ps => (1 ≤ d ∧ 1 ≤ b ∧ 0 < p) ∧ SplitOK ds cs bs ps
  | [], [], [], [] => True
  | _, _, _, _ => False

theorem gridBlk_axes {dims chunk blk0 : List Int} {pe : List Nat} (hd : ∀ d ∈ dims, 1 ≤ d)
    (hc : chunk.length = dims.length) (hb : blk0.length = dims.length)
    (hp : pe.length = dims.length) (hpos : ∀ p ∈ pe, 0 < p) :
    ∃ blk, gridBlk (granules dims blk0) pe = some blk ∧ SplitOK dims chunk blk pe := by
  induction dims generalizing chunk blk0 pe with
  | nil =>
    simp only [List.length_nil, List.length_eq_zero_iff] at hc hb hp
    subst hc; subst hp
    exact ⟨[], by simp [granules, gridBlk], trivial⟩
  | cons d ds ih =>
    match chunk, blk0, pe, hc, hb, hp with
    | c :: cs, b :: bs, p :: ps, hc, hb, hp =>
      obtain ⟨blk, h1, h2⟩ := ih (chunk := cs) (blk0 := bs) (pe := ps)
        (fun x hx => hd x (by simp [hx])) (by simpa using hc) (by simpa using hb)
        (by simpa using hp) (fun x hx => hpos x (by simp [hx]))
      have hp0 : 0 < p := hpos p (by simp)
      simp only [granules, gridBlk]
      rw [if_neg (by omega), h1]
      refine ⟨_, rfl, ⟨hd d (by simp), ?_, hp0⟩, h2⟩
      generalize (d + (if b < 1 then 1 else b) - 1) / (if b < 1 then 1 else b) = t
      have ht : 1 ≤ if t < 1 then 1 else t := by split <;> omega
      generalize (if t < 1 then 1 else t) = t' at ht
      rw [Int.le_ediv_iff_mul_le (by exact_mod_cast hp0)]
      omega

theorem axisMaps_cons (d c b : Int) (p : Nat) (ds cs bs : List Int) (ps : List Nat) :
    axisMaps (d :: ds) (c :: cs) (b :: bs) (p :: ps) = axisOf d c b p :: axisMaps ds cs bs ps := rfl

theorem axes_mapOK {dims chunk blk : List Int} {pe : List Nat} (h : SplitOK dims chunk blk pe) :
    MapOK ((axisMaps dims chunk blk pe).map List.length) dims (axisMaps dims chunk blk pe).flatten ∧
      gridSize ((axisMaps dims chunk blk pe).map List.length) ≤ gridSize pe := by
  induction dims generalizing chunk blk pe with
  | nil =>
    match chunk, blk, pe, h with
    | [], [], [], _ => simp [axisMaps, MapOK]
  | cons d ds ih =>
    match chunk, blk, pe, h with
    | c :: cs, b :: bs, p :: ps, ⟨⟨hd, hb, hp⟩, h⟩ =>
      obtain ⟨i1, i2⟩ := ih h
      rw [axisMaps_cons]
      simp only [List.map_cons, List.flatten_cons, MapOK, gridSize]
      obtain ⟨s1, s2, s3⟩ := axisOf_strict (c := c) hd hb hp
      refine ⟨⟨⟨axisOf_pos hd hb hp, by simp, hd, ?_⟩, ?_⟩, ?_⟩
      · rw [List.take_left]
        exact ⟨s1, s2.imp (fun h => by omega), fun m hm => by have := s3 m hm; omega⟩
      · rw [List.drop_left]
        exact i1
      · exact Nat.mul_le_mul (axisOf_spec hd hb).1 i2

theorem startBlk_length {dims chunk : List Int} (h : chunk.length = dims.length) :
    (startBlk dims chunk).length = dims.length := by
  unfold startBlk
  split <;> simp [h]

theorem defaultArray_spec {less : Waste → Waste → Bool} {n : Nat} {dims chunk : List Int}
    {width : List Nat} (hn : 0 < n) (hd : dims ≠ []) (hp : ∀ d ∈ dims, 1 ≤ d)
    (hc : chunk.length = dims.length) :
    ∃ blk, gridBlk (granules dims (startBlk dims chunk))
        (procGrid less n dims (startBlk dims chunk)) = some blk ∧
      SplitOK dims chunk blk (procGrid less n dims (startBlk dims chunk)) ∧
      defaultArray less n dims chunk width = some
        ⟨dims, (axisMaps dims chunk blk (procGrid less n dims (startBlk dims chunk))).map List.length,
          (axisMaps dims chunk blk (procGrid less n dims (startBlk dims chunk))).flatten, width⟩ := by
  have hb := startBlk_length hc
  obtain ⟨g1, g2⟩ := procGrid_spec (less := less) hn hd hb
  obtain ⟨blk, b1, b2⟩ := gridBlk_axes hp hc hb g2 (gridSize_pos_iff.1 (by rw [g1]; exact hn))
  exact ⟨blk, b1, b2, by simp [defaultArray, b1]⟩

/-! ## Sizes of the blocks -/

/-- extent of block `j` of an axis -/
def axisExt (d : Int) (l : List Int) (j : Nat) : Int :=
  (if j = l.length - 1 then d else l.getD (j + 1) 0 - 1) - l.getD j 0 + 1

theorem axisExt_chunk {d c b : Int} {pe j : Nat} (hd : 1 ≤ d) (hb : 1 ≤ b)
    (hj : j + 1 < (axisOf d c b pe).length) :
    unitOf d c ≤ axisExt d (axisOf d c b pe) j := by
  have := axisOf_step hd hb hj
  unfold axisExt
  rw [if_neg (by omega)]
  omega

theorem axisExt_balanced {d c : Int} {pe j : Nat} (hd : 1 ≤ d) (hp : 0 < pe) (hc : c ≤ 1)
    (hj : j < (axisOf d c ((d + pe - 1) / pe) pe).length) :
    (d + pe - 1) / pe - 1 ≤ axisExt d (axisOf d c ((d + pe - 1) / pe) pe) j ∧
      axisExt d (axisOf d c ((d + pe - 1) / pe) pe) j ≤ (d + pe - 1) / pe := by
  have hpz : (0 : Int) < pe := by exact_mod_cast hp
  have hlo : ((d + pe - 1) / pe) * (pe : Int) ≤ d + pe - 1 := Int.ediv_mul_le _ (by omega)
  have hhi : d + pe - 1 < ((d + pe - 1) / pe + 1) * (pe : Int) := Int.lt_ediv_add_one_mul_self _ hpz
  generalize (d + pe - 1) / (pe : Int) = b at *
  have hb : 1 ≤ b := by
    by_contra h
    nlinarith
  obtain ⟨a1, a2, a3⟩ := axisOf_spec (c := c) (pe := pe) hd hb
  have hu : unitOf d c = 1 := by unfold unitOf; rw [if_neg (by omega)]
  have hcut : pcutOf d c b pe = d - (b - 1) * pe := by unfold pcutOf; rw [if_neg (by omega)]
  rw [hu] at a2 a3
  have hcut1 : 1 ≤ pcutOf d c b pe ∧ pcutOf d c b pe ≤ pe := by rw [hcut]; constructor <;> nlinarith
  generalize hl : axisOf d c b pe = l at *
  have hmono : ∀ p q : Nat, p ≤ q → unitsBefore b (pcutOf d c b pe) p ≤
      unitsBefore b (pcutOf d c b pe) q := by
    intro p q hpq
    induction q, hpq using Nat.le_induction with
    | base => exact le_refl _
    | succ q _ ih =>
      rw [unitsBefore_succ]
      split <;> omega
  have hend : unitsBefore b (pcutOf d c b pe) pe = d := by
    unfold unitsBefore
    rw [min_eq_right hcut1.2, max_eq_right (by omega), hcut]
    ring
  have hn : unitsBefore b (pcutOf d c b pe) l.length = d := by
    rcases Nat.lt_or_ge l.length pe with h | h
    · have h1 := a3 h
      have h2 := hmono _ _ a1
      omega
    · rw [show l.length = pe by omega, hend]
  have hsz : axisExt d l j = unitsBefore b (pcutOf d c b pe) (j + 1) -
      unitsBefore b (pcutOf d c b pe) j := by
    unfold axisExt
    have e1 := (a2 j hj).1
    split
    · rename_i h
      rw [show j + 1 = l.length by omega, hn]
      omega
    · have e2 := (a2 (j + 1) (by omega)).1
      omega
  rw [hsz, unitsBefore_succ]
  split <;> omega

/-- the bounds of a block, dimension by dimension -/
theorem owns_axes (maps : List (List Int)) (dims : List Int) (hl : maps.length = dims.length)
    (hpos : ∀ m ∈ maps, 0 < m.length) (idx k : Nat) (hk : k < dims.length) :
    ∃ j, j < (maps.getD k []).length ∧
      (ownsLo (maps.map List.length) maps.flatten idx).getD k 0 = (maps.getD k []).getD j 0 ∧
      (ownsHi (maps.map List.length) dims maps.flatten idx).getD k 0 =
        (if j = (maps.getD k []).length - 1 then dims.getD k 0 else (maps.getD k []).getD (j + 1) 0 - 1) := by
  induction maps generalizing dims idx k with
  | nil => simp at hl; omega
  | cons m maps ih =>
    match dims, hl with
    | d :: ds, hl =>
      have hm : 0 < m.length := hpos m (by simp)
      simp only [List.map_cons, List.flatten_cons, ownsLo, ownsHi, List.drop_left]
      cases k with
      | zero =>
        refine ⟨idx % m.length, Nat.mod_lt _ hm, ?_, ?_⟩
        · simp only [List.getD_cons_zero]
          rw [List.getD_append _ _ _ _ (Nat.mod_lt _ hm)]
        · simp only [List.getD_cons_zero]
          split
          · rfl
          · have := Nat.mod_lt idx hm
            rw [List.getD_append _ _ _ _ (by omega)]
      | succ k =>
        simp only [List.getD_cons_succ]
        exact ih ds (by simpa using hl) (fun x hx => hpos x (by simp [hx])) (idx / m.length) k
          (by simpa using hk)

theorem axisMaps_length {dims chunk blk : List Int} {pe : List Nat} (h : SplitOK dims chunk blk pe) :
    (axisMaps dims chunk blk pe).length = dims.length ∧
      ∀ m ∈ axisMaps dims chunk blk pe, 0 < m.length := by
  induction dims generalizing chunk blk pe with
  | nil =>
    match chunk, blk, pe, h with
    | [], [], [], _ => simp [axisMaps]
  | cons d ds ih =>
    match chunk, blk, pe, h with
    | c :: cs, b :: bs, p :: ps, ⟨⟨hd, hb, hp⟩, h⟩ =>
      obtain ⟨i1, i2⟩ := ih h
      rw [axisMaps_cons]
      refine ⟨by simp [i1], ?_⟩
      intro m hm
      rcases List.mem_cons.1 hm with rfl | hm
      · exact axisOf_pos hd hb hp
      · exact i2 m hm

/-- the parameters of axis `k` -/
theorem axes_getD {dims chunk blk0 blk : List Int} {pe : List Nat} (h : SplitOK dims chunk blk pe)
    (hb : gridBlk (granules dims blk0) pe = some blk) (hl : blk0.length = dims.length) {k : Nat}
    (hk : k < dims.length) :
    ∃ d b p, dims.getD k 0 = d ∧ 1 ≤ d ∧ 1 ≤ b ∧ 0 < p ∧
      (axisMaps dims chunk blk pe).getD k [] = axisOf d (chunk.getD k 0) b p ∧
      (blk0.getD k 0 ≤ 1 → b = (d + (p : Int) - 1) / p) := by
  induction dims generalizing chunk blk0 blk pe k with
  | nil => simp at hk
  | cons d ds ih =>
    match chunk, blk, pe, blk0, h, hl with
    | c :: cs, b :: bs, p :: ps, b0 :: bs0, ⟨⟨hd, hb1, hp⟩, h⟩, hl =>
      simp only [granules, gridBlk] at hb
      rw [if_neg (by omega)] at hb
      obtain ⟨r, hr, e⟩ := Option.map_eq_some_iff.1 hb
      simp only [List.cons.injEq] at e
      rw [axisMaps_cons]
      cases k with
      | zero =>
        refine ⟨d, b, p, rfl, hd, hb1, hp, rfl, ?_⟩
        intro h0
        simp only [List.getD_cons_zero] at h0
        rw [← e.1]
        have : (if b0 < 1 then 1 else b0) = 1 := by split <;> omega
        rw [this]
        simp only [add_sub_cancel_right, Int.ediv_one]
        rw [if_neg (by omega)]
      | succ k =>
        simp only [List.getD_cons_succ]
        exact ih h (hr.trans (congrArg some e.2)) (by simpa using hl) (by simpa using hk)

theorem startBlk_small {dims chunk : List Int} (hc : chunk.length = dims.length) {k : Nat}
    (hk : k < dims.length) (h : chunk.getD k 0 ≤ 1) : (startBlk dims chunk).getD k 0 ≤ 1 := by
  have hk' : k < chunk.length := by omega
  unfold startBlk
  rw [List.getD_eq_getElem?_getD, List.getElem?_eq_getElem hk', Option.getD_some] at h
  split
  · rw [List.getD_eq_getElem?_getD, List.getElem?_map, List.getElem?_zip_eq_some (z := (dims[k], min chunk[k] dims[k])) |>.2 ?_]
    · simp only [Option.map_some, Option.getD_some]
      split
      · omega
      · exact le_trans (min_le_left _ _) h
    · refine ⟨List.getElem?_eq_getElem hk, ?_⟩
      rw [List.getElem?_map, List.getElem?_zip_eq_some (z := (chunk[k], dims[k])) |>.2
        ⟨List.getElem?_eq_getElem hk', List.getElem?_eq_getElem hk⟩]
      rfl
  · rw [List.getD_eq_getElem?_getD, List.getElem?_map, List.getElem?_zip_eq_some (z := (dims[k], -1)) |>.2 ?_]
    · simp only [Option.map_some, Option.getD_some]
      split <;> omega
    · refine ⟨List.getElem?_eq_getElem hk, ?_⟩
      rw [List.getElem?_map, List.getElem?_eq_getElem hk]
      rfl

end GA
