import Verif.Model.BlockRegion
import Verif.Lemmas.BlockCell
import Verif.Props.C05
import Verif.Props.C08

/-!
# C63: `NGA_Locate_region`, `NGA_Locate_nnodes` and `NGA_Locate_num_blocks` on block-cyclic and tiled arrays
-/

namespace GA
open Spec Model

/-- The property, for one call: it succeeds exactly for legal patches; the reported pieces cover every element of the patch exactly
once and nothing else, and the elements of each piece lie in the block reported with it. -/
def RegionRight (A : BArray) (lo hi : List Int) (r : Option (List Piece)) : Prop :=
  (PatchOK A.dims lo hi ↔ ∃ ps, r = some ps) ∧
  ∀ ps, r = some ps →
    (∀ x, timesVisited (ps.map fun p => (p.plo, p.phi)) x = if InPatch lo hi x then 1 else 0) ∧
    ∀ p ∈ ps, ∃ b : Nat, p.proc = b ∧ b < bTotal A ∧ ∀ x, InPatch p.plo p.phi x → InBlock A b x

/-- the extent of a block in some dimension contains that of the patch and goes beyond it on both sides -/
def Surrounds : (blo bhi lo hi : List Int) → Prop
  | bl :: blo, bh :: bhi, l :: lo, h :: hi => (bl < l ∧ h < bh) ∨ Surrounds blo bhi lo hi
  | _, _, _, _ => False

private def decSurrounds : (blo bhi lo hi : List Int) → Decidable (Surrounds blo bhi lo hi)
  | bl :: blo, bh :: bhi, l :: lo, h :: hi =>
    match decSurrounds blo bhi lo hi with
    | isTrue g => isTrue (Or.inr g)
    | isFalse g =>
      if c : bl < l ∧ h < bh then isTrue (Or.inl c) else isFalse (fun k => k.elim c g)
  | [], _, _, _ => isFalse (by simp [Surrounds])
  | _ :: _, [], _, _ => isFalse (by simp [Surrounds])
  | _ :: _, _ :: _, [], _ => isFalse (by simp [Surrounds])
  | _ :: _, _ :: _, _ :: _, [] => isFalse (by simp [Surrounds])

instance (blo bhi lo hi : List Int) : Decidable (Surrounds blo bhi lo hi) := decSurrounds blo bhi lo hi

/-- the patch consists of whole blocks -/
def WholeBlocks (A : BArray) (lo hi : List Int) : Prop :=
  ∀ b, b < bTotal A → ∀ x y, InBlock A b x → InBlock A b y → InPatch lo hi x → InPatch lo hi y

private theorem succeeds {A : BArray} {cT cB : List Nat} {lo hi : List Int} :
    PatchOK A.dims lo hi ↔ ∃ ps, locateBlocks A cT cB lo hi = some ps := by
  unfold locateBlocks
  by_cases hr : regionOK A.dims lo hi = true
  · rw [if_pos hr]
    refine ⟨fun _ => ?_, fun _ => regionOK_iff.1 hr⟩
    cases A.kind <;> exact ⟨_, rfl⟩
  · rw [if_neg hr]
    constructor
    · intro h; exact absurd (regionOK_iff.2 h) hr
    · rintro ⟨_, h⟩; simp at h

private theorem legal_of {A : BArray} {cT cB : List Nat} {lo hi : List Int} {ps : List Piece}
    (h : locateBlocks A cT cB lo hi = some ps) : PatchOK A.dims lo hi := succeeds.2 ⟨_, h⟩

private theorem bOwns_coord {A : BArray} (h : BOK A) {c : List Nat} (hc : CoordOK A.nblocks c) :
    bOwns A (undigits A.nblocks c) = (cLo A c, cHi A c) := by
  rw [bOwns_eq h (undigits_lt hc), digits_undigits hc]
  rfl

/-- **C63 for irregular tiles.** -/
theorem C63_tiled_irreg (A : BArray) (hA : Created A) (hk : A.kind = .tiledIrreg) (candT candB : List Nat)
    (hT : CandOK A.nblocks candT) (hB : CandOK A.nblocks candB) (lo hi : List Int) :
    RegionRight A lo hi (locateBlocks A candT candB lo hi) := by
  have h := hA.ok
  have hmap : MapOK A.nblocks A.dims A.mapc := by
    have := h.map
    simp only [starts, hk, if_true] at this
    exact this
  refine ⟨succeeds, ?_⟩
  intro ps hps
  have hok := legal_of hps
  unfold locateBlocks at hps
  rw [if_pos (regionOK_iff.2 hok), hk] at hps
  simp only [Option.some.injEq] at hps
  obtain ⟨rs, hrs⟩ : ∃ rs, locateRegion ⟨A.dims, A.nblocks, A.mapc, []⟩ candT candB lo hi = some rs := by
    unfold locateRegion
    rw [if_pos (regionOK_iff.2 hok)]
    exact ⟨_, rfl⟩
  obtain ⟨s1, s2⟩ := locateRegion_spec hmap hT hB hrs
  have heq : rs = ps := by
    have hrs' := hrs
    unfold locateRegion at hrs'
    rw [if_pos (regionOK_iff.2 hok), Option.some.injEq] at hrs'
    rw [← hrs', ← hps]
    refine List.map_congr_left ?_
    intro s hs
    dsimp only
    obtain ⟨c, c1, c2, c3, c4⟩ := s2 _ (hrs' ▸ List.mem_map_of_mem hs)
    dsimp only at c1 c2 c3 c4
    rw [c3, c4, c2, Int.toNat_natCast, bOwns_coord h c1]
    simp only [cLo, cHi, starts, hk, if_true]
  subst heq
  constructor
  · intro x
    apply countP_cover
    rw [List.flatMap_map]
    exact s1
  · intro p hp
    obtain ⟨c, c1, c2, c3, c4⟩ := s2 p hp
    refine ⟨undigits A.nblocks c, c2, undigits_lt c1, ?_⟩
    intro x hx
    unfold InBlock
    rw [bOwns_coord h c1]
    rw [c3, c4, mem_clip hmap c1 (by rw [hok.1.length, hmap.length]) (by rw [hok.2.1.length, hmap.length])] at hx
    simp only [cLo, cHi, starts, hk, if_true]
    exact hx.2

/-! ## simple block-cyclic arrays -/

private theorem mem_piece {A : BArray} (h : BOK A) {lo hi x : List Int} (hok : PatchOK A.dims lo hi) {b : Nat} (hb : b < bTotal A) :
    InPatch (clipLo lo (bOwns A b).1) (clipHi hi (bOwns A b).2) x ↔ InPatch lo hi x ∧ InBlock A b x := by
  unfold InBlock
  rw [bOwns_eq h hb]
  exact mem_clip h.map (digits_ok hb) (by rw [hok.1.length, h.map.length]) (by rw [hok.2.1.length, h.map.length])

/-- a block that meets the patch passes the test unless it surrounds the patch -/
private theorem ends_of {blo bhi lo hi x : List Int} (h1 : InPatch blo bhi x) (h2 : InPatch lo hi x) :
    endsOverlap blo bhi lo hi = true ↔ ¬ Surrounds blo bhi lo hi := by
  induction x generalizing blo bhi lo hi with
  | nil =>
    cases blo <;> cases bhi <;> cases lo <;> cases hi <;> simp_all [InPatch, endsOverlap, Surrounds]
  | cons x xs ih =>
    match blo, bhi, lo, hi, h1, h2 with
    | bl :: blo, bh :: bhi, l :: lo, h :: hi, h1, h2 =>
      simp only [InPatch] at h1 h2
      simp only [endsOverlap, Surrounds, Bool.and_eq_true, Bool.or_eq_true, decide_eq_true_eq, not_or, ih h1.2 h2.2]
      constructor
      · rintro ⟨a, b⟩; exact ⟨by omega, b⟩
      · rintro ⟨a, b⟩; exact ⟨by omega, b⟩
    | [], _, _, _, h1, _ => simp [InPatch] at h1
    | _ :: _, [], _, _, h1, _ => simp [InPatch] at h1
    | _ :: _, _ :: _, [], _, _, h2 => simp [InPatch] at h2
    | _ :: _, _ :: _, _ :: _, [], _, h2 => simp [InPatch] at h2

/-- **C63 for simple block-cyclic arrays: what is reported.** The reported pieces cover an element of the patch once if its block does
not surround the patch in any dimension, and not at all if it does. -/
theorem C63_cyclic (A : BArray) (hA : Created A) (hk : A.kind = .cyclic) (candT candB : List Nat) (lo hi : List Int) :
    (PatchOK A.dims lo hi ↔ ∃ ps, locateBlocks A candT candB lo hi = some ps) ∧
    ∀ ps, locateBlocks A candT candB lo hi = some ps →
      (∀ x b, b < bTotal A → InBlock A b x → timesVisited (ps.map fun p => (p.plo, p.phi)) x =
        if InPatch lo hi x ∧ ¬ Surrounds (bOwns A b).1 (bOwns A b).2 lo hi then 1 else 0) ∧
      ∀ p ∈ ps, ∃ b : Nat, p.proc = b ∧ b < bTotal A ∧ ∀ x, InPatch p.plo p.phi x → InPatch lo hi x ∧ InBlock A b x := by
  have h := hA.ok
  refine ⟨succeeds, ?_⟩
  intro ps hps
  have hok := legal_of hps
  unfold locateBlocks at hps
  rw [if_pos (regionOK_iff.2 hok), hk] at hps
  simp only [Option.some.injEq] at hps
  subst hps
  constructor
  · intro x b hb hx
    have huniq : ∀ b', b' < bTotal A → InBlock A b' x → b' = b := by
      intro b' hb' hx'
      by_contra hne
      by_cases hin : InArray A.dims x
      · have := (C05_partition A hA x).1 hin _ (candOK_zero A.nblocks)
        exact hne ((this.2.2 b' hb' hx').trans (this.2.2 b hb hx).symm)
      · exact (C05_partition A hA x).2 hin b hb hx
    have hcount : ∀ n, b < n → n ≤ bTotal A → (List.range n).countP (fun b' => endsOverlap (bOwns A b').1 (bOwns A b').2 lo hi &&
        decide (InPatch (clipLo lo (bOwns A b').1) (clipHi hi (bOwns A b').2) x)) =
        if InPatch lo hi x ∧ ¬ Surrounds (bOwns A b).1 (bOwns A b).2 lo hi then 1 else 0 := by
      intro n hn hle
      by_cases hp : InPatch lo hi x ∧ ¬ Surrounds (bOwns A b).1 (bOwns A b).2 lo hi
      · rw [if_pos hp, ← List.count_eq_one_of_mem List.nodup_range (List.mem_range.2 hn)]
        refine List.countP_congr ?_
        intro b' hb'
        have hb'' : b' < bTotal A := by have := List.mem_range.1 hb'; omega
        simp only [Bool.and_eq_true, decide_eq_true_eq, mem_piece h hok hb'', beq_iff_eq]
        constructor
        · rintro ⟨_, _, g⟩; exact huniq b' hb'' g
        · rintro rfl; exact ⟨(ends_of hx hp.1).2 hp.2, hp.1, hx⟩
      · rw [if_neg hp, List.countP_eq_zero]
        intro b' hb' hc
        have hb'' : b' < bTotal A := by have := List.mem_range.1 hb'; omega
        simp only [Bool.and_eq_true, decide_eq_true_eq, mem_piece h hok hb''] at hc
        obtain ⟨g1, g2, g3⟩ := hc
        obtain rfl := huniq b' hb'' g3
        exact hp ⟨g2, (ends_of hx g2).1 g1⟩
    unfold timesVisited endBlocks
    rw [List.map_map, List.countP_map, List.countP_filter, ← hcount (bTotal A) hb (le_refl _)]
    refine List.countP_congr ?_
    intro b' _
    simp [and_comm]
  · intro p hp
    obtain ⟨b, hb, rfl⟩ := List.mem_map.1 hp
    have hb' : b < bTotal A := List.mem_range.1 (List.mem_filter.1 hb).1
    exact ⟨b, rfl, hb', fun x hx => (mem_piece h hok hb').1 hx⟩

/-- **C63 for simple block-cyclic arrays, partial:** right if no block surrounds the patch in a dimension. Missing: patches
surrounded by a block, where the claim is false (`C63_cyclic_missing`). -/
theorem C63_cyclic_partial (A : BArray) (hA : Created A) (hk : A.kind = .cyclic) (candT candB : List Nat) (lo hi : List Int)
    (hs : ∀ b, b < bTotal A → ¬ Surrounds (bOwns A b).1 (bOwns A b).2 lo hi) :
    RegionRight A lo hi (locateBlocks A candT candB lo hi) := by
  obtain ⟨h1, h2⟩ := C63_cyclic A hA hk candT candB lo hi
  refine ⟨h1, ?_⟩
  intro ps hps
  obtain ⟨h3, h4⟩ := h2 ps hps
  constructor
  · intro x
    by_cases hin : InArray A.dims x
    · obtain ⟨b1, b2, -⟩ := (C05_partition A hA x).1 hin _ (candOK_zero A.nblocks)
      rw [h3 x _ b1 b2]
      by_cases hp : InPatch lo hi x
      · rw [if_pos hp, if_pos ⟨hp, hs _ b1⟩]
      · rw [if_neg hp, if_neg (fun k => hp k.1)]
    · have hnp : ¬ InPatch lo hi x := by
        intro hx
        exact hin ((legal_of hps).inArray hx)
      rw [if_neg hnp]
      unfold timesVisited
      rw [List.countP_eq_zero]
      intro q hq
      obtain ⟨p, hp, rfl⟩ := List.mem_map.1 hq
      obtain ⟨b, -, -, b3⟩ := h4 p hp
      rw [decide_eq_true_eq]
      intro hx
      exact hnp (b3 x hx).1
  · intro p hp
    obtain ⟨b, b1, b2, b3⟩ := h4 p hp
    exact ⟨b, b1, b2, fun x hx => (b3 x hx).2⟩

/-- **C63 does not hold for a patch surrounded by a block:** if in some dimension the block of every element of the patch goes beyond
the patch on both sides, no piece at all covers any element. -/
theorem C63_cyclic_missing (A : BArray) (hA : Created A) (hk : A.kind = .cyclic) (candT candB : List Nat) (lo hi : List Int)
    (b : Nat) (hb : b < bTotal A) (hs : Surrounds (bOwns A b).1 (bOwns A b).2 lo hi) (x : List Int) (hx : InPatch lo hi x)
    (hxb : InBlock A b x) (ps : List Piece) (hps : locateBlocks A candT candB lo hi = some ps) :
    timesVisited (ps.map fun p => (p.plo, p.phi)) x = 0 := by
  rw [((C63_cyclic A hA hk candT candB lo hi).2 ps hps).1 x b hb hxb, if_neg (fun h => h.2 hs)]

/-- one element inside a 3x2 block of a 7x5 array: nothing is reported -/
example : locateBlocks exCyc [0, 0] [0, 0] [2, 1] [2, 1] = some [] ∧ locateNNodesB exCyc [2, 1] [2, 1] = some 0 := by decide

/-! ## arrays with a process grid -/

/-- the block numbers of the grid branch are right -/
def NumbersRight (ns : List Nat) : Prop := ns.length ≤ 1 ∨ ∃ n, ns = [n, n]

private theorem slIndex_ok {ns c : List Nat} (h : NumbersRight ns) (hc : CoordOK ns c) : (slIndex ns c).1 = undigits ns c := by
  rcases h with h | ⟨n, rfl⟩
  · match ns, c, h, hc with
    | [], _, _, _ => cases c <;> rfl
    | [n], [c], _, _ => simp [slIndex, undigits]
    | [n], [], _, hc => simp [CoordOK] at hc
    | [n], _ :: _ :: _, _, hc => simp [CoordOK] at hc
  · match c, hc with
    | [a, b], _ => simp [slIndex, undigits]; ring
    | [], hc => simp [CoordOK] at hc
    | [_], hc => simp [CoordOK] at hc
    | _ :: _ :: _ :: _, hc => simp [CoordOK] at hc

/-- a block between the blocks of the corners meets the patch -/
private theorem meets {dims bd : List Int} {ns c : List Nat} {lo hi : List Int} (h : UnifOK dims bd ns) (hl : InArray dims lo)
    (hh : InArray dims hi) (hlh : InPatch lo hi lo)
    (hc : InPatch ((unifFind bd lo).map Int.ofNat) ((unifFind bd hi).map Int.ofNat) (c.map Int.ofNat)) :
    ∃ z, InPatch lo hi z ∧ InPatch (unifLo bd c) (unifHi dims bd c) z := by
  induction dims generalizing bd ns c lo hi with
  | nil =>
    match bd, ns, lo, hi, c, h, hl, hh, hc with
    | [], [], [], [], [], _, _, _, _ => exact ⟨[], trivial, trivial⟩
    | [], [], [], [], _ :: _, _, _, _, hc => simp [InPatch, unifFind] at hc
  | cons d ds ih =>
    match bd, ns, lo, hi, c, h, hl, hh, hlh, hc with
    | b :: bs, n :: ns, l :: lo, hh' :: hi, c :: cs, h, hl, hh, hlh, hc =>
      obtain ⟨⟨h1, h2, h3⟩, h4⟩ := h
      have hl' : (1 ≤ l ∧ l ≤ d) ∧ InArray ds lo := hl
      have hh'' : (1 ≤ hh' ∧ hh' ≤ d) ∧ InArray ds hi := hh
      have hlh' : (l ≤ l ∧ l ≤ hh') ∧ InPatch lo hi lo := hlh
      simp only [unifFind, List.map_cons, InPatch] at hc
      obtain ⟨z, z1, z2⟩ := ih h4 hl'.2 hh''.2 hlh'.2 hc.2
      have q1 : 0 ≤ (l - 1) / b := Int.ediv_nonneg (by omega) (by omega)
      have q2 : 0 ≤ (hh' - 1) / b := Int.ediv_nonneg (by omega) (by omega)
      have a1 : (l - 1) / b ≤ c := by have := hc.1.1; simp only [Int.ofNat_eq_natCast] at this; omega
      have a2 : (c : Int) ≤ (hh' - 1) / b := by have := hc.1.2; simp only [Int.ofNat_eq_natCast] at this; omega
      have b1 : l - 1 < (c + 1) * b := by
        have := Int.lt_ediv_add_one_mul_self (l - 1) (by omega : 0 < b)
        nlinarith
      have b2 : c * b ≤ hh' - 1 := by
        have := Int.ediv_mul_le (hh' - 1) (by omega : b ≠ 0)
        nlinarith
      have b3 : (c : Int) * b < (c + 1) * b := by nlinarith
      refine ⟨max l (c * b + 1) :: z, ⟨⟨by omega, by omega⟩, z1⟩, ?_⟩
      simp only [unifLo, unifHi, InPatch]
      refine ⟨⟨by omega, ?_⟩, z2⟩
      split <;> omega
    | _ :: _, _ :: _, _ :: _, _ :: _, [], _, _, _, _, hc => simp [InPatch, unifFind] at hc

private theorem find_mono {dims bd : List Int} {ns : List Nat} {lo hi x : List Int} (h : UnifOK dims bd ns) (hl : InArray dims lo)
    (hh : InArray dims hi) (hlh : InPatch lo hi x) :
    InPatch ((unifFind bd lo).map Int.ofNat) ((unifFind bd hi).map Int.ofNat) ((unifFind bd x).map Int.ofNat) := by
  induction dims generalizing bd ns lo hi x with
  | nil =>
    match bd, ns, lo, hi, x, h, hl, hh, hlh with
    | [], [], [], [], [], _, _, _, _ => trivial
  | cons d ds ih =>
    match bd, ns, lo, hi, x, h, hl, hh, hlh with
    | b :: bs, n :: ns, l :: lo, hh' :: hi, x :: xs, h, hl, hh, hlh =>
      have hlh' : (l ≤ x ∧ x ≤ hh') ∧ InPatch lo hi xs := hlh
      obtain ⟨⟨h1, h2, h3⟩, h4⟩ := h
      simp only [unifFind, List.map_cons, InPatch]
      refine ⟨?_, ih h4 hl.2 hh.2 hlh'.2⟩
      have := Int.ediv_le_ediv (by omega : 0 < b) (by omega : l - 1 ≤ x - 1)
      have := Int.ediv_le_ediv (by omega : 0 < b) (by omega : x - 1 ≤ hh' - 1)
      simp only [Int.ofNat_eq_natCast]
      omega

private theorem inPatch_corners {lo hi x : List Int} (h : InPatch lo hi x) : InPatch lo hi lo ∧ InPatch lo hi hi := by
  induction x generalizing lo hi with
  | nil => cases lo <;> cases hi <;> simp_all [InPatch]
  | cons x xs ih =>
    match lo, hi, h with
    | l :: lo, h' :: hi, h =>
      simp only [InPatch] at h ⊢
      have := ih h.2
      exact ⟨⟨⟨by omega, by omega⟩, this.1⟩, ⟨⟨by omega, by omega⟩, this.2⟩⟩
    | [], _, h => simp [InPatch] at h
    | _ :: _, [], h => simp [InPatch] at h

private theorem inPatch_between {blo bhi lo hi x : List Int} (h1 : InPatch blo bhi lo) (h2 : InPatch blo bhi hi) (hx : InPatch lo hi x) :
    InPatch blo bhi x := by
  induction x generalizing blo bhi lo hi with
  | nil => cases lo <;> cases hi <;> simp_all [InPatch]
  | cons x xs ih =>
    match blo, bhi, lo, hi, h1, h2, hx with
    | _ :: _, _ :: _, _ :: _, _ :: _, h1, h2, hx =>
      simp only [InPatch] at h1 h2 hx ⊢
      exact ⟨by omega, ih h1.2 h2.2 hx.2⟩
    | [], _, _ :: _, _, h1, _, _ => simp [InPatch] at h1
    | _, _, [], _, _, _, hx => simp [InPatch] at hx
    | _ :: _, [], _, _, h1, _, _ => simp [InPatch] at h1
    | _, _, _ :: _, [], _, _, hx => simp [InPatch] at hx

private theorem clip_inside {lo hi a b : List Int} (h1 : InPatch lo hi a) (h2 : InPatch lo hi b) :
    clipLo lo a = a ∧ clipHi hi b = b := by
  induction lo generalizing hi a b with
  | nil => cases a <;> cases hi <;> cases b <;> simp_all [InPatch, clipLo, clipHi]
  | cons l lo ih =>
    match hi, a, b, h1, h2 with
    | h' :: hi, a :: as, b :: bs, h1, h2 =>
      simp only [InPatch] at h1 h2
      obtain ⟨i1, i2⟩ := ih h1.2 h2.2
      simp only [clipLo, clipHi, i1, i2, List.cons.injEq, and_true]
      constructor
      · split <;> omega
      · split <;> omega

/-- **C63 for arrays with a process grid, partial:** right for patches that consist of whole blocks of arrays with one dimension, or two
with equal numbers of blocks. Missing: the other patches, for which the pieces reported go beyond the patch (`C63_grid_unclipped`), and
the other arrays, for which the block numbers are wrong (`C63_grid_number`, `C63_grid_number3`). -/
theorem C63_grid_partial (A : BArray) (hA : Created A) (hk : A.kind = .scalapack ∨ A.kind = .tiled) (candT candB : List Nat)
    (lo hi : List Int) (hw : WholeBlocks A lo hi) (hn : NumbersRight A.nblocks) :
    RegionRight A lo hi (locateBlocks A candT candB lo hi) := by
  have h := hA.ok
  have hki : A.kind ≠ .tiledIrreg := by rcases hk with hk | hk <;> rw [hk] <;> simp
  have hu := h.unif hki
  have hst : starts A = unifStarts A.bdims A.nblocks := by simp only [starts, hki, if_false]
  refine ⟨succeeds, ?_⟩
  intro ps hps
  have hok := legal_of hps
  have hps' : ps = (loopAll ((unifFind A.bdims lo).map Int.ofNat) ((unifFind A.bdims hi).map Int.ofNat)).map fun s =>
        (⟨((slIndex A.nblocks (s.map Int.toNat)).1 : Nat), unifLo A.bdims (s.map Int.toNat),
          unifHi A.dims A.bdims (s.map Int.toNat)⟩ : Piece) := by
    unfold locateBlocks at hps
    rw [if_pos (regionOK_iff.2 hok)] at hps
    rcases hk with hk | hk <;> rw [hk] at hps <;> exact (Option.some.inj hps).symm
  obtain ⟨rs, hrs⟩ : ∃ rs, locateRegion ⟨A.dims, A.nblocks, starts A, []⟩ (A.nblocks.map fun _ => 0) (A.nblocks.map fun _ => 0) lo hi
      = some rs := by
    unfold locateRegion
    rw [if_pos (regionOK_iff.2 hok)]
    exact ⟨_, rfl⟩
  have h0 := candOK_zero A.nblocks
  obtain ⟨s1, s2⟩ := locateRegion_spec h.map h0 h0 hrs
  have hfind : ∀ x, InArray A.dims x → findblocks A.nblocks (starts A) (A.nblocks.map fun _ => 0) x = unifFind A.bdims x := by
    intro x hx
    obtain ⟨a1, a2⟩ := findblocks_ok h.map h0 hx
    obtain ⟨b1, b2⟩ := unifFind_ok hu hx
    rw [← hst] at b2
    exact coord_unique h.map a1 b1 a2 b2
  have heq : rs = ps := by
    have hrs' := hrs
    unfold locateRegion at hrs'
    rw [if_pos (regionOK_iff.2 hok), Option.some.injEq] at hrs'
    simp only [hfind lo hok.1, hfind hi hok.2.1] at hrs'
    have hmono := find_mono hu hok.1 hok.2.1 hok.2.2
    rw [hps', ← hrs']
    refine List.map_congr_left ?_
    intro s hs
    have hmem := hs
    rw [loopAll_eq_box ⟨_, hmono⟩, mem_box] at hs
    obtain ⟨c1, c2⟩ := coord_between (unifFind_ok hu hok.1).1 (unifFind_ok hu hok.2.1).1 hs
    rw [← c2] at hs
    obtain ⟨z, z1, z2⟩ := meets hu hok.1 hok.2.1 hok.2.2 hs
    generalize hc : s.map Int.toNat = c at c1 c2 z2
    subst c2
    have hcomp : computeIndex (c.map Int.ofNat) (A.nblocks.map Int.ofNat) = (undigits A.nblocks c : Nat) := by
      rw [computeIndex_eq, horner_cast]
    have hbo := bOwns_coord h c1
    have hL : unifLo A.bdims c = cLo A c := by rw [unifLo_eq hu c1, ← hst]; rfl
    have hH : unifHi A.dims A.bdims c = cHi A c := by rw [unifHi_eq hu c1, ← hst]; rfl
    rw [hL, hH] at z2
    have inb : ∀ y, InPatch (cLo A c) (cHi A c) y → InPatch lo hi y := by
      intro y hy
      refine hw _ (undigits_lt c1) z y ?_ ?_ z1
      · unfold InBlock; rw [hbo]; exact z2
      · unfold InBlock; rw [hbo]; exact hy
    obtain ⟨k1, k2⟩ := inPatch_corners z2
    obtain ⟨e1, e2⟩ := clip_inside (inb _ k1) (inb _ k2)
    obtain ⟨c', d1, d2, d3, d4⟩ := s2 _ (hrs' ▸ List.mem_map_of_mem hmem)
    dsimp only at d1 d2 d3 d4
    rw [hcomp] at d2
    have hcc : c = c' := by rw [← digits_undigits c1, ← digits_undigits d1]; congr 1; exact_mod_cast d2
    subst hcc
    rw [d3, d4, hcomp, slIndex_ok hn c1, hL, hH]
    show Piece.mk _ (clipLo lo (cLo A c)) (clipHi hi (cHi A c)) = _
    rw [e1, e2]
  subst heq
  constructor
  · intro x
    apply countP_cover
    rw [List.flatMap_map]
    exact s1
  · intro p hp
    obtain ⟨c, c1, c2, c3, c4⟩ := s2 p hp
    refine ⟨undigits A.nblocks c, c2, undigits_lt c1, ?_⟩
    intro x hx
    unfold InBlock
    rw [bOwns_coord h c1]
    rw [c3, c4, mem_clip h.map c1 (by rw [hok.1.length, h.map.length]) (by rw [hok.2.1.length, h.map.length])] at hx
    exact hx.2

/-- a patch of four whole blocks -/
example : WholeBlocks exScl [4, 1] [7, 4] ∧ NumbersRight exScl.nblocks ∧
    locateBlocks exScl [0, 0] [0, 0] [4, 1] [7, 4] =
      some [⟨1, [4, 1], [6, 2]⟩, ⟨2, [7, 1], [7, 2]⟩, ⟨4, [4, 3], [6, 4]⟩, ⟨5, [7, 3], [7, 4]⟩] := by
  refine ⟨?_, Or.inr ⟨3, rfl⟩, by decide⟩
  have : ∀ b < bTotal exScl, ∀ x ∈ box (bOwns exScl b).1 (bOwns exScl b).2, ∀ y ∈ box (bOwns exScl b).1 (bOwns exScl b).2,
      InPatch [4, 1] [7, 4] x → InPatch [4, 1] [7, 4] y := by decide +kernel
  intro b hb x y hx hy
  exact this b hb x (mem_box.2 hx) y (mem_box.2 hy)

/-- **C63 does not hold for a patch that is not made of whole blocks:** every element of a block that meets the patch is in a reported
piece, also if it is not in the patch. -/
theorem C63_grid_unclipped (A : BArray) (hA : Created A) (hk : A.kind = .scalapack ∨ A.kind = .tiled) (candT candB : List Nat)
    (lo hi : List Int) (ps : List Piece) (hps : locateBlocks A candT candB lo hi = some ps) (b : Nat) (hb : b < bTotal A)
    (x y : List Int) (hx : InBlock A b x) (hxp : InPatch lo hi x) (hy : InBlock A b y) :
    0 < timesVisited (ps.map fun p => (p.plo, p.phi)) y := by
  have h := hA.ok
  have hki : A.kind ≠ .tiledIrreg := by rcases hk with hk | hk <;> rw [hk] <;> simp
  have hu := h.unif hki
  have hst : starts A = unifStarts A.bdims A.nblocks := by simp only [starts, hki, if_false]
  have hok := legal_of hps
  have hps' : ps = (loopAll ((unifFind A.bdims lo).map Int.ofNat) ((unifFind A.bdims hi).map Int.ofNat)).map fun s =>
        (⟨((slIndex A.nblocks (s.map Int.toNat)).1 : Nat), unifLo A.bdims (s.map Int.toNat),
          unifHi A.dims A.bdims (s.map Int.toNat)⟩ : Piece) := by
    unfold locateBlocks at hps
    rw [if_pos (regionOK_iff.2 hok)] at hps
    rcases hk with hk | hk <;> rw [hk] at hps <;> exact (Option.some.inj hps).symm
  have hxa := hok.inArray hxp
  obtain ⟨f1, f2⟩ := unifFind_ok hu hxa
  rw [← hst] at f2
  have hd := digits_ok hb
  have hc : unifFind A.bdims x = digits A.nblocks b := by
    refine coord_unique h.map f1 hd f2 ?_
    have := hx
    unfold InBlock at this
    rw [bOwns_eq h hb] at this
    exact this
  have hmem := find_mono hu hok.1 hok.2.1 hxp
  rw [hc] at hmem
  unfold timesVisited
  rw [List.countP_pos_iff]
  refine ⟨(unifLo A.bdims (digits A.nblocks b), unifHi A.dims A.bdims (digits A.nblocks b)), ?_, ?_⟩
  · rw [hps', List.map_map]
    refine List.mem_map.2 ⟨(digits A.nblocks b).map Int.ofNat, ?_, ?_⟩
    · rw [loopAll_eq_box ⟨_, hmem⟩, mem_box]; exact hmem
    · have : ((digits A.nblocks b).map Int.ofNat).map Int.toNat = digits A.nblocks b := by
        rw [List.map_map, List.map_congr_left (g := id) (by intro n _; simp), List.map_id]
      simp only [Function.comp, this]
  · rw [decide_eq_true_eq, unifLo_eq hu hd, unifHi_eq hu hd, ← hst]
    have := hy
    unfold InBlock at this
    rw [bOwns_eq h hb] at this
    exact this

/-- one element asked for, six reported -/
example : locateBlocks exScl [0, 0] [0, 0] [2, 1] [2, 1] = some [⟨0, [1, 1], [3, 2]⟩] ∧ ¬ InPatch [2, 1] [2, 1] [3, 2] := by decide

/-- a 4x6 array in 2x3 blocks of 2x2 elements -/
def exScl23 : BArray := ⟨.scalapack, [4, 6], [2, 2], [2, 3], [1, 1], [], 1⟩
/-- a 2x2x2 array in blocks of one element -/
def exTil3 : BArray := ⟨.tiled, [2, 2, 2], [1, 1, 1], [2, 2, 2], [1, 1, 1], [], 1⟩

/-- **C63 does not hold for two dimensions with different numbers of blocks:** the block with elements (1..2, 3..4) has number 2; number 3
is reported. -/
theorem C63_grid_number : Created exScl23 ∧ WholeBlocks exScl23 [1, 3] [2, 4] ∧ bOwns exScl23 2 = ([1, 3], [2, 4]) ∧
    locateBlocks exScl23 [0, 0] [0, 0] [1, 3] [2, 4] = some [⟨3, [1, 3], [2, 4]⟩] ∧
    ¬ RegionRight exScl23 [1, 3] [2, 4] (locateBlocks exScl23 [0, 0] [0, 0] [1, 3] [2, 4]) := by
  have e : locateBlocks exScl23 [0, 0] [0, 0] [1, 3] [2, 4] = some [⟨3, [1, 3], [2, 4]⟩] := by decide
  refine ⟨.grid false 1 [4, 6] [2, 2] [1, 1] exScl23 (by decide) rfl rfl (by decide), ?_, by decide, e, ?_⟩
  · have : ∀ b < bTotal exScl23, ∀ x ∈ box (bOwns exScl23 b).1 (bOwns exScl23 b).2, ∀ y ∈ box (bOwns exScl23 b).1 (bOwns exScl23 b).2,
        InPatch [1, 3] [2, 4] x → InPatch [1, 3] [2, 4] y := by decide +kernel
    intro b hb x y hx hy
    exact this b hb x (mem_box.2 hx) y (mem_box.2 hy)
  · rw [e]
    rintro ⟨-, h⟩
    obtain ⟨b, b1, -, b3⟩ := (h _ rfl).2 ⟨3, [1, 3], [2, 4]⟩ (List.mem_singleton.2 rfl)
    have hb : b = 3 := by have : (3 : Int) = b := b1; omega
    subst hb
    exact absurd (b3 [1, 3] (by decide)) (by decide)

/-- **C63 does not hold for three dimensions:** the number reported may not be that of any block. -/
theorem C63_grid_number3 : Created exTil3 ∧ bTotal exTil3 = 8 ∧
    locateBlocks exTil3 [0, 0, 0] [0, 0, 0] [1, 2, 2] [1, 2, 2] = some [⟨12, [1, 2, 2], [1, 2, 2]⟩] :=
  ⟨.grid true 1 [2, 2, 2] [1, 1, 1] [1, 1, 1] exTil3 (by decide) rfl rfl (by decide), by decide, by decide⟩

/-! ## the counts -/

/-- **C63, number of pieces of a patch of a REGULAR array:** `NGA_Locate_nnodes` succeeds exactly when `NGA_Locate_region` does, and gives
the number of pieces. -/
theorem C63_nnodes_regular (A : RegArray) (candT candB : List Nat) (lo hi : List Int) :
    locateNNodes A candT candB lo hi = (locateRegion A candT candB lo hi).map List.length := by
  unfold locateNNodes locateRegion
  by_cases hr : regionOK A.dims lo hi = true
  · simp [if_pos hr]
  · simp [if_neg hr]

private theorem ends_meet {blo bhi lo hi : List Int} (hb : InPatch blo bhi blo) (hp : InPatch lo hi lo) (hl : blo.length = lo.length)
    (h : endsOverlap blo bhi lo hi = true) : ∃ x, InPatch blo bhi x ∧ InPatch lo hi x := by
  induction blo generalizing bhi lo hi with
  | nil =>
    match bhi, lo, hi, hb, hp, hl with
    | [], [], [], _, _, _ => exact ⟨[], trivial, trivial⟩
    | [], [], _ :: _, _, hp, _ => simp [InPatch] at hp
  | cons bl blo ih =>
    match bhi, lo, hi, hb, hp, hl, h with
    | bh :: bhi, l :: lo, h' :: hi, hb, hp, hl, h =>
      simp only [InPatch] at hb hp
      simp only [endsOverlap, Bool.and_eq_true, Bool.or_eq_true, decide_eq_true_eq] at h
      obtain ⟨x, x1, x2⟩ := ih hb.2 hp.2 (by simpa using hl) h.2
      refine ⟨max bl l :: x, ⟨?_, x1⟩, ⟨?_, x2⟩⟩ <;> omega
    | [], _, _, hb, _, _, _ => simp [InPatch] at hb
    | _ :: _, _ :: _, [], _, hp, _, _ => simp [InPatch] at hp

private theorem block_length {A : BArray} (hA : Created A) {lo hi y : List Int} {b : Nat} (hok : PatchOK A.dims lo hi)
    (hb : b < bTotal A) (hy : InBlock A b y) : (bOwns A b).1.length = lo.length := by
  have hin : InArray A.dims y := by
    by_contra hc
    exact (C05_partition A hA y).2 hc b hb hy
  have h1 := hin.length
  have h2 := hok.1.length
  have h3 := (InPatch.length hy).1
  omega

/-- the count is the number of blocks that have elements in the patch -/
def CountRight (A : BArray) (lo hi : List Int) (r : Option Nat) : Prop :=
  (PatchOK A.dims lo hi ↔ ∃ n, r = some n) ∧
  ∀ n, r = some n → ∃ bs : List Nat, bs.Nodup ∧ bs.length = n ∧
    ∀ b, b ∈ bs ↔ b < bTotal A ∧ ∃ x, InBlock A b x ∧ InPatch lo hi x

/-- **C63, number of blocks of a patch, partial:** right if no block surrounds the patch in a dimension and no block is empty. Missing: the
other cases, where the count may be too small or too large (`C63_count_zero`, `C63_count_empty`). -/
theorem C63_count_partial (A : BArray) (hA : Created A) (lo hi : List Int)
    (hs : ∀ b, b < bTotal A → ¬ Surrounds (bOwns A b).1 (bOwns A b).2 lo hi)
    (hne : ∀ b, b < bTotal A → ∃ x, InBlock A b x) :
    CountRight A lo hi (locateNNodesB A lo hi) ∧ CountRight A lo hi (locateNumBlocks A lo hi) := by
  have h := hA.ok
  suffices hh : CountRight A lo hi (locateNNodesB A lo hi) from ⟨hh, hh⟩
  unfold locateNNodesB
  by_cases hr : regionOK A.dims lo hi = true
  · have hok := regionOK_iff.1 hr
    rw [if_pos hr]
    refine ⟨⟨fun _ => ⟨_, rfl⟩, fun _ => hok⟩, ?_⟩
    intro n hn
    refine ⟨endBlocks A lo hi, List.Nodup.filter _ List.nodup_range, Option.some.inj hn, ?_⟩
    intro b
    unfold endBlocks
    rw [List.mem_filter, List.mem_range]
    refine and_congr_right fun hb => ?_
    constructor
    · intro ho
      obtain ⟨y, hy⟩ := hne b hb
      exact ends_meet (inPatch_corners hy).1 hok.2.2 (block_length hA hok hb hy) ho
    · rintro ⟨x, x1, x2⟩
      exact (ends_of x1 x2).2 (hs b hb)
  · rw [if_neg hr]
    refine ⟨⟨fun g => absurd (regionOK_iff.2 g) hr, by simp⟩, by simp⟩

/-- the hypotheses hold for a patch of parts of four blocks -/
example : (∀ b, b < bTotal exScl → ¬ Surrounds (bOwns exScl b).1 (bOwns exScl b).2 [3, 2] [5, 3]) ∧
    (∀ b, b < bTotal exScl → ∃ x, InBlock exScl b x) ∧ locateNNodesB exScl [3, 2] [5, 3] = some 4 := by
  refine ⟨by decide, ?_, by decide⟩
  have : ∀ b, b < bTotal exScl → InBlock exScl b (bOwns exScl b).1 := by decide
  exact fun b hb => ⟨_, this b hb⟩

/-- **The count does not hold for a patch inside a block:** if a block surrounds the patch in a dimension, it is not counted; a patch in one
block has count 0. -/
theorem C63_count_zero (A : BArray) (hA : Created A) (lo hi : List Int) (hok : PatchOK A.dims lo hi) (b : Nat) (hb : b < bTotal A)
    (hin : InBlock A b lo ∧ InBlock A b hi) (hs : Surrounds (bOwns A b).1 (bOwns A b).2 lo hi)
    (hne : ∀ b, b < bTotal A → ∃ x, InBlock A b x) : locateNNodesB A lo hi = some 0 := by
  unfold locateNNodesB
  rw [if_pos (regionOK_iff.2 hok)]
  congr 1
  rw [List.length_eq_zero_iff]
  unfold endBlocks
  rw [List.filter_eq_nil_iff]
  intro b' hb' ho
  have hb'' := List.mem_range.1 hb'
  obtain ⟨y, hy⟩ := hne b' hb''
  obtain ⟨x, x1, x2⟩ := ends_meet (inPatch_corners hy).1 hok.2.2 (block_length hA hok hb'' hy) ho
  have hxb : InBlock A b x := inPatch_between hin.1 hin.2 x2
  have hxa := hok.inArray x2
  have := (C05_partition A hA x).1 hxa _ (candOK_zero A.nblocks)
  obtain rfl : b' = b := (this.2.2 b' hb'' x1).trans (this.2.2 b hb hxb).symm
  exact (ends_of x1 x2).1 ho hs

/-- one element in the middle of the first block: the count is 0, although there is one block -/
example : PatchOK exScl.dims [2, 1] [2, 1] ∧ InBlock exScl 0 [2, 1] ∧ Surrounds (bOwns exScl 0).1 (bOwns exScl 0).2 [2, 1] [2, 1] ∧
    locateNNodesB exScl [2, 1] [2, 1] = some 0 := by
  refine ⟨by decide, by decide, by decide, by decide⟩

/-- **An empty block is counted:** the second tile of `exIrr` has no elements; the patch meets two tiles, the count is 3. -/
theorem C63_count_empty : Created exIrr ∧ (bOwns exIrr 1) = ([3, 1], [2, 3]) ∧
    locateNNodesB exIrr [2, 1] [3, 3] = some 3 ∧ (locateBlocks exIrr [0, 0] [0, 0] [2, 1] [3, 3]).map List.length = some 3 := by
  refine ⟨exIrr_created, by decide, by decide, by decide⟩

/-- **The count may be smaller than the list:** a caller that sizes the result lists of `NGA_Locate_region` with `NGA_Locate_nnodes` gets room for
no piece here, and one piece is written. -/
theorem C63_count_short : locateNNodesB exIrr [4, 2] [4, 2] = some 0 ∧
    locateBlocks exIrr [0, 0] [0, 0] [4, 2] [4, 2] = some [⟨2, [4, 2], [4, 2]⟩] := by decide

end GA
