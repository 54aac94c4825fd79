import Verif.Lemmas.SparsePack
import Mathlib.Data.List.Perm.Basic
import Verif.Props.C01

/-!
# C36: segmented scans; C37: pack and unpack; C35 (part): patch_enum

The arrays are one-dimensional, distributed in any way described by `Tiles` (every process has at
most one block, the blocks are disjoint and cover the array), the processes run in any order
(`Schedule`).
-/

namespace GA.Sparse

/-- **C36, scan_copy.** Each element of `lo..hi` becomes the source element at the last mask
position at or before it (within `lo..hi`), or zero if there is none; other elements keep their
value. -/
theorem C36_scan_copy_partial {M : Type} [Zero M] (D : Dist) (hD : Tiles D) (order : List Nat)
    (ho : Schedule D order) (src : Int → M) (msk : Int → Bool) (lo hi : Int) (hlo : 1 ≤ lo)
    (hlh : lo ≤ hi) (hhi : hi ≤ D.dim) (dst : Int → M) :
    ∃ out, scanCopy D order src msk lo hi dst = some out ∧
      ∀ g, (lo ≤ g ∧ g ≤ hi →
          (∀ k, LastBit msk lo g k → out g = src k) ∧ (NoBit msk lo g → out g = 0)) ∧
        (¬ (lo ≤ g ∧ g ≤ hi) → out g = dst g) := by
  unfold scanCopy
  rw [scan_ok hD hlo]
  simp only [Bool.false_eq_true, if_false]
  refine ⟨_, rfl, fun g => ?_⟩
  have fin := fold_own (fun p d => copyStep D src msk lo hi p d) (InPart D lo hi)
    (fun _ g _ => copyVal src msk lo g) order (schedule_nodup ho)
    (fun p hp d g hg => copyStep_in hD src msk hlo ((schedule_mem ho).1 hp) d hg)
    (fun p hp d g hg => copyStep_out hD src msk hlo hlh ((schedule_mem ho).1 hp) d hg)
    (fun p hp q hq g => inPart_uniq hD ((schedule_mem ho).1 hp) ((schedule_mem ho).1 hq)) dst g
  constructor
  · rintro ⟨g1, g2⟩
    obtain ⟨p, hp, p1, p2⟩ := hD.cover g (by omega) (by omega)
    rw [fin.1 p ((schedule_mem ho).2 hp) ⟨p1, p2, g1, g2⟩]
    exact ⟨fun k hk => copyVal_last src msk hk, fun hn => copyVal_none src msk hn⟩
  · intro hg
    exact fin.2 (fun p _ h => hg ⟨h.2.2.1, h.2.2.2⟩)

/-- **C36, inclusive scan_add.** Each element of `lo..hi` becomes the sum of the source elements
from the last mask position at or before it up to itself; elements before the first mask position
and outside `lo..hi` keep their value. -/
theorem C36_scan_add_inclusive_partial {M : Type} [AddCommMonoid M] (D : Dist) (hD : Tiles D)
    (order1 order2 : List Nat) (h1 : Schedule D order1) (h2 : Schedule D order2) (src : Int → M)
    (msk : Int → Bool) (lo hi : Int) (hlo : 1 ≤ lo) (hlh : lo ≤ hi) (hhi : hi ≤ D.dim)
    (dst : Int → M) :
    ∃ out, scanAdd D order1 order2 false src msk lo hi dst = some out ∧
      ∀ g, (lo ≤ g ∧ g ≤ hi →
          (∀ k, LastBit msk lo g k → out g = ∑ j ∈ Finset.Icc k g, src j) ∧
          (NoBit msk lo g → out g = dst g)) ∧
        (¬ (lo ≤ g ∧ g ≤ hi) → out g = dst g) := by
  obtain ⟨out, a, b⟩ := scanAdd_core hD h1 h2 false src msk hlo hlh hhi dst
  refine ⟨out, a, fun g => ⟨fun hg => ⟨fun k hk => ?_, ((b g).1 hg).2⟩, (b g).2⟩⟩
  rw [((b g).1 hg).1 k hk, val_incl_sum]

/-- **C36, exclusive scan_add.** The same with the element itself left out of the sum. -/
theorem C36_scan_add_exclusive_partial {M : Type} [AddCommMonoid M] (D : Dist) (hD : Tiles D)
    (order1 order2 : List Nat) (h1 : Schedule D order1) (h2 : Schedule D order2) (src : Int → M)
    (msk : Int → Bool) (lo hi : Int) (hlo : 1 ≤ lo) (hlh : lo ≤ hi) (hhi : hi ≤ D.dim)
    (dst : Int → M) :
    ∃ out, scanAdd D order1 order2 true src msk lo hi dst = some out ∧
      ∀ g, (lo ≤ g ∧ g ≤ hi →
          (∀ k, LastBit msk lo g k → out g = ∑ j ∈ Finset.Icc k (g - 1), src j) ∧
          (NoBit msk lo g → out g = dst g)) ∧
        (¬ (lo ≤ g ∧ g ≤ hi) → out g = dst g) := by
  obtain ⟨out, a, b⟩ := scanAdd_core hD h1 h2 true src msk hlo hlh hhi dst
  refine ⟨out, a, fun g => ⟨fun hg => ⟨fun k hk => ?_, ((b g).1 hg).2⟩, (b g).2⟩⟩
  rw [((b g).1 hg).1 k hk, val_excl_sum src msk hk.2.2.1 hk.2.1 hk.2.2.2]

/-- The result does not depend on the distribution, the number of processes or the order in which
they run. -/
theorem C36_distribution_independent_partial {M : Type} [AddCommMonoid M] (D D' : Dist)
    (hD : Tiles D) (hD' : Tiles D') (hdim : D.dim = D'.dim) (o1 o2 o1' o2' : List Nat)
    (h1 : Schedule D o1) (h2 : Schedule D o2) (h1' : Schedule D' o1') (h2' : Schedule D' o2')
    (excl : Bool) (src : Int → M) (msk : Int → Bool) (lo hi : Int) (hlo : 1 ≤ lo) (hlh : lo ≤ hi)
    (hhi : hi ≤ D.dim) (dst : Int → M) :
    scanAdd D o1 o2 excl src msk lo hi dst = scanAdd D' o1' o2' excl src msk lo hi dst ∧
    scanCopy D o1 src msk lo hi dst = scanCopy D' o1' src msk lo hi dst := by
  constructor
  · obtain ⟨out, a, b⟩ := scanAdd_core hD h1 h2 excl src msk hlo hlh hhi dst
    obtain ⟨out', a', b'⟩ := scanAdd_core hD' h1' h2' excl src msk hlo hlh (by omega) dst
    rw [a, a']
    congr 1
    funext g
    by_cases hg : lo ≤ g ∧ g ≤ hi
    · rcases lastBit_or_noBit msk lo g with ⟨k, hk⟩ | hn
      · rw [((b g).1 hg).1 k hk, ((b' g).1 hg).1 k hk]
      · rw [((b g).1 hg).2 hn, ((b' g).1 hg).2 hn]
    · rw [(b g).2 hg, (b' g).2 hg]
  · obtain ⟨out, a, b⟩ := C36_scan_copy_partial D hD o1 h1 src msk lo hi hlo hlh hhi dst
    obtain ⟨out', a', b'⟩ :=
      C36_scan_copy_partial D' hD' o1' h1' src msk lo hi hlo hlh (by omega) dst
    rw [a, a']
    congr 1
    funext g
    by_cases hg : lo ≤ g ∧ g ≤ hi
    · rcases lastBit_or_noBit msk lo g with ⟨k, hk⟩ | hn
      · rw [((b g).1 hg).1 k hk, ((b' g).1 hg).1 k hk]
      · rw [((b g).1 hg).2 hn, ((b' g).1 hg).2 hn]
    · rw [(b g).2 hg, (b' g).2 hg]

/-! ## C37 -/

/-- **C37, pack.** Every process is told the number of mask positions in `lo..hi`.  If the target
array is long enough, the masked elements are stored consecutively in order: the element at mask
position `g` goes to the position which is the number of mask positions in `lo..g`; all other
elements keep their value. -/
theorem C37_pack_partial {M : Type} (D : Dist) (hD : Tiles D) (dimDst : Int) (order : List Nat)
    (ho : Schedule D order) (src : Int → M) (msk : Int → Bool) (lo hi : Int) (hlo : 1 ≤ lo)
    (hlh : lo ≤ hi) (hhi : hi ≤ D.dim) (hfit : bits msk lo hi ≤ dimDst) (dst : Int → M) :
    (∀ p, packCount D msk lo hi p = bits msk lo hi) ∧
    ∃ out, pack D dimDst order src msk lo hi dst = some out ∧
      (∀ g, lo ≤ g → g ≤ hi → msk g = true → out (bits msk lo g) = src g) ∧
      (∀ x, ¬ (1 ≤ x ∧ x ≤ bits msk lo hi) → out x = dst x) := by
  refine ⟨packCount_eq hD msk hlo hlh hhi, ?_⟩
  -- the effect of one process
  obtain ⟨P, hP⟩ : ∃ P : Nat → Int → Prop, P = fun p x => Active D lo hi p ∧
    bits msk lo (max lo (D.blk p).1 - 1) < x ∧
      x ≤ bits msk lo (max lo (D.blk p).1 - 1) +
        bits msk (max lo (D.blk p).1) (min hi (D.blk p).2) := ⟨_, rfl⟩
  obtain ⟨V, hV⟩ : ∃ V : Int → M, ∀ g, lo ≤ g → g ≤ hi → msk g = true → V (bits msk lo g) = src g := by
    classical
    refine ⟨fun x => if h : ∃ g, lo ≤ g ∧ g ≤ hi ∧ msk g = true ∧ bits msk lo g = x then
      src h.choose else src 0, fun g h1 h2 h3 => ?_⟩
    have hx : ∃ g', lo ≤ g' ∧ g' ≤ hi ∧ msk g' = true ∧ bits msk lo g' = bits msk lo g :=
      ⟨g, h1, h2, h3, rfl⟩
    simp only
    rw [dif_pos hx]
    obtain ⟨a, b, c, d⟩ := hx.choose_spec
    rw [rank_inj msk a h1 c h3 d]
  have hstep : ∀ p ∈ order, ∃ f : (Int → M) → (Int → M),
      (∀ d, packStep D dimDst src msk lo hi p (some d) = some (f d)) ∧
      (∀ d x, P p x → f d x = V x) ∧ (∀ d x, ¬ P p x → f d x = d x) := by
    intro p hp
    have hp := (schedule_mem ho).1 hp
    by_cases ha : Active D lo hi p
    · obtain ⟨l1, l2, l3, l4, l5, l6⟩ := packLoc_active hD msk hlo hlh hhi hp ha
      have hl := lim_np hD msk hlo hlh hhi hp ha
      have hpl := place_active hD msk hlo hlh hhi hp ha
      obtain ⟨a1, a2, a3⟩ := ha
      have hbound : bits msk lo (max lo (D.blk p).1 - 1) +
          bits msk (max lo (D.blk p).1) (min hi (D.blk p).2) ≤ bits msk lo hi := by
        rw [bits_split msk (a := lo) (c := max lo (D.blk p).1) (b := hi) (by omega) (by omega),
          bits_split msk (a := max lo (D.blk p).1) (c := min hi (D.blk p).2 + 1) (b := hi)
            (by omega) (by omega), show min hi (D.blk p).2 + 1 - 1 = min hi (D.blk p).2 by omega]
        have := bits_nonneg msk (min hi (D.blk p).2 + 1) hi
        omega
      by_cases hz : bits msk (max lo (D.blk p).1) (min hi (D.blk p).2) = 0
      · refine ⟨id, fun d => ?_, fun d x hx => ?_, fun d x _ => rfl⟩
        · unfold packStep
          simp only [l5, hl, hz, Bool.false_eq_true, if_false, or_true, if_true, id]
        · rw [hP] at hx; omega
      · have hacc : accessOK D (max lo (D.blk p).1) (min hi (D.blk p).2) = true := by
          unfold accessOK
          rcases hD.shape p hp with h | h
          · rw [h] at a1; simp at a1
          · simp; omega
        have hnn := bits_nonneg msk lo (max lo (D.blk p).1 - 1)
        have hnn2 := bits_nonneg msk (max lo (D.blk p).1) (min hi (D.blk p).2)
        obtain ⟨f1, f2, f3⟩ := l6 (by rw [l4]; exact hz)
        obtain ⟨fst, hfst⟩ : ∃ fst, fst = (packLoc D msk lo hi p).first := ⟨_, rfl⟩
        rw [← hfst] at f1 f2 f3
        obtain ⟨pl, hpl'⟩ : ∃ pl, pl = bits msk lo (max lo (D.blk p).1 - 1) := ⟨_, rfl⟩
        obtain ⟨c, hc⟩ : ∃ c, c = bits msk (max lo (D.blk p).1) (min hi (D.blk p).2) := ⟨_, rfl⟩
        rw [← hpl', ← hc] at hbound
        rw [← hpl'] at hpl hnn
        rw [← hc] at hl hnn2 hz
        -- the count is reached from the first bit on
        have hrest : bits msk (max lo (D.blk p).1 + fst) (min hi (D.blk p).2) = c := by
          rw [hc, bits_split msk (a := max lo (D.blk p).1) (c := max lo (D.blk p).1 + fst)
            (by omega) (by omega), bits_zero_of_noBit msk f3]
          omega
        refine ⟨fun dst => fun x => if pl + 1 ≤ x ∧ x ≤ pl + c then
          packLoop src msk (max lo (D.blk p).1) c
            (min hi (D.blk p).2 - max lo (D.blk p).1 + 1 - fst).toNat fst 0
            (fun k => dst (pl + 1 + k)) (x - (pl + 1)) else dst x, fun d => ?_, fun d x hx => ?_,
            fun d x hx => ?_⟩
        · unfold packStep
          simp only [l5, hl, hpl, l1, l2, ← hfst, hacc, Bool.false_eq_true, if_false,
            Option.map_some]
          rw [if_neg (by omega), if_pos ⟨trivial, by omega, by omega⟩]
        · rw [hP] at hx
          simp only [← hpl', ← hc] at hx
          simp only
          rw [if_pos (by omega)]
          -- which mask position is this?
          obtain ⟨j, j1, j2, j3, j4⟩ := rank_surj msk (max lo (D.blk p).1) (min hi (D.blk p).2)
            (x - pl) (by omega) (by omega)
          have jf : max lo (D.blk p).1 + fst ≤ j := by
            by_contra hlt
            have := f3 j j1 (by omega)
            rw [j3] at this; cases this
          obtain ⟨_, s2⟩ := packLoop_spec src msk (max lo (D.blk p).1) c
            (min hi (D.blk p).2 - max lo (D.blk p).1 + 1 - fst).toNat fst 0
            (fun k => d (pl + 1 + k)) (by
              rw [show max lo (D.blk p).1 + fst +
                ((min hi (D.blk p).2 - max lo (D.blk p).1 + 1 - fst).toNat : Int) - 1 =
                min hi (D.blk p).2 by omega, hrest]; omega)
          have s2 := s2 j jf (by omega) j3
          have hj : bits msk (max lo (D.blk p).1 + fst) j = x - pl := by
            rw [bits_split msk (a := max lo (D.blk p).1) (c := max lo (D.blk p).1 + fst)
              (by omega) (by omega), bits_zero_of_noBit msk f3] at j4
            omega
          rw [hj] at s2
          have hx' : x = bits msk lo j := by
            rw [bits_split msk (a := lo) (c := max lo (D.blk p).1) (b := j) (by omega) (by omega),
              j4]
            omega
          rw [show x - (pl + 1) = 0 + (x - pl) - 1 by omega, s2]
          rw [hx']
          exact (hV j (by omega) (by omega) j3).symm
        · rw [hP] at hx
          simp only [← hpl', ← hc] at hx
          simp only
          rw [if_neg]
          intro h
          exact hx ⟨⟨a1, a2, a3⟩, by omega, by omega⟩
    · obtain ⟨l1, l2, l3, l4⟩ := packLoc_inactive hD msk hlo hlh hp ha
      refine ⟨id, fun d => ?_, fun d x hx => ?_, fun d x _ => rfl⟩
      · unfold packStep
        simp only [l3, Bool.false_eq_true, if_false]
        rw [if_pos (by omega)]
        rfl
      · rw [hP] at hx; exact absurd hx.1 ha
  -- collect the step functions
  have hf : ∃ F : Nat → (Int → M) → (Int → M), ∀ p ∈ order,
      (∀ d, packStep D dimDst src msk lo hi p (some d) = some (F p d)) ∧
      (∀ d x, P p x → F p d x = V x) ∧ (∀ d x, ¬ P p x → F p d x = d x) := by
    classical
    refine ⟨fun p => if h : p ∈ order then (hstep p h).choose else id, fun p hp => ?_⟩
    simp only [dif_pos hp]
    exact (hstep p hp).choose_spec
  obtain ⟨F, hF⟩ := hf
  have hPd : ∀ p ∈ order, ∀ q ∈ order, ∀ x, P p x → P q x → p = q := by
    intro p hp q hq x hx hy
    rw [hP] at hx hy
    obtain ⟨⟨a1, a2, a3⟩, x1, x2⟩ := hx
    obtain ⟨⟨b1, b2, b3⟩, y1, y2⟩ := hy
    have hp := (schedule_mem ho).1 hp
    have hq := (schedule_mem ho).1 hq
    have aux : ∀ p q, p < D.nproc → q < D.nproc → Active D lo hi p → Active D lo hi q →
        (D.blk q).1 < (D.blk p).1 →
        bits msk lo (max lo (D.blk q).1 - 1) +
          bits msk (max lo (D.blk q).1) (min hi (D.blk q).2) ≤
        bits msk lo (max lo (D.blk p).1 - 1) := by
      intro p q hp hq ha hb hlt
      have hbef := hD.before hp hq (le_refl _) hb.1 hlt ha.1
      obtain ⟨a1, a2, a3⟩ := ha
      obtain ⟨b1, b2, b3⟩ := hb
      rw [bits_split msk (a := lo) (c := max lo (D.blk q).1) (b := max lo (D.blk p).1 - 1)
        (by omega) (by omega),
        bits_split msk (a := max lo (D.blk q).1) (c := min hi (D.blk q).2 + 1)
          (b := max lo (D.blk p).1 - 1) (by omega) (by omega),
        show min hi (D.blk q).2 + 1 - 1 = min hi (D.blk q).2 by omega]
      have := bits_nonneg msk (min hi (D.blk q).2 + 1) (max lo (D.blk p).1 - 1)
      omega
    rcases Int.lt_trichotomy (D.blk q).1 (D.blk p).1 with h | h | h
    · have := aux p q hp hq ⟨a1, a2, a3⟩ ⟨b1, b2, b3⟩ h; omega
    · exact hD.uniq p q (D.blk p).1 hp hq (le_refl _) a1 (by omega) (by rw [← h]; exact b1)
    · have := aux q p hq hp ⟨b1, b2, b3⟩ ⟨a1, a2, a3⟩ h; omega
  refine ⟨_, fold_some (fun p d => packStep D dimDst src msk lo hi p d) F order
    (fun p hp a => (hF p hp).1 a) dst, ?_, ?_⟩
  · intro g g1 g2 g3
    obtain ⟨p, hp, p1, p2⟩ := hD.cover g (by omega) (by omega)
    have hPx : P p (bits msk lo g) := by
      rw [hP]
      refine ⟨⟨by omega, by omega, by omega⟩, ?_, ?_⟩
      · rw [bits_split msk (a := lo) (c := max lo (D.blk p).1) (b := g) (by omega) (by omega)]
        have := bits_pos msk (a := max lo (D.blk p).1) (b := g) (j := g) (by omega) (by omega) g3
        omega
      · rw [bits_split msk (a := lo) (c := max lo (D.blk p).1) (b := g) (by omega) (by omega),
          bits_split msk (a := max lo (D.blk p).1) (c := g + 1) (b := min hi (D.blk p).2) (by omega)
            (by omega), show g + 1 - 1 = g by omega]
        have := bits_nonneg msk (g + 1) (min hi (D.blk p).2)
        omega
    rw [(fold_own F P (fun _ x _ => V x) order (schedule_nodup ho)
      (fun p hp d x => (hF p hp).2.1 d x) (fun p hp d x => (hF p hp).2.2 d x) hPd dst
      (bits msk lo g)).1 p ((schedule_mem ho).2 hp) hPx]
    exact hV g g1 g2 g3
  · intro x hx
    apply (fold_own F P (fun _ x _ => V x) order (schedule_nodup ho)
      (fun p hp d x => (hF p hp).2.1 d x) (fun p hp d x => (hF p hp).2.2 d x) hPd dst x).2
    intro p hp hPx
    rw [hP] at hPx
    obtain ⟨⟨a1, a2, a3⟩, x1, x2⟩ := hPx
    have hnn := bits_nonneg msk lo (max lo (D.blk p).1 - 1)
    apply hx
    refine ⟨by omega, le_trans x2 ?_⟩
    rw [bits_split msk (a := lo) (c := max lo (D.blk p).1) (b := hi) (by omega) (by omega),
      bits_split msk (a := max lo (D.blk p).1) (c := min hi (D.blk p).2 + 1) (b := hi)
        (by omega) (by omega), show min hi (D.blk p).2 + 1 - 1 = min hi (D.blk p).2 by omega]
    have := bits_nonneg msk (min hi (D.blk p).2 + 1) hi
    omega

/-- **C37, unpack.** The mask positions of `lo..hi` receive the elements of the packed array in
order; all other elements keep their value. -/
theorem C37_unpack_partial {M : Type} (D : Dist) (hD : Tiles D) (dimSrc : Int) (order : List Nat)
    (ho : Schedule D order) (src : Int → M) (msk : Int → Bool) (lo hi : Int) (hlo : 1 ≤ lo)
    (hlh : lo ≤ hi) (hhi : hi ≤ D.dim) (hfit : bits msk lo hi ≤ dimSrc) (dst : Int → M) :
    ∃ out, unpack D dimSrc order src msk lo hi dst = some out ∧
      ∀ g, out g = if lo ≤ g ∧ g ≤ hi ∧ msk g = true then src (bits msk lo g) else dst g := by
  have hstep : ∀ p ∈ order, ∃ f : (Int → M) → (Int → M),
      (∀ d, unpackStep D dimSrc src msk lo hi p (some d) = some (f d)) ∧
      (∀ d x, InPart D lo hi p x ∧ msk x = true → f d x = src (bits msk lo x)) ∧
      (∀ d x, ¬ (InPart D lo hi p x ∧ msk x = true) → f d x = d x) := by
    intro p hp
    have hp := (schedule_mem ho).1 hp
    by_cases ha : Active D lo hi p
    · obtain ⟨l1, l2, l3, l4, l5, l6⟩ := packLoc_active hD msk hlo hlh hhi hp ha
      have hl := lim_np hD msk hlo hlh hhi hp ha
      have hpl := place_active hD msk hlo hlh hhi hp ha
      obtain ⟨a1, a2, a3⟩ := ha
      by_cases hz : bits msk (max lo (D.blk p).1) (min hi (D.blk p).2) = 0
      · refine ⟨id, fun d => ?_, fun d x hx => ?_, fun d x _ => rfl⟩
        · unfold unpackStep
          simp only [l5, hl, hz, Bool.false_eq_true, if_false, or_true, if_true, id]
        · obtain ⟨⟨x1, x2, x3, x4⟩, x5⟩ := hx
          have := bits_pos msk (a := max lo (D.blk p).1) (b := min hi (D.blk p).2) (j := x)
            (by omega) (by omega) x5
          omega
      · have hacc : accessOK D (max lo (D.blk p).1) (min hi (D.blk p).2) = true := by
          unfold accessOK
          rcases hD.shape p hp with h | h
          · rw [h] at a1; simp at a1
          · simp; omega
        have hbound : bits msk lo (max lo (D.blk p).1 - 1) +
            bits msk (max lo (D.blk p).1) (min hi (D.blk p).2) ≤ bits msk lo hi := by
          rw [bits_split msk (a := lo) (c := max lo (D.blk p).1) (b := hi) (by omega) (by omega),
            bits_split msk (a := max lo (D.blk p).1) (c := min hi (D.blk p).2 + 1) (b := hi)
              (by omega) (by omega), show min hi (D.blk p).2 + 1 - 1 = min hi (D.blk p).2 by omega]
          have := bits_nonneg msk (min hi (D.blk p).2 + 1) hi
          omega
        have hnn := bits_nonneg msk lo (max lo (D.blk p).1 - 1)
        obtain ⟨f1, f2, f3⟩ := l6 (by rw [l4]; exact hz)
        obtain ⟨fst, hfst⟩ : ∃ fst, fst = (packLoc D msk lo hi p).first := ⟨_, rfl⟩
        rw [← hfst] at f1 f2 f3
        obtain ⟨pl, hpl'⟩ : ∃ pl, pl = bits msk lo (max lo (D.blk p).1 - 1) := ⟨_, rfl⟩
        obtain ⟨c, hc⟩ : ∃ c, c = bits msk (max lo (D.blk p).1) (min hi (D.blk p).2) := ⟨_, rfl⟩
        rw [← hpl', ← hc] at hbound
        rw [← hpl'] at hpl hnn
        rw [← hc] at hl hz
        have hrest : bits msk (max lo (D.blk p).1 + fst) (min hi (D.blk p).2) = c := by
          rw [hc, bits_split msk (a := max lo (D.blk p).1) (c := max lo (D.blk p).1 + fst)
            (by omega) (by omega), bits_zero_of_noBit msk f3]
          omega
        refine ⟨fun dst => unpackLoop (fun k => src (pl + 1 + k)) msk (max lo (D.blk p).1) c
            (min hi (D.blk p).2 - max lo (D.blk p).1 + 1 - fst).toNat fst 0 dst,
            fun d => ?_, fun d x hx => ?_, fun d x hx => ?_⟩
        · unfold unpackStep
          simp only [l5, hl, hpl, l1, l2, ← hfst, hacc, Bool.false_eq_true, if_false,
            Option.map_some]
          rw [if_neg (by omega), if_pos ⟨trivial, by omega, by omega⟩]
        · obtain ⟨⟨x1, x2, x3, x4⟩, x5⟩ := hx
          have xf : max lo (D.blk p).1 + fst ≤ x := by
            by_contra hlt
            have := f3 x (by omega) (by omega)
            rw [x5] at this; cases this
          simp only
          rw [unpackLoop_in _ _ _ _ _ _ _ _ _ (by
              rw [show max lo (D.blk p).1 + fst +
                ((min hi (D.blk p).2 - max lo (D.blk p).1 + 1 - fst).toNat : Int) - 1 =
                min hi (D.blk p).2 by omega, hrest]; omega) xf (by omega) x5]
          have hx' : bits msk lo x = pl + bits msk (max lo (D.blk p).1 + fst) x := by
            rw [bits_split msk (a := lo) (c := max lo (D.blk p).1) (b := x) (by omega) (by omega),
              bits_split msk (a := max lo (D.blk p).1) (c := max lo (D.blk p).1 + fst) (b := x)
                (by omega) (by omega), bits_zero_of_noBit msk f3]
            omega
          rw [hx']
          congr 1; omega
        · simp only
          apply unpackLoop_out
          rintro ⟨x1, x2, x3⟩
          exact hx ⟨⟨by omega, by omega, by omega, by omega⟩, x3⟩
    · obtain ⟨l1, l2, l3, l4⟩ := packLoc_inactive hD msk hlo hlh hp ha
      refine ⟨id, fun d => ?_, fun d x hx => ?_, fun d x _ => rfl⟩
      · unfold unpackStep
        simp only [l3, Bool.false_eq_true, if_false]
        rw [if_pos (by omega)]
        rfl
      · obtain ⟨⟨x1, x2, x3, x4⟩, x5⟩ := hx
        exact absurd ⟨by omega, by omega, by omega⟩ ha
  have hf : ∃ F : Nat → (Int → M) → (Int → M), ∀ p ∈ order,
      (∀ d, unpackStep D dimSrc src msk lo hi p (some d) = some (F p d)) ∧
      (∀ d x, InPart D lo hi p x ∧ msk x = true → F p d x = src (bits msk lo x)) ∧
      (∀ d x, ¬ (InPart D lo hi p x ∧ msk x = true) → F p d x = d x) := by
    classical
    refine ⟨fun p => if h : p ∈ order then (hstep p h).choose else id, fun p hp => ?_⟩
    simp only [dif_pos hp]
    exact (hstep p hp).choose_spec
  obtain ⟨F, hF⟩ := hf
  refine ⟨_, fold_some (fun p d => unpackStep D dimSrc src msk lo hi p d) F order
    (fun p hp a => (hF p hp).1 a) dst, fun g => ?_⟩
  have fin := fold_own F (fun p x => InPart D lo hi p x ∧ msk x = true)
    (fun _ x _ => src (bits msk lo x)) order (schedule_nodup ho)
    (fun p hp d x => (hF p hp).2.1 d x) (fun p hp d x => (hF p hp).2.2 d x)
    (fun p hp q hq x hx hy => inPart_uniq hD ((schedule_mem ho).1 hp) ((schedule_mem ho).1 hq)
      hx.1 hy.1) dst g
  split
  · rename_i h
    obtain ⟨p, hp, p1, p2⟩ := hD.cover g (by omega) (by omega)
    exact fin.1 p ((schedule_mem ho).2 hp) ⟨⟨p1, p2, h.1, h.2.1⟩, h.2.2⟩
  · rename_i h
    exact fin.2 (fun p _ hh => h ⟨hh.1.2.2.1, hh.1.2.2.2, hh.2⟩)

/-- **C37, round trip.** Packing an array and unpacking the result with the same mask (into any
array, under any distribution of it) restores the masked elements at their places. -/
theorem C37_roundtrip_partial {M : Type} (D D' : Dist) (hD : Tiles D) (hD' : Tiles D') (dimPck : Int)
    (order order' : List Nat) (ho : Schedule D order) (ho' : Schedule D' order') (src : Int → M)
    (msk : Int → Bool) (lo hi : Int) (hlo : 1 ≤ lo) (hlh : lo ≤ hi) (hhi : hi ≤ D.dim)
    (hhi' : hi ≤ D'.dim) (hfit : bits msk lo hi ≤ dimPck) (pck dst : Int → M) :
    ∃ pck' out, pack D dimPck order src msk lo hi pck = some pck' ∧
      unpack D' dimPck order' pck' msk lo hi dst = some out ∧
      ∀ g, out g = if lo ≤ g ∧ g ≤ hi ∧ msk g = true then src g else dst g := by
  obtain ⟨_, pck', a, b, _⟩ :=
    C37_pack_partial D hD dimPck order ho src msk lo hi hlo hlh hhi hfit pck
  obtain ⟨out, c, d⟩ :=
    C37_unpack_partial D' hD' dimPck order' ho' pck' msk lo hi hlo hlh hhi' hfit dst
  refine ⟨pck', out, a, c, fun g => ?_⟩
  rw [d g]
  split
  · rename_i h; exact b g h.1 h.2.1 h.2.2
  · rfl

/-! ## C35, patch_enum -/

theorem enumLoop_eq {M : Type} [Add M] (mulc : Int → M → M) (start stride : M) (lop off : Int)
    (n : Nat) (i : Int) (a : Int → M) (g : Int) :
    enumLoop mulc start stride lop off n i a g =
      if lop + i ≤ g ∧ g < lop + i + n then start + mulc (off + (g - lop)) stride else a g := by
  induction n generalizing i a with
  | zero => simp only [enumLoop]; rw [if_neg (by omega)]
  | succ n ih =>
    simp only [enumLoop]
    rw [ih]
    by_cases h : lop + (i + 1) ≤ g ∧ g < lop + (i + 1) + n
    · rw [if_pos h, if_pos (by omega)]
    · rw [if_neg h]
      by_cases e : g = lop + i
      · subst e
        rw [upd_same, if_pos (by omega)]
        congr 2; omega
      · rw [upd_ne _ _ e, if_neg (by omega)]

/-- **C35, patch_enum.** Element `g` of `lo..hi` becomes `start + (g - lo) * stride`; the other
elements keep their value. -/
theorem C35_patch_enum_partial {M : Type} [Add M] (D : Dist) (hD : Tiles D) (mulc : Int → M → M)
    (order : List Nat) (ho : Schedule D order) (lo hi : Int) (hlo : 1 ≤ lo) (hlh : lo ≤ hi)
    (hhi : hi ≤ D.dim) (start stride : M) (a : Int → M) :
    ∃ out, patchEnum D mulc order lo hi start stride a = some out ∧
      ∀ g, out g = if lo ≤ g ∧ g ≤ hi then start + mulc (g - lo) stride else a g := by
  obtain ⟨F, hF⟩ : ∃ F : Nat → (Int → M) → (Int → M), F = fun p a g =>
      if (D.blk p).1 ≤ g ∧ g ≤ (D.blk p).2 ∧ lo ≤ g ∧ g ≤ hi then start + mulc (g - lo) stride
      else a g := ⟨_, rfl⟩
  have hs : ∀ p ∈ order, ∀ a, enumStep D mulc lo hi start stride p (some a) = some (F p a) := by
    intro p hp a
    have hp := (schedule_mem ho).1 hp
    unfold enumStep
    simp only
    rcases hD.shape p hp with h | h
    · rw [h]
      simp only [show ¬ ((0 : Int) > 0) by omega, if_false]
      congr 1
      funext g
      rw [hF]; simp only [h]
      rw [if_neg (by omega)]
    · rw [if_pos (by omega)]
      split
      · rename_i hc
        congr 1
        funext g
        rw [hF]; simp only
        rw [if_neg (by omega)]
      · rename_i hc
        rw [show (if (D.blk p).1 < lo then lo else (D.blk p).1) = max lo (D.blk p).1 by
            split <;> omega,
          show (if (D.blk p).2 > hi then hi else (D.blk p).2) = min hi (D.blk p).2 by
            split <;> omega, if_pos (by unfold accessOK; simp; omega)]
        simp only [Option.map_some]
        congr 1
        funext g
        rw [enumLoop_eq, hF]
        simp only
        by_cases hg : (D.blk p).1 ≤ g ∧ g ≤ (D.blk p).2 ∧ lo ≤ g ∧ g ≤ hi
        · rw [if_pos hg, if_pos (by omega)]
          congr 2; omega
        · rw [if_neg hg, if_neg (by omega)]
  refine ⟨_, fold_some (fun p a => enumStep D mulc lo hi start stride p a) F order hs a, fun g => ?_⟩
  have fin := fold_own F (InPart D lo hi) (fun _ g _ => start + mulc (g - lo) stride) order
    (schedule_nodup ho)
    (fun p _ d g hg => by rw [hF]; simp only; exact if_pos hg)
    (fun p _ d g hg => by rw [hF]; simp only; exact if_neg hg)
    (fun p hp q hq g => inPart_uniq hD ((schedule_mem ho).1 hp) ((schedule_mem ho).1 hq)) a g
  split
  · rename_i h
    obtain ⟨p, hp, p1, p2⟩ := hD.cover g (by omega) (by omega)
    exact fin.1 p ((schedule_mem ho).2 hp) ⟨p1, p2, h.1, h.2⟩
  · rename_i h
    exact fin.2 (fun p _ hh => h hh.2.2)

/-! ## Empty blocks

`NGA_Create_irreg` accepts distributions with empty blocks (two equal entries of the map, base.c
1742-1757).  With such a distribution all these operations stop with an error. -/

/-- five elements on three processes, the block of process 1 is `3..2` -/
def exEmpty : Dist := ⟨3, 5, fun p => [(1, 2), (3, 2), (3, 5)].getD p (0, -1)⟩

/-- every element of `exEmpty` has exactly one owner -/
theorem exEmpty_owner : ∀ g, 1 ≤ g → g ≤ 5 → ∃ p, p < 3 ∧
    ((exEmpty.blk p).1 ≤ g ∧ g ≤ (exEmpty.blk p).2) ∧
    ∀ q, q < 3 → (exEmpty.blk q).1 ≤ g ∧ g ≤ (exEmpty.blk q).2 → q = p := by
  intro g h1 h2
  have : g = 1 ∨ g = 2 ∨ g = 3 ∨ g = 4 ∨ g = 5 := by omega
  rcases this with rfl | rfl | rfl | rfl | rfl
  · exact ⟨0, by decide⟩
  · exact ⟨0, by decide⟩
  · exact ⟨2, by decide⟩
  · exact ⟨2, by decide⟩
  · exact ⟨2, by decide⟩

/-- **C35/C36/C37 fail for distributions with an empty block**: the calls stop with an error. -/
theorem C36_empty_block_error :
    scanCopy exEmpty [0, 1, 2] (fun g => g) (fun _ => true) 1 5 (fun _ => 0) = none ∧
    scanAdd exEmpty [0, 1, 2] [0, 1, 2] false (fun g => g) (fun _ => true) 1 5 (fun _ => 0) = none ∧
    pack exEmpty 5 [0, 1, 2] (fun g => g) (fun _ => true) 1 5 (fun _ => 0) = none ∧
    unpack exEmpty 5 [0, 1, 2] (fun g => g) (fun _ => true) 1 5 (fun _ => 0) = none ∧
    patchEnum exEmpty (fun k s => k * s) [0, 1, 2] 1 5 0 1 (fun _ => 0) = none := by
  refine ⟨?_, ?_, ?_, ?_, ?_⟩ <;> rfl

/-! ## Every distribution without empty blocks is covered -/

/-- The distribution which `pnga_distribution` reports for a one-dimensional array with a given
block map. -/
def ofArray (nproc : Nat) (d : Int) (starts : List Int) : Dist :=
  ⟨nproc, d, fun p =>
    ((Model.owns ⟨[d], [starts.length], starts, [0]⟩ p).1.getD 0 0,
     (Model.owns ⟨[d], [starts.length], starts, [0]⟩ p).2.getD 0 0)⟩

/-- A block map with strictly increasing starts (from 1 to at most `d`) on at least as many
processes as blocks satisfies `Tiles`. -/
theorem tiles_ofArray (nproc : Nat) (d : Int) (starts : List Int)
    (h1 : starts.head? = some 1) (h2 : starts.Pairwise (· < ·)) (h3 : ∀ m ∈ starts, m ≤ d)
    (hn : starts.length ≤ nproc) : Tiles (ofArray nproc d starts) := by
  have hne : 0 < starts.length := by
    cases starts with
    | nil => simp at h1
    | cons => simp
  have h0 : starts[0] = 1 := by
    rw [List.head?_eq_getElem?, List.getElem?_eq_getElem hne] at h1
    exact Option.some.inj h1
  have hd1 : 1 ≤ d := by
    have := h3 _ (List.getElem_mem hne); omega
  have hax : Spec.AxisOK d starts :=
    ⟨h1, h2.imp (fun h => by omega), fun m hm => by have := h3 m hm; omega⟩
  have hmap : Spec.MapOK [starts.length] [d] starts := by
    refine ⟨⟨hne, le_refl _, hd1, ?_⟩, trivial⟩
    rw [List.take_length]; exact hax
  -- the block of one process
  have hblk : ∀ p, (p < starts.length →
      (ofArray nproc d starts).blk p = (starts.getD p 0,
        if p = starts.length - 1 then d else starts.getD (p + 1) 0 - 1)) ∧
      (¬ p < starts.length → (ofArray nproc d starts).blk p = (0, -1)) := by
    intro p
    constructor
    · intro hp
      have e : Model.owns ⟨[d], [starts.length], starts, [0]⟩ (p : Int) =
          (Model.ownsLo [starts.length] starts p, Model.ownsHi [starts.length] [d] starts p) := by
        unfold Model.owns
        rw [if_neg (by simp [Model.gridSize]; omega)]
        rfl
      simp only [ofArray, e]
      simp [Model.ownsLo, Model.ownsHi, Nat.mod_eq_of_lt hp]
    · intro hp
      have e : Model.owns ⟨[d], [starts.length], starts, [0]⟩ (p : Int) = ([0], [-1]) := by
        unfold Model.owns
        rw [if_pos (by simp [Model.gridSize]; omega)]
        rfl
      simp only [ofArray, e]
      rfl
  have hst : ∀ i (hi : i < starts.length), 1 ≤ starts[i] ∧ starts[i] ≤ d := by
    intro i hi
    refine ⟨?_, h3 _ (List.getElem_mem hi)⟩
    by_cases e : i = 0
    · subst e; omega
    · have := List.pairwise_iff_getElem.1 h2 0 i hne hi (by omega)
      omega
  have own : ∀ p g, GA.OwnedBy ⟨[d], [starts.length], starts, [0]⟩ (p : Nat) [g] ↔
      ((ofArray nproc d starts).blk p).1 ≤ g ∧ g ≤ ((ofArray nproc d starts).blk p).2 := by
    intro p g
    unfold GA.OwnedBy
    simp only [ofArray]
    unfold Model.owns
    split <;> simp [Spec.InPatch, Model.ownsLo, Model.ownsHi]
  refine ⟨?_, ?_, ?_⟩
  · intro p _
    by_cases hp : p < starts.length
    · right
      rw [(hblk p).1 hp]
      simp only [List.getD_eq_getElem?_getD, List.getElem?_eq_getElem hp, Option.getD_some]
      have := hst p hp
      split
      · exact ⟨by omega, by omega, le_refl _⟩
      · have hp' : p + 1 < starts.length := by omega
        rw [List.getElem?_eq_getElem hp', Option.getD_some]
        have := List.pairwise_iff_getElem.1 h2 p (p + 1) hp hp' (by omega)
        have := hst (p + 1) hp'
        simp only [ofArray]
        omega
    · left; exact (hblk p).2 hp
  · intro g g1 g2
    obtain ⟨p, _, p0, p1, p2, _⟩ := (C01_unique_owner ⟨[d], [starts.length], starts, [0]⟩ (by simp)
      hmap [0] (by simp [CandOK]) [g] rfl).1 ⟨⟨g1, g2⟩, trivial⟩
    simp only [Model.gridSize] at p1
    refine ⟨p.toNat, by simp only [ofArray]; push_cast at p1; omega, (own p.toNat g).1 ?_⟩
    rw [show ((p.toNat : Nat) : Int) = p by omega]
    exact p2
  · intro p q g _ _ a b c e
    have hp := (own p g).2 ⟨a, b⟩
    have hq := (own q g).2 ⟨c, e⟩
    by_cases hg : Spec.InArray [d] [g]
    · obtain ⟨r, _, _, _, _, hr⟩ := (C01_unique_owner ⟨[d], [starts.length], starts, [0]⟩ (by simp)
        hmap [0] (by simp [CandOK]) [g] rfl).1 hg
      have h1 := hr _ hp
      have h2 := hr _ hq
      omega
    · exact absurd hp (((C01_unique_owner ⟨[d], [starts.length], starts, [0]⟩ (by simp)
        hmap [0] (by simp [CandOK]) [g] rfl).2 hg).2 _)

example : Tiles (ofArray 6 12 [1, 5, 8, 10]) :=
  tiles_ofArray 6 12 [1, 5, 8, 10] rfl (by decide) (by decide) (by decide)

/-! ## Non-vacuity -/

/-- twelve elements on five processes, in scrambled order; process 3 has no block -/
def exD : Dist := ⟨5, 12, fun p => [(8, 9), (1, 4), (10, 12), (0, -1), (5, 7)].getD p (0, -1)⟩

theorem exD_tiles : Tiles exD := by
  refine ⟨?_, ?_, ?_⟩
  · intro p hp
    have hp : p < 5 := hp
    have : p = 0 ∨ p = 1 ∨ p = 2 ∨ p = 3 ∨ p = 4 := by omega
    rcases this with rfl | rfl | rfl | rfl | rfl <;> simp [exD]
  · intro g h1 h2
    have h2 : g ≤ 12 := h2
    by_cases a : g ≤ 4
    · exact ⟨1, by decide, by simp [exD]; omega⟩
    · by_cases b : g ≤ 7
      · exact ⟨4, by decide, by simp [exD]; omega⟩
      · by_cases c : g ≤ 9
        · exact ⟨0, by decide, by simp [exD]; omega⟩
        · exact ⟨2, by decide, by simp [exD]; omega⟩
  · intro p q g hp hq a b c d
    have hp : p < 5 := hp
    have hq : q < 5 := hq
    have h1 : p = 0 ∨ p = 1 ∨ p = 2 ∨ p = 3 ∨ p = 4 := by omega
    have h2 : q = 0 ∨ q = 1 ∨ q = 2 ∨ q = 3 ∨ q = 4 := by omega
    rcases h1 with rfl | rfl | rfl | rfl | rfl <;>
    rcases h2 with rfl | rfl | rfl | rfl | rfl <;>
    first
    | rfl
    | (simp [exD] at a b c d; omega)

/-- mask positions 3 and 9 -/
def exMsk : Int → Bool := fun g => g == 3 || g == 9

example : Schedule exD [4, 0, 3, 2, 1] := by unfold Schedule; decide

example : ((scanAdd exD [4, 0, 3, 2, 1] [0, 1, 2, 3, 4] false (fun g => g) exMsk 2 11
      (fun _ => (0 : Int))).map fun o => [1, 2, 3, 4, 5, 8, 9, 10, 11, 12].map o) =
    some [0, 0, 3, 7, 12, 33, 9, 19, 30, 0] := by decide

example : ((scanAdd exD [4, 0, 3, 2, 1] [0, 1, 2, 3, 4] true (fun g => g) exMsk 2 11
      (fun _ => (0 : Int))).map fun o => [1, 2, 3, 4, 5, 8, 9, 10, 11, 12].map o) =
    some [0, 0, 0, 3, 7, 25, 0, 9, 19, 0] := by decide

example : ((scanCopy exD [4, 0, 3, 2, 1] (fun g => g) exMsk 2 11
      (fun _ => (-1 : Int))).map fun o => [1, 2, 3, 4, 5, 8, 9, 10, 11, 12].map o) =
    some [-1, 0, 3, 3, 3, 3, 9, 9, 9, -1] := by decide

example : ((pack exD 5 [4, 0, 3, 2, 1] (fun g => g) exMsk 2 11
      (fun _ => (-1 : Int))).map fun o => [0, 1, 2, 3].map o) = some [-1, 3, 9, -1] ∧
    packCount exD exMsk 2 11 3 = 2 := by decide

example : LastBit exMsk 2 8 3 ∧ NoBit exMsk 4 8 := by
  refine ⟨⟨by omega, by omega, rfl, ?_⟩, ?_⟩
  · intro j h1 h2
    simp only [exMsk, Bool.or_eq_false_iff, beq_eq_false_iff_ne]
    omega
  · intro j h1 h2
    simp only [exMsk, Bool.or_eq_false_iff, beq_eq_false_iff_ne]
    omega

end GA.Sparse
