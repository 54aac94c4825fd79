import Verif.Lemmas.SparseAdd

/-! # Lemmas about `pnga_pack`, `pnga_unpack` and `pnga_patch_enum` -/

namespace GA.Sparse

/-! ## counting mask positions -/

theorem bits_sum (msk : Int → Bool) (a b : Int) :
    bits msk a b = ∑ j ∈ Finset.Icc a b, if msk j = true then (1 : Int) else 0 := by
  unfold bits
  rw [Finset.card_filter]
  push_cast
  rfl

theorem bits_nonneg (msk : Int → Bool) (a b : Int) : 0 ≤ bits msk a b := by
  unfold bits; omega

theorem bits_none (msk : Int → Bool) {a b : Int} (h : b < a) : bits msk a b = 0 := by
  rw [bits_sum, sum_none _ h]

theorem bits_left (msk : Int → Bool) {a b : Int} (h : a ≤ b) :
    bits msk a b = (if msk a = true then 1 else 0) + bits msk (a + 1) b := by
  rw [bits_sum, sum_left _ h, ← bits_sum]

theorem bits_right (msk : Int → Bool) {a b : Int} (h : a ≤ b) :
    bits msk a b = (if msk b = true then 1 else 0) + bits msk a (b - 1) := by
  rw [bits_sum, sum_right _ h, ← bits_sum]

theorem bits_split (msk : Int → Bool) {a c b : Int} (h1 : a ≤ c) (h2 : c ≤ b + 1) :
    bits msk a b = bits msk c b + bits msk a (c - 1) := by
  rw [bits_sum, sum_split _ h1 h2, ← bits_sum, ← bits_sum]

theorem bits_pos (msk : Int → Bool) {a b j : Int} (h1 : a ≤ j) (h2 : j ≤ b) (h : msk j = true) :
    0 < bits msk a b := by
  rw [bits_split msk h1 (by omega), bits_left msk h2, if_pos h]
  have := bits_nonneg msk (j + 1) b
  have := bits_nonneg msk a (j - 1)
  omega

theorem bits_noBit (msk : Int → Bool) {a b : Int} (h : bits msk a b ≤ 0) : NoBit msk a b := by
  intro j h1 h2
  by_contra hb
  have := bits_pos msk h1 h2 (by simpa using hb)
  omega

theorem bits_zero_of_noBit (msk : Int → Bool) {a b : Int} (h : NoBit msk a b) : bits msk a b = 0 := by
  rw [bits_sum]
  apply Finset.sum_eq_zero
  intro j hj
  rw [Finset.mem_Icc] at hj
  rw [h j hj.1 hj.2]; rfl

/-- every number up to the count is the rank of a mask position -/
theorem rank_surj (msk : Int → Bool) (lo hi x : Int) (h1 : 1 ≤ x) (h2 : x ≤ bits msk lo hi) :
    ∃ g, lo ≤ g ∧ g ≤ hi ∧ msk g = true ∧ bits msk lo g = x := by
  obtain ⟨n, hn⟩ : ∃ n : Nat, n = (hi + 1 - lo).toNat := ⟨_, rfl⟩
  induction n generalizing hi with
  | zero => rw [bits_none msk (by omega)] at h2; omega
  | succ n ih =>
    rw [bits_right msk (by omega)] at h2
    by_cases hb : msk hi = true
    · rw [if_pos hb] at h2
      by_cases hx : x = 1 + bits msk lo (hi - 1)
      · exact ⟨hi, by omega, by omega, hb, by rw [bits_right msk (by omega), if_pos hb, hx]⟩
      · obtain ⟨g, a, b, c⟩ := ih (hi - 1) (by omega) (by omega)
        exact ⟨g, a, by omega, c⟩
    · rw [if_neg hb] at h2
      obtain ⟨g, a, b, c⟩ := ih (hi - 1) (by omega) (by omega)
      exact ⟨g, a, by omega, c⟩

theorem rank_inj (msk : Int → Bool) {lo g g' : Int} (h1 : lo ≤ g) (h2 : lo ≤ g')
    (hg : msk g = true) (hg' : msk g' = true) (h : bits msk lo g = bits msk lo g') : g = g' := by
  by_contra hne
  rcases Int.lt_or_gt_of_ne hne with hlt | hlt
  · rw [bits_split msk (a := lo) (c := g + 1) (b := g') (by omega) (by omega)] at h
    have := bits_pos msk (a := g + 1) (b := g') (j := g') (by omega) (by omega) hg'
    rw [show g + 1 - 1 = g by omega] at h
    omega
  · rw [bits_split msk (a := lo) (c := g' + 1) (b := g) (by omega) (by omega)] at h
    have := bits_pos msk (a := g' + 1) (b := g) (j := g) (by omega) (by omega) hg
    rw [show g' + 1 - 1 = g' by omega] at h
    omega

/-! ## loops -/

theorem countLoop_cnt (msk : Int → Bool) (lop : Int) (n : Nat) (i first cnt : Int) :
    (countLoop msk lop n i first cnt).2 = cnt + bits msk (lop + i) (lop + i + n - 1) := by
  induction n generalizing i first cnt with
  | zero => simp only [countLoop]; rw [bits_none msk (by omega)]; omega
  | succ n ih =>
    simp only [countLoop]
    rw [bits_left msk (b := lop + i + ((n + 1 : Nat) : Int) - 1) (by omega),
      show lop + i + ((n + 1 : Nat) : Int) - 1 = lop + (i + 1) + n - 1 by omega,
      show lop + i + 1 = lop + (i + 1) by omega]
    split
    · rw [ih]; omega
    · rw [ih]; omega

theorem countLoop_keep (msk : Int → Bool) (lop : Int) (n : Nat) (i first cnt : Int)
    (h : 0 ≤ first) : (countLoop msk lop n i first cnt).1 = first := by
  induction n generalizing i cnt with
  | zero => rfl
  | succ n ih =>
    simp only [countLoop]
    split
    · rw [if_neg (by omega), ih]
    · rw [ih]

theorem countLoop_first (msk : Int → Bool) (lop : Int) (n : Nat) (i cnt : Int) (hi : 0 ≤ i) :
    (NoBit msk (lop + i) (lop + i + n - 1) ∧ (countLoop msk lop n i (-1) cnt).1 = -1) ∨
    (i ≤ (countLoop msk lop n i (-1) cnt).1 ∧ (countLoop msk lop n i (-1) cnt).1 < i + n ∧
      NoBit msk (lop + i) (lop + (countLoop msk lop n i (-1) cnt).1 - 1)) := by
  induction n generalizing i cnt with
  | zero => left; exact ⟨fun j h1 h2 => by omega, rfl⟩
  | succ n ih =>
    simp only [countLoop]
    by_cases hb : msk (lop + i) = true
    · right
      rw [if_pos hb]
      simp only [show ((-1 : Int) < 0) = True by simp, if_true]
      rw [countLoop_keep _ _ _ _ _ _ hi]
      exact ⟨by omega, by omega, fun j h1 h2 => by omega⟩
    · rw [if_neg hb]
      rcases ih (i + 1) cnt (by omega) with ⟨a, b⟩ | ⟨a, b, c⟩
      · left
        refine ⟨fun j h1 h2 => ?_, b⟩
        by_cases e : j = lop + i
        · rw [e]; simpa using hb
        · exact a j (by omega) (by omega)
      · right
        refine ⟨by omega, by omega, fun j h1 h2 => ?_⟩
        by_cases e : j = lop + i
        · rw [e]; simpa using hb
        · exact c j (by omega) (by omega)

theorem packLoop_spec {M : Type} (src : Int → M) (msk : Int → Bool) (lop lim : Int) (n : Nat)
    (i idx : Int) (buf : Int → M) (hlim : idx + bits msk (lop + i) (lop + i + n - 1) ≤ lim) :
    (∀ x, x < idx → packLoop src msk lop lim n i idx buf x = buf x) ∧
    (∀ j, lop + i ≤ j → j ≤ lop + i + n - 1 → msk j = true →
      packLoop src msk lop lim n i idx buf (idx + bits msk (lop + i) j - 1) = src j) := by
  induction n generalizing i idx buf with
  | zero =>
    simp only [packLoop]
    exact ⟨fun _ _ => trivial, fun j h1 h2 => by omega⟩
  | succ n ih =>
    simp only [packLoop]
    have hs := bits_left msk (a := lop + i) (b := lop + i + ((n + 1 : Nat) : Int) - 1) (by omega)
    have hnn := bits_nonneg msk (lop + i + 1) (lop + i + ((n + 1 : Nat) : Int) - 1)
    by_cases hidx : idx < lim
    · rw [if_pos hidx]
      by_cases hb : msk (lop + i) = true
      · rw [if_pos hb]
        rw [if_pos hb] at hs
        obtain ⟨a, b⟩ := ih (i + 1) (idx + 1) (upd buf idx (src (lop + i))) (by
          rw [show lop + (i + 1) + (n : Int) - 1 = lop + i + ((n + 1 : Nat) : Int) - 1 by omega,
            show lop + (i + 1) = lop + i + 1 by omega]
          omega)
        refine ⟨fun x hx => ?_, fun j h1 h2 h3 => ?_⟩
        · rw [a x (by omega), upd_ne _ _ (by omega)]
        · by_cases e : j = lop + i
          · rw [e, bits_left msk (le_refl _), if_pos hb, bits_none msk (by omega), a _ (by omega),
              show idx + (1 + 0) - 1 = idx by omega, upd_same]
          · have := b j (by omega) (by omega) h3
            rw [bits_left msk (a := lop + i) (b := j) (by omega), if_pos hb]
            rw [show lop + (i + 1) = lop + i + 1 by omega] at this
            rw [← this]
            congr 1; omega
      · rw [if_neg hb]
        rw [if_neg hb] at hs
        obtain ⟨a, b⟩ := ih (i + 1) idx buf (by
          rw [show lop + (i + 1) + (n : Int) - 1 = lop + i + ((n + 1 : Nat) : Int) - 1 by omega,
            show lop + (i + 1) = lop + i + 1 by omega]
          omega)
        refine ⟨a, fun j h1 h2 h3 => ?_⟩
        have hj : j ≠ lop + i := by rintro rfl; exact hb h3
        have := b j (by omega) (by omega) h3
        rw [bits_left msk (a := lop + i) (b := j) (by omega), if_neg hb]
        rw [show lop + (i + 1) = lop + i + 1 by omega] at this
        rw [← this]
        congr 1; omega
    · rw [if_neg hidx]
      refine ⟨fun _ _ => rfl, fun j h1 h2 h3 => ?_⟩
      have := bits_pos msk h1 h2 h3
      omega

theorem unpackLoop_out {M : Type} (buf : Int → M) (msk : Int → Bool) (lop lim : Int) (n : Nat)
    (i idx : Int) (dst : Int → M) (g : Int)
    (h : ¬ (lop + i ≤ g ∧ g < lop + i + n ∧ msk g = true)) :
    unpackLoop buf msk lop lim n i idx dst g = dst g := by
  induction n generalizing i idx dst with
  | zero => rfl
  | succ n ih =>
    simp only [unpackLoop]
    split
    · split
      · rename_i hb
        rw [ih _ _ _ (fun hh => h ⟨by omega, by omega, hh.2.2⟩), upd_ne]
        rintro rfl
        exact h ⟨by omega, by omega, hb⟩
      · exact ih _ _ _ (fun hh => h ⟨by omega, by omega, hh.2.2⟩)
    · rfl

theorem unpackLoop_in {M : Type} (buf : Int → M) (msk : Int → Bool) (lop lim : Int) (n : Nat)
    (i idx : Int) (dst : Int → M) (g : Int)
    (hlim : idx + bits msk (lop + i) (lop + i + n - 1) ≤ lim)
    (h1 : lop + i ≤ g) (h2 : g < lop + i + n) (h3 : msk g = true) :
    unpackLoop buf msk lop lim n i idx dst g = buf (idx + bits msk (lop + i) g - 1) := by
  induction n generalizing i idx dst with
  | zero => omega
  | succ n ih =>
    simp only [unpackLoop]
    have hs := bits_left msk (a := lop + i) (b := lop + i + ((n + 1 : Nat) : Int) - 1) (by omega)
    have hp := bits_pos msk h1 (b := lop + i + ((n + 1 : Nat) : Int) - 1) (by omega) h3
    rw [if_pos (by omega)]
    by_cases hb : msk (lop + i) = true
    · rw [if_pos hb]
      rw [if_pos hb] at hs
      by_cases e : g = lop + i
      · rw [e, unpackLoop_out _ _ _ _ _ _ _ _ _ (by omega), upd_same,
          bits_left msk (le_refl _), if_pos hb, bits_none msk (by omega)]
        congr 1; omega
      · rw [ih (i + 1) (idx + 1) _ (by
            rw [show lop + (i + 1) + (n : Int) - 1 = lop + i + ((n + 1 : Nat) : Int) - 1 by omega,
              show lop + (i + 1) = lop + i + 1 by omega]
            omega) (by omega) (by omega),
          bits_left msk (a := lop + i) (b := g) (by omega), if_pos hb,
          show lop + (i + 1) = lop + i + 1 by omega]
        congr 1; omega
    · rw [if_neg hb]
      rw [if_neg hb] at hs
      have e : g ≠ lop + i := by rintro rfl; exact hb h3
      rw [ih (i + 1) idx _ (by
            rw [show lop + (i + 1) + (n : Int) - 1 = lop + i + ((n + 1 : Nat) : Int) - 1 by omega,
              show lop + (i + 1) = lop + i + 1 by omega]
            omega) (by omega) (by omega),
          bits_left msk (a := lop + i) (b := g) (by omega), if_neg hb,
          show lop + (i + 1) = lop + i + 1 by omega]
      congr 1; omega

/-! ## the numbers computed by one process -/

/-- process `p` has elements in the range -/
def Active (D : Dist) (lo hi : Int) (p : Nat) : Prop :=
  (D.blk p).1 ≤ (D.blk p).2 ∧ (D.blk p).1 ≤ hi ∧ lo ≤ (D.blk p).2

theorem packLoc_active {D : Dist} (hD : Tiles D) (msk : Int → Bool) {lo hi : Int} (hlo : 1 ≤ lo)
    (hlh : lo ≤ hi) (hhi : hi ≤ D.dim) {p : Nat} (hp : p < D.nproc) (ha : Active D lo hi p) :
    (packLoc D msk lo hi p).lop = max lo (D.blk p).1 ∧
    (packLoc D msk lo hi p).hip = min hi (D.blk p).2 ∧
    (packLoc D msk lo hi p).np = nnodes D ((D.blk p).1 - 1) ∧
    (packLoc D msk lo hi p).cnt = bits msk (max lo (D.blk p).1) (min hi (D.blk p).2) ∧
    (packLoc D msk lo hi p).fails = false ∧
    ((packLoc D msk lo hi p).cnt ≠ 0 →
      0 ≤ (packLoc D msk lo hi p).first ∧
      max lo (D.blk p).1 + (packLoc D msk lo hi p).first ≤ min hi (D.blk p).2 ∧
      NoBit msk (max lo (D.blk p).1) (max lo (D.blk p).1 + (packLoc D msk lo hi p).first - 1)) := by
  obtain ⟨a1, a2, a3⟩ := ha
  have hpos : 1 ≤ (D.blk p).1 ∧ (D.blk p).2 ≤ D.dim := by
    rcases hD.shape p hp with h | h
    · rw [h] at a1; simp at a1
    · omega
  unfold packLoc
  simp only [if_pos (show (D.blk p).1 > 0 by omega),
    show (if (D.blk p).1 < lo then lo else (D.blk p).1) = max lo (D.blk p).1 by split <;> omega,
    show (if (D.blk p).2 > hi then hi else (D.blk p).2) = min hi (D.blk p).2 by split <;> omega,
    if_neg (show ¬ (hi < max lo (D.blk p).1 ∨ min hi (D.blk p).2 < lo) by omega), countLoop_cnt]
  have hn : max lo (D.blk p).1 + 0 +
      ((min hi (D.blk p).2 - max lo (D.blk p).1 + 1).toNat : Int) - 1 = min hi (D.blk p).2 := by omega
  rw [hn, show max lo (D.blk p).1 + 0 = max lo (D.blk p).1 by omega]
  refine ⟨trivial, trivial, trivial, by omega, ?_, ?_⟩
  · unfold accessOK
    simp; omega
  · intro hne
    rcases countLoop_first msk (max lo (D.blk p).1)
      (min hi (D.blk p).2 - max lo (D.blk p).1 + 1).toNat 0 0 (le_refl _) with ⟨a, b⟩ | ⟨a, b, c⟩
    · rw [hn, show max lo (D.blk p).1 + 0 = max lo (D.blk p).1 by omega] at a
      rw [bits_zero_of_noBit msk a] at hne
      omega
    · rw [show max lo (D.blk p).1 + 0 = max lo (D.blk p).1 by omega] at c
      exact ⟨a, by omega, c⟩

theorem packLoc_inactive {D : Dist} (hD : Tiles D) (msk : Int → Bool) {lo hi : Int} (hlo : 1 ≤ lo)
    (hlh : lo ≤ hi) {p : Nat} (hp : p < D.nproc) (ha : ¬ Active D lo hi p) :
    (packLoc D msk lo hi p).np = 0 ∧ (packLoc D msk lo hi p).cnt = 0 ∧
    (packLoc D msk lo hi p).fails = false ∧
    (hi < (packLoc D msk lo hi p).lop ∨ (packLoc D msk lo hi p).hip < lo) := by
  unfold Active at ha
  unfold packLoc
  simp only
  rcases hD.shape p hp with h | h
  · rw [h]; simp; omega
  · rw [if_pos (by omega),
      show (if (D.blk p).1 < lo then lo else (D.blk p).1) = max lo (D.blk p).1 by split <;> omega,
      show (if (D.blk p).2 > hi then hi else (D.blk p).2) = min hi (D.blk p).2 by split <;> omega,
      if_pos (by omega)]
    refine ⟨rfl, rfl, rfl, ?_⟩
    simp only; omega

theorem nnodes_card {D : Dist} (hD : Tiles D) {h : Int} (h0 : 0 ≤ h) (hd : h ≤ D.dim) :
    nnodes D h = ((Finset.range D.nproc).filter fun q => (D.blk q).1 ≤ (D.blk q).2 ∧
      (D.blk q).1 ≤ h ∧ 1 ≤ (D.blk q).2).card := by
  unfold nnodes
  split
  · rfl
  · symm
    rw [Finset.card_eq_zero, Finset.filter_eq_empty_iff]
    intro q hq
    rw [Finset.mem_range] at hq
    rcases hD.shape q hq with h | h
    · rw [h]; simp
    · omega

theorem nnodes_lt {D : Dist} (hD : Tiles D) {p q : Nat} (hp : p < D.nproc) (hq : q < D.nproc)
    (p1 : (D.blk p).1 ≤ (D.blk p).2) (q1 : (D.blk q).1 ≤ (D.blk q).2)
    (h : (D.blk q).1 < (D.blk p).1) : nnodes D ((D.blk q).1 - 1) < nnodes D ((D.blk p).1 - 1) := by
  have hP : 1 ≤ (D.blk p).1 ∧ (D.blk p).2 ≤ D.dim := by
    rcases hD.shape p hp with h | h
    · rw [h] at p1; simp at p1
    · omega
  have hQ : 1 ≤ (D.blk q).1 ∧ (D.blk q).2 ≤ D.dim := by
    rcases hD.shape q hq with h | h
    · rw [h] at q1; simp at q1
    · omega
  rw [nnodes_card hD (by omega) (by omega), nnodes_card hD (by omega) (by omega)]
  apply Finset.card_lt_card
  rw [Finset.ssubset_iff_of_subset]
  · refine ⟨q, ?_, ?_⟩
    · rw [Finset.mem_filter, Finset.mem_range]; omega
    · rw [Finset.mem_filter, Finset.mem_range]; omega
  · intro r
    rw [Finset.mem_filter, Finset.mem_filter]
    rintro ⟨a, b⟩
    exact ⟨a, by omega⟩

theorem nnodes_bound {D : Dist} (hD : Tiles D) {p : Nat} (hp : p < D.nproc)
    (p1 : (D.blk p).1 ≤ (D.blk p).2) : nnodes D ((D.blk p).1 - 1) < D.nproc := by
  have hP : 1 ≤ (D.blk p).1 ∧ (D.blk p).2 ≤ D.dim := by
    rcases hD.shape p hp with h | h
    · rw [h] at p1; simp at p1
    · omega
  rw [nnodes_card hD (by omega) (by omega)]
  have : ((Finset.range D.nproc).filter fun q => (D.blk q).1 ≤ (D.blk q).2 ∧
      (D.blk q).1 ≤ (D.blk p).1 - 1 ∧ 1 ≤ (D.blk q).2) ⊂ Finset.range D.nproc := by
    rw [Finset.ssubset_iff_of_subset (Finset.filter_subset _ _)]
    refine ⟨p, Finset.mem_range.2 hp, ?_⟩
    rw [Finset.mem_filter]; omega
  simpa using Finset.card_lt_card this

theorem packLoc_np_lt {D : Dist} (hD : Tiles D) (msk : Int → Bool) {lo hi : Int} (hlo : 1 ≤ lo)
    (hlh : lo ≤ hi) (hhi : hi ≤ D.dim) {p : Nat} (hp : p < D.nproc) :
    (packLoc D msk lo hi p).np < D.nproc := by
  by_cases ha : Active D lo hi p
  · rw [(packLoc_active hD msk hlo hlh hhi hp ha).2.2.1]
    exact nnodes_bound hD hp ha.1
  · rw [(packLoc_inactive hD msk hlo hlh hp ha).1]; omega

theorem packLim_sum (D : Dist) (msk : Int → Bool) (lo hi : Int) (i : Nat) :
    packLim D msk lo hi i = ∑ q ∈ Finset.range D.nproc,
      if (packLoc D msk lo hi q).np = i then (packLoc D msk lo hi q).cnt else 0 := by
  unfold packLim
  have := foldl_sum D.nproc (fun q => decide ((packLoc D msk lo hi q).np = i))
    (fun q => (packLoc D msk lo hi q).cnt) 0
  simp only [decide_eq_true_eq, zero_add] at this
  exact this

theorem placeLoop_eq (lims : Nat → Int) (np : Nat) (n i : Nat) (a b : Int) :
    placeLoop lims np n i a b =
      (a + ∑ j ∈ Finset.range n, (if i + j < np then lims (i + j) else 0),
       b + ∑ j ∈ Finset.range n, lims (i + j)) := by
  induction n generalizing i a b with
  | zero => simp [placeLoop]
  | succ n ih =>
    simp only [placeLoop]
    rw [ih, Finset.sum_range_succ', Finset.sum_range_succ']
    simp only [show ∀ j, i + 1 + j = i + (j + 1) by omega, Nat.add_zero]
    congr 1
    · split <;> omega
    · omega

theorem place_eq {D : Dist} (hD : Tiles D) (msk : Int → Bool) {lo hi : Int} (hlo : 1 ≤ lo)
    (hlh : lo ≤ hi) (hhi : hi ≤ D.dim) (np : Nat) :
    (placeLoop (packLim D msk lo hi) np D.nproc 0 0 0).1 = ∑ q ∈ Finset.range D.nproc,
      if (packLoc D msk lo hi q).np < np then (packLoc D msk lo hi q).cnt else 0 := by
  rw [placeLoop_eq]
  simp only [Nat.zero_add, zero_add, packLim_sum]
  have : ∀ j, (if j < np then ∑ q ∈ Finset.range D.nproc,
      (if (packLoc D msk lo hi q).np = j then (packLoc D msk lo hi q).cnt else 0) else 0) =
      ∑ q ∈ Finset.range D.nproc,
        (if (packLoc D msk lo hi q).np = j then
          (if (packLoc D msk lo hi q).np < np then (packLoc D msk lo hi q).cnt else 0) else 0) := by
    intro j
    split
    · rename_i h
      apply Finset.sum_congr rfl
      intro q _
      split
      · rename_i e; rw [if_pos (by omega)]
      · rfl
    · rename_i h
      symm
      apply Finset.sum_eq_zero
      intro q _
      split
      · rename_i e; rw [if_neg (by omega)]
      · rfl
  simp only [this]
  rw [Finset.sum_comm]
  apply Finset.sum_congr rfl
  intro q hq
  rw [Finset.mem_range] at hq
  rw [Finset.sum_ite_eq, if_pos]
  exact Finset.mem_range.2 (packLoc_np_lt hD msk hlo hlh hhi hq)

theorem cnt_eq {D : Dist} (hD : Tiles D) (msk : Int → Bool) {lo hi : Int} (hlo : 1 ≤ lo)
    (hlh : lo ≤ hi) (hhi : hi ≤ D.dim) {p : Nat} (hp : p < D.nproc) :
    (packLoc D msk lo hi p).cnt = bits msk (max lo (D.blk p).1) (min hi (D.blk p).2) := by
  by_cases ha : Active D lo hi p
  · exact (packLoc_active hD msk hlo hlh hhi hp ha).2.2.2.1
  · rw [(packLoc_inactive hD msk hlo hlh hp ha).2.1, bits_none]
    unfold Active at ha
    rcases hD.shape p hp with h | h
    · rw [h]; simp
    · omega

/-- `*icount` -/
theorem packCount_eq {D : Dist} (hD : Tiles D) (msk : Int → Bool) {lo hi : Int} (hlo : 1 ≤ lo)
    (hlh : lo ≤ hi) (hhi : hi ≤ D.dim) (p : Nat) :
    packCount D msk lo hi p = bits msk lo hi := by
  unfold packCount
  rw [placeLoop_eq]
  simp only [Nat.zero_add, zero_add, packLim_sum]
  rw [Finset.sum_comm, bits_sum, ← tile_sum hD _ hlo hhi]
  apply Finset.sum_congr rfl
  intro q hq
  rw [Finset.mem_range] at hq
  rw [Finset.sum_ite_eq, if_pos (Finset.mem_range.2 (packLoc_np_lt hD msk hlo hlh hhi hq)),
    cnt_eq hD msk hlo hlh hhi hq, bits_sum]

/-- `lim[np]` of an active process is its own count -/
theorem lim_np {D : Dist} (hD : Tiles D) (msk : Int → Bool) {lo hi : Int} (hlo : 1 ≤ lo)
    (hlh : lo ≤ hi) (hhi : hi ≤ D.dim) {p : Nat} (hp : p < D.nproc) (ha : Active D lo hi p) :
    packLim D msk lo hi (packLoc D msk lo hi p).np =
      bits msk (max lo (D.blk p).1) (min hi (D.blk p).2) := by
  rw [packLim_sum, Finset.sum_eq_single p]
  · rw [if_pos rfl, cnt_eq hD msk hlo hlh hhi hp]
  · intro q hq hne
    rw [Finset.mem_range] at hq
    by_cases hb : Active D lo hi q
    · rw [if_neg]
      rw [(packLoc_active hD msk hlo hlh hhi hp ha).2.2.1,
        (packLoc_active hD msk hlo hlh hhi hq hb).2.2.1]
      intro e
      rcases Int.lt_trichotomy (D.blk q).1 (D.blk p).1 with h | h | h
      · have := nnodes_lt hD hp hq ha.1 hb.1 h; omega
      · exact hne (hD.uniq q p (D.blk p).1 hq hp (by omega) (by rw [← h]; exact hb.1)
          (le_refl _) ha.1)
      · have := nnodes_lt hD hq hp hb.1 ha.1 h; omega
    · rw [(packLoc_inactive hD msk hlo hlh hq hb).2.1]; simp
  · intro h; exact absurd (Finset.mem_range.2 hp) h

/-- `myplace` of an active process is the number of mask positions before its part -/
theorem place_active {D : Dist} (hD : Tiles D) (msk : Int → Bool) {lo hi : Int} (hlo : 1 ≤ lo)
    (hlh : lo ≤ hi) (hhi : hi ≤ D.dim) {p : Nat} (hp : p < D.nproc) (ha : Active D lo hi p) :
    (placeLoop (packLim D msk lo hi) (packLoc D msk lo hi p).np D.nproc 0 0 0).1 =
      bits msk lo (max lo (D.blk p).1 - 1) := by
  have hpd : (D.blk p).2 ≤ D.dim := by
    rcases hD.shape p hp with h | h
    · have := ha.1; rw [h] at this; simp at this
    · omega
  rw [place_eq hD msk hlo hlh hhi]
  have h1 : bits msk lo (max lo (D.blk p).1 - 1) = bits msk lo ((D.blk p).1 - 1) := by
    by_cases h : lo ≤ (D.blk p).1
    · rw [show max lo (D.blk p).1 = (D.blk p).1 by omega]
    · rw [bits_none msk (by omega), bits_none msk (by omega)]
  rw [h1, bits_sum, ← tile_sum hD _ hlo (show (D.blk p).1 - 1 ≤ D.dim by have := ha.1; omega)]
  apply Finset.sum_congr rfl
  intro q hq
  rw [Finset.mem_range] at hq
  rw [cnt_eq hD msk hlo hlh hhi hq, ← bits_sum]
  by_cases hb : Active D lo hi q
  · rw [(packLoc_active hD msk hlo hlh hhi hp ha).2.2.1,
      (packLoc_active hD msk hlo hlh hhi hq hb).2.2.1]
    by_cases h : (D.blk q).1 < (D.blk p).1
    · rw [if_pos (nnodes_lt hD hp hq ha.1 hb.1 h)]
      have := hD.before hp hq (le_refl _) hb.1 h ha.1
      have := ha.2.1
      rw [show min hi (D.blk q).2 = min ((D.blk p).1 - 1) (D.blk q).2 by omega]
    · rw [if_neg, bits_none msk (by omega)]
      rcases Int.lt_or_eq_of_le (Int.not_lt.1 h) with h' | h'
      · have := nnodes_lt hD hq hp hb.1 ha.1 h'; omega
      · rw [h']; omega
  · rw [bits_none msk, bits_none msk]
    · simp
    · unfold Active at hb
      have := ha.2.1
      rcases hD.shape q hq with h | h
      · rw [h]; simp
      · omega
    · unfold Active at hb
      rcases hD.shape q hq with h | h
      · rw [h]; simp
      · omega

theorem fold_some {A : Type} (f : Nat → Option A → Option A) (f' : Nat → A → A) (order : List Nat)
    (h : ∀ p ∈ order, ∀ a, f p (some a) = some (f' p a)) (a : A) :
    order.foldl (fun a p => f p a) (some a) = some (order.foldl (fun a p => f' p a) a) := by
  induction order generalizing a with
  | nil => rfl
  | cons p l ih =>
    simp only [List.foldl_cons]
    rw [h p (List.mem_cons_self ..)]
    exact ih (fun q hq => h q (List.mem_cons_of_mem _ hq)) (f' p a)

end GA.Sparse
