import Verif.Lemmas.Sparse

/-! # Lemmas about `pnga_scan_add` and `pnga_patch_enum` -/

namespace GA.Sparse

variable {M : Type} [AddCommMonoid M]

/-- contribution of element `j` to the running sum -/
def val (excl : Bool) (src : Int → M) (msk : Int → Bool) (j : Int) : M :=
  if excl then (if msk j then 0 else src (j - 1)) else src j

/-- both local scan loops in one form -/
def genLoop (v : Int → M) (msk : Int → Bool) (lop : Int) :
    (n : Nat) → (i : Int) → (found : Bool) → (dst : Int → M) → (Int → M)
  | 0, _, _, dst => dst
  | n + 1, i, found, dst =>
    if msk (lop + i) then genLoop v msk lop n (i + 1) true (upd dst (lop + i) (v (lop + i)))
    else if found then
      genLoop v msk lop n (i + 1) found (upd dst (lop + i) (dst (lop + i - 1) + v (lop + i)))
    else genLoop v msk lop n (i + 1) found dst

theorem exclLoop_eq (src : Int → M) (msk : Int → Bool) (lop : Int) (n : Nat) (i : Int)
    (found : Bool) (dst : Int → M) :
    exclLoop src msk lop n i found dst = genLoop (val true src msk) msk lop n i found dst := by
  induction n generalizing i found dst with
  | zero => rfl
  | succ n ih =>
    simp only [exclLoop, genLoop, ih]
    by_cases h : msk (lop + i) = true
    · simp [h, val]
    · simp only [Bool.not_eq_true] at h
      simp [h, val]

theorem inclLoop_eq (src : Int → M) (msk : Int → Bool) (lop : Int) (n : Nat) (i : Int)
    (found : Bool) (dst : Int → M) :
    inclLoop src msk lop n i found dst = genLoop (val false src msk) msk lop n i found dst := by
  induction n generalizing i found dst with
  | zero => rfl
  | succ n ih =>
    simp only [inclLoop, genLoop, ih]
    by_cases h : msk (lop + i) = true
    · simp [h, val]
    · simp only [Bool.not_eq_true] at h
      simp [h, val]

theorem genLoop_out (v : Int → M) (msk : Int → Bool) (lop : Int) (n : Nat) (i : Int)
    (found : Bool) (dst : Int → M) (g : Int) (h : ¬ (lop + i ≤ g ∧ g < lop + i + n)) :
    genLoop v msk lop n i found dst g = dst g := by
  induction n generalizing i found dst with
  | zero => rfl
  | succ n ih =>
    simp only [genLoop]
    split
    · rw [ih _ _ _ (by omega), upd_ne _ _ (by omega)]
    · split
      · rw [ih _ _ _ (by omega), upd_ne _ _ (by omega)]
      · rw [ih _ _ _ (by omega)]

theorem genLoop_in (v : Int → M) (msk : Int → Bool) (lop : Int) (n : Nat) (i : Int)
    (found : Bool) (dst : Int → M) (g : Int) (h : lop + i ≤ g ∧ g < lop + i + n) :
    (∀ k, LastBit msk (lop + i) g k →
      genLoop v msk lop n i found dst g = ∑ j ∈ Finset.Icc k g, v j) ∧
    (NoBit msk (lop + i) g → found = true →
      genLoop v msk lop n i found dst g =
        dst (lop + i - 1) + ∑ j ∈ Finset.Icc (lop + i) g, v j) ∧
    (NoBit msk (lop + i) g → found = false → genLoop v msk lop n i found dst g = dst g) := by
  induction n generalizing i found dst with
  | zero => omega
  | succ n ih =>
    simp only [genLoop]
    by_cases hg : g = lop + i
    · subst hg
      refine ⟨?_, ?_, ?_⟩
      · rintro k ⟨h1, h2, h3, _⟩
        have : k = lop + i := by omega
        subst this
        rw [if_pos h3, genLoop_out _ _ _ _ _ _ _ _ (by omega), upd_same, sum_one]
      · intro hn hf
        rw [hn (lop + i) (by omega) (by omega), hf]
        simp only [Bool.false_eq_true, if_false, if_true]
        rw [genLoop_out _ _ _ _ _ _ _ _ (by omega), upd_same, sum_one]
      · intro hn hf
        rw [hn (lop + i) (by omega) (by omega), hf]
        simp only [Bool.false_eq_true, if_false]
        rw [genLoop_out _ _ _ _ _ _ _ _ (by omega)]
    · by_cases hb : msk (lop + i) = true
      · rw [if_pos hb]
        obtain ⟨i1, i2, i3⟩ := ih (i + 1) true (upd dst (lop + i) (v (lop + i))) (by omega)
        rw [show lop + (i + 1) = lop + i + 1 by omega] at i1 i2
        refine ⟨?_, ?_, ?_⟩
        · rintro k ⟨h1, h2, h3, h4⟩
          by_cases hk : k = lop + i
          · subst hk
            rw [i2 (fun j h5 h6 => h4 j (by omega) h6) rfl,
              show lop + i + 1 - 1 = lop + i by omega, upd_same, ← sum_left v (by omega)]
          · exact i1 k ⟨by omega, h2, h3, h4⟩
        · intro hn; rw [hn (lop + i) (by omega) (by omega)] at hb; cases hb
        · intro hn; rw [hn (lop + i) (by omega) (by omega)] at hb; cases hb
      · rw [if_neg hb]
        cases hf : found with
        | true =>
          simp only [if_true]
          obtain ⟨i1, i2, i3⟩ := ih (i + 1) true
            (upd dst (lop + i) (dst (lop + i - 1) + v (lop + i))) (by omega)
          rw [show lop + (i + 1) = lop + i + 1 by omega] at i1 i2
          refine ⟨?_, ?_, ?_⟩
          · rintro k ⟨h1, h2, h3, h4⟩
            have hk : k ≠ lop + i := by rintro rfl; exact hb h3
            exact i1 k ⟨by omega, h2, h3, h4⟩
          · intro hn _
            rw [i2 (fun j h5 h6 => hn j (by omega) h6) rfl,
              show lop + i + 1 - 1 = lop + i by omega, upd_same,
              sum_left v (a := lop + i) (b := g) (by omega), add_assoc]
          · intro _ hf; cases hf
        | false =>
          simp only [Bool.false_eq_true, if_false]
          obtain ⟨i1, i2, i3⟩ := ih (i + 1) false dst (by omega)
          rw [show lop + (i + 1) = lop + i + 1 by omega] at i1 i3
          refine ⟨?_, ?_, ?_⟩
          · rintro k ⟨h1, h2, h3, h4⟩
            have hk : k ≠ lop + i := by rintro rfl; exact hb h3
            exact i1 k ⟨by omega, h2, h3, h4⟩
          · intro _ hf; cases hf
          · intro hn _
            exact i3 (fun j h5 h6 => hn j (by omega) h6) rfl

theorem skipZeros_spec (msk : Int → Bool) (lop : Int) (n : Nat) (start : Int) :
    start ≤ skipZeros msk lop n start ∧ skipZeros msk lop n start ≤ start + n ∧
    (∀ j, start ≤ j → j < skipZeros msk lop n start → msk (lop + j) = false) ∧
    (skipZeros msk lop n start < start + n → msk (lop + skipZeros msk lop n start) = true) := by
  induction n generalizing start with
  | zero => simp only [skipZeros]; exact ⟨by omega, by omega, fun j _ _ => by omega, by omega⟩
  | succ n ih =>
    simp only [skipZeros]
    split
    · rename_i h
      exact ⟨by omega, by omega, fun j _ _ => by omega, fun _ => h⟩
    · rename_i h
      obtain ⟨a, b, c, d⟩ := ih (start + 1)
      refine ⟨by omega, by omega, ?_, fun hlt => d (by omega)⟩
      intro j h1 h2
      by_cases e : j = start
      · subst e; simpa using h
      · exact c j (by omega) h2

/-- The part of a process after the local scan: closed form.  `r` is the position of the nearest
mask bit before the block (`-1` for none). -/
theorem addLocal_in {D : Dist} (hD : Tiles D) (excl : Bool) (src : Int → M)
    (msk : Int → Bool) {lo hi : Int} (hlo : 1 ≤ lo) {p : Nat} (hp : p < D.nproc)
    (dst : Int → M) {g : Int} (hg : InPart D lo hi p g) :
    (∀ k, LastBit msk (max lo (D.blk p).1) g k →
      addLocal D excl src msk lo hi p dst g = ∑ j ∈ Finset.Icc k g, val excl src msk j) ∧
    (NoBit msk (max lo (D.blk p).1) g → rmtIdx D msk lo hi (D.blk p).1 ≠ -1 →
      addLocal D excl src msk lo hi p dst g =
        ∑ j ∈ Finset.Icc (D.blk p).1 g, val excl src msk j) ∧
    (NoBit msk (max lo (D.blk p).1) g → rmtIdx D msk lo hi (D.blk p).1 = -1 →
      addLocal D excl src msk lo hi p dst g = dst g) := by
  obtain ⟨g1, g2, g3, g4⟩ := hg
  have hr := rmt_spec hD msk (hi := hi) p hp hlo (by omega) (by omega)
  have hc : ¬ (hi < (D.blk p).1 ∨ (D.blk p).2 < lo) := by omega
  obtain ⟨s1, s2, s3⟩ := start_stop hc (by omega) (by omega)
  have hlop : 1 ≤ (D.blk p).1 := by
    rcases hD.shape p hp with h | h
    · rw [h] at g1 g2; simp at g1 g2; omega
    · omega
  -- position of the first processed element
  have hst : ∃ t : Int, t = (D.blk p).1 + addStart msk lo hi (D.blk p).1 (D.blk p).2 ∧
      max lo (D.blk p).1 ≤ t ∧ (∀ j, max lo (D.blk p).1 ≤ j → j < t → msk j = false) ∧
      ((D.blk p).1 ≤ lo → t ≤ min hi (D.blk p).2 → msk t = true) ∧
      (lo < (D.blk p).1 → t = (D.blk p).1) := by
    refine ⟨_, rfl, ?_⟩
    unfold addStart
    simp only
    split
    · rename_i hle
      obtain ⟨a, b, c, d⟩ := skipZeros_spec msk (D.blk p).1
        (stopOf hi (D.blk p).1 (D.blk p).2 - startOf lo (D.blk p).1).toNat (startOf lo (D.blk p).1)
      refine ⟨by omega, ?_, fun _ h => d (by omega), by omega⟩
      intro j h1 h2
      have := c (j - (D.blk p).1) (by omega) (by omega)
      rwa [show (D.blk p).1 + (j - (D.blk p).1) = j by omega] at this
    · refine ⟨by omega, fun j _ _ => by omega, by omega, by omega⟩
  obtain ⟨t, ht, t1, t2, t3, t4⟩ := hst
  -- the value of the function
  have hval : addLocal D excl src msk lo hi p dst =
      genLoop (val excl src msk) msk (D.blk p).1 (min hi (D.blk p).2 + 1 - (t + 1)).toNat
        (t - (D.blk p).1 + 1)
        (addFirst excl src msk (D.blk p).1 (rmtIdx D msk lo hi (D.blk p).1) (t - (D.blk p).1)
          (stopOf hi (D.blk p).1 (D.blk p).2) dst).2
        (addFirst excl src msk (D.blk p).1 (rmtIdx D msk lo hi (D.blk p).1) (t - (D.blk p).1)
          (stopOf hi (D.blk p).1 (D.blk p).2) dst).1 := by
    have e1 : addStart msk lo hi (D.blk p).1 (D.blk p).2 = t - (D.blk p).1 := by omega
    have e2 : (stopOf hi (D.blk p).1 (D.blk p).2 - (t - (D.blk p).1 + 1)).toNat =
      (min hi (D.blk p).2 + 1 - (t + 1)).toNat := by omega
    unfold addLocal
    simp only [if_neg hc, e1, e2]
    cases excl with
    | true => simp only [if_true]; exact exclLoop_eq ..
    | false => simp only [Bool.false_eq_true, if_false]; exact inclLoop_eq ..
  rw [hval]
  have e3 : (D.blk p).1 + (t - (D.blk p).1) = t := by omega
  by_cases hgt : g < t
  · -- before the first bit of the first segment
    have hno : NoBit msk (max lo (D.blk p).1) g := fun j h1 h2 => t2 j h1 (by omega)
    have hout : genLoop (val excl src msk) msk (D.blk p).1 (min hi (D.blk p).2 + 1 - (t + 1)).toNat
        (t - (D.blk p).1 + 1)
        (addFirst excl src msk (D.blk p).1 (rmtIdx D msk lo hi (D.blk p).1) (t - (D.blk p).1)
          (stopOf hi (D.blk p).1 (D.blk p).2) dst).2
        (addFirst excl src msk (D.blk p).1 (rmtIdx D msk lo hi (D.blk p).1) (t - (D.blk p).1)
          (stopOf hi (D.blk p).1 (D.blk p).2) dst).1 g = dst g := by
      rw [genLoop_out _ _ _ _ _ _ _ _ (by omega)]
      unfold addFirst
      simp only [e3]
      split
      · split
        · exact upd_ne _ _ (by omega)
        · split
          · split
            · split
              · exact upd_ne _ _ (by omega)
              · rfl
            · exact upd_ne _ _ (by omega)
          · rfl
      · rfl
    refine ⟨?_, ?_, fun _ _ => hout⟩
    · rintro k ⟨h1, h2, h3, h4⟩
      rw [hno k h1 h2] at h3; cases h3
    · intro _ hne
      exfalso
      -- a bit before the block means that the block starts after lo
      have hlt : lo < (D.blk p).1 := by
        by_contra hle
        exact hne (hr.2 (fun j _ _ => by omega))
      have := t4 hlt
      omega
  · -- the first element is processed
    have hts : t - (D.blk p).1 < stopOf hi (D.blk p).1 (D.blk p).2 := by omega
    have hF : ∃ F : (Int → M) × Bool, F = addFirst excl src msk (D.blk p).1
        (rmtIdx D msk lo hi (D.blk p).1) (t - (D.blk p).1) (stopOf hi (D.blk p).1 (D.blk p).2) dst :=
      ⟨_, rfl⟩
    obtain ⟨F, hF⟩ := hF
    rw [← hF]
    have hF1 : (msk t = true → F.2 = true ∧ F.1 t = val excl src msk t) ∧
        (msk t = false → rmtIdx D msk lo hi (D.blk p).1 ≠ -1 →
          F.2 = true ∧ F.1 t = val excl src msk t) ∧
        (msk t = false → rmtIdx D msk lo hi (D.blk p).1 = -1 → F.2 = false ∧ F.1 = dst) ∧
        (∀ x, x ≠ t → F.1 x = dst x) := by
      rw [hF]
      unfold addFirst
      simp only [e3, if_pos hts]
      refine ⟨?_, ?_, ?_, ?_⟩
      · intro hb
        simp only [hb, if_true, upd_same, true_and]
        cases excl <;> simp [val, hb]
      · intro hb hne
        simp only [hb, Bool.false_eq_true, if_false, if_pos (Ne.symm hne)]
        cases excl with
        | true =>
          simp only [if_true]
          have hlt : lo < (D.blk p).1 := by
            by_contra hle
            exact hne (hr.2 (fun j _ _ => by omega))
          rw [if_pos (by omega), upd_same]
          simp only [val, hb, if_true, Bool.false_eq_true, if_false, true_and]
          congr 1; omega
        | false => simp [val, upd_same]
      · intro hb he
        simp [hb, he]
      · intro x hx
        split
        · exact upd_ne _ _ hx
        · split
          · split
            · split
              · exact upd_ne _ _ hx
              · rfl
            · exact upd_ne _ _ hx
          · rfl
    obtain ⟨f1, f2, f3, f4⟩ := hF1
    by_cases hgt' : g = t
    · subst hgt'
      rw [genLoop_out _ _ _ _ _ _ _ _ (by omega)]
      refine ⟨?_, ?_, ?_⟩
      · rintro k ⟨h1, h2, h3, h4⟩
        have : k = g := by
          by_contra hne
          have := t2 k h1 (by omega)
          rw [h3] at this; cases this
        subst this
        rw [(f1 h3).2, sum_one]
      · intro hn hne
        have hlt : lo < (D.blk p).1 := by
          by_contra hle
          exact hne (hr.2 (fun j _ _ => by omega))
        have e := t4 hlt
        rw [(f2 (hn g (by omega) (by omega)) hne).2, e, sum_one]
      · intro hn he
        rw [(f3 (hn g (by omega) (by omega)) he).2]
    · obtain ⟨l1, l2, l3⟩ := genLoop_in (val excl src msk) msk (D.blk p).1
        (min hi (D.blk p).2 + 1 - (t + 1)).toNat (t - (D.blk p).1 + 1) F.2 F.1 g (by omega)
      have e4 : (D.blk p).1 + (t - (D.blk p).1 + 1) = t + 1 := by omega
      rw [e4] at l1 l2 l3
      rw [show t + 1 - 1 = t by omega] at l2
      refine ⟨?_, ?_, ?_⟩
      · rintro k ⟨h1, h2, h3, h4⟩
        have hkt : t ≤ k := by
          by_contra hlt
          have := t2 k h1 (by omega)
          rw [h3] at this; cases this
        by_cases hk : k = t
        · subst hk
          rw [l2 (fun j h5 h6 => h4 j (by omega) h6) (f1 h3).1, (f1 h3).2, ← sum_left _ (by omega)]
        · exact l1 k ⟨by omega, h2, h3, h4⟩
      · intro hn hne
        have hlt : lo < (D.blk p).1 := by
          by_contra hle
          exact hne (hr.2 (fun j _ _ => by omega))
        have e := t4 hlt
        have hb := hn t (by omega) (by omega)
        rw [l2 (fun j h5 h6 => hn j (by omega) h6) (f2 hb hne).1, (f2 hb hne).2,
          ← sum_left _ (by omega), e]
      · intro hn he
        have hb := hn t (by omega) (by omega)
        rw [l3 (fun j h5 h6 => hn j (by omega) h6) (f3 hb he).1, f4 g hgt']

theorem blk_pos {D : Dist} (hD : Tiles D) {lo hi : Int} (hlo : 1 ≤ lo) {p : Nat}
    (hp : p < D.nproc) (hc : ¬ (hi < (D.blk p).1 ∨ (D.blk p).2 < lo)) :
    1 ≤ (D.blk p).1 ∧ (D.blk p).1 ≤ (D.blk p).2 ∧ (D.blk p).2 ≤ D.dim := by
  rcases hD.shape p hp with h | h
  · rw [h] at hc; simp at hc; omega
  · exact h

theorem addLocal_out {D : Dist} (hD : Tiles D) (excl : Bool) (src : Int → M)
    (msk : Int → Bool) {lo hi : Int} (hlo : 1 ≤ lo) (hlh : lo ≤ hi) {p : Nat} (hp : p < D.nproc)
    (dst : Int → M) {g : Int} (hg : ¬ InPart D lo hi p g) :
    addLocal D excl src msk lo hi p dst g = dst g := by
  unfold addLocal
  simp only
  split
  · rfl
  · rename_i hc
    obtain ⟨b1, b2, b3⟩ := blk_pos hD hlo hp hc
    obtain ⟨s1, s2, s3⟩ := start_stop hc b2 hlh
    have hst : max lo (D.blk p).1 ≤ (D.blk p).1 + addStart msk lo hi (D.blk p).1 (D.blk p).2 := by
      unfold addStart
      simp only
      split
      · have := (skipZeros_spec msk (D.blk p).1
          (stopOf hi (D.blk p).1 (D.blk p).2 - startOf lo (D.blk p).1).toNat
          (startOf lo (D.blk p).1)).1
        omega
      · omega
    have hfirst : (addFirst excl src msk (D.blk p).1 (rmtIdx D msk lo hi (D.blk p).1)
        (addStart msk lo hi (D.blk p).1 (D.blk p).2) (stopOf hi (D.blk p).1 (D.blk p).2) dst).1 g =
        dst g := by
      unfold InPart at hg
      unfold addFirst
      split
      · have hne : g ≠ (D.blk p).1 + addStart msk lo hi (D.blk p).1 (D.blk p).2 := by omega
        split
        · exact upd_ne _ _ hne
        · split
          · split
            · simp only
              split
              · exact upd_ne _ _ hne
              · rfl
            · exact upd_ne _ _ hne
          · rfl
      · rfl
    unfold InPart at hg
    split
    · rw [exclLoop_eq, genLoop_out _ _ _ _ _ _ _ _ (by omega), hfirst]
    · rw [inclLoop_eq, genLoop_out _ _ _ _ _ _ _ _ (by omega), hfirst]

/-! ## second phase -/

theorem fixLoop_out (msk : Int → Bool) (lop : Int) (s : M) (n : Nat) (i : Int)
    (dst : Int → M) (g : Int) (h : ¬ (lop + i ≤ g ∧ g < lop + i + n)) :
    fixLoop msk lop s n i dst g = dst g := by
  induction n generalizing i dst with
  | zero => rfl
  | succ n ih =>
    simp only [fixLoop]
    split
    · rfl
    · rw [ih _ _ (by omega), upd_ne _ _ (by omega)]

theorem fixLoop_in (msk : Int → Bool) (lop : Int) (s : M) (n : Nat) (i : Int)
    (dst : Int → M) (g : Int) (h : lop + i ≤ g ∧ g < lop + i + n) :
    (NoBit msk (lop + i) g → fixLoop msk lop s n i dst g = dst g + s) ∧
    (∀ k, LastBit msk (lop + i) g k → fixLoop msk lop s n i dst g = dst g) := by
  induction n generalizing i dst with
  | zero => omega
  | succ n ih =>
    simp only [fixLoop]
    by_cases hb : msk (lop + i) = true
    · rw [if_pos hb]
      refine ⟨?_, fun _ _ => rfl⟩
      intro hn; rw [hn (lop + i) (by omega) (by omega)] at hb; cases hb
    · rw [if_neg hb]
      by_cases hg : g = lop + i
      · subst hg
        rw [fixLoop_out _ _ _ _ _ _ _ (by omega), upd_same]
        refine ⟨fun _ => rfl, ?_⟩
        rintro k ⟨h1, h2, h3, _⟩
        have : k = lop + i := by omega
        subst this
        exact absurd h3 hb
      · obtain ⟨i1, i2⟩ := ih (i + 1) (upd dst (lop + i) (dst (lop + i) + s)) (by omega)
        rw [show lop + (i + 1) = lop + i + 1 by omega, upd_ne _ _ hg] at i1 i2
        refine ⟨fun hn => i1 (fun j h5 h6 => hn j (by omega) h6), ?_⟩
        rintro k ⟨h1, h2, h3, h4⟩
        have hk : k ≠ lop + i := by rintro rfl; exact hb h3
        exact i2 k ⟨by omega, h2, h3, h4⟩

theorem addFix_in {D : Dist} (hD : Tiles D) (mid : Int → M)
    (msk : Int → Bool) {lo hi : Int} (hlo : 1 ≤ lo) {p : Nat} (hp : p < D.nproc)
    (dst : Int → M) {g : Int} (hg : InPart D lo hi p g) :
    (∀ k, LastBit msk (max lo (D.blk p).1) g k → addFix D mid msk lo hi p dst g = dst g) ∧
    (NoBit msk (max lo (D.blk p).1) g → rmtIdx D msk lo hi (D.blk p).1 ≠ -1 →
      addFix D mid msk lo hi p dst g =
        dst g + endSum D mid (rmtIdx D msk lo hi (D.blk p).1) ((D.blk p).1 - 1)) ∧
    (rmtIdx D msk lo hi (D.blk p).1 = -1 → addFix D mid msk lo hi p dst g = dst g) := by
  obtain ⟨g1, g2, g3, g4⟩ := hg
  have hr := rmt_spec hD msk (hi := hi) p hp hlo (by omega) (by omega)
  have hc : ¬ (hi < (D.blk p).1 ∨ (D.blk p).2 < lo) := by omega
  obtain ⟨s1, s2, s3⟩ := start_stop hc (by omega) (by omega)
  unfold addFix
  simp only [if_neg hc]
  by_cases hne : rmtIdx D msk lo hi (D.blk p).1 = -1
  · rw [if_neg (by simp [hne])]
    exact ⟨fun _ _ => rfl, fun _ h => absurd hne h, fun _ => rfl⟩
  · have hlt : lo < (D.blk p).1 := by
      by_contra hle
      exact hne (hr.2 (fun j _ _ => by omega))
    have hst : addStart msk lo hi (D.blk p).1 (D.blk p).2 = 0 := by
      unfold addStart
      simp only [if_neg (show ¬ (D.blk p).1 ≤ lo by omega)]
      unfold startOf
      rw [if_neg (by omega)]
    rw [hst, show max lo (D.blk p).1 = (D.blk p).1 by omega]
    have e0 : (D.blk p).1 + 0 = (D.blk p).1 := by omega
    by_cases hb : msk ((D.blk p).1 + 0) = false
    · rw [if_pos ⟨hb, Ne.symm hne⟩]
      obtain ⟨l1, l2⟩ := fixLoop_in msk (D.blk p).1
        (endSum D mid (rmtIdx D msk lo hi (D.blk p).1) ((D.blk p).1 - 1))
        (stopOf hi (D.blk p).1 (D.blk p).2 - 0).toNat 0 dst g (by omega)
      rw [e0] at l1 l2
      exact ⟨l2, fun hn _ => l1 hn, fun h => absurd h hne⟩
    · rw [if_neg (fun h => hb h.1)]
      refine ⟨fun _ _ => rfl, ?_, fun h => absurd h hne⟩
      intro hn _
      exact absurd (by rw [e0]; exact hn _ (by omega) (by omega)) hb

theorem addFix_out {D : Dist} (hD : Tiles D) (mid : Int → M)
    (msk : Int → Bool) {lo hi : Int} (hlo : 1 ≤ lo) (hlh : lo ≤ hi) {p : Nat} (hp : p < D.nproc)
    (dst : Int → M) {g : Int} (hg : ¬ InPart D lo hi p g) :
    addFix D mid msk lo hi p dst g = dst g := by
  unfold addFix
  simp only
  split
  · rfl
  · rename_i hc
    obtain ⟨b1, b2, b3⟩ := blk_pos hD hlo hp hc
    obtain ⟨s1, s2, s3⟩ := start_stop hc b2 hlh
    split
    · have hst : max lo (D.blk p).1 ≤ (D.blk p).1 + addStart msk lo hi (D.blk p).1 (D.blk p).2 := by
        unfold addStart
        simp only
        split
        · have := (skipZeros_spec msk (D.blk p).1
            (stopOf hi (D.blk p).1 (D.blk p).2 - startOf lo (D.blk p).1).toNat
            (startOf lo (D.blk p).1)).1
          omega
        · omega
      unfold InPart at hg
      apply fixLoop_out
      omega
    · rfl

/-! ## the sum over the pieces -/

theorem foldl_sum {N : Type} [AddCommMonoid N] (n : Nat) (c : Nat → Bool) (f : Nat → N) (s : N) :
    (List.range n).foldl (fun s q => if c q then s + f q else s) s =
      s + ∑ q ∈ Finset.range n, if c q then f q else 0 := by
  induction n with
  | zero => simp
  | succ n ih =>
    rw [List.range_succ, List.foldl_append, ih, Finset.sum_range_succ]
    simp only [List.foldl_cons, List.foldl_nil]
    split
    · rw [add_assoc]
    · rw [add_zero]

/-- summation over an interval block by block -/
theorem tile_sum {N : Type} [AddCommMonoid N] {D : Dist} (hD : Tiles D) (f : Int → N) {a b : Int}
    (ha : 1 ≤ a) (hb : b ≤ D.dim) :
    ∑ q ∈ Finset.range D.nproc, ∑ j ∈ Finset.Icc (max a (D.blk q).1) (min b (D.blk q).2), f j =
      ∑ j ∈ Finset.Icc a b, f j := by
  have h1 : ∀ q, ∑ j ∈ Finset.Icc (max a (D.blk q).1) (min b (D.blk q).2), f j =
      ∑ j ∈ Finset.Icc a b, if (D.blk q).1 ≤ j ∧ j ≤ (D.blk q).2 then f j else 0 := by
    intro q
    rw [← Finset.sum_filter]
    congr 1
    ext x; simp only [Finset.mem_Icc, Finset.mem_filter]; omega
  simp only [h1]
  rw [Finset.sum_comm]
  apply Finset.sum_congr rfl
  intro j hj
  rw [Finset.mem_Icc] at hj
  obtain ⟨p, hp, p1, p2⟩ := hD.cover j (by omega) (by omega)
  rw [Finset.sum_eq_single p]
  · rw [if_pos ⟨p1, p2⟩]
  · intro q hq hne
    rw [if_neg]
    rintro ⟨q1, q2⟩
    exact hne (hD.uniq q p j (Finset.mem_range.1 hq) hp q1 q2 p1 p2)
  · intro h; exact absurd (Finset.mem_range.2 hp) h

/-- The gathered sum, if the elements at the ends of the blocks hold the local sums. -/
theorem endSum_eq {D : Dist} (hD : Tiles D) (v : Int → M) (mid : Int → M) {k lop : Int}
    (hk : 1 ≤ k) (hl : lop - 1 ≤ D.dim)
    (hend : ∀ q, q < D.nproc → (D.blk q).1 ≤ (D.blk q).2 → (D.blk q).1 ≤ lop - 1 →
      k ≤ (D.blk q).2 → (D.blk q).2 ≤ lop - 1 ∧
        mid (D.blk q).2 = ∑ j ∈ Finset.Icc (max k (D.blk q).1) (D.blk q).2, v j) :
    endSum D mid k (lop - 1) = ∑ j ∈ Finset.Icc k (lop - 1), v j := by
  rw [← tile_sum hD v hk hl]
  unfold endSum
  have := foldl_sum D.nproc
    (fun q => decide ((D.blk q).1 ≤ (D.blk q).2 ∧ (D.blk q).1 ≤ lop - 1 ∧ k ≤ (D.blk q).2))
    (fun q => mid (if lop - 1 > (D.blk q).2 then (D.blk q).2 else lop - 1)) (0 : M)
  simp only [decide_eq_true_eq, zero_add] at this
  rw [this]
  apply Finset.sum_congr rfl
  intro q hq
  rw [Finset.mem_range] at hq
  split
  · rename_i h
    obtain ⟨e1, e2⟩ := hend q hq h.1 h.2.1 h.2.2
    rw [show (if lop - 1 > (D.blk q).2 then (D.blk q).2 else lop - 1) = (D.blk q).2 by
      split <;> omega, e2, show min (lop - 1) (D.blk q).2 = (D.blk q).2 by omega]
  · rename_i h
    rw [sum_none]
    omega

/-! ## the whole scan -/

theorem schedule_mem {D : Dist} {order : List Nat} (h : Schedule D order) {p : Nat} :
    p ∈ order ↔ p < D.nproc := by
  rw [h.mem_iff, List.mem_range]

theorem schedule_nodup {D : Dist} {order : List Nat} (h : Schedule D order) : order.Nodup :=
  h.nodup_iff.2 List.nodup_range

/-- value written by the first phase -/
noncomputable def locVal (D : Dist) (excl : Bool) (src : Int → M) (msk : Int → Bool) (lo hi : Int)
    (p : Nat) (g : Int) (old : M) : M :=
  open Classical in
  if h : ∃ k, LastBit msk (max lo (D.blk p).1) g k then
    ∑ j ∈ Finset.Icc h.choose g, val excl src msk j
  else if rmtIdx D msk lo hi (D.blk p).1 ≠ -1 then
    ∑ j ∈ Finset.Icc (D.blk p).1 g, val excl src msk j
  else old

theorem NoBit.not_last {msk : Int → Bool} {lo g : Int} (h : NoBit msk lo g) :
    ¬ ∃ k, LastBit msk lo g k := by
  rintro ⟨k, h1, h2, h3, _⟩
  rw [h k h1 h2] at h3; cases h3

theorem locVal_last {D : Dist} {excl : Bool} {src : Int → M} {msk : Int → Bool} {lo hi : Int}
    {p : Nat} {g k : Int} {old : M} (h : LastBit msk (max lo (D.blk p).1) g k) :
    locVal D excl src msk lo hi p g old = ∑ j ∈ Finset.Icc k g, val excl src msk j := by
  have hx : ∃ k, LastBit msk (max lo (D.blk p).1) g k := ⟨k, h⟩
  unfold locVal
  rw [dif_pos hx, hx.choose_spec.uniq h]

theorem addLocal_val {D : Dist} (hD : Tiles D) (excl : Bool) (src : Int → M)
    (msk : Int → Bool) {lo hi : Int} (hlo : 1 ≤ lo) {p : Nat} (hp : p < D.nproc)
    (dst : Int → M) {g : Int} (hg : InPart D lo hi p g) :
    addLocal D excl src msk lo hi p dst g = locVal D excl src msk lo hi p g (dst g) := by
  obtain ⟨a, b, c⟩ := addLocal_in hD excl src msk hlo hp dst hg
  rcases lastBit_or_noBit msk (max lo (D.blk p).1) g with ⟨k, hk⟩ | hn
  · rw [a k hk, locVal_last hk]
  · unfold locVal
    rw [dif_neg hn.not_last]
    split
    · rename_i h; exact b hn h
    · rename_i h; exact c hn (by simpa using h)

/-- change made by the second phase -/
noncomputable def fixVal (D : Dist) (mid : Int → M) (msk : Int → Bool) (lo hi : Int)
    (p : Nat) (g : Int) (old : M) : M :=
  open Classical in
  if NoBit msk (max lo (D.blk p).1) g ∧ rmtIdx D msk lo hi (D.blk p).1 ≠ -1 then
    old + endSum D mid (rmtIdx D msk lo hi (D.blk p).1) ((D.blk p).1 - 1)
  else old

theorem addFix_val {D : Dist} (hD : Tiles D) (mid : Int → M)
    (msk : Int → Bool) {lo hi : Int} (hlo : 1 ≤ lo) {p : Nat} (hp : p < D.nproc)
    (dst : Int → M) {g : Int} (hg : InPart D lo hi p g) :
    addFix D mid msk lo hi p dst g = fixVal D mid msk lo hi p g (dst g) := by
  obtain ⟨a, b, c⟩ := addFix_in hD mid msk hlo hp dst hg
  unfold fixVal
  split
  · rename_i h; exact b h.1 h.2
  · rename_i h
    rcases lastBit_or_noBit msk (max lo (D.blk p).1) g with ⟨k, hk⟩ | hn
    · exact a k hk
    · exact c (by by_contra hne; exact h ⟨hn, hne⟩)

theorem inPart_uniq {D : Dist} (hD : Tiles D) {lo hi : Int} {p q : Nat} (hp : p < D.nproc)
    (hq : q < D.nproc) {g : Int} (h : InPart D lo hi p g) (h' : InPart D lo hi q g) : p = q :=
  hD.uniq p q g hp hq h.1 h.2.1 h'.1 h'.2.1

theorem scanAdd_core {D : Dist} (hD : Tiles D) {order1 order2 : List Nat}
    (h1 : Schedule D order1) (h2 : Schedule D order2) (excl : Bool) (src : Int → M)
    (msk : Int → Bool) {lo hi : Int} (hlo : 1 ≤ lo) (hlh : lo ≤ hi) (hhi : hi ≤ D.dim)
    (dst : Int → M) :
    ∃ out, scanAdd D order1 order2 excl src msk lo hi dst = some out ∧
      ∀ g, (lo ≤ g ∧ g ≤ hi →
          (∀ k, LastBit msk lo g k → out g = ∑ j ∈ Finset.Icc k g, val excl src msk j) ∧
          (NoBit msk lo g → out g = dst g)) ∧
        (¬ (lo ≤ g ∧ g ≤ hi) → out g = dst g) := by
  unfold scanAdd
  rw [scan_ok hD hlo]
  simp only [Bool.false_eq_true, if_false]
  obtain ⟨mid, hmid⟩ : ∃ mid, mid = order1.foldl (fun d p => addLocal D excl src msk lo hi p d) dst :=
    ⟨_, rfl⟩
  rw [← hmid]
  refine ⟨_, rfl, ?_⟩
  -- contents after the first phase
  have m1 : ∀ g p, p < D.nproc → InPart D lo hi p g →
      mid g = locVal D excl src msk lo hi p g (dst g) := by
    intro g p hp hg
    rw [hmid]
    exact (fold_own (fun p d => addLocal D excl src msk lo hi p d) (InPart D lo hi)
      (locVal D excl src msk lo hi) order1 (schedule_nodup h1)
      (fun p hp d g hg => addLocal_val hD excl src msk hlo ((schedule_mem h1).1 hp) d hg)
      (fun p hp d g hg => addLocal_out hD excl src msk hlo hlh ((schedule_mem h1).1 hp) d hg)
      (fun p hp q hq g => inPart_uniq hD ((schedule_mem h1).1 hp) ((schedule_mem h1).1 hq))
      dst g).1 p ((schedule_mem h1).2 hp) hg
  have m2 : ∀ g, (∀ p, p < D.nproc → ¬ InPart D lo hi p g) → mid g = dst g := by
    intro g hg
    rw [hmid]
    exact (fold_own (fun p d => addLocal D excl src msk lo hi p d) (InPart D lo hi)
      (locVal D excl src msk lo hi) order1 (schedule_nodup h1)
      (fun p hp d g hg => addLocal_val hD excl src msk hlo ((schedule_mem h1).1 hp) d hg)
      (fun p hp d g hg => addLocal_out hD excl src msk hlo hlh ((schedule_mem h1).1 hp) d hg)
      (fun p hp q hq g => inPart_uniq hD ((schedule_mem h1).1 hp) ((schedule_mem h1).1 hq))
      dst g).2 (fun p hp => hg p ((schedule_mem h1).1 hp))
  intro g
  have fin := fold_own (fun p d => addFix D mid msk lo hi p d) (InPart D lo hi)
    (fixVal D mid msk lo hi) order2 (schedule_nodup h2)
    (fun p hp d g hg => addFix_val hD mid msk hlo ((schedule_mem h2).1 hp) d hg)
    (fun p hp d g hg => addFix_out hD mid msk hlo hlh ((schedule_mem h2).1 hp) d hg)
    (fun p hp q hq g => inPart_uniq hD ((schedule_mem h2).1 hp) ((schedule_mem h2).1 hq)) mid g
  constructor
  · rintro ⟨g1, g2⟩
    obtain ⟨p, hp, p1, p2⟩ := hD.cover g (by omega) (by omega)
    have hpart : InPart D lo hi p g := ⟨p1, p2, g1, g2⟩
    have e := fin.1 p ((schedule_mem h2).2 hp) hpart
    rw [m1 g p hp hpart] at e
    rw [e]
    have hr := rmt_spec hD msk (hi := hi) p hp hlo (by omega) (by omega)
    have hdim : (D.blk p).2 ≤ D.dim := by
      rcases hD.shape p hp with h | h
      · rw [h] at p1 p2; simp at p1 p2; omega
      · omega
    constructor
    · rintro k ⟨k1, k2, k3, k4⟩
      by_cases hk : (D.blk p).1 ≤ k
      · have hl : LastBit msk (max lo (D.blk p).1) g k := ⟨by omega, k2, k3, k4⟩
        rw [locVal_last hl]
        unfold fixVal
        rw [if_neg]
        rintro ⟨hn, _⟩
        exact hn.not_last ⟨k, hl⟩
      · have hn : NoBit msk (max lo (D.blk p).1) g := fun j h5 h6 => k4 j (by omega) h6
        have hrk := hr.1 k ⟨k1, by omega, k3, fun j h5 h6 => k4 j h5 (by omega)⟩
        unfold fixVal locVal
        rw [if_pos ⟨hn, by omega⟩, dif_neg hn.not_last, if_pos (by omega), hrk]
        rw [endSum_eq hD (val excl src msk) mid (by omega) (by omega), ← sum_split _ (by omega)
          (by omega)]
        intro q hq q1 q2 q3
        have hqp : (D.blk q).2 ≤ (D.blk p).1 - 1 := by
          have := hD.before hp hq (k := (D.blk q).1) (le_refl _) q1 (by omega) (by omega)
          omega
        refine ⟨hqp, ?_⟩
        have hqpart : InPart D lo hi q (D.blk q).2 := ⟨q1, le_refl _, by omega, by omega⟩
        rw [m1 _ q hq hqpart]
        by_cases hkq : (D.blk q).1 ≤ k
        · rw [locVal_last (k := k) ⟨by omega, by omega, k3, fun j h5 h6 => k4 j h5 (by omega)⟩,
            show max k (D.blk q).1 = k by omega]
        · have hnq : NoBit msk (max lo (D.blk q).1) (D.blk q).2 :=
            fun j h5 h6 => k4 j (by omega) (by omega)
          have hrq := (rmt_spec hD msk (hi := hi) q hq hlo q1 (by omega)).1 k
            ⟨k1, by omega, k3, fun j h5 h6 => k4 j h5 (by omega)⟩
          unfold locVal
          rw [dif_neg hnq.not_last, if_pos (by omega), show max k (D.blk q).1 = (D.blk q).1 by omega]
    · intro hn
      have hn' : NoBit msk (max lo (D.blk p).1) g := fun j h5 h6 => hn j (by omega) h6
      have hrk := hr.2 (fun j h5 h6 => hn j h5 (by omega))
      unfold fixVal locVal
      rw [if_neg (by simp [hrk]), dif_neg hn'.not_last, if_neg (by simp [hrk])]
  · intro hg
    rw [fin.2, m2]
    · intro p _ h; exact hg ⟨h.2.2.1, h.2.2.2⟩
    · intro p _ h; exact hg ⟨h.2.2.1, h.2.2.2⟩

/-- exclusive sums in terms of the source array -/
theorem val_excl_sum (src : Int → M) (msk : Int → Bool) {k g : Int} (hk : msk k = true)
    (hkg : k ≤ g) (hn : ∀ j, k < j → j ≤ g → msk j = false) :
    ∑ j ∈ Finset.Icc k g, val true src msk j = ∑ j ∈ Finset.Icc k (g - 1), src j := by
  obtain ⟨n, hnn⟩ : ∃ n : Nat, n = (g - k).toNat := ⟨_, rfl⟩
  induction n generalizing g with
  | zero =>
    have : g = k := by omega
    subst this
    rw [sum_one, sum_none _ (by omega)]
    simp [val, hk]
  | succ n ih =>
    rw [sum_right _ hkg, ih (by omega) (fun j h1 h2 => hn j h1 (by omega)) (by omega),
      sum_right src (b := g - 1) (by omega)]
    simp [val, hn g (by omega) (by omega)]

theorem val_incl_sum (src : Int → M) (msk : Int → Bool) (k g : Int) :
    ∑ j ∈ Finset.Icc k g, val false src msk j = ∑ j ∈ Finset.Icc k g, src j := by
  simp [val]

end GA.Sparse
