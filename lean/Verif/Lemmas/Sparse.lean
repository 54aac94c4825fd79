import Verif.Spec.Sparse
import Mathlib.Algebra.BigOperators.Ring.Finset
import Mathlib.Algebra.BigOperators.Intervals
import Mathlib.Tactic.Ring

/-! # Lemmas about the scans of sparse.c -/

namespace GA.Sparse

/-! ## sums over integer intervals -/

theorem Icc_left {a b : Int} (h : a ≤ b) : Finset.Icc a b = insert a (Finset.Icc (a + 1) b) := by
  ext x; simp only [Finset.mem_Icc, Finset.mem_insert]; omega

theorem Icc_right {a b : Int} (h : a ≤ b) : Finset.Icc a b = insert b (Finset.Icc a (b - 1)) := by
  ext x; simp only [Finset.mem_Icc, Finset.mem_insert]; omega

theorem Icc_none {a b : Int} (h : b < a) : Finset.Icc a b = ∅ := by
  ext x; simp only [Finset.mem_Icc, Finset.notMem_empty, iff_false]; omega

theorem sum_left {M : Type} [AddCommMonoid M] (f : Int → M) {a b : Int} (h : a ≤ b) :
    ∑ j ∈ Finset.Icc a b, f j = f a + ∑ j ∈ Finset.Icc (a + 1) b, f j := by
  rw [Icc_left h, Finset.sum_insert]
  simp only [Finset.mem_Icc]; omega

theorem sum_right {M : Type} [AddCommMonoid M] (f : Int → M) {a b : Int} (h : a ≤ b) :
    ∑ j ∈ Finset.Icc a b, f j = f b + ∑ j ∈ Finset.Icc a (b - 1), f j := by
  rw [Icc_right h, Finset.sum_insert]
  simp only [Finset.mem_Icc]; omega

theorem sum_one {M : Type} [AddCommMonoid M] (f : Int → M) (a : Int) :
    ∑ j ∈ Finset.Icc a a, f j = f a := by
  simp

theorem sum_none {M : Type} [AddCommMonoid M] (f : Int → M) {a b : Int} (h : b < a) :
    ∑ j ∈ Finset.Icc a b, f j = 0 := by
  rw [Icc_none h, Finset.sum_empty]

theorem sum_split {M : Type} [AddCommMonoid M] (f : Int → M) {a c b : Int} (h1 : a ≤ c)
    (h2 : c ≤ b + 1) :
    ∑ j ∈ Finset.Icc a b, f j = ∑ j ∈ Finset.Icc c b, f j + ∑ j ∈ Finset.Icc a (c - 1), f j := by
  have e : Finset.Icc a b = Finset.Icc c b ∪ Finset.Icc a (c - 1) := by
    ext x; simp only [Finset.mem_Icc, Finset.mem_union]; omega
  rw [e, Finset.sum_union]
  rw [Finset.disjoint_left]
  intro x; simp only [Finset.mem_Icc]; omega

/-! ## mask positions -/

theorem lastBit_or_noBit (msk : Int → Bool) (lo g : Int) :
    (∃ k, LastBit msk lo g k) ∨ NoBit msk lo g := by
  obtain ⟨n, hn⟩ : ∃ n : Nat, n = (g + 1 - lo).toNat := ⟨_, rfl⟩
  induction n generalizing g with
  | zero => right; intro j h1 h2; omega
  | succ n ih =>
    cases hb : msk g with
    | true => left; exact ⟨g, by omega, by omega, hb, fun j h1 h2 => by omega⟩
    | false =>
      rcases ih (g - 1) (by omega) with ⟨k, h1, h2, h3, h4⟩ | h
      · left
        refine ⟨k, h1, by omega, h3, fun j h5 h6 => ?_⟩
        by_cases e : j = g
        · rw [e]; exact hb
        · exact h4 j h5 (by omega)
      · right; intro j h5 h6
        by_cases e : j = g
        · rw [e]; exact hb
        · exact h j h5 (by omega)

theorem LastBit.uniq {msk : Int → Bool} {lo g k k' : Int} (h : LastBit msk lo g k)
    (h' : LastBit msk lo g k') : k = k' := by
  obtain ⟨a1, a2, a3, a4⟩ := h
  obtain ⟨b1, b2, b3, b4⟩ := h'
  by_contra hne
  rcases Int.lt_or_gt_of_ne hne with h | h
  · have := a4 k' h b2; rw [b3] at this; cases this
  · have := b4 k h a2; rw [a3] at this; cases this

theorem limLoop_spec (msk : Int → Bool) (lo hi lop : Int) (n : Nat) (i lim : Int) :
    (∀ k, LastBit msk (max lo (lop + i)) (min hi (lop + i + n - 1)) k →
      limLoop msk lo hi lop n i lim = k) ∧
    (NoBit msk (max lo (lop + i)) (min hi (lop + i + n - 1)) →
      limLoop msk lo hi lop n i lim = lim) := by
  induction n generalizing i lim with
  | zero =>
    constructor
    · rintro k ⟨h1, h2, _⟩; omega
    · intro _; rfl
  | succ n ih =>
    simp only [limLoop]
    obtain ⟨ih1, ih2⟩ := ih (i + 1)
      (if msk (i + lop) = true then (if i + lop ≥ lo ∧ i + lop ≤ hi then i + lop else lim) else lim)
    constructor
    · rintro k ⟨h1, h2, h3, h4⟩
      by_cases hk : k = lop + i
      · rw [ih2]
        · rw [if_pos (by rw [show i + lop = k by omega]; exact h3), if_pos (by omega)]; omega
        · intro j h5 h6; exact h4 j (by omega) (by omega)
      · exact ih1 k ⟨by omega, by omega, h3, fun j h5 h6 => h4 j h5 (by omega)⟩
    · intro h
      rw [ih2]
      · by_cases hb : msk (i + lop) = true
        · rw [if_pos hb]
          split
          · have := h (i + lop) (by omega) (by omega)
            rw [hb] at this; cases this
          · rfl
        · rw [if_neg hb]
      · intro j h5 h6; exact h j (by omega) (by omega)

theorem rmtLoop_spec (lims : Nat → Int) (lop : Int) (n i : Nat) (r : Int) :
    (rmtLoop lims lop n i r = r ∨ ∃ j, i ≤ j ∧ j < i + n ∧ rmtLoop lims lop n i r = lims j ∧
      lims j ≠ -1 ∧ lims j < lop) ∧
    r ≤ rmtLoop lims lop n i r ∧
    ∀ j, i ≤ j → j < i + n → lims j ≠ -1 → lims j < lop → lims j ≤ rmtLoop lims lop n i r := by
  induction n generalizing i r with
  | zero => simp only [rmtLoop]; exact ⟨Or.inl trivial, by omega, fun j _ _ => by omega⟩
  | succ n ih =>
    simp only [rmtLoop]
    obtain ⟨a, b, c⟩ := ih (i + 1) (if -1 ≠ lims i ∧ lims i > r ∧ lims i < lop then lims i else r)
    refine ⟨?_, ?_, ?_⟩
    · rcases a with a | ⟨j, a1, a2, a3⟩
      · rw [a]
        split
        · right; exact ⟨i, by omega, by omega, by rfl, by omega, by omega⟩
        · left; rfl
      · right; exact ⟨j, by omega, by omega, a3⟩
    · split at b <;> rename_i h
      · rw [if_pos h]; omega
      · rw [if_neg h]; omega
    · intro j h1 h2 h3 h4
      by_cases e : j = i
      · subst e
        split at b <;> rename_i h
        · rw [if_pos h]; omega
        · rw [if_neg h]; omega
      · exact c j (by omega) (by omega) h3 h4

theorem lim_spec {D : Dist} (hD : Tiles D) (msk : Int → Bool) {lo hi : Int} (p : Nat)
    (hp : p < D.nproc) (hlo : 1 ≤ lo) :
    (∀ k, LastBit msk (max lo (D.blk p).1) (min hi (D.blk p).2) k → lim D msk lo hi p = k) ∧
    (NoBit msk (max lo (D.blk p).1) (min hi (D.blk p).2) → lim D msk lo hi p = -1) := by
  unfold lim
  rcases hD.shape p hp with h | h
  · simp only [h]
    refine ⟨?_, fun _ => rfl⟩
    rintro k ⟨h1, h2, _⟩; omega
  · simp only [if_pos (show (D.blk p).1 > 0 by omega)]
    have := limLoop_spec msk lo hi (D.blk p).1 ((D.blk p).2 - (D.blk p).1 + 1).toNat 0 (-1)
    rw [show (D.blk p).1 + 0 + (((D.blk p).2 - (D.blk p).1 + 1).toNat : Int) - 1 = (D.blk p).2 by
      omega, show (D.blk p).1 + 0 = (D.blk p).1 by omega] at this
    exact this

theorem Tiles.before {D : Dist} (hD : Tiles D) {p q : Nat} (hp : p < D.nproc) (hq : q < D.nproc)
    {k : Int} (h1 : (D.blk q).1 ≤ k) (h2 : k ≤ (D.blk q).2) (h3 : k < (D.blk p).1)
    (h4 : (D.blk p).1 ≤ (D.blk p).2) : (D.blk q).2 < (D.blk p).1 := by
  by_contra h
  have := hD.uniq p q (D.blk p).1 hp hq (by omega) (by omega) (by omega) (by omega)
  subst this
  omega

theorem rmt_spec {D : Dist} (hD : Tiles D) (msk : Int → Bool) {lo hi : Int} (p : Nat)
    (hp : p < D.nproc) (hlo : 1 ≤ lo) (h0 : (D.blk p).1 ≤ (D.blk p).2) (hph : (D.blk p).1 ≤ hi) :
    (∀ k, LastBit msk lo ((D.blk p).1 - 1) k → rmtIdx D msk lo hi (D.blk p).1 = k) ∧
    (NoBit msk lo ((D.blk p).1 - 1) → rmtIdx D msk lo hi (D.blk p).1 = -1) := by
  obtain ⟨a, b, c⟩ := rmtLoop_spec (lim D msk lo hi) (D.blk p).1 D.nproc 0 (-1)
  have key : ∀ j, j < D.nproc → lim D msk lo hi j ≠ -1 →
      lo ≤ lim D msk lo hi j ∧ lim D msk lo hi j ≤ hi ∧ msk (lim D msk lo hi j) = true := by
    intro j hj hne
    obtain ⟨l1, l2⟩ := lim_spec hD msk (hi := hi) j hj hlo
    rcases lastBit_or_noBit msk (max lo (D.blk j).1) (min hi (D.blk j).2) with ⟨k, hk⟩ | h
    · rw [l1 k hk]
      obtain ⟨h1, h2, h3, _⟩ := hk
      exact ⟨by omega, by omega, h3⟩
    · exact absurd (l2 h) hne
  unfold rmtIdx
  have hdim : (D.blk p).1 ≤ D.dim := by
    rcases hD.shape p hp with h | h
    · rw [h] at h0; simp at h0
    · omega
  constructor
  · intro k hk
    obtain ⟨h1, h2, h3, h4⟩ := hk
    obtain ⟨q, hq, q1, q2⟩ := hD.cover k (by omega) (by omega)
    have hb := hD.before hp hq q1 q2 (by omega) h0
    have hl : lim D msk lo hi q = k := by
      refine (lim_spec hD msk (hi := hi) q hq hlo).1 k ⟨by omega, by omega, h3, ?_⟩
      intro j h5 h6; exact h4 j h5 (by omega)
    have hc := c q (by omega) (by omega) (by omega) (by omega)
    rw [hl] at hc
    rcases a with a | ⟨j, j1, j2, j3, j4, j5⟩
    · omega
    · obtain ⟨k1, k2, k3⟩ := key j (by omega) j4
      rw [j3] at hc ⊢
      by_contra hne
      have := h4 (lim D msk lo hi j) (by omega) (by omega)
      rw [k3] at this; cases this
  · intro h
    rcases a with a | ⟨j, j1, j2, j3, j4, j5⟩
    · exact a
    · obtain ⟨k1, k2, k3⟩ := key j (by omega) j4
      have := h (lim D msk lo hi j) (by omega) (by omega)
      rw [k3] at this; cases this

/-! ## a phase in which every process writes its own part -/

theorem fold_own {M : Type} (f : Nat → (Int → M) → (Int → M)) (B : Nat → Int → Prop)
    (F : Nat → Int → M → M)
    (order : List Nat) (hnd : order.Nodup)
    (hin : ∀ p ∈ order, ∀ d g, B p g → f p d g = F p g (d g))
    (hout : ∀ p ∈ order, ∀ d g, ¬ B p g → f p d g = d g)
    (hdisj : ∀ p ∈ order, ∀ q ∈ order, ∀ g, B p g → B q g → p = q)
    (d : Int → M) (g : Int) :
    (∀ p ∈ order, B p g → order.foldl (fun d p => f p d) d g = F p g (d g)) ∧
    ((∀ p ∈ order, ¬ B p g) → order.foldl (fun d p => f p d) d g = d g) := by
  induction order generalizing d with
  | nil => simp
  | cons a l ih =>
    simp only [List.foldl_cons]
    rw [List.nodup_cons] at hnd
    obtain ⟨i1, i2⟩ := ih hnd.2 (fun p hp => hin p (List.mem_cons_of_mem _ hp))
      (fun p hp => hout p (List.mem_cons_of_mem _ hp))
      (fun p hp q hq => hdisj p (List.mem_cons_of_mem _ hp) q (List.mem_cons_of_mem _ hq)) (f a d)
    constructor
    · intro p hp hB
      rcases List.mem_cons.1 hp with e | hp'
      · subst e
        rw [i2, hin p hp d g hB]
        intro q hq hBq
        have := hdisj p hp q (List.mem_cons_of_mem _ hq) g hB hBq
        subst this
        exact hnd.1 hq
      · rw [i1 p hp' hB, hout a (List.mem_cons_self ..)]
        intro hBa
        have := hdisj a (List.mem_cons_self ..) p hp g hBa hB
        subst this
        exact hnd.1 hp'
    · intro h
      rw [i2 (fun p hp => h p (List.mem_cons_of_mem _ hp)),
        hout a (List.mem_cons_self ..) d g (h a (List.mem_cons_self ..))]

theorem upd_same {M : Type} (a : Int → M) (g : Int) (v : M) : upd a g v g = v := by simp [upd]

theorem upd_ne {M : Type} (a : Int → M) {g x : Int} (v : M) (h : x ≠ g) : upd a g v x = a x := by
  simp [upd, h]

/-! ## scan_copy -/

theorem copyLoop_out {M : Type} (src : Int → M) (msk : Int → Bool) (lop : Int) (n : Nat) (i : Int)
    (last : M) (dst : Int → M) (g : Int) (h : ¬ (lop + i ≤ g ∧ g < lop + i + n)) :
    copyLoop src msk lop n i last dst g = dst g := by
  induction n generalizing i last dst with
  | zero => rfl
  | succ n ih =>
    simp only [copyLoop]
    rw [ih _ _ _ (by omega), upd_ne _ _ (by omega)]

theorem copyLoop_in {M : Type} (src : Int → M) (msk : Int → Bool) (lop : Int) (n : Nat) (i : Int)
    (last : M) (dst : Int → M) (g : Int) (h : lop + i ≤ g ∧ g < lop + i + n) :
    (∀ k, LastBit msk (lop + i) g k → copyLoop src msk lop n i last dst g = src k) ∧
    (NoBit msk (lop + i) g → copyLoop src msk lop n i last dst g = last) := by
  induction n generalizing i last dst with
  | zero => omega
  | succ n ih =>
    simp only [copyLoop]
    by_cases hg : g = lop + i
    · subst hg
      rw [copyLoop_out _ _ _ _ _ _ _ _ (by omega), upd_same]
      constructor
      · rintro k ⟨h1, h2, h3, _⟩
        have : k = lop + i := by omega
        subst this
        rw [if_pos h3]
      · intro hn
        rw [hn (lop + i) (by omega) (by omega)]; rfl
    · obtain ⟨i1, i2⟩ := ih (i + 1) (if msk (lop + i) then src (lop + i) else last)
        (upd dst (lop + i) (if msk (lop + i) then src (lop + i) else last)) (by omega)
      rw [show lop + (i + 1) = lop + i + 1 by omega] at i1 i2
      constructor
      · rintro k ⟨h1, h2, h3, h4⟩
        by_cases hk : k = lop + i
        · subst hk
          rw [i2 (fun j h5 h6 => h4 j (by omega) h6), if_pos h3]
        · exact i1 k ⟨by omega, h2, h3, h4⟩
      · intro hn
        rw [i2 (fun j h5 h6 => hn j (by omega) h6), hn (lop + i) (by omega) (by omega)]; rfl

/-- membership of an element in the range of one process -/
def InPart (D : Dist) (lo hi : Int) (p : Nat) (g : Int) : Prop :=
  (D.blk p).1 ≤ g ∧ g ≤ (D.blk p).2 ∧ lo ≤ g ∧ g ≤ hi

theorem start_stop {lo hi lop hip : Int} (h : ¬ (hi < lop ∨ hip < lo)) (hl : lop ≤ hip)
    (hlh : lo ≤ hi) :
    lop + startOf lo lop = max lo lop ∧
    lop + startOf lo lop + ((stopOf hi lop hip - startOf lo lop).toNat : Int) = min hi hip + 1 ∧
    lop + stopOf hi lop hip = min hi hip + 1 := by
  unfold startOf stopOf
  split <;> split <;> omega

/-- value written by `scan_copy` -/
noncomputable def copyVal {M : Type} [Zero M] (src : Int → M) (msk : Int → Bool) (lo g : Int) : M :=
  open Classical in if h : ∃ k, LastBit msk lo g k then src h.choose else 0

theorem copyVal_last {M : Type} [Zero M] (src : Int → M) (msk : Int → Bool) {lo g k : Int}
    (h : LastBit msk lo g k) : copyVal src msk lo g = src k := by
  have hx : ∃ k, LastBit msk lo g k := ⟨k, h⟩
  unfold copyVal
  rw [dif_pos hx, hx.choose_spec.uniq h]

theorem copyVal_none {M : Type} [Zero M] (src : Int → M) (msk : Int → Bool) {lo g : Int}
    (h : NoBit msk lo g) : copyVal src msk lo g = 0 := by
  unfold copyVal
  rw [dif_neg]
  rintro ⟨k, h1, h2, h3, _⟩
  have := h k h1 h2
  rw [h3] at this; cases this

theorem copyStep_in {M : Type} [Zero M] {D : Dist} (hD : Tiles D) (src : Int → M)
    (msk : Int → Bool) {lo hi : Int} (hlo : 1 ≤ lo) {p : Nat} (hp : p < D.nproc)
    (dst : Int → M) {g : Int} (hg : InPart D lo hi p g) :
    copyStep D src msk lo hi p dst g = copyVal src msk lo g := by
  obtain ⟨g1, g2, g3, g4⟩ := hg
  have hr := rmt_spec hD msk (hi := hi) p hp hlo (by omega) (by omega)
  have hc : ¬ (hi < (D.blk p).1 ∨ (D.blk p).2 < lo) := by omega
  obtain ⟨s1, s2, s3⟩ := start_stop hc (by omega) (by omega)
  unfold copyStep
  simp only [if_neg hc]
  obtain ⟨c1, c2⟩ := copyLoop_in src msk (D.blk p).1
    (stopOf hi (D.blk p).1 (D.blk p).2 - startOf lo (D.blk p).1).toNat (startOf lo (D.blk p).1)
    (if -1 ≠ rmtIdx D msk lo hi (D.blk p).1 then src (rmtIdx D msk lo hi (D.blk p).1) else 0) dst g
    (by omega)
  rw [s1] at c1 c2
  rcases lastBit_or_noBit msk lo g with ⟨k, hk⟩ | hn
  · rw [copyVal_last src msk hk]
    obtain ⟨h1, h2, h3, h4⟩ := hk
    by_cases hk : (D.blk p).1 ≤ k
    · exact c1 k ⟨by omega, h2, h3, h4⟩
    · have hr1 := hr.1 k ⟨h1, by omega, h3, fun j h5 h6 => h4 j h5 (by omega)⟩
      rw [c2 (fun j h5 h6 => h4 j (by omega) h6), hr1, if_pos (by omega)]
  · rw [copyVal_none src msk hn, c2 (fun j h5 h6 => hn j (by omega) h6),
      hr.2 (fun j h5 h6 => hn j h5 (by omega)), if_neg (by simp)]

theorem copyStep_out {M : Type} [Zero M] {D : Dist} (hD : Tiles D) (src : Int → M)
    (msk : Int → Bool) {lo hi : Int} (hlo : 1 ≤ lo) (hlh : lo ≤ hi) {p : Nat} (hp : p < D.nproc)
    (dst : Int → M) {g : Int} (hg : ¬ InPart D lo hi p g) :
    copyStep D src msk lo hi p dst g = dst g := by
  unfold copyStep
  simp only
  split
  · rfl
  · rename_i hc
    have hl : (D.blk p).1 ≤ (D.blk p).2 := by
      rcases hD.shape p hp with h | h
      · rw [h] at hc; simp at hc; omega
      · omega
    obtain ⟨s1, s2, s3⟩ := start_stop hc hl hlh
    apply copyLoop_out
    unfold InPart at hg
    omega

theorem scan_ok {D : Dist} (hD : Tiles D) {lo hi : Int} (hlo : 1 ≤ lo) :
    (List.range D.nproc).any (scanFails D lo hi) = false := by
  rw [List.any_eq_false]
  intro p hp
  rw [List.mem_range] at hp
  unfold scanFails accessOK
  rcases hD.shape p hp with h | h
  · rw [h]; simp; omega
  · simp; omega

end GA.Sparse
