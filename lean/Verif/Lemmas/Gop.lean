import Verif.Model.Gop
import Verif.Spec.Gop
import Verif.Lemmas.NetTree

/-!
# Global operations over message trees: lemmas
-/

namespace GA.Gop

open GA.Net GA.Spec.Gop

variable {α : Type} {cap : Nat → Nat → Nat → Option Nat}

theorem piece_get (off len : Nat) (x : Nat → α) (k : Nat) :
    (piece off len x)[k]? = if k < len then some (x (off + k)) else none := by
  unfold piece
  rw [List.getElem?_map]
  by_cases h : k < len
  · rw [List.getElem?_range h, if_pos h]
    rfl
  · rw [List.getElem?_eq_none (by simpa using h), if_neg h]
    rfl

theorem doop_piece (op : α → α → α) (off len : Nat) (b b' : Nat → α) (k : Nat) :
    doop op off b (piece off len b') k =
      if off ≤ k ∧ k < off + len then op (b k) (b' k) else b k := by
  unfold doop
  by_cases h : off ≤ k
  · rw [if_pos h, piece_get]
    by_cases h2 : k < off + len
    · rw [if_pos (by omega), if_pos ⟨h, h2⟩]
      simp only [show off + (k - off) = k by omega]
    · rw [if_neg (by omega), if_neg (by omega)]
  · rw [if_neg h, if_neg (by omega)]

theorem store_piece (len : Nat) (b b' : Nat → α) (k : Nat) :
    store 0 b (piece 0 len b') k = if k < len then b' k else b k := by
  unfold store
  rw [if_pos (Nat.zero_le k), piece_get]
  by_cases h : k < len
  · simp [h]
  · simp [h]

theorem piece_store (len : Nat) (b b' : Nat → α) :
    piece 0 len (store 0 b (piece 0 len b')) = piece 0 len b' := by
  unfold piece
  apply List.map_congr_left
  intro k hk
  have hk' : k < len := by simpa using hk
  have := store_piece len b b' k
  rw [if_pos hk'] at this
  simpa [piece] using this

/-- Place `i` of the tree of `m` places on the processes `φ`. -/
structure TreeAt (m : Nat) (φ : Nat → Nat) (i : Nat) (t : Tree) : Prop where
  root : t.root = φ 0
  up : i ≠ 0 → t.up = φ ((i - 1) / 2)
  left : t.left = if 2 * i + 1 < m then (φ (2 * i + 1) : Int) else -1
  right : t.right = if 2 * i + 2 < m then (φ (2 * i + 2) : Int) else -1

theorem reduceLoop_step {m : Nat} {φ : Nat → Nat}
    (inj : ∀ i, i < m → ∀ j, j < m → φ i = φ j → i = j) {i : Nat} (hi : i < m) {t : Tree}
    (ht : TreeAt m φ i t) (op : α → α → α) (B fuel off n : Nat) (hB : 0 < B) (hn : 0 < n) :
    ∃ ndo, ndo = min n B ∧ reduceLoop op B t (φ i) (fuel + 1) off n =
      rActs m φ 0 (piece off ndo) (doop op off) i ++
      reduceLoop op B t (φ i) fuel (off + ndo) (n - ndo) := by
  refine ⟨min n B, rfl, ?_⟩
  have h1 : (if n ≤ B then n else B) = min n B := by split <;> omega
  simp only [reduceLoop, h1]
  rw [if_neg (by omega)]
  have hup : ((φ i : Int) ≠ t.root ∧ t.up ≠ -1) ↔ i ≠ 0 := by
    constructor
    · rintro ⟨h, -⟩ h0
      subst h0
      exact h ht.root.symm
    · intro h0
      refine ⟨?_, by rw [ht.up h0]; omega⟩
      rw [ht.root]
      intro he
      exact h0 (inj i hi 0 (by omega) (by omega))
  have hl : t.left > -1 ↔ 2 * i + 1 < m := by
    rw [ht.left]
    by_cases h : 2 * i + 1 < m
    · simp only [if_pos h]; omega
    · simp only [if_neg h]; omega
  have hr : t.right > -1 ↔ 2 * i + 2 < m := by
    rw [ht.right]
    by_cases h : 2 * i + 2 < m
    · simp only [if_pos h]; omega
    · simp only [if_neg h]; omega
  simp only [hup, hl, hr, rActs, rRecv, rSend]
  congr 1
  rw [List.append_assoc, List.append_assoc]
  have e1 : (if 2 * i + 1 < m then rcvOp op off t.left else []) =
      if 2 * i + 1 < m then [Act.recv (φ (2 * i + 1)) 0 (doop op off)] else [] := by
    by_cases h : 2 * i + 1 < m
    · rw [if_pos h, if_pos h, rcvOp, ht.left, if_pos h]; simp
    · rw [if_neg h, if_neg h]
  have e2 : (if 2 * i + 2 < m then rcvOp op off t.right else []) =
      if 2 * i + 2 < m then [Act.recv (φ (2 * i + 2)) 0 (doop op off)] else [] := by
    by_cases h : 2 * i + 2 < m
    · rw [if_pos h, if_pos h, rcvOp, ht.right, if_pos h]; simp
    · rw [if_neg h, if_neg h]
  have e3 : (if i ≠ 0 then snd off (min n B) t.up else []) =
      if i ≠ 0 then sendTo (φ ((i - 1) / 2)) 0 (piece off (min n B)) else ([] : Prog α) := by
    by_cases h : i ≠ 0
    · rw [if_pos h, if_pos h, snd, ht.up h, sendTo]; simp
    · rw [if_neg h, if_neg h]
  rw [e1, e2, e3]

/-- A reduction in pieces. -/
theorem reduce_run {m : Nat} (hm : 0 < m) {φ : Nat → Nat}
    (inj : ∀ i, i < m → ∀ j, j < m → φ i = φ j → i = j) {tr : Nat → Tree}
    (ht : ∀ i, i < m → TreeAt m φ i (tr i)) (op : α → α → α)
    [Std.Commutative op] [Std.Associative op] {B : Nat} (hB : 0 < B)
    {rest : Nat → Prog α} :
    ∀ (fuel off n : Nat) (s : Net (Nat → α) (List α)), n ≤ fuel →
    (∀ i, i < m → s.prog (φ i) = reduceLoop op B (tr i) (φ i) fuel off n ++ rest i) →
    (∀ i, i < m → ∀ j, j < m → s.ch (φ i) (φ j) 0 = []) →
    ∃ s', Runs cap s s' ∧ (∀ i, i < m → s'.prog (φ i) = rest i) ∧ s'.ch = s.ch ∧
      (∀ p, (∀ i, i < m → p ≠ φ i) → s'.prog p = s.prog p ∧ s'.buf p = s.buf p) ∧
      (∀ k, off ≤ k → k < off + n → s'.buf (φ 0) k =
        (Finset.Ioo 0 m).fold op (s.buf (φ 0) k) (fun i => s.buf (φ i) k)) ∧
      ∀ p k, (k < off ∨ off + n ≤ k) → s'.buf p k = s.buf p k
  | 0, off, n, s, hn, hp, hc => by
      refine ⟨s, Runs.refl s, fun i hi => by rw [hp i hi]; rfl, rfl, fun p _ => ⟨rfl, rfl⟩,
        fun k h1 h2 => by omega, fun p k _ => rfl⟩
  | fuel + 1, off, n, s, hn, hp, hc => by
      by_cases hn0 : n = 0
      · subst hn0
        refine ⟨s, Runs.refl s, fun i hi => by rw [hp i hi, reduceLoop]; simp, rfl,
          fun p _ => ⟨rfl, rfl⟩, fun k h1 h2 => by omega, fun p k _ => rfl⟩
      · obtain ⟨ndo, hndo⟩ : ∃ ndo, ndo = min n B := ⟨_, rfl⟩
        obtain ⟨s1, hr1, hp1, hI⟩ := tree_reduce (cap := cap) (t := 0) hm inj
          (f := piece off ndo) (g := doop op off)
          (rest := fun i => reduceLoop op B (tr i) (φ i) fuel (off + ndo) (n - ndo) ++ rest i)
          (s := s) (by
            intro i hi
            obtain ⟨nd, hnd, he⟩ := reduceLoop_step inj hi (ht i hi) op B fuel off n hB (by omega)
            rw [hp i hi, he, hnd, ← hndo, List.append_assoc]) hc
        obtain ⟨s2, hr2, hp2, hc2, ho2, hv2, hk2⟩ := reduce_run hm inj ht op hB fuel (off + ndo)
          (n - ndo) s1 (by omega) hp1 (by rw [hI.ch]; exact hc)
        refine ⟨s2, hr1.trans hr2, hp2, by rw [hc2, hI.ch], ?_, ?_, ?_⟩
        · intro p hpn
          exact ⟨by rw [(ho2 p hpn).1, (hI.other p hpn).1],
            by rw [(ho2 p hpn).2, (hI.other p hpn).2]⟩
        · intro k h1 h2
          by_cases hk : k < off + ndo
          · rw [hk2 _ k (Or.inl hk)]
            have := hI.view op (fun b => b k) (by
              intro b b'
              rw [doop_piece, if_pos ⟨h1, hk⟩])
            simpa using this
          · rw [hv2 k (by omega) (by omega)]
            have hkeep := hI.keep (fun b => b k) (by
              intro b b'
              rw [doop_piece, if_neg (by omega)])
            rw [hkeep]
            exact fold_same op _ (fun i _ => hkeep _)
        · intro p k hk
          rw [hk2 p k (by omega)]
          exact hI.keep (fun b => b k) (by
            intro b b'
            rw [doop_piece, if_neg (by omega)]) p

/-- `armci_msg_bcast_scope` with the tree as an argument. -/
def bT (t : Tree) (armciMe : Int) (len : Nat) (root : Int) : Prog α :=
  (if root ≠ t.root then
    (if armciMe = root then snd 0 len t.root else []) ++
    (if armciMe = t.root then rcv 0 root else [])
   else []) ++
  (if armciMe ≠ t.root ∧ t.up ≠ -1 then rcv 0 t.up else []) ++
  (if t.left > -1 then snd 0 len t.left else []) ++
  (if t.right > -1 then snd 0 len t.right else [])

theorem bT_eq {m : Nat} {φ : Nat → Nat}
    (inj : ∀ i, i < m → ∀ j, j < m → φ i = φ j → i = j) {i : Nat} (hi : i < m) {t : Tree}
    (ht : TreeAt m φ i t) (len root : Nat) :
    bT (α := α) t (φ i) len root =
      (if root ≠ φ 0 then
        (if φ i = root then sendTo (φ 0) 0 (piece 0 len) else []) ++
        (if φ i = φ 0 then [.recv root 0 (store 0)] else []) else []) ++
      bActs m φ 0 (piece 0 len) (store 0) i := by
  have hup : ((φ i : Int) ≠ t.root ∧ t.up ≠ -1) ↔ i ≠ 0 := by
    constructor
    · rintro ⟨h, -⟩ h0
      subst h0
      exact h ht.root.symm
    · intro h0
      refine ⟨?_, by rw [ht.up h0]; omega⟩
      rw [ht.root]
      intro he
      exact h0 (inj i hi 0 (by omega) (by omega))
  have hl : t.left > -1 ↔ 2 * i + 1 < m := by
    rw [ht.left]
    by_cases h : 2 * i + 1 < m
    · simp only [if_pos h]; omega
    · simp only [if_neg h]; omega
  have hr : t.right > -1 ↔ 2 * i + 2 < m := by
    rw [ht.right]
    by_cases h : 2 * i + 2 < m
    · simp only [if_pos h]; omega
    · simp only [if_neg h]; omega
  unfold bT bActs
  simp only [hup, hl, hr]
  have e1 : (if 2 * i + 1 < m then snd 0 len t.left else []) =
      if 2 * i + 1 < m then sendTo (φ (2 * i + 1)) 0 (piece 0 len) else ([] : Prog α) := by
    by_cases h : 2 * i + 1 < m
    · rw [if_pos h, if_pos h, snd, ht.left, if_pos h, sendTo]; simp
    · rw [if_neg h, if_neg h]
  have e2 : (if 2 * i + 2 < m then snd 0 len t.right else []) =
      if 2 * i + 2 < m then sendTo (φ (2 * i + 2)) 0 (piece 0 len) else ([] : Prog α) := by
    by_cases h : 2 * i + 2 < m
    · rw [if_pos h, if_pos h, snd, ht.right, if_pos h, sendTo]; simp
    · rw [if_neg h, if_neg h]
  have e3 : (if i ≠ 0 then rcv 0 t.up else []) =
      if i ≠ 0 then [.recv (φ ((i - 1) / 2)) 0 (store 0)] else ([] : Prog α) := by
    by_cases h : i ≠ 0
    · rw [if_pos h, if_pos h, rcv, ht.up h]; simp
    · rw [if_neg h, if_neg h]
  rw [e1, e2, e3, ht.root]
  simp only [snd, rcv, sendTo, Int.toNat_natCast, List.append_assoc, ne_eq, Int.natCast_inj]

theorem bT_out {t : Tree} {p : Nat} {len root m0 : Nat} (hr : t.root = m0) (hu : t.up = -1)
    (hl : t.left = -1) (hrt : t.right = -1) (hp : p ≠ m0) :
    bT (α := α) t p len root =
      if p = root then sendTo m0 0 (piece 0 len) else [] := by
  unfold bT
  rw [hu, hl, hrt, hr]
  simp only [snd, rcv, sendTo, Int.toNat_natCast, ne_eq, Int.natCast_inj, hp]
  by_cases h : p = root
  · subst h
    simp [hp]
  · simp [h]

/-- A broadcast from any process that takes part. -/
theorem bcast_run {m : Nat} (hm : 0 < m) {φ : Nat → Nat}
    (inj : ∀ i, i < m → ∀ j, j < m → φ i = φ j → i = j) {tr : Nat → Tree}
    (ht : ∀ i, i < m → TreeAt m φ i (tr (φ i))) {len root : Nat} {rest : Nat → Prog α}
    {s : Net (Nat → α) (List α)} (part : Nat → Prop)
    (hin : ∀ i, i < m → part (φ i))
    (hroot : part root)
    (hp : ∀ p, part p → s.prog p = bT (tr p) p len root ++ rest p)
    (hout : ∀ p, part p → (∀ i, i < m → p ≠ φ i) →
      (tr p).root = φ 0 ∧ (tr p).up = -1 ∧ (tr p).left = -1 ∧ (tr p).right = -1)
    (hch : ∀ p q, s.ch p q 0 = []) :
    ∃ s', Runs cap s s' ∧ (∀ p, part p → s'.prog p = rest p) ∧ s'.ch = s.ch ∧
      (∀ p, ¬ part p → s'.prog p = s.prog p) ∧
      (∀ p, (∀ i, i < m → p ≠ φ i) → s'.buf p = s.buf p) ∧
      ∀ i, i < m → ∀ k, s'.buf (φ i) k = if k < len then s.buf root k else s.buf (φ i) k := by
  -- first, the root sends to place 0
  have hfirst : ∃ s1, Runs cap s s1 ∧ s1.ch = s.ch ∧
      (∀ i, i < m → s1.prog (φ i) = bActs m φ 0 (piece 0 len) (store 0) i ++ rest (φ i)) ∧
      (∀ p, part p → (∀ i, i < m → p ≠ φ i) → s1.prog p = rest p) ∧
      (∀ p, ¬ part p → s1.prog p = s.prog p) ∧
      (∀ p, p ≠ φ 0 → s1.buf p = s.buf p) ∧
      ∀ k, s1.buf (φ 0) k = if k < len then s.buf root k else s.buf (φ 0) k := by
    have hpin : ∀ i, i < m → s.prog (φ i) = _ := fun i hi => by
      rw [hp _ (hin i hi), bT_eq inj hi (ht i hi)]
    have hpout : ∀ p, part p → (∀ i, i < m → p ≠ φ i) → s.prog p =
        (if p = root then sendTo (φ 0) 0 (piece 0 len) else []) ++ rest p := fun p h1 h2 => by
      obtain ⟨a, b, c, d⟩ := hout p h1 h2
      rw [hp p h1, bT_out a b c d (h2 0 hm)]
    by_cases hr : root = φ 0
    · refine ⟨s, Runs.refl s, rfl, ?_, ?_, fun p _ => rfl, fun p _ => rfl, ?_⟩
      · intro i hi
        rw [hpin i hi, if_neg (by simpa using hr)]
        rfl
      · intro p h1 h2
        rw [hpout p h1 h2, if_neg (by rw [hr]; exact h2 0 hm)]
        rfl
      · intro k
        rw [hr]
        simp
    · obtain ⟨P, hP⟩ : ∃ P, s.prog root = .post (φ 0) 0 (piece 0 len) :: .wait (φ 0) 0 :: P ∧
          (∀ i, i < m → root = φ i → P = bActs m φ 0 (piece 0 len) (store 0) i ++ rest (φ i)) ∧
          ((∀ i, i < m → root ≠ φ i) → P = rest root) := by
        by_cases hx : ∃ i, i < m ∧ root = φ i
        · obtain ⟨i, hi, he⟩ := hx
          have h0 : φ i ≠ φ 0 := by rw [← he]; exact hr
          refine ⟨bActs m φ 0 (piece 0 len) (store 0) i ++ rest (φ i), ?_, ?_, ?_⟩
          · rw [he, hpin i hi, if_pos hr, if_pos he.symm, if_neg h0]
            simp [sendTo]
          · intro j hj hj2
            have : i = j := inj i hi j hj (by rw [← he, hj2])
            subst this
            rfl
          · intro h
            exact absurd he (h i hi)
        · have hno : ∀ i, i < m → root ≠ φ i := fun i hi he => hx ⟨i, hi, he⟩
          refine ⟨rest root, ?_, ?_, fun _ => rfl⟩
          · rw [hpout root hroot hno, if_pos rfl]
            simp [sendTo]
          · intro i hi he
            exact absurd he (hno i hi)
      obtain ⟨hP1, hP2, hP3⟩ := hP
      have hQ : s.prog (φ 0) = .recv root 0 (store 0) ::
          (bActs m φ 0 (piece 0 len) (store 0) 0 ++ rest (φ 0)) := by
        rw [hpin 0 hm, if_pos hr, if_neg (fun h => hr h.symm), if_pos rfl]
        simp
      obtain ⟨s1, hr1, hp1, hq1, ho1, hb1, hbo1, hc1⟩ := xfer (cap := cap) hr hP1 hQ (hch _ _)
      refine ⟨s1, hr1, hc1, ?_, ?_, ?_, hbo1, ?_⟩
      · intro i hi
        by_cases hi0 : i = 0
        · subst hi0; exact hq1
        · by_cases hir : φ i = root
          · rw [hir, hp1, hP2 i hi hir.symm, hir]
          · have hne : φ i ≠ φ 0 := fun h => hi0 (inj i hi 0 hm h)
            rw [ho1 _ hir hne, hpin i hi, if_pos hr, if_neg hir, if_neg hne]
            simp
      · intro p h1 h2
        by_cases hpr : p = root
        · subst hpr; rw [hp1, hP3 h2]
        · rw [ho1 p hpr (h2 0 hm), hpout p h1 h2, if_neg hpr]
          rfl
      · intro p h1
        exact ho1 p (fun h => h1 (h ▸ hroot)) (fun h => h1 (h ▸ hin 0 hm))
      · intro k
        rw [hb1, store_piece]
  obtain ⟨s1, hr1, hc1, hp1, ho1, hn1, hb1, hv1⟩ := hfirst
  obtain ⟨s2, hr2, hp2, ho2, hc2, h02, hb2⟩ := tree_bcast (cap := cap) (t := 0) hm inj
    (f := piece 0 len) (g := store (α := α) 0) (piece_store len) (rest := fun i => rest (φ i)) hp1
    (by intro i _ j _; rw [hc1]; exact hch _ _)
  refine ⟨s2, hr1.trans hr2, ?_, by rw [hc2, hc1], ?_, ?_, ?_⟩
  · intro p h
    by_cases hx : ∃ i, i < m ∧ p = φ i
    · obtain ⟨i, hi, he⟩ := hx
      rw [he, hp2 i hi]
    · have hno : ∀ i, i < m → p ≠ φ i := fun i hi he => hx ⟨i, hi, he⟩
      rw [(ho2 p hno).1, ho1 p h hno]
  · intro p h
    have hno : ∀ i, i < m → p ≠ φ i := fun i hi he => h (he ▸ hin i hi)
    rw [(ho2 p hno).1, hn1 p h]
  · intro p hno
    rw [(ho2 p hno).2, hb1 p (hno 0 hm)]
  · intro i hi k
    by_cases hi0 : i = 0
    · subst hi0; rw [h02, hv1]
    · have hne : φ i ≠ φ 0 := fun h => hi0 (inj i hi 0 hm h)
      rw [hb2 i (by omega) hi, store_piece, hv1, hb1 _ hne]
      by_cases hk : k < len
      · simp [hk]
      · simp [hk]

/-! ## The trees -/

theorem around_up {root n i : Nat} (h : i ≠ 0) :
    (around root n i).1 = ((root + (i - 1) / 2 : Nat) : Int) := by
  simp only [around]
  have h1 : ((i : Int) - 1).tdiv 2 = (((i - 1) / 2 : Nat) : Int) := by
    have : (i : Int) - 1 = ((i - 1 : Nat) : Int) := by omega
    rw [this]
    rfl
  rw [h1, if_neg (by omega)]
  omega

theorem around_left {root n i : Nat} :
    (around root n i).2.1 = if 2 * i + 1 < n then ((root + (2 * i + 1) : Nat) : Int) else -1 := by
  simp only [around]
  split <;> split <;> omega

theorem around_right {root n i : Nat} :
    (around root n i).2.2 = if 2 * i + 2 < n then ((root + (2 * i + 2) : Nat) : Int) else -1 := by
  simp only [around]
  split <;> split <;> omega

theorem absId_cast (abs : Nat → Nat) (p : Nat) : absId abs (p : Int) = abs p := by
  unfold absId
  rw [if_neg (by omega)]
  rfl

theorem absId_neg (abs : Nat → Nat) : absId abs (-1) = -1 := by simp [absId]

theorem absId_ite (abs : Nat → Nat) (c : Prop) [Decidable c] (p : Nat) :
    absId abs (if c then (p : Int) else -1) = if c then (abs p : Int) else -1 := by
  split
  · exact absId_cast abs p
  · exact absId_neg abs

/-- The tree over all processes (of a group). -/
theorem tree_all (abs : Nat → Nat) (T : Topo) (i : Nat) :
    TreeAt T.nproc abs i (absTree abs (bintree T .all i)) := by
  have hu := fun h => around_up (root := 0) (n := T.nproc) (i := i) h
  have hl := around_left (root := 0) (n := T.nproc) (i := i)
  have hr := around_right (root := 0) (n := T.nproc) (i := i)
  simp only [Nat.zero_add] at hu hl hr
  constructor
  · exact absId_cast abs 0
  · intro h
    simp only [absTree, bintree]
    rw [show (0 : Int) = ((0 : Nat) : Int) from rfl, hu h, absId_cast]
  · simp only [absTree, bintree]
    rw [show (0 : Int) = ((0 : Nat) : Int) from rfl, hl, absId_ite]
  · simp only [absTree, bintree]
    rw [show (0 : Int) = ((0 : Nat) : Int) from rfl, hr, absId_ite]

/-- The tree within a node. -/
theorem tree_node (T : Topo) {c i : Nat} (hc : T.clus (T.master c + i) = c) :
    TreeAt (T.nslave c) (fun j => T.master c + j) i
      (absTree id (bintree T .node (T.master c + i))) := by
  have hu := fun h => around_up (root := T.master c) (n := T.nslave c) (i := i) h
  have hl := around_left (root := T.master c) (n := T.nslave c) (i := i)
  have hr := around_right (root := T.master c) (n := T.nslave c) (i := i)
  have hi : ((T.master c + i : Nat) : Int) - (T.master c : Int) = (i : Int) := by omega
  constructor
  · simp only [absTree, bintree, hc]
    exact absId_cast id _
  · intro h
    simp only [absTree, bintree, hc, hi]
    rw [hu h, absId_cast]
    rfl
  · simp only [absTree, bintree, hc, hi]
    rw [hl, absId_ite]
    rfl
  · simp only [absTree, bintree, hc, hi]
    rw [hr, absId_ite]
    rfl

theorem masterOf_ite (T : Topo) (c : Prop) [Decidable c] (p : Nat) :
    masterOf T (if c then (p : Int) else -1) = if c then (T.master p : Int) else -1 := by
  unfold masterOf
  by_cases h : c
  · rw [if_pos h, if_neg (by omega), if_pos h]
    rfl
  · rw [if_neg h, if_pos rfl, if_neg h]

/-- The tree over the first processes of the nodes. -/
theorem tree_masters (T : Topo) (h0 : T.master 0 = 0) {i : Nat} (hc : T.clus (T.master i) = i) :
    TreeAt T.nclus T.master i (absTree id (bintree T .masters (T.master i))) := by
  have hu := fun h => around_up (root := 0) (n := T.nclus) (i := i) h
  have hl := around_left (root := 0) (n := T.nclus) (i := i)
  have hr := around_right (root := 0) (n := T.nclus) (i := i)
  simp only [Nat.zero_add] at hu hl hr
  have hi : (i : Int) - ((0 : Nat) : Int) = (i : Int) := by omega
  constructor
  · simp only [absTree, bintree, hc, ne_eq, not_true_eq_false, if_false]
    exact absId_cast id _
  · intro h
    simp only [absTree, bintree, hc, ne_eq, not_true_eq_false, if_false, h0, hi]
    rw [hu h]
    unfold masterOf
    rw [if_neg (by omega)]
    exact absId_cast id _
  · simp only [absTree, bintree, hc, ne_eq, not_true_eq_false, if_false, h0, hi]
    rw [hl, masterOf_ite, absId_ite]
    rfl
  · simp only [absTree, bintree, hc, ne_eq, not_true_eq_false, if_false, h0, hi]
    rw [hr, masterOf_ite, absId_ite]
    rfl

theorem tree_masters_out (T : Topo) {p : Nat} (hp : p ≠ T.master (T.clus p)) :
    (absTree id (bintree T .masters p)).root = T.master 0 ∧
    (absTree id (bintree T .masters p)).up = -1 ∧
    (absTree id (bintree T .masters p)).left = -1 ∧
    (absTree id (bintree T .masters p)).right = -1 := by
  simp only [absTree, bintree, ne_eq, hp, not_false_eq_true, if_true]
  exact ⟨absId_cast id _, absId_neg id, absId_neg id, absId_neg id⟩

/-! ## The nodes -/

/-- The nodes of `T` are intervals of processes. -/
def Valid (T : Topo) : Prop := Nodes T.nproc T.nclus T.master T.nslave T.clus

variable {T : Topo}

theorem Valid.mono (hT : Valid T) {c d : Nat} (hcd : c < d) (hd : d < T.nclus) :
    T.master c + T.nslave c ≤ T.master d := by
  obtain ⟨h0, hz, hs, hm, hl, hp⟩ := hT
  induction d with
  | zero => omega
  | succ d ih =>
    rw [hm d hd]
    by_cases h : c = d
    · rw [h]
    · have := ih (by omega) (by omega)
      omega

theorem Valid.last (hT : Valid T) {c : Nat} (hc : c < T.nclus) :
    T.master c + T.nslave c ≤ T.nproc := by
  have h := hT
  obtain ⟨h0, hz, hs, hm, hl, hp⟩ := h
  rw [← hl]
  by_cases h : c = T.nclus - 1
  · rw [h]
  · have := hT.mono (c := c) (d := T.nclus - 1) (by omega) (by omega)
    omega

theorem Valid.clus_eq (hT : Valid T) {c i : Nat} (hc : c < T.nclus) (hi : i < T.nslave c) :
    T.clus (T.master c + i) = c := by
  have hlast := hT.last hc
  have h := hT
  obtain ⟨h0, hz, hs, hm, hl, hp⟩ := h
  obtain ⟨h1, h2, h3⟩ := hp (T.master c + i) (by omega)
  rcases Nat.lt_trichotomy (T.clus (T.master c + i)) c with h | h | h
  · have := hT.mono h hc
    omega
  · exact h
  · have := hT.mono h h1
    omega

theorem Valid.clus_master (hT : Valid T) {c : Nat} (hc : c < T.nclus) :
    T.clus (T.master c) = c := by
  have := hT.clus_eq hc (i := 0) (hT.2.2.1 c hc)
  simpa using this

theorem Valid.inj_master (hT : Valid T) :
    ∀ i, i < T.nclus → ∀ j, j < T.nclus → T.master i = T.master j → i = j := by
  intro i hi j hj h
  rw [← hT.clus_master hi, ← hT.clus_master hj, h]

theorem Valid.mem_node (hT : Valid T) {p c : Nat} (hp : p < T.nproc) :
    (∃ i, i < T.nslave c ∧ p = T.master c + i) ∧ c < T.nclus ↔ T.clus p = c ∧ c < T.nclus := by
  obtain ⟨h1, h2, h3⟩ := hT.2.2.2.2.2 p hp
  constructor
  · rintro ⟨⟨i, hi, he⟩, hc⟩
    exact ⟨by rw [he]; exact hT.clus_eq hc hi, hc⟩
  · rintro ⟨h, hc⟩
    subst h
    exact ⟨⟨p - T.master (T.clus p), by omega, by omega⟩, hc⟩

end GA.Gop
