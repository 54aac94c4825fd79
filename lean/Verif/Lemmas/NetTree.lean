import Verif.Lemmas.Net

/-!
# Broadcast and reduction along a binary tree

`φ i` is the process at place `i` of the tree; the children of place `i` are
the places `2 * i + 1` and `2 * i + 2`.
-/

namespace GA.Net

variable {β μ : Type} {cap : Nat → Nat → Nat → Option Nat}

/-- A send. -/
def sendTo (d t : Nat) (f : β → μ) : List (Act β μ) := [.post d t f, .wait d t]

/-- The part of place `i` in a broadcast, as far as the edges to the places
below `e` are done. -/
def bStage (m : Nat) (φ : Nat → Nat) (t : Nat) (f : β → μ) (g : β → μ → β) (e i : Nat) :
    List (Act β μ) :=
  (if i ≠ 0 ∧ e ≤ i then [.recv (φ ((i - 1) / 2)) t g] else []) ++
  ((if e ≤ 2 * i + 1 ∧ 2 * i + 1 < m then sendTo (φ (2 * i + 1)) t f else []) ++
  (if e ≤ 2 * i + 2 ∧ 2 * i + 2 < m then sendTo (φ (2 * i + 2)) t f else []))

theorem tree_bcast_stage {m t : Nat} {φ : Nat → Nat}
    (inj : ∀ i, i < m → ∀ j, j < m → φ i = φ j → i = j)
    {f : β → μ} {g : β → μ → β} (hfg : ∀ b b', f (g b (f b')) = f b')
    {rest : Nat → List (Act β μ)} {s : Net β μ}
    (hprog : ∀ i, i < m → s.prog (φ i) = bStage m φ t f g 1 i ++ rest i)
    (hch : ∀ i, i < m → ∀ j, j < m → s.ch (φ i) (φ j) t = []) :
    ∀ e, e + 1 ≤ m →
    ∃ s', Runs cap s s' ∧ (∀ i, i < m → s'.prog (φ i) = bStage m φ t f g (e + 1) i ++ rest i) ∧
      (∀ p, (∀ i, i < m → p ≠ φ i) → s'.prog p = s.prog p ∧ s'.buf p = s.buf p) ∧
      s'.ch = s.ch ∧ s'.buf (φ 0) = s.buf (φ 0) ∧
      ∀ i, 0 < i → i < m → s'.buf (φ i) =
        if i < e + 1 then g (s.buf (φ i)) (f (s.buf (φ 0))) else s.buf (φ i)
  | 0, _ => by
      refine ⟨s, Runs.refl s, hprog, fun p _ => ⟨rfl, rfl⟩, rfl, rfl, fun i hi him => ?_⟩
      rw [if_neg (by omega)]
  | e + 1, he => by
      obtain ⟨s1, hr, hp, ho, hc, h0, hb⟩ := tree_bcast_stage inj hfg hprog hch e (by omega)
      have hpar : e / 2 < m := by omega
      have hne : φ (e / 2) ≠ φ (e + 1) := fun h => by
        have := inj _ hpar _ (by omega) h
        omega
      have hq : s1.prog (φ (e + 1)) = .recv (φ (e / 2)) t g ::
          ((if e + 1 ≤ 2 * (e + 1) + 1 ∧ 2 * (e + 1) + 1 < m then sendTo (φ (2 * (e + 1) + 1)) t f else []) ++
          (if e + 1 ≤ 2 * (e + 1) + 2 ∧ 2 * (e + 1) + 2 < m then sendTo (φ (2 * (e + 1) + 2)) t f else []) ++ rest (e + 1)) := by
        rw [hp _ (by omega), bStage, if_pos (by omega)]
        simp
      have hmsg : f (s1.buf (φ (e / 2))) = f (s.buf (φ 0)) := by
        by_cases hz : e / 2 = 0
        · rw [hz, h0]
        · rw [hb _ (by omega) hpar, if_pos (by omega), hfg]
      have hP : ∃ P, s1.prog (φ (e / 2)) = .post (φ (e + 1)) t f :: .wait (φ (e + 1)) t :: P ∧
          P = bStage m φ t f g (e + 1 + 1) (e / 2) ++ rest (e / 2) := by
        refine ⟨_, ?_, rfl⟩
        rw [hp _ hpar]
        rcases (by omega : e + 1 = 2 * (e / 2) + 1 ∨ e + 1 = 2 * (e / 2) + 2) with h | h
        · have A : ¬ (e / 2 ≠ 0 ∧ e + 1 ≤ e / 2) := by omega
          have A' : ¬ (e / 2 ≠ 0 ∧ e + 1 + 1 ≤ e / 2) := by omega
          have B : e + 1 ≤ 2 * (e / 2) + 1 ∧ 2 * (e / 2) + 1 < m := by omega
          have B' : ¬ (e + 1 + 1 ≤ 2 * (e / 2) + 1 ∧ 2 * (e / 2) + 1 < m) := by omega
          have C : (e + 1 ≤ 2 * (e / 2) + 2 ∧ 2 * (e / 2) + 2 < m) ↔
            (e + 1 + 1 ≤ 2 * (e / 2) + 2 ∧ 2 * (e / 2) + 2 < m) := by omega
          simp only [bStage, if_neg A, if_neg A', if_pos B, if_neg B', C]
          rw [← h]
          simp [sendTo]
        · have A : ¬ (e / 2 ≠ 0 ∧ e + 1 ≤ e / 2) := by omega
          have A' : ¬ (e / 2 ≠ 0 ∧ e + 1 + 1 ≤ e / 2) := by omega
          have B : ¬ (e + 1 ≤ 2 * (e / 2) + 1 ∧ 2 * (e / 2) + 1 < m) := by omega
          have B' : ¬ (e + 1 + 1 ≤ 2 * (e / 2) + 1 ∧ 2 * (e / 2) + 1 < m) := by omega
          have C : e + 1 ≤ 2 * (e / 2) + 2 ∧ 2 * (e / 2) + 2 < m := by omega
          have C' : ¬ (e + 1 + 1 ≤ 2 * (e / 2) + 2 ∧ 2 * (e / 2) + 2 < m) := by omega
          simp only [bStage, if_neg A, if_neg A', if_neg B, if_neg B', if_pos C, if_neg C']
          rw [← h]
          simp [sendTo]
      obtain ⟨P, hP, hPe⟩ := hP
      obtain ⟨s2, hr2, hp2, hq2, ho2, hbq, hbo, hc2⟩ := xfer (cap := cap) hne hP hq
        (by rw [hc]; exact hch _ hpar _ (by omega))
      refine ⟨s2, hr.trans hr2, ?_, ?_, by rw [hc2, hc], ?_, ?_⟩
      · intro i hi
        by_cases h1 : i = e / 2
        · rw [h1, hp2, hPe]
        · by_cases h2 : i = e + 1
          · have hN : ¬ (e + 1 ≠ 0 ∧ e + 1 + 1 ≤ e + 1) := by omega
            rw [h2, hq2, bStage, if_neg hN]
            have hA : (e + 1 ≤ 2 * (e + 1) + 1 ∧ 2 * (e + 1) + 1 < m) ↔
              (e + 1 + 1 ≤ 2 * (e + 1) + 1 ∧ 2 * (e + 1) + 1 < m) := by omega
            have hB : (e + 1 ≤ 2 * (e + 1) + 2 ∧ 2 * (e + 1) + 2 < m) ↔
              (e + 1 + 1 ≤ 2 * (e + 1) + 2 ∧ 2 * (e + 1) + 2 < m) := by omega
            simp only [hA, hB, List.nil_append]
          · rw [ho2 _ (fun h => h1 (inj _ hi _ hpar h)) (fun h => h2 (inj _ hi _ (by omega) h)),
              hp _ hi]
            have hA : (i ≠ 0 ∧ e + 1 ≤ i) ↔ (i ≠ 0 ∧ e + 1 + 1 ≤ i) := by omega
            have hB : (e + 1 ≤ 2 * i + 1 ∧ 2 * i + 1 < m) ↔
              (e + 1 + 1 ≤ 2 * i + 1 ∧ 2 * i + 1 < m) := by omega
            have hC : (e + 1 ≤ 2 * i + 2 ∧ 2 * i + 2 < m) ↔
              (e + 1 + 1 ≤ 2 * i + 2 ∧ 2 * i + 2 < m) := by omega
            simp only [bStage, hA, hB, hC]
      · intro p hpn
        have h1 := hpn _ hpar
        have h2 := hpn (e + 1) (by omega)
        exact ⟨by rw [ho2 p h1 h2, (ho p hpn).1], by rw [hbo p h2, (ho p hpn).2]⟩
      · rw [hbo _ (fun h => by have := inj _ (by omega) _ (by omega) h; omega), h0]
      · intro i hi him
        by_cases h2 : i = e + 1
        · rw [h2, hbq, hmsg, hb _ (by omega) (by omega), if_neg (by omega), if_pos (by omega)]
        · rw [hbo _ (fun h => h2 (inj _ him _ (by omega) h)), hb i hi him]
          have hA : i < e + 1 ↔ i < e + 1 + 1 := by omega
          simp only [hA]

/-- What place `i` does in a broadcast. -/
def bActs (m : Nat) (φ : Nat → Nat) (t : Nat) (f : β → μ) (g : β → μ → β) (i : Nat) :
    List (Act β μ) :=
  (if i ≠ 0 then [.recv (φ ((i - 1) / 2)) t g] else []) ++
  ((if 2 * i + 1 < m then sendTo (φ (2 * i + 1)) t f else []) ++
  (if 2 * i + 2 < m then sendTo (φ (2 * i + 2)) t f else []))

/-- A broadcast along the tree ends, and every place has the message of the
root. -/
theorem tree_bcast {m t : Nat} (hm : 0 < m) {φ : Nat → Nat}
    (inj : ∀ i, i < m → ∀ j, j < m → φ i = φ j → i = j)
    {f : β → μ} {g : β → μ → β} (hfg : ∀ b b', f (g b (f b')) = f b')
    {rest : Nat → List (Act β μ)} {s : Net β μ}
    (hprog : ∀ i, i < m → s.prog (φ i) = bActs m φ t f g i ++ rest i)
    (hch : ∀ i, i < m → ∀ j, j < m → s.ch (φ i) (φ j) t = []) :
    ∃ s', Runs cap s s' ∧ (∀ i, i < m → s'.prog (φ i) = rest i) ∧
      (∀ p, (∀ i, i < m → p ≠ φ i) → s'.prog p = s.prog p ∧ s'.buf p = s.buf p) ∧
      s'.ch = s.ch ∧ s'.buf (φ 0) = s.buf (φ 0) ∧
      ∀ i, 0 < i → i < m → s'.buf (φ i) = g (s.buf (φ i)) (f (s.buf (φ 0))) := by
  obtain ⟨s', hr, hp, ho, hc, h0, hb⟩ := tree_bcast_stage (cap := cap) (rest := rest) inj hfg
    (s := s) (t := t) (by
      intro i hi
      rw [hprog i hi]
      have hA : i ≠ 0 ↔ (i ≠ 0 ∧ 1 ≤ i) := by omega
      have hB : 2 * i + 1 < m ↔ (1 ≤ 2 * i + 1 ∧ 2 * i + 1 < m) := by omega
      have hC : 2 * i + 2 < m ↔ (1 ≤ 2 * i + 2 ∧ 2 * i + 2 < m) := by omega
      rw [bActs, bStage]
      simp only [← hA, ← hB, ← hC]) hch (m - 1) (by omega)
  refine ⟨s', hr, ?_, ho, hc, h0, ?_⟩
  · intro i hi
    rw [hp i hi, bStage, if_neg (by omega), if_neg (by omega), if_neg (by omega)]
    rfl
  · intro i hi him
    rw [hb i hi him, if_pos (by omega)]

section fold

variable {A : Type} (op : A → A → A) [hop : Std.Commutative op] [hoa : Std.Associative op]

theorem fold_init (a b : A) (v : Nat → A) (S : Finset Nat) :
    S.fold op (op a b) v = op b (S.fold op a v) := by
  induction S using Finset.induction_on with
  | empty => simp [hop.comm a b]
  | insert x S hx ih =>
    rw [Finset.fold_insert hx, Finset.fold_insert hx, ih, ← hoa.assoc, ← hoa.assoc,
      hop.comm (v x) b]

theorem fold_same (a : A) {v w : Nat → A} {S : Finset Nat} (h : ∀ x ∈ S, v x = w x) :
    S.fold op a v = S.fold op a w := Finset.fold_congr h

/-- One message from place `c` to place `i` keeps the combination of all. -/
theorem fold_xfer {v w : Nat → A} {S : Finset Nat} {c i : Nat} (h0 : 0 ∉ S) (hc : c ∈ S)
    (hi : i = 0 ∨ i ∈ S) (hci : i ≠ c) (hw : w i = op (v i) (v c))
    (ho : ∀ x, x ≠ i → w x = v x) :
    (S.erase c).fold op (w 0) w = S.fold op (v 0) v := by
  have hS : S.fold op (v 0) v = op (v c) ((S.erase c).fold op (v 0) v) := by
    conv => lhs; rw [← Finset.insert_erase hc]
    rw [Finset.fold_insert (Finset.notMem_erase c S)]
  by_cases hz : i = 0
  · subst hz
    rw [hw, fold_init, hS]
    congr 1
    apply fold_same
    intro x hx
    apply ho
    intro hx0
    subst hx0
    exact h0 (Finset.mem_of_mem_erase hx)
  · have hiS : i ∈ S.erase c := Finset.mem_erase.mpr ⟨hci, by tauto⟩
    have h1 : (S.erase c).fold op (v 0) v = op (v i) (((S.erase c).erase i).fold op (v 0) v) := by
      conv => lhs; rw [← Finset.insert_erase hiS]
      rw [Finset.fold_insert (Finset.notMem_erase i _)]
    have h2 : (S.erase c).fold op (w 0) w = op (w i) (((S.erase c).erase i).fold op (w 0) w) := by
      conv => lhs; rw [← Finset.insert_erase hiS]
      rw [Finset.fold_insert (Finset.notMem_erase i _)]
    rw [hS, h1, h2, hw, ho 0 (fun h => hz h.symm)]
    rw [fold_same op (v 0) (v := w) (w := v)
      (fun x hx => ho x (fun hxi => by subst hxi; exact Finset.notMem_erase _ _ hx))]
    rw [← hoa.assoc, hop.comm (v c) (v i)]

end fold

/-- What has been kept on the way from `s0` to `s` when the places in `S` (and
place 0) still have to be combined. -/
structure RInv (m : Nat) (φ : Nat → Nat) (f : β → μ) (g : β → μ → β) (s0 s : Net β μ)
    (S : Finset Nat) : Prop where
  sub : ∀ i ∈ S, 0 < i ∧ i < m
  ch : s.ch = s0.ch
  other : ∀ p, (∀ i, i < m → p ≠ φ i) → s.prog p = s0.prog p ∧ s.buf p = s0.buf p
  view : ∀ {A : Type} (op : A → A → A) [Std.Commutative op] [Std.Associative op] (view : β → A),
    (∀ b b', view (g b (f b')) = op (view b) (view b')) →
    S.fold op (view (s.buf (φ 0))) (fun i => view (s.buf (φ i))) =
      (Finset.Ioo 0 m).fold op (view (s0.buf (φ 0))) (fun i => view (s0.buf (φ i)))
  keep : ∀ {C : Type} (keep : β → C), (∀ b b', keep (g b (f b')) = keep b) →
    ∀ p, keep (s.buf p) = keep (s0.buf p)
  inv : ∀ (I : β → Prop), (∀ b b', I b → I b' → I (g b (f b'))) →
    (∀ i, i < m → I (s0.buf (φ i))) → ∀ i, i < m → I (s.buf (φ i))

theorem RInv.xfer {m t : Nat} (hm : 0 < m) {φ : Nat → Nat}
    (inj : ∀ i, i < m → ∀ j, j < m → φ i = φ j → i = j)
    {f : β → μ} {g : β → μ → β} {s0 s : Net β μ} {S : Finset Nat}
    (h : RInv m φ f g s0 s S) (hch : ∀ i, i < m → ∀ j, j < m → s0.ch (φ i) (φ j) t = [])
    {c i : Nat} (hc : c ∈ S) (hi : i = 0 ∨ i ∈ S) (hci : i ≠ c) {P Q : List (Act β μ)}
    (hP : s.prog (φ c) = .post (φ i) t f :: .wait (φ i) t :: P)
    (hQ : s.prog (φ i) = .recv (φ c) t g :: Q) :
    ∃ s', Runs cap s s' ∧ s'.prog (φ c) = P ∧ s'.prog (φ i) = Q ∧
      (∀ r, r < m → r ≠ c → r ≠ i → s'.prog (φ r) = s.prog (φ r)) ∧
      RInv m φ f g s0 s' (S.erase c) := by
  have hcm := (h.sub c hc).2
  have him : i < m := by
    rcases hi with hi | hi
    · omega
    · exact (h.sub i hi).2
  have hne : φ c ≠ φ i := fun he => hci (inj _ hcm _ him he).symm
  obtain ⟨s2, hr2, hp2, hq2, ho2, hbq, hbo, hc2⟩ := Net.xfer (cap := cap) hne hP hQ
    (by rw [h.ch]; exact hch _ hcm _ him)
  refine ⟨s2, hr2, hp2, hq2, ?_, ?_, ?_, ?_, ?_, ?_, ?_⟩
  · intro r hr h1 h2
    exact ho2 _ (fun he => h1 (inj _ hr _ hcm he)) (fun he => h2 (inj _ hr _ him he))
  · exact fun x hx => h.sub x (Finset.mem_of_mem_erase hx)
  · rw [hc2, h.ch]
  · intro p hp
    have h1 := hp _ hcm
    have h2 := hp _ him
    exact ⟨by rw [ho2 p h1 h2, (h.other p hp).1], by rw [hbo p h2, (h.other p hp).2]⟩
  · intro A op _ _ view hv
    rw [← h.view op view hv]
    rw [fold_same op _ (S := S.erase c) (v := fun i => view (s2.buf (φ i)))
      (w := fun x => if x < m then view (s2.buf (φ x)) else view (s.buf (φ x)))
      (fun x hx => by rw [if_pos (h.sub x (Finset.mem_of_mem_erase hx)).2])]
    have := fold_xfer op (v := fun x => view (s.buf (φ x)))
      (w := fun x => if x < m then view (s2.buf (φ x)) else view (s.buf (φ x)))
      (S := S) (c := c) (i := i) (fun h0 => by have := (h.sub 0 h0).1; omega) hc hi hci
      (by simp only [if_pos him]; rw [hbq, hv])
      (by
        intro x hx
        by_cases hxm : x < m
        · simp only [if_pos hxm]
          rw [hbo _ (fun he => hx (inj _ hxm _ him he))]
        · simp only [if_neg hxm])
    simpa [if_pos hm] using this
  · intro C keep hk p
    rw [← h.keep keep hk p]
    by_cases hpi : p = φ i
    · rw [hpi, hbq, hk]
    · rw [hbo p hpi]
  · intro I hI h0 r hr
    have hs := h.inv I hI h0
    by_cases hri : r = i
    · rw [hri, hbq]
      exact hI _ _ (hs i him) (hs c hcm)
    · rw [hbo _ (fun he => hri (inj _ hr _ him he))]
      exact hs r hr

/-- The receives of place `i` in a reduction. -/
def rRecv (m : Nat) (φ : Nat → Nat) (t : Nat) (g : β → μ → β) (i : Nat) : List (Act β μ) :=
  (if 2 * i + 1 < m then [.recv (φ (2 * i + 1)) t g] else []) ++
  (if 2 * i + 2 < m then [.recv (φ (2 * i + 2)) t g] else [])

/-- The send of place `i` in a reduction. -/
def rSend (φ : Nat → Nat) (t : Nat) (f : β → μ) (i : Nat) : List (Act β μ) :=
  if i ≠ 0 then sendTo (φ ((i - 1) / 2)) t f else []

/-- The part of place `i` when the places from `k` on have received. -/
def rStage (m : Nat) (φ : Nat → Nat) (t : Nat) (f : β → μ) (g : β → μ → β) (k i : Nat) :
    List (Act β μ) :=
  (if i < k then rRecv m φ t g i else []) ++ (if (i - 1) / 2 < k then rSend φ t f i else [])

/-- The places that have not sent when the places from `k` on have received. -/
def rLive (m k : Nat) : Finset Nat := (Finset.Ioo 0 m).filter (fun i => (i - 1) / 2 < k)

theorem mem_rLive {m k i : Nat} : i ∈ rLive m k ↔ 0 < i ∧ i < m ∧ (i - 1) / 2 < k := by
  simp [rLive, and_assoc]

theorem rLive_step {m i : Nat} :
    rLive m i = ((rLive m (i + 1)).erase (2 * i + 1)).erase (2 * i + 2) := by
  ext x
  simp only [Finset.mem_erase, mem_rLive]
  omega

theorem erase_absent {S : Finset Nat} {a : Nat} (h : a ∉ S) : S.erase a = S :=
  Finset.erase_eq_of_notMem h

theorem tree_reduce_stage {m t : Nat} (hm : 0 < m) {φ : Nat → Nat}
    (inj : ∀ i, i < m → ∀ j, j < m → φ i = φ j → i = j)
    {f : β → μ} {g : β → μ → β} {rest : Nat → List (Act β μ)} {s : Net β μ}
    (hprog : ∀ i, i < m → s.prog (φ i) = rStage m φ t f g m i ++ rest i)
    (hch : ∀ i, i < m → ∀ j, j < m → s.ch (φ i) (φ j) t = []) :
    ∀ n, n ≤ m → ∃ s', Runs cap s s' ∧
      (∀ i, i < m → s'.prog (φ i) = rStage m φ t f g (m - n) i ++ rest i) ∧
      RInv m φ f g s s' (rLive m (m - n))
  | 0, _ => by
      refine ⟨s, Runs.refl s, by simpa using hprog, ?_⟩
      have hL : rLive m (m - 0) = Finset.Ioo 0 m := by
        ext x
        simp only [mem_rLive, Finset.mem_Ioo]
        omega
      rw [hL]
      exact ⟨fun i hi => by simpa using hi, rfl, fun p _ => ⟨rfl, rfl⟩, fun op _ _ view _ => rfl,
        fun keep _ p => rfl, fun I _ h => h⟩
  | n + 1, hn => by
      obtain ⟨s1, hr1, hp1, hI1⟩ := tree_reduce_stage hm inj hprog hch n (by omega)
      obtain ⟨i, hi⟩ : ∃ i, m - n = i + 1 := ⟨m - n - 1, by omega⟩
      have hi' : m - (n + 1) = i := by omega
      rw [hi] at hp1 hI1
      rw [hi', rLive_step]
      have him : i < m := by omega
      have hself : (i - 1) / 2 < i + 1 := by omega
      have hgone : ∀ j, j < m → j ≠ i → j ≠ 2 * i + 1 → j ≠ 2 * i + 2 →
          rStage m φ t f g (i + 1) j = rStage m φ t f g i j := by
        intro j hj h1 h2 h3
        have hA : j < i + 1 ↔ j < i := by omega
        by_cases hj0 : j = 0
        · subst hj0
          simp only [rStage, hA, rSend]
        · have hB : (j - 1) / 2 < i + 1 ↔ (j - 1) / 2 < i := by omega
          simp only [rStage, hA, hB]
      have hchild : ∀ c, (c = 2 * i + 1 ∨ c = 2 * i + 2) → c < m →
          s1.prog (φ c) = .post (φ i) t f :: .wait (φ i) t :: rest c ∧
          rStage m φ t f g i c = [] := by
        intro c hc hcm
        have hpar : (c - 1) / 2 = i := by omega
        constructor
        · rw [hp1 c hcm, rStage, if_neg (by omega), if_pos (by omega), rSend, if_pos (by omega),
            hpar]
          rfl
        · rw [rStage, if_neg (by omega), if_neg (by omega)]
          rfl
      have hmine : rStage m φ t f g i i = rSend φ t f i := by
        rw [rStage, if_neg (by omega)]
        by_cases h0 : i = 0
        · subst h0
          simp [rSend]
        · rw [if_pos (by omega)]
          simp
      have hi1 : s1.prog (φ i) = rRecv m φ t g i ++ (rSend φ t f i ++ rest i) := by
        rw [hp1 i him, rStage, if_pos (by omega), if_pos hself, List.append_assoc]
      have hiS : i = 0 ∨ i ∈ rLive m (i + 1) := by
        rcases Nat.eq_zero_or_pos i with h | h
        · exact Or.inl h
        · exact Or.inr (mem_rLive.mpr ⟨h, him, hself⟩)
      by_cases hl : 2 * i + 1 < m
      · obtain ⟨hc1, hc1'⟩ := hchild _ (Or.inl rfl) hl
        have hcS : 2 * i + 1 ∈ rLive m (i + 1) := mem_rLive.mpr ⟨by omega, hl, by omega⟩
        rw [rRecv, if_pos hl] at hi1
        obtain ⟨s2, hr2, hp2, hq2, ho2, hI2⟩ := RInv.xfer (cap := cap) hm inj hI1 hch hcS hiS
          (by omega) hc1 (by rw [hi1]; rfl)
        by_cases hrt : 2 * i + 2 < m
        · obtain ⟨hc2, hc2'⟩ := hchild _ (Or.inr rfl) hrt
          have hcS2 : 2 * i + 2 ∈ (rLive m (i + 1)).erase (2 * i + 1) :=
            Finset.mem_erase.mpr ⟨by omega, mem_rLive.mpr ⟨by omega, hrt, by omega⟩⟩
          have hiS2 : i = 0 ∨ i ∈ (rLive m (i + 1)).erase (2 * i + 1) := by
            rcases hiS with h | h
            · exact Or.inl h
            · exact Or.inr (Finset.mem_erase.mpr ⟨by omega, h⟩)
          rw [if_pos hrt] at hq2
          obtain ⟨s3, hr3, hp3, hq3, ho3, hI3⟩ := RInv.xfer (cap := cap) hm inj hI2 hch hcS2 hiS2
            (by omega) (by rw [ho2 _ hrt (by omega) (by omega)]; exact hc2) (by rw [hq2]; rfl)
          refine ⟨s3, hr1.trans (hr2.trans hr3), ?_, hI3⟩
          intro j hj
          by_cases hji : j = i
          · rw [hji, hq3, hmine]; rfl
          · by_cases hj2 : j = 2 * i + 2
            · rw [hj2, hp3, hc2']; rfl
            · by_cases hj1 : j = 2 * i + 1
              · rw [hj1, ho3 _ hl (by omega) (by omega), hp2, hc1']; rfl
              · rw [ho3 _ hj hj2 hji, ho2 _ hj hj1 hji, hp1 j hj, hgone j hj hji hj1 hj2]
        · rw [if_neg hrt] at hq2
          refine ⟨s2, hr1.trans hr2, ?_, ?_⟩
          · intro j hj
            by_cases hji : j = i
            · rw [hji, hq2, hmine]; rfl
            · by_cases hj1 : j = 2 * i + 1
              · rw [hj1, hp2, hc1']; rfl
              · rw [ho2 _ hj hj1 hji, hp1 j hj, hgone j hj hji hj1 (by omega)]
          · rw [erase_absent (a := 2 * i + 2) (by
              intro h
              have := (mem_rLive.mp (Finset.mem_of_mem_erase h)).2.1
              omega)]
            exact hI2
      · refine ⟨s1, hr1, ?_, ?_⟩
        · intro j hj
          by_cases hji : j = i
          · rw [hji, hi1, hmine, rRecv, if_neg hl, if_neg (by omega)]; rfl
          · rw [hp1 j hj, hgone j hj hji (by omega) (by omega)]
        · rw [erase_absent (a := 2 * i + 1) (by
              intro h
              have := (mem_rLive.mp h).2.1
              omega),
            erase_absent (a := 2 * i + 2) (by
              intro h
              have := (mem_rLive.mp h).2.1
              omega)]
          exact hI1

/-- What place `i` does in a reduction. -/
def rActs (m : Nat) (φ : Nat → Nat) (t : Nat) (f : β → μ) (g : β → μ → β) (i : Nat) :
    List (Act β μ) := rRecv m φ t g i ++ rSend φ t f i

/-- A reduction along the tree ends, and the root has the combination of all
places. -/
theorem tree_reduce {m t : Nat} (hm : 0 < m) {φ : Nat → Nat}
    (inj : ∀ i, i < m → ∀ j, j < m → φ i = φ j → i = j)
    {f : β → μ} {g : β → μ → β} {rest : Nat → List (Act β μ)} {s : Net β μ}
    (hprog : ∀ i, i < m → s.prog (φ i) = rActs m φ t f g i ++ rest i)
    (hch : ∀ i, i < m → ∀ j, j < m → s.ch (φ i) (φ j) t = []) :
    ∃ s', Runs cap s s' ∧ (∀ i, i < m → s'.prog (φ i) = rest i) ∧
      RInv m φ f g s s' ∅ := by
  obtain ⟨s', hr, hp, hI⟩ := tree_reduce_stage (cap := cap) (rest := rest) (s := s) (t := t) hm inj
    (f := f) (g := g) (by
      intro i hi
      rw [hprog i hi, rActs, rStage, if_pos hi]
      by_cases h0 : i = 0
      · subst h0
        simp [rSend]
      · rw [if_pos (by omega)]) hch m (Nat.le_refl m)
  refine ⟨s', hr, ?_, ?_⟩
  · intro i hi
    rw [hp i hi, rStage, if_neg (by omega), if_neg (by omega)]
    rfl
  · have : rLive m (m - m) = ∅ := by
      ext x
      simp [mem_rLive]
    rwa [this] at hI

end GA.Net
