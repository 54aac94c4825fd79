import Verif.Lemmas.Gop
import Mathlib.Data.List.Nodup
import Mathlib.Data.List.Basic

/-!
# Whole calls of collective operations
-/

namespace GA.Gop

open GA.Net GA.Spec.Gop

variable {α : Type} {cap : Nat → Nat → Nat → Option Nat} {T : Topo}

theorem fold_combine (op : α → α → α) [hc : Std.Commutative op] [ha : Std.Associative op]
    (f : Nat → α) : ∀ m, (Finset.Ioo 0 (m + 1)).fold op (f 0) f = combine op f m
  | 0 => by
      have : Finset.Ioo 0 (0 + 1) = ∅ := by ext x; simp; omega
      rw [this]
      rfl
  | m + 1 => by
      have hI : Finset.Ioo 0 (m + 1 + 1) = insert (m + 1) (Finset.Ioo 0 (m + 1)) := by
        ext x
        simp only [Finset.mem_Ioo, Finset.mem_insert]
        omega
      rw [hI, Finset.fold_insert (by simp), fold_combine op f m, combine, hc.comm]

theorem combine_append (op : α → α → α) [ha : Std.Associative op] (f : Nat → α) (a : Nat) :
    ∀ b, combine op f (a + b + 1) = op (combine op f a) (combine op (fun i => f (a + 1 + i)) b)
  | 0 => by simp [combine]
  | b + 1 => by
      rw [show a + (b + 1) + 1 = (a + b + 1) + 1 by omega, combine, combine_append op f a b,
        combine, ha.assoc]
      congr 3
      omega

theorem combine_congr (op : α → α → α) {f g : Nat → α} : ∀ n, (∀ i, i ≤ n → f i = g i) →
    combine op f n = combine op g n
  | 0, h => by simp [combine, h]
  | n + 1, h => by
      rw [combine, combine, combine_congr op n (fun i hi => h i (by omega)), h (n + 1) (by omega)]

/-- Combining the nodes is combining all processes. -/
theorem combine_nodes (hT : Valid T) (op : α → α → α) [Std.Associative op] (f : Nat → α) :
    ∀ d, d < T.nclus →
    combine op (fun c => combine op (fun i => f (T.master c + i)) (T.nslave c - 1)) d =
      combine op f (T.master d + T.nslave d - 1)
  | 0, h => by
      simp only [combine]
      rw [hT.2.1]
      simp
  | d + 1, h => by
      have h1 := hT.2.2.1 d (by omega)
      have h2 := hT.2.2.1 (d + 1) h
      have h3 := hT.2.2.2.1 d h
      rw [combine, combine_nodes hT op f d (by omega)]
      rw [show T.master (d + 1) + T.nslave (d + 1) - 1 =
        (T.master d + T.nslave d - 1) + (T.nslave (d + 1) - 1) + 1 by omega, combine_append]
      congr 1
      apply combine_congr
      intro i _
      congr 1
      omega

/-- The reductions in all nodes. -/
theorem node_reduce (hT : Valid T) (op : α → α → α) [Std.Commutative op] [Std.Associative op]
    {B : Nat} (hB : 0 < B) {n : Nat} {rest : Nat → Prog α} {s : Net (Nat → α) (List α)}
    (hp : ∀ p, p < T.nproc → s.prog p = reduceScope id T op B .node p n ++ rest p)
    (hch : s.ch = fun _ _ _ => []) :
    ∀ c, c ≤ T.nclus → ∃ s', Runs cap s s' ∧ s'.ch = s.ch ∧
      (∀ p, p < T.nproc → s'.prog p = if T.clus p < c then rest p
        else reduceScope id T op B .node p n ++ rest p) ∧
      (∀ p, T.nproc ≤ p → s'.prog p = s.prog p ∧ s'.buf p = s.buf p) ∧
      (∀ p, p < T.nproc → c ≤ T.clus p → s'.buf p = s.buf p) ∧
      (∀ d, d < c → ∀ k, k < n → s'.buf (T.master d) k =
        combine op (fun i => s.buf (T.master d + i) k) (T.nslave d - 1)) ∧
      ∀ p k, n ≤ k → s'.buf p k = s.buf p k
  | 0, _ => ⟨s, Runs.refl s, rfl, fun p h => by rw [hp p h]; simp, fun p _ => ⟨rfl, rfl⟩,
      fun p _ _ => rfl, fun d hd => by omega, fun p k _ => rfl⟩
  | c + 1, hc => by
      obtain ⟨s1, hr1, hc1, hp1, ho1, hb1, hv1, hk1⟩ := node_reduce hT op hB hp hch c (by omega)
      have hpos := hT.2.2.1 c (by omega)
      have hlast := hT.last (c := c) (by omega)
      obtain ⟨s2, hr2, hp2, hc2, ho2, hv2, hk2⟩ := reduce_run (cap := cap) hpos
        (φ := fun j => T.master c + j) (by intro i _ j _ h; omega)
        (tr := fun i => absTree id (bintree T .node (T.master c + i)))
        (fun i hi => tree_node T (hT.clus_eq (by omega) hi)) op hB
        (rest := fun i => rest (T.master c + i)) n 0 n s1 (Nat.le_refl n)
        (by
          intro i hi
          rw [hp1 _ (by omega), hT.clus_eq (by omega) hi, if_neg (by omega)]
          rfl)
        (by intro i _ j _; rw [hc1, hch])
      have hin : ∀ p, p < T.nproc → T.clus p = c → ∃ i, i < T.nslave c ∧ p = T.master c + i :=
        fun p h1 h2 => ((hT.mem_node h1).mpr ⟨h2, by omega⟩).1
      have hno : ∀ p, (T.nproc ≤ p ∨ T.clus p ≠ c) → ∀ i, i < T.nslave c → p ≠ T.master c + i := by
        rintro p (h | h) i hi he
        · omega
        · rw [he, hT.clus_eq (by omega) hi] at h
          exact h rfl
      refine ⟨s2, hr1.trans hr2, by rw [hc2, hc1], ?_, ?_, ?_, ?_, ?_⟩
      · intro p h
        by_cases hpc : T.clus p = c
        · obtain ⟨i, hi, he⟩ := hin p h hpc
          rw [if_pos (by omega), he, hp2 i hi]
        · rw [(ho2 p (hno p (Or.inr hpc))).1, hp1 p h]
          have : T.clus p < c ↔ T.clus p < c + 1 := by omega
          simp only [this]
      · intro p h
        have := ho2 p (hno p (Or.inl h))
        exact ⟨by rw [this.1, (ho1 p h).1], by rw [this.2, (ho1 p h).2]⟩
      · intro p h1 h2
        rw [(ho2 p (hno p (Or.inr (by omega)))).2, hb1 p h1 (by omega)]
      · intro d hd k hk
        by_cases hdc : d = c
        · subst hdc
          have hv := hv2 k (by omega) (by omega)
          have hpp : T.nslave d - 1 + 1 = T.nslave d := by omega
          have hf := fold_combine op (fun i => s1.buf (T.master d + i) k) (T.nslave d - 1)
          rw [hpp] at hf
          simp only [Nat.add_zero] at hv hf
          rw [hv, hf]
          apply combine_congr
          intro i hi
          rw [hb1 _ (by omega) (by rw [hT.clus_eq (by omega) (by omega)])]
        · have hcm := hT.clus_master (c := d) (by omega)
          rw [(ho2 _ (hno _ (Or.inr (by omega)))).2, hv1 d (by omega) k hk]
      · intro p k hk
        rw [hk2 p k (by omega), hk1 p k hk]

/-- The broadcasts in all nodes, each from its own root. -/
theorem node_bcast (hT : Valid T) {len : Nat} {ρ : Nat → Nat}
    (hρ : ∀ c, c < T.nclus → ρ c < T.nproc ∧ T.clus (ρ c) = c)
    {rest : Nat → Prog α} {s : Net (Nat → α) (List α)}
    (hp : ∀ p, p < T.nproc → s.prog p = bcastScope id T .node p len (ρ (T.clus p)) ++ rest p)
    (hch : s.ch = fun _ _ _ => []) :
    ∀ c, c ≤ T.nclus → ∃ s', Runs cap s s' ∧ s'.ch = s.ch ∧
      (∀ p, p < T.nproc → s'.prog p = if T.clus p < c then rest p
        else bcastScope id T .node p len (ρ (T.clus p)) ++ rest p) ∧
      (∀ p, T.nproc ≤ p → s'.prog p = s.prog p ∧ s'.buf p = s.buf p) ∧
      ∀ p, p < T.nproc → ∀ k, s'.buf p k =
        if T.clus p < c ∧ k < len then s.buf (ρ (T.clus p)) k else s.buf p k
  | 0, _ => ⟨s, Runs.refl s, rfl, fun p h => by rw [hp p h]; simp, fun p _ => ⟨rfl, rfl⟩,
      fun p _ k => by simp⟩
  | c + 1, hc => by
      obtain ⟨s1, hr1, hc1, hp1, ho1, hv1⟩ := node_bcast hT hρ hp hch c (by omega)
      have hpos := hT.2.2.1 c (by omega)
      have hlast := hT.last (c := c) (by omega)
      obtain ⟨hρ1, hρ2⟩ := hρ c (by omega)
      have hin : ∀ p, p < T.nproc → T.clus p = c → ∃ i, i < T.nslave c ∧ p = T.master c + i :=
        fun p h1 h2 => ((hT.mem_node h1).mpr ⟨h2, by omega⟩).1
      have hno : ∀ p, (T.nproc ≤ p ∨ T.clus p ≠ c) → ∀ i, i < T.nslave c → p ≠ T.master c + i := by
        rintro p (h | h) i hi he
        · omega
        · rw [he, hT.clus_eq (by omega) hi] at h
          exact h rfl
      obtain ⟨s2, hr2, hp2, hc2, hn2, ho2, hv2⟩ := bcast_run (cap := cap) hpos
        (φ := fun j => T.master c + j) (by intro i _ j _ h; omega)
        (tr := fun p => absTree id (bintree T .node p))
        (fun i hi => tree_node T (hT.clus_eq (by omega) hi)) (len := len) (root := ρ c)
        (rest := rest) (s := s1) (fun p => p < T.nproc ∧ T.clus p = c)
        (fun i hi => ⟨by omega, hT.clus_eq (by omega) hi⟩) ⟨hρ1, hρ2⟩
        (by
          rintro p ⟨h1, h2⟩
          rw [hp1 p h1, if_neg (by omega), h2]
          rfl)
        (by
          rintro p ⟨h1, h2⟩ h3
          obtain ⟨i, hi, he⟩ := hin p h1 h2
          exact absurd he (h3 i hi))
        (by intro p q; rw [hc1, hch])
      refine ⟨s2, hr1.trans hr2, by rw [hc2, hc1], ?_, ?_, ?_⟩
      · intro p h
        by_cases hpc : T.clus p = c
        · rw [hp2 p ⟨h, hpc⟩, if_pos (by omega)]
        · rw [hn2 p (fun h => hpc h.2), hp1 p h]
          have : T.clus p < c ↔ T.clus p < c + 1 := by omega
          simp only [this]
      · intro p h
        exact ⟨by rw [hn2 p (fun h' => by omega), (ho1 p h).1],
          by rw [ho2 p (hno p (Or.inl h)), (ho1 p h).2]⟩
      · intro p h k
        by_cases hpc : T.clus p = c
        · obtain ⟨i, hi, he⟩ := hin p h hpc
          have := hv2 i hi k
          rw [← he] at this
          rw [this, hv1 (ρ c) hρ1, hv1 p h, hρ2, hpc]
          simp only [Nat.lt_irrefl, false_and, if_false, Nat.lt_succ_self, true_and]
        · rw [ho2 p (hno p (Or.inr hpc)), hv1 p h]
          have : T.clus p < c ↔ T.clus p < c + 1 := by omega
          simp only [this]

/-- `armci_msg_bcast`. -/
theorem bcast_call (hT : Valid T) {len root : Nat} (hroot : root < T.nproc)
    {rest : Nat → Prog α} {s : Net (Nat → α) (List α)}
    (hp : ∀ p, p < T.nproc → s.prog p = msgBcast T p len root ++ rest p)
    (hch : s.ch = fun _ _ _ => []) :
    ∃ s', Runs cap s s' ∧ s'.ch = s.ch ∧ (∀ p, p < T.nproc → s'.prog p = rest p) ∧
      (∀ p, T.nproc ≤ p → s'.prog p = s.prog p ∧ s'.buf p = s.buf p) ∧
      ∀ p, p < T.nproc → ∀ k, s'.buf p k = if k < len then s.buf root k else s.buf p k := by
  have hcl := fun p hp => (hT.2.2.2.2.2 p hp).1
  by_cases hn : T.nclus > 1
  · have h0 := hT.1
    have hmas : ∀ p, p < T.nproc → (p = T.master (T.clus p) ∨ p ≠ T.master (T.clus p)) :=
      fun p _ => Classical.em _
    obtain ⟨s1, hr1, hp1, hc1, hn1, ho1, hv1⟩ := bcast_run (cap := cap) h0
      (φ := T.master) hT.inj_master (tr := fun p => absTree id (bintree T .masters p))
      (fun i hi => tree_masters T hT.2.1 (hT.clus_master hi)) (len := len) (root := root)
      (rest := fun p => bcastScope id T .node p len (T.master (T.clus p)) ++ rest p) (s := s)
      (fun p => p < T.nproc)
      (fun i hi => by have := hT.last hi; have := hT.2.2.1 i hi; omega) hroot
      (by
        intro p h
        rw [hp p h, msgBcast, if_pos hn, List.append_assoc]
        rfl)
      (by
        intro p h hno
        exact tree_masters_out T (hno _ (hcl p h)))
      (by intro p q; rw [hch])
    obtain ⟨s2, hr2, hc2, hp2, ho2, hv2⟩ := node_bcast (cap := cap) hT (len := len)
      (ρ := T.master)
      (fun c hc => ⟨by have := hT.last hc; have := hT.2.2.1 c hc; omega, hT.clus_master hc⟩)
      (rest := rest) (s := s1) (fun p h => hp1 p h) (by rw [hc1, hch]) T.nclus (Nat.le_refl _)
    have hout : ∀ p, T.nproc ≤ p → ∀ i, i < T.nclus → p ≠ T.master i := fun p h i hi he => by
      have := hT.last hi
      have := hT.2.2.1 i hi
      omega
    refine ⟨s2, hr1.trans hr2, by rw [hc2, hc1], ?_, ?_, ?_⟩
    · intro p h
      rw [hp2 p h, if_pos (hcl p h)]
    · intro p h
      exact ⟨by rw [(ho2 p h).1, hn1 p (by omega)], by rw [(ho2 p h).2, ho1 p (hout p h)]⟩
    · intro p h k
      rw [hv2 p h k]
      by_cases hk : k < len
      · rw [if_pos ⟨hcl p h, hk⟩, hv1 _ (hcl p h), if_pos hk, if_pos hk]
      · rw [if_neg (by omega), if_neg hk]
        by_cases hm : p = T.master (T.clus p)
        · have := hv1 _ (hcl p h) k
          rw [← hm, if_neg hk] at this
          exact this
        · rw [ho1 p]
          intro i hi he
          apply hm
          rw [he, hT.clus_master hi]
  · have h1 : T.nclus = 1 := by have := hT.1; omega
    have hz : ∀ p, p < T.nproc → T.clus p = 0 := fun p h => by have := hcl p h; omega
    obtain ⟨s2, hr2, hc2, hp2, ho2, hv2⟩ := node_bcast (cap := cap) hT (len := len)
      (ρ := fun _ => root) (fun c hc => ⟨hroot, by rw [hz root hroot]; omega⟩)
      (rest := rest) (s := s)
      (fun p h => by rw [hp p h, msgBcast, if_neg hn]) hch T.nclus (Nat.le_refl _)
    refine ⟨s2, hr2, hc2, ?_, ho2, ?_⟩
    · intro p h
      rw [hp2 p h, if_pos (hcl p h)]
    · intro p h k
      rw [hv2 p h k]
      have : k < len ↔ (T.clus p < T.nclus ∧ k < len) := by have := hcl p h; omega
      simp only [← this]

/-- `armci_msg_reduce`: process 0 has the combination of all. -/
theorem reduce_call (hT : Valid T) (op : α → α → α) [Std.Commutative op] [Std.Associative op]
    {B : Nat} (hB : 0 < B) {n : Nat} {rest : Nat → Prog α} {s : Net (Nat → α) (List α)}
    (hp : ∀ p, p < T.nproc → s.prog p = msgReduce T op B p n ++ rest p)
    (hch : s.ch = fun _ _ _ => []) :
    ∃ s', Runs cap s s' ∧ s'.ch = s.ch ∧ (∀ p, p < T.nproc → s'.prog p = rest p) ∧
      (∀ p, T.nproc ≤ p → s'.prog p = s.prog p ∧ s'.buf p = s.buf p) ∧
      (∀ k, k < n → s'.buf 0 k = combine op (fun q => s.buf q k) (T.nproc - 1)) ∧
      ∀ p k, n ≤ k → s'.buf p k = s.buf p k := by
  have hcl := fun p hp => (hT.2.2.2.2.2 p hp).1
  obtain ⟨s1, hr1, hc1, hp1, ho1, -, hv1, hk1⟩ := node_reduce (cap := cap) hT op hB (n := n)
    (rest := fun p => (if T.nclus > 1 then reduceScope id T op B .masters p n else []) ++ rest p)
    (s := s) (by
      intro p h
      rw [hp p h, msgReduce, List.append_assoc]) hch T.nclus (Nat.le_refl _)
  have hp1' : ∀ p, p < T.nproc → s1.prog p =
      (if T.nclus > 1 then reduceScope id T op B .masters p n else []) ++ rest p := fun p h => by
    rw [hp1 p h, if_pos (hcl p h)]
  have htot : ∀ k, combine op (fun c => combine op (fun i => s.buf (T.master c + i) k)
      (T.nslave c - 1)) (T.nclus - 1) = combine op (fun q => s.buf q k) (T.nproc - 1) := fun k => by
    rw [combine_nodes hT op (fun q => s.buf q k) (T.nclus - 1) (by have := hT.1; omega),
      hT.2.2.2.2.1]
  by_cases hn : T.nclus > 1
  · have h0 := hT.1
    obtain ⟨s2, hr2, hp2, hc2, ho2, hv2, hk2⟩ := reduce_run (cap := cap) h0
      (φ := T.master) hT.inj_master (tr := fun i => absTree id (bintree T .masters (T.master i)))
      (fun i hi => tree_masters T hT.2.1 (hT.clus_master hi)) op hB
      (rest := fun i => rest (T.master i)) n 0 n s1 (Nat.le_refl n)
      (by
        intro i hi
        have := hT.last hi
        have := hT.2.2.1 i hi
        rw [hp1' _ (by omega), if_pos hn]
        rfl)
      (by intro i _ j _; rw [hc1, hch])
    have hout : ∀ p, T.nproc ≤ p → ∀ i, i < T.nclus → p ≠ T.master i := fun p h i hi he => by
      have := hT.last hi
      have := hT.2.2.1 i hi
      omega
    have hskip : ∀ p, p < T.nproc → p ≠ T.master (T.clus p) →
        reduceScope (α := α) id T op B .masters p n = [] := by
      intro p h hm
      obtain ⟨a, b, c, d⟩ := tree_masters_out T hm
      unfold reduceScope
      generalize absTree id (bintree T .masters p) = t at a b c d
      have : ∀ fuel off n, reduceLoop op B t ((id p : Nat) : Int) fuel off n = [] := by
        intro fuel
        induction fuel with
        | zero => intro off n; rfl
        | succ f ih =>
          intro off n
          simp only [reduceLoop, ih, b, c, d]
          simp
      exact this _ _ _
    refine ⟨s2, hr1.trans hr2, by rw [hc2, hc1], ?_, ?_, ?_, ?_⟩
    · intro p h
      by_cases hm : p = T.master (T.clus p)
      · rw [hm, hp2 _ (hcl p h)]
      · have hno : ∀ i, i < T.nclus → p ≠ T.master i := fun i hi he => by
          apply hm
          rw [he, hT.clus_master hi]
        rw [(ho2 p hno).1, hp1' p h, if_pos hn, hskip p h hm]
        rfl
    · intro p h
      exact ⟨by rw [(ho2 p (hout p h)).1, (ho1 p h).1],
        by rw [(ho2 p (hout p h)).2, (ho1 p h).2]⟩
    · intro k hk
      have hv := hv2 k (by omega) (by omega)
      have hpp : T.nclus - 1 + 1 = T.nclus := by omega
      have hf := fold_combine op (fun i => s1.buf (T.master i) k) (T.nclus - 1)
      rw [hpp] at hf
      simp only [hT.2.1] at hv hf
      rw [hv, hf, ← htot k]
      apply combine_congr
      intro i hi
      exact hv1 i (by omega) k hk
    · intro p k hk
      rw [hk2 p k (by omega), hk1 p k hk]
  · refine ⟨s1, hr1, hc1, ?_, ho1, ?_, hk1⟩
    · intro p h
      rw [hp1' p h, if_neg hn]
      rfl
    · intro k hk
      have h1 : T.nclus = 1 := by have := hT.1; omega
      have := hv1 0 (by omega) k hk
      rw [hT.2.1] at this
      rw [this, ← htot k, h1]
      show _ = combine op (fun i => s.buf (T.master 0 + i) k) (T.nslave 0 - 1)
      rw [hT.2.1]

/-- `armci_msg_gop2`. -/
theorem gop_call (hT : Valid T) (op : α → α → α) [Std.Commutative op] [Std.Associative op]
    {B : Nat} (hB : 0 < B) {n : Nat} {rest : Nat → Prog α} {s : Net (Nat → α) (List α)}
    (hp : ∀ p, p < T.nproc → s.prog p = msgGop2 T op B p n ++ rest p)
    (hch : s.ch = fun _ _ _ => []) :
    ∃ s', Runs cap s s' ∧ s'.ch = s.ch ∧ (∀ p, p < T.nproc → s'.prog p = rest p) ∧
      (∀ p, T.nproc ≤ p → s'.prog p = s.prog p ∧ s'.buf p = s.buf p) ∧
      ∀ p, p < T.nproc → ∀ k, s'.buf p k =
        if k < n then combine op (fun q => s.buf q k) (T.nproc - 1) else s.buf p k := by
  obtain ⟨s1, hr1, hc1, hp1, ho1, hv1, hk1⟩ := reduce_call (cap := cap) hT op hB (n := n)
    (rest := fun p => msgBcast T p n 0 ++ rest p) (s := s) (by
      intro p h
      rw [hp p h, msgGop2, List.append_assoc]) hch
  have hpos : 0 < T.nproc := by
    have := hT.last (c := 0) hT.1
    have := hT.2.2.1 0 hT.1
    omega
  obtain ⟨s2, hr2, hc2, hp2, ho2, hv2⟩ := bcast_call (cap := cap) hT hpos hp1
    (by rw [hc1, hch])
  refine ⟨s2, hr1.trans hr2, by rw [hc2, hc1], hp2, ?_, ?_⟩
  · intro p h
    exact ⟨by rw [(ho2 p h).1, (ho1 p h).1], by rw [(ho2 p h).2, (ho1 p h).2]⟩
  · intro p h k
    rw [hv2 p h k]
    by_cases hk : k < n
    · rw [if_pos hk, if_pos hk, hv1 k hk]
    · rw [if_neg hk, if_neg hk, hk1 p k (by omega)]

/-! ## Groups -/

theorem absOf_get {ms : List Nat} {i : Nat} (hi : i < ms.length) : absOf ms i = ms[i] := by
  simp [absOf, List.getD_eq_getElem?_getD, hi]

theorem absOf_inj {ms : List Nat} (hn : ms.Nodup) :
    ∀ i, i < ms.length → ∀ j, j < ms.length → absOf ms i = absOf ms j → i = j := by
  intro i hi j hj h
  rw [absOf_get hi, absOf_get hj] at h
  exact (hn.getElem_inj_iff).mp h

theorem absOf_mem {ms : List Nat} {i : Nat} (hi : i < ms.length) : absOf ms i ∈ ms := by
  rw [absOf_get hi]
  exact List.getElem_mem hi

theorem idxOf_absOf {ms : List Nat} (hn : ms.Nodup) {i : Nat} (hi : i < ms.length) :
    ms.idxOf? (absOf ms i) = some i := by
  rw [absOf_get hi, List.idxOf?_eq_some_iff]
  refine ⟨hi, by simp, ?_⟩
  intro j hj h
  have := (hn.getElem_inj_iff).mp (by simpa using h : ms[j] = ms[i])
  omega

theorem mem_absOf {ms : List Nat} {p : Nat} (h : p ∈ ms) : ∃ i, i < ms.length ∧ p = absOf ms i := by
  obtain ⟨i, hi, he⟩ := List.getElem_of_mem h
  exact ⟨i, hi, by rw [absOf_get hi, he]⟩

theorem idxOf_none {ms : List Nat} {p : Nat} (h : p ∉ ms) : ms.idxOf? p = none := by
  simpa using h

/-- `armci_msg_group_bcast_scope` over all members. -/
theorem gbcast_call {ms : List Nat} (hn : ms.Nodup) {len orig : Nat} (ho : orig < ms.length)
    {rest : Nat → Prog α} {s : Net (Nat → α) (List α)}
    (hp : ∀ i, i < ms.length → s.prog (absOf ms i) =
      bcastScope (absOf ms) (groupTopo ms) .all i len (absOf ms orig) ++ rest (absOf ms i))
    (hch : s.ch = fun _ _ _ => []) :
    ∃ s', Runs cap s s' ∧ s'.ch = s.ch ∧ (∀ p, p ∈ ms → s'.prog p = rest p) ∧
      (∀ p, p ∉ ms → s'.prog p = s.prog p ∧ s'.buf p = s.buf p) ∧
      ∀ p, p ∈ ms → ∀ k, s'.buf p k = if k < len then s.buf (absOf ms orig) k else s.buf p k := by
  have hinj := absOf_inj hn
  obtain ⟨s1, hr1, hp1, hc1, hn1, ho1, hv1⟩ := bcast_run (cap := cap) (m := ms.length) (by omega)
    (φ := absOf ms) hinj
    (tr := fun p => absTree (absOf ms) (bintree (groupTopo ms) .all ((ms.idxOf? p).getD 0)))
    (fun i hi => by
      rw [idxOf_absOf hn hi]
      exact tree_all (absOf ms) (groupTopo ms) i) (len := len) (root := absOf ms orig)
    (rest := rest) (s := s) (fun p => p ∈ ms) (fun i hi => absOf_mem hi) (absOf_mem ho)
    (by
      intro p h
      obtain ⟨i, hi, he⟩ := mem_absOf h
      rw [he, hp i hi, idxOf_absOf hn hi]
      rfl)
    (by
      intro p h hno
      obtain ⟨i, hi, he⟩ := mem_absOf h
      exact absurd he (hno i hi))
    (by intro p q; rw [hch])
  refine ⟨s1, hr1, hc1, hp1, ?_, ?_⟩
  · intro p h
    exact ⟨hn1 p h, ho1 p (fun i hi he => h (he ▸ absOf_mem hi))⟩
  · intro p h k
    obtain ⟨i, hi, he⟩ := mem_absOf h
    rw [he, hv1 i hi k]

/-- `armci_msg_group_gop_scope` over all members. -/
theorem ggop_call {ms : List Nat} (hn : ms.Nodup) (hne : 0 < ms.length) (op : α → α → α)
    [Std.Commutative op] [Std.Associative op] {B : Nat} (hB : 0 < B) {n : Nat}
    {rest : Nat → Prog α} {s : Net (Nat → α) (List α)}
    (hp : ∀ i, i < ms.length → s.prog (absOf ms i) =
      gopScope (absOf ms) (groupTopo ms) op B .all i n ++ rest (absOf ms i))
    (hch : s.ch = fun _ _ _ => []) :
    ∃ s', Runs cap s s' ∧ s'.ch = s.ch ∧ (∀ p, p ∈ ms → s'.prog p = rest p) ∧
      (∀ p, p ∉ ms → s'.prog p = s.prog p ∧ s'.buf p = s.buf p) ∧
      ∀ p, p ∈ ms → ∀ k, s'.buf p k = if k < n
        then combine op (fun r => s.buf (absOf ms r) k) (ms.length - 1) else s.buf p k := by
  have hinj := absOf_inj hn
  have hroot : ∀ i, (absTree (absOf ms) (bintree (groupTopo ms) .all i)).root =
      ((absOf ms 0 : Nat) : Int) := fun i => (tree_all (absOf ms) (groupTopo ms) i).root
  obtain ⟨s1, hr1, hp1, hc1, ho1, hv1, hk1⟩ := reduce_run (cap := cap) hne (φ := absOf ms) hinj
    (tr := fun i => absTree (absOf ms) (bintree (groupTopo ms) .all i))
    (fun i hi => tree_all (absOf ms) (groupTopo ms) i) op hB
    (rest := fun i => bcastScope (absOf ms) (groupTopo ms) .all i n (absOf ms 0) ++
      rest (absOf ms i)) n 0 n s (Nat.le_refl n)
    (by
      intro i hi
      rw [hp i hi, gopScope, hroot, List.append_assoc]
      rfl)
    (by intro i _ j _; rw [hch])
  obtain ⟨s2, hr2, hc2, hp2, ho2, hv2⟩ := gbcast_call (cap := cap) hn hne hp1 (by rw [hc1, hch])
  have hout : ∀ p, p ∉ ms → ∀ i, i < ms.length → p ≠ absOf ms i :=
    fun p h i hi he => h (he ▸ absOf_mem hi)
  refine ⟨s2, hr1.trans hr2, by rw [hc2, hc1], hp2, ?_, ?_⟩
  · intro p h
    exact ⟨by rw [(ho2 p h).1, (ho1 p (hout p h)).1], by rw [(ho2 p h).2, (ho1 p (hout p h)).2]⟩
  · intro p h k
    rw [hv2 p h k]
    by_cases hk : k < n
    · rw [if_pos hk, if_pos hk, hv1 k (by omega) (by omega)]
      have hpp : ms.length - 1 + 1 = ms.length := by omega
      have hf := fold_combine op (fun i => s.buf (absOf ms i) k) (ms.length - 1)
      rw [hpp] at hf
      exact hf
    · rw [if_neg hk, if_neg hk, hk1 p k (by omega)]

end GA.Gop
