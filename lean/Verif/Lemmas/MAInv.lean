import Verif.Lemmas.MALists

namespace GA.MA

/-- What holds of a free block in the heap region `[lo, hi)`. -/
def FreeOK (lo hi : Int) (b : Blk) : Prop :=
  lo ≤ b.addr ∧ b.addr + b.nbytes ≤ hi ∧ b.addr % 8 = 0 ∧ b.nbytes % 8 = 0 ∧ 88 ≤ b.nbytes

/-- What holds of a used heap block. -/
def UsedOK (e : Env) (lo hi : Int) (b : Blk) : Prop :=
  lo ≤ b.addr ∧ b.addr + b.nbytes ≤ hi ∧ b.nbytes % 8 = 0 ∧ GoodBlk e b

/-- The stack blocks tile the stack region. -/
def StackTile (e : Env) (sp : Int) : List Blk → Int → Prop
  | [], eos => sp = eos
  | b :: t, eos => b.addr = sp ∧ b.nbytes % 8 = 0 ∧ GoodBlk e b ∧ StackTile e (b.addr + b.nbytes) t eos

/-- The invariant of the allocator. -/
structure Inv (e : Env) (s : St) : Prop where
  al : s.al ≤ 30
  seg0 : 0 ≤ s.seg
  eos1 : s.eos ≤ 4611686018427387904
  seg8 : s.seg % 8 = 0
  hp8 : s.hp % 8 = 0
  sp8 : s.sp % 8 = 0
  lo : s.seg ≤ s.hp
  mid : s.hp ≤ s.sp
  hi : s.sp ≤ s.eos
  used : ∀ b ∈ s.hused, UsedOK e s.seg s.hp b
  free : ∀ b ∈ s.hfree, FreeOK s.seg s.hp b
  disj : D (s.hused ++ s.hfree)
  sum : bytes s.hused + bytes s.hfree = s.hp - s.seg
  stack : StackTile e s.sp s.sused s.eos

theorem size_pos {e : Env} (he : EnvOK e) (d : Nat) : 1 ≤ e.sz d := by
  obtain ⟨k, hk, hsz⟩ := he d
  rw [hsz]; exact (pow_bd16 hk).1

theorem good_len {e : Env} (he : EnvOK e) {b : Blk} (h : GoodBlk e b) : 88 ≤ b.nbytes := by
  obtain ⟨h1, h2, h3, _⟩ := h
  have : 0 ≤ b.nelem * e.sz b.dt := mul_nonneg h2 (by have := size_pos he b.dt; omega)
  omega

theorem UsedOK.free {e : Env} (he : EnvOK e) {lo hi : Int} {b : Blk} (h : UsedOK e lo hi b) :
    FreeOK lo hi b := ⟨h.1, h.2.1, h.2.2.2.2.2.2.2, h.2.2.1, good_len he h.2.2.2⟩

theorem StackTile.mem {e : Env} (he : EnvOK e) {sp eos : Int} {l : List Blk} (h : StackTile e sp l eos) :
    sp ≤ eos ∧ D l ∧ ∀ b ∈ l, sp ≤ b.addr ∧ b.addr + b.nbytes ≤ eos ∧ GoodBlk e b ∧ b.nbytes % 8 = 0 := by
  induction l generalizing sp with
  | nil => exact ⟨le_of_eq h, List.Pairwise.nil, by simp⟩
  | cons a t ih =>
    obtain ⟨h1, h2, h3, h4⟩ := h
    obtain ⟨i1, i2, i3⟩ := ih h4
    have hl := good_len he h3
    refine ⟨by omega, ?_, ?_⟩
    · rw [D_cons]
      refine ⟨fun x hx => Or.inl (i3 x hx).1, i2⟩
    · intro b hb
      rcases List.mem_cons.mp hb with rfl | hb
      · exact ⟨by omega, by omega, h3, h2⟩
      · obtain ⟨j1, j2, j3, j4⟩ := i3 b hb
        exact ⟨by omega, j2, j3, j4⟩

/-- The invariant implies a safe layout. -/
theorem Inv.safe {e : Env} (he : EnvOK e) {s : St} (h : Inv e s) : Safe e s := by
  obtain ⟨t1, t2, t3⟩ := h.stack.mem he
  constructor
  · exact ⟨h.lo, h.mid, h.hi⟩
  · intro b hb; exact ⟨(h.used b hb).1, (h.used b hb).2.1⟩
  · intro b hb; exact ⟨(t3 b hb).1, (t3 b hb).2.1⟩
  · intro b hb
    rcases List.mem_append.mp hb with hb | hb
    · exact (h.used b hb).2.2.2
    · exact (t3 b hb).2.2.1
  · rw [List.pairwise_append]
    refine ⟨(List.pairwise_append.mp h.disj).1, t2, ?_⟩
    intro a ha b hb
    left
    have := (h.used a ha).2.1
    have := (t3 b hb).1
    have := h.mid
    omega

/-! ### Giving back a heap block -/

theorem blockFree_inv {e : Env} (he : EnvOK e) {s : St} {b : Blk}
    (al : s.al ≤ 30) (seg0 : 0 ≤ s.seg) (eos1 : s.eos ≤ 4611686018427387904)
    (seg8 : s.seg % 8 = 0) (sp8 : s.sp % 8 = 0) (hp8 : s.hp % 8 = 0)
    (lo : s.seg ≤ s.hp) (mid : s.hp ≤ s.sp) (hi : s.sp ≤ s.eos)
    (used : ∀ b ∈ s.hused, UsedOK e s.seg s.hp b)
    (free : ∀ b ∈ s.hfree, FreeOK s.seg s.hp b)
    (hb : FreeOK s.seg s.hp b)
    (disj : D (b :: (s.hused ++ s.hfree)))
    (sum : b.nbytes + bytes s.hused + bytes s.hfree = s.hp - s.seg)
    (stack : StackTile e s.sp s.sused s.eos) :
    Inv e (blockFree s b) := by
  unfold blockFree
  cases hr : rightmost s.hused with
  | none =>
    have hnil := rightmost_none hr
    simp only
    exact ⟨al, seg0, eos1, seg8, seg8, sp8, le_refl _, by simp only; omega, hi,
      by simp [hnil], by simp, by simp [hnil], by simp [hnil], stack⟩
  | some m =>
    obtain ⟨hm, hmax⟩ := rightmost_some hr
    have hmU := used m hm
    have hm88 := good_len he hmU.2.2.2
    have hm8 := hmU.2.2.2.2.2.2.2
    rw [D_cons] at disj
    have hdUF := disj.2
    have hdU := (List.pairwise_append.mp hdUF).1
    have hdF := (List.pairwise_append.mp hdUF).2.1
    have hdX := (List.pairwise_append.mp hdUF).2.2
    -- the position of the used blocks
    have hU : ∀ x ∈ s.hused, x.addr + x.nbytes ≤ m.addr + m.nbytes := by
      intro x hx
      by_cases hxm : x = m
      · subst hxm; exact le_refl _
      · have h1 := hmax x hx
        have h2 := used x hx
        have h3 := good_len he h2.2.2.2
        have h4 : DisjBlk x m := by
          obtain ⟨i, hi', rfl⟩ := List.getElem_of_mem hx
          obtain ⟨j, hj, rfl⟩ := List.getElem_of_mem hm
          rcases Nat.lt_trichotomy i j with hij | hij | hij
          · exact List.pairwise_iff_getElem.mp hdU i j hi' hj hij
          · subst hij; exact absurd rfl hxm
          · exact (List.pairwise_iff_getElem.mp hdU j i hj hi' hij).symm
        unfold DisjBlk at h4; omega
    -- the position of the free blocks
    have hF : ∀ x ∈ s.hfree, (¬ x.addr > m.addr → x.addr + x.nbytes ≤ m.addr) ∧
        (x.addr > m.addr → m.addr + m.nbytes ≤ x.addr) := by
      intro x hx
      have h1 := hdX m hm x hx
      have h2 := free x hx
      unfold FreeOK at h2
      unfold DisjBlk at h1
      constructor <;> omega
    have hbm : (b.addr < m.addr → b.addr + b.nbytes ≤ m.addr) ∧
        (¬ b.addr < m.addr → m.addr + m.nbytes ≤ b.addr) := by
      have h1 := disj.1 m (List.mem_append_left _ hm)
      unfold DisjBlk at h1
      unfold FreeOK at hb
      constructor <;> omega
    obtain ⟨kept, hkept⟩ : ∃ kept, kept = s.hfree.filter (fun x => decide (¬ x.addr > m.addr)) := ⟨_, rfl⟩
    obtain ⟨gone, hgone⟩ : ∃ gone, gone = s.hfree.filter (fun x => !decide (¬ x.addr > m.addr)) := ⟨_, rfl⟩
    have hby : bytes s.hfree = bytes kept + bytes gone := by
      rw [hkept, hgone]; exact bytes_filter _ _
    have hkm : ∀ x ∈ kept, x ∈ s.hfree ∧ x.addr + x.nbytes ≤ m.addr := by
      intro x hx
      rw [hkept, List.mem_filter] at hx
      exact ⟨hx.1, (hF x hx.1).1 (of_decide_eq_true hx.2)⟩
    have hgm : ∀ x ∈ gone, x ∈ s.hfree ∧ m.addr + m.nbytes ≤ x.addr := by
      intro x hx
      rw [hgone, List.mem_filter] at hx
      refine ⟨hx.1, (hF x hx.1).2 ?_⟩
      have := hx.2
      simpa using this
    have hdk : D (s.hused ++ kept) := by
      refine List.Pairwise.sublist ?_ hdUF
      rw [hkept]
      exact List.Sublist.append (List.Sublist.refl _) List.filter_sublist
    have hdg : D gone := by rw [hgone]; exact hdF.sublist List.filter_sublist
    simp only
    rw [← hkept]
    have hin : ∀ x ∈ s.hused ++ kept, 0 < x.nbytes ∧ s.seg ≤ x.addr ∧ x.addr + x.nbytes ≤ m.addr + m.nbytes := by
      intro x hx
      rcases List.mem_append.mp hx with hx | hx
      · have := good_len he (used x hx).2.2.2
        exact ⟨by omega, (used x hx).1, hU x hx⟩
      · have := free x (hkm x hx).1
        have h2 := (hkm x hx).2
        unfold FreeOK at this
        exact ⟨by omega, by omega, by omega⟩
    have hout : ∀ x ∈ gone, 0 < x.nbytes ∧ m.addr + m.nbytes ≤ x.addr ∧ x.addr + x.nbytes ≤ s.hp := by
      intro x hx
      have := free x (hgm x hx).1
      have h2 := (hgm x hx).2
      unfold FreeOK at this
      exact ⟨by omega, by omega, by omega⟩
    have hmend : m.addr + m.nbytes ≤ s.hp := hmU.2.1
    have hmlo : s.seg ≤ m.addr + m.nbytes := by have := hmU.1; omega
    have hmend8 : (m.addr + m.nbytes) % 8 = 0 := by have := hmU.2.2.1; omega
    have hused' : ∀ x ∈ s.hused, UsedOK e s.seg (m.addr + m.nbytes) x := fun x hx =>
      ⟨(used x hx).1, hU x hx, (used x hx).2.2⟩
    have hkfree : ∀ x ∈ kept, FreeOK s.seg (m.addr + m.nbytes) x := by
      intro x hx
      have h1 := free x (hkm x hx).1
      have h2 := (hkm x hx).2
      unfold FreeOK at h1 ⊢
      omega
    by_cases hlt : b.addr < m.addr
    · simp only [if_pos hlt]
      have hbend := hbm.1 hlt
      have hdb : D (b :: (s.hused ++ kept)) := by
        rw [D_cons]
        refine ⟨fun x hx => disj.1 x ?_, hdk⟩
        rcases List.mem_append.mp hx with hx | hx
        · exact List.mem_append_left _ hx
        · exact List.mem_append_right _ (hkm x hx).1
      have hp1 : (s.hused ++ insOrd b kept).Perm (b :: (s.hused ++ kept)) :=
        ((insOrd_perm b kept).append_left _).trans List.perm_middle
      have hb88 : 88 ≤ b.nbytes := hb.2.2.2.2
      have hfo : ∀ x ∈ insOrd b kept, FreeOK s.seg (m.addr + m.nbytes) x := by
        intro x hx
        rcases List.mem_cons.mp ((insOrd_perm b kept).mem_iff.mp hx) with rfl | hx
        · unfold FreeOK at hb ⊢; omega
        · exact hkfree x hx
      have hpos : ∀ x ∈ s.hused ++ insOrd b kept, 0 < x.nbytes := by
        intro x hx
        rcases List.mem_append.mp hx with hx | hx
        · have := good_len he (used x hx).2.2.2; omega
        · have := (hfo x hx).2.2.2.2; omega
      have hb1 := bytes_le _ (b :: (s.hused ++ kept)) s.seg (m.addr + m.nbytes) (le_refl _) hmlo hdb (by
        intro x hx
        rcases List.mem_cons.mp hx with rfl | hx
        · exact ⟨by omega, hb.1, by omega⟩
        · exact hin x hx)
      have hb2 := bytes_le _ gone (m.addr + m.nbytes) s.hp (le_refl _) hmend hdg hout
      have hcb : bytes (coalesce (insOrd b kept)) = b.nbytes + bytes kept := by
        rw [coalesce_bytes, bytes_perm (insOrd_perm b kept), bytes_cons]
      rw [bytes_cons, bytes_append] at hb1
      refine ⟨al, seg0, eos1, seg8, hmend8, sp8, hmlo, by simp only; omega, hi, hused', ?_, ?_, ?_, stack⟩
      · refine coalesce_all ?_ hfo
        intro x y hx hy hxy
        unfold FreeOK at hx hy ⊢
        simp only at hx hy ⊢
        omega
      · exact coalesce_D ((D_perm hp1).mpr hdb) hpos
      · simp only
        rw [hcb]
        omega
    · simp only [if_neg hlt]
      have hbend := hbm.2 hlt
      have hb88 : 88 ≤ b.nbytes := hb.2.2.2.2
      have hdg' : D (b :: gone) := by
        rw [D_cons]
        exact ⟨fun x hx => disj.1 x (List.mem_append_right _ (hgm x hx).1), hdg⟩
      have hb1 := bytes_le _ (s.hused ++ kept) s.seg (m.addr + m.nbytes) (le_refl _) hmlo hdk hin
      have hb2 := bytes_le _ (b :: gone) (m.addr + m.nbytes) s.hp (le_refl _) hmend hdg' (by
        intro x hx
        rcases List.mem_cons.mp hx with rfl | hx
        · exact ⟨by omega, hbend, hb.2.1⟩
        · exact hout x hx)
      rw [bytes_cons] at hb2
      rw [bytes_append] at hb1
      refine ⟨al, seg0, eos1, seg8, hmend8, sp8, hmlo, by simp only; omega, hi, hused', hkfree, hdk, ?_, stack⟩
      simp only
      omega

/-! ### The calls -/

theorem split_none {b : Blk} {needed : Int} (h : ¬ b.nbytes - needed ≥ 96) : blockSplit b needed = (b, none) := by
  unfold blockSplit
  have : minBlock = 96 := by decide
  rw [this]
  simp only [if_neg h]

theorem split_some {b : Blk} {needed : Int} (h : b.nbytes - needed ≥ 96) :
    blockSplit b needed = ({ b with nbytes := needed },
      some { addr := b.addr + needed, nbytes := b.nbytes - needed, client := 0, dt := 0, nelem := 0 }) := by
  unfold blockSplit
  have : minBlock = 96 := by decide
  rw [this]
  simp only [if_pos h]

theorem good_of_after {e : Env} (he : EnvOK e) {al : Nat} (hal : al ≤ 30) {a n nb : Int} {dt : Nat}
    (ha0 : 0 ≤ a) (ha1 : a ≤ 4611686018427387904) (ha8 : a % 8 = 0) (hn0 : 0 ≤ n)
    (hn1 : n * e.sz dt < 4611686018427387904) (hnb : (ballocAfter e al a dt n).2 ≤ nb) :
    GoodBlk e { addr := a, nbytes := nb, client := (ballocAfter e al a dt n).1, dt := dt, nelem := n } := by
  obtain ⟨h1, _, h3, _, h5, h6, h7, _⟩ := after_spec he hal ha0 ha1 hn0 hn1
  unfold GoodBlk
  simp only
  refine ⟨by omega, hn0, by omega, ?_, ha8⟩
  have := h3.1
  rw [mod_eq_iff] at this
  exact Int.emod_eq_zero_of_dvd this

theorem Inv.pos {e : Env} (he : EnvOK e) {s : St} (h : Inv e s) : ∀ x ∈ s.hfree, 0 < x.nbytes := by
  intro x hx
  have := (h.free x hx).2.2.2.2
  omega

theorem Inv.alloc {e : Env} (he : EnvOK e) {s : St} (h : Inv e s) (dt : Nat) (n : Int)
    (hn1 : n * e.sz dt < 4611686018427387904) : Inv e (allocHeap e s dt n).1 := by
  unfold allocHeap
  by_cases hn : n < 0
  · simp only [if_pos hn]; exact h
  simp only [if_neg hn]
  cases hf : firstFit e s.al dt n s.hfree with
  | none =>
    simp only
    have ha1 : s.hp ≤ 4611686018427387904 := by have := h.mid; have := h.hi; have := h.eos1; omega
    have ha0 : 0 ≤ s.hp := by have := h.seg0; have := h.lo; omega
    obtain ⟨h1, h2, h3, _, h5, h6, h7, _⟩ := after_spec he h.al ha0 ha1 (by omega : 0 ≤ n) hn1
    have hg := good_of_after he h.al ha0 ha1 h.hp8 (by omega : 0 ≤ n) hn1 (le_refl _)
    have hL : 0 ≤ n * e.sz dt := mul_nonneg (by omega) (by have := size_pos he dt; omega)
    obtain ⟨r, hr⟩ : ∃ r, r = ballocAfter e s.al s.hp dt n := ⟨_, rfl⟩
    rw [← hr] at h1 h2 h3 h5 h6 h7 hg ⊢
    rw [U_id (by omega) (by omega)]
    by_cases hc : s.hp + r.2 > s.sp
    · simp only [if_pos hc]; exact h
    · simp only [if_neg hc]
      have hgt : s.hp + r.2 > s.hp := by omega
      simp only [if_pos hgt]
      refine ⟨h.al, h.seg0, h.eos1, h.seg8, ?_, h.sp8, ?_, ?_, h.hi, ?_, ?_, ?_, ?_, h.stack⟩
      · have := h.hp8; simp only; omega
      · have := h.lo; simp only; omega
      · simp only; omega
      · intro b hb
        rcases List.mem_cons.mp hb with rfl | hb
        · refine ⟨h.lo, ?_, ?_, ?_⟩
          · simp only; omega
          · exact h7
          · exact hg
        · have h8 := h.used b hb
          exact ⟨h8.1, by have := h8.2.1; simp only; omega, h8.2.2⟩
      · intro b hb
        have h8 := h.free b hb
        exact ⟨h8.1, by have := h8.2.1; simp only; omega, h8.2.2⟩
      · simp only [List.cons_append]
        rw [D_cons]
        refine ⟨?_, h.disj⟩
        intro x hx
        right
        simp only
        rcases List.mem_append.mp hx with hx | hx
        · exact (h.used x hx).2.1
        · exact (h.free x hx).2.1
      · simp only [bytes_cons]
        have := h.sum
        omega
  | some x =>
    simp only
    obtain ⟨hx, hfit⟩ := firstFit_mem hf
    obtain ⟨f1, f2, f3, f4, f5⟩ := h.free x hx
    have ha1 : x.addr ≤ 4611686018427387904 := by
      have := h.mid; have := h.hi; have := h.eos1; omega
    have ha0 : 0 ≤ x.addr := by have := h.seg0; omega
    obtain ⟨h1, h2, h3, _, h5, h6, h7, _⟩ := after_spec he h.al ha0 ha1 (by omega : 0 ≤ n) hn1
    have hL : 0 ≤ n * e.sz dt := mul_nonneg (by omega) (by have := size_pos he dt; omega)
    have hg := fun nb => good_of_after (nb := nb) he h.al ha0 ha1 f3 (by omega : 0 ≤ n) hn1
    obtain ⟨r, hr⟩ : ∃ r, r = ballocAfter e s.al x.addr dt n := ⟨_, rfl⟩
    rw [← hr] at h1 h2 h3 h5 h6 h7 hg hfit ⊢
    have hdF := (List.pairwise_append.mp h.disj).2.1
    have hfx := findAddr_self hdF (h.pos he) hx
    have hperm := delAddr_perm hfx
    have hd1 : D (x :: (s.hused ++ delAddr x.addr s.hfree)) :=
      (D_perm ((hperm.append_left s.hused).trans List.perm_middle)).mp h.disj
    have hby := bytes_perm hperm
    rw [bytes_cons] at hby
    have hdel : ∀ y ∈ delAddr x.addr s.hfree, y ∈ s.hfree := fun y hy =>
      hperm.mem_iff.mpr (List.mem_cons_of_mem _ hy)
    by_cases hsp : x.nbytes - r.2 ≥ 96
    · rw [split_some hsp]
      simp only
      have hgt : ¬ x.addr + r.2 > s.hp := by omega
      simp only [if_neg hgt]
      have hpd := delAddr_insOrd (a := x.addr)
        (b := { addr := x.addr + r.2, nbytes := x.nbytes - r.2, client := 0, dt := 0, nelem := 0 })
        (by simp only; omega) s.hfree
      refine ⟨h.al, h.seg0, h.eos1, h.seg8, h.hp8, h.sp8, h.lo, h.mid, h.hi, ?_, ?_, ?_, ?_, h.stack⟩
      · intro b hb
        rcases List.mem_cons.mp hb with rfl | hb
        · refine ⟨f1, ?_, ?_, ?_⟩
          · simp only; omega
          · exact h7
          · exact hg r.2 (le_refl _)
        · exact h.used b hb
      · intro b hb
        rcases List.mem_cons.mp (hpd.mem_iff.mp hb) with rfl | hb
        · unfold FreeOK; simp only; omega
        · exact h.free b (hdel b hb)
      · have hd2 := D_split (x1 := { x with nbytes := r.2, client := r.1, dt := dt, nelem := n })
          (x2 := { addr := x.addr + r.2, nbytes := x.nbytes - r.2, client := 0, dt := 0, nelem := 0 })
          hd1 rfl rfl (by simp only; omega) (by simp only; omega) (by simp only; omega)
        refine (D_perm ?_).mpr hd2
        refine List.Perm.cons _ ?_
        exact (hpd.append_left s.hused).trans List.perm_middle
      · simp only [bytes_cons]
        rw [bytes_perm hpd, bytes_cons]
        have := h.sum
        simp only
        omega
    · rw [split_none hsp]
      simp only
      have hgt : ¬ x.addr + x.nbytes > s.hp := by omega
      simp only [if_neg hgt]
      refine ⟨h.al, h.seg0, h.eos1, h.seg8, h.hp8, h.sp8, h.lo, h.mid, h.hi, ?_, ?_, ?_, ?_, h.stack⟩
      · intro b hb
        rcases List.mem_cons.mp hb with rfl | hb
        · exact ⟨f1, f2, f4, hg x.nbytes hfit⟩
        · exact h.used b hb
      · intro b hb
        exact h.free b (hdel b hb)
      · exact D_shrink (x' := { x with client := r.1, dt := dt, nelem := n }) hd1 (le_refl _) (le_refl _)
      · simp only [bytes_cons]
        have := h.sum
        omega

theorem Inv.freeH {e : Env} (he : EnvOK e) {s : St} (h : Inv e s) (a : Int) : Inv e (freeHeap s a).1 := by
  unfold freeHeap
  cases hf : findAddr a s.hused with
  | none => exact h
  | some b =>
    simp only
    have hperm := delAddr_perm hf
    have hb := findAddr_mem hf
    have hby := bytes_perm hperm
    rw [bytes_cons] at hby
    apply blockFree_inv he (s := { s with hused := delAddr a s.hused }) h.al h.seg0 h.eos1 h.seg8 h.sp8 h.hp8
      h.lo h.mid h.hi
    · intro x hx
      exact h.used x (hperm.mem_iff.mpr (List.mem_cons_of_mem _ hx))
    · exact h.free
    · exact (h.used b hb).free he
    · exact (D_perm (hperm.append_right _)).mp h.disj
    · have := h.sum
      simp only
      omega
    · exact h.stack

theorem Inv.pieceH {e : Env} (he : EnvOK e) {s : St} (h : Inv e s) (a n : Int)
    (hp : ∀ b ∈ s.hused, b.addr = a → b.client = (ballocAfter e s.al a b.dt b.nelem).1) :
    Inv e (freePiece e s a n).1 := by
  unfold freePiece
  cases hf : findAddr a s.hused with
  | none => exact h
  | some b =>
    simp only
    by_cases h1 : n < 0
    · simp only [if_pos h1]; exact h
    simp only [if_neg h1]
    by_cases h2 : n ≥ b.nelem
    · simp only [if_pos h2]; exact h.freeH he a
    simp only [if_neg h2]
    have hperm := delAddr_perm hf
    have hb := findAddr_mem hf
    have hba := findAddr_addr hf
    have hby := bytes_perm hperm
    rw [bytes_cons] at hby
    obtain ⟨u1, u2, u3, u4⟩ := h.used b hb
    have u4' := u4
    obtain ⟨g1, g2, g3, g4, g5⟩ := u4
    have hsz := size_pos he b.dt
    have hkeep : (b.nelem - n) * e.sz b.dt ≤ b.nelem * e.sz b.dt :=
      mul_le_mul_of_nonneg_right (by omega) (by omega)
    have hk0 : 0 ≤ (b.nelem - n) * e.sz b.dt := mul_nonneg (by omega) (by omega)
    have hlim : s.hp ≤ 4611686018427387904 := by
      have := h.mid; have := h.hi; have := h.eos1; omega
    have ha0 : 0 ≤ b.addr := by have := h.seg0; omega
    have hdU : D (b :: (delAddr a s.hused ++ s.hfree)) := (D_perm (hperm.append_right _)).mp h.disj
    have hdel : ∀ y ∈ delAddr a s.hused, y ∈ s.hused := fun y hy =>
      hperm.mem_iff.mpr (List.mem_cons_of_mem _ hy)
    -- the case in which no new block is created
    have hnone : Inv e { s with hused := setAddr a { b with nelem := b.nelem - n } s.hused } := by
      have hps := setAddr_perm (b' := { b with nelem := b.nelem - n }) hf
      refine ⟨h.al, h.seg0, h.eos1, h.seg8, h.hp8, h.sp8, h.lo, h.mid, h.hi, ?_, h.free, ?_, ?_, h.stack⟩
      · intro x hx
        rcases List.mem_cons.mp (hps.mem_iff.mp hx) with rfl | hx
        · refine ⟨u1, u2, u3, ?_⟩
          unfold GoodBlk
          simp only
          exact ⟨g1, by omega, by omega, g4, g5⟩
        · exact h.used x (hdel x hx)
      · refine (D_perm (hps.append_right _)).mpr ?_
        exact D_shrink (x' := { b with nelem := b.nelem - n }) hdU (le_refl _) (le_refl _)
      · simp only
        rw [bytes_perm hps, bytes_cons]
        have := h.sum
        simp only
        omega
    by_cases h3 : (ballocAfter e s.al a b.dt (b.nelem - n)).2 < b.nbytes
    swap
    · simp only [if_neg h3]; exact hnone
    simp only [if_pos h3]
    by_cases h4 : b.nbytes - (ballocAfter e s.al a b.dt (b.nelem - n)).2 ≥ 96
    swap
    · rw [split_none h4]; exact hnone
    rw [split_some h4]
    simp only
    have hcl := hp b hb hba
    rw [← hba] at hcl h3 h4 ⊢
    obtain ⟨q1, q2, q3, _, q5, q6, q7, q8⟩ := after_spec (n := b.nelem - n) (dt := b.dt) he h.al ha0
      (by omega) (by omega : 0 ≤ b.nelem - n) (by omega)
    rw [q8 b.nelem] at hcl
    obtain ⟨r, hr⟩ : ∃ r, r = ballocAfter e s.al b.addr b.dt (b.nelem - n) := ⟨_, rfl⟩
    rw [← hr] at hcl h3 h4 q1 q2 q3 q5 q6 q7 ⊢
    have hps := setAddr_perm (b' := { b with nbytes := r.2, nelem := b.nelem - n }) (hba ▸ hf)
    have hsum := h.sum
    apply blockFree_inv he (s := { s with
        hused := setAddr b.addr { b with nbytes := r.2, nelem := b.nelem - n } s.hused })
      h.al h.seg0 h.eos1 h.seg8 h.sp8 h.hp8 h.lo h.mid h.hi
    · intro x hx
      rcases List.mem_cons.mp (hps.mem_iff.mp hx) with rfl | hx
      · refine ⟨u1, ?_, q7, ?_⟩
        · simp only; omega
        · unfold GoodBlk
          simp only
          exact ⟨g1, by omega, by omega, g4, g5⟩
      · exact h.used x (hdel x (hba ▸ hx))
    · exact h.free
    · unfold FreeOK
      simp only
      omega
    · have hd2 := D_split (x1 := { b with nbytes := r.2, nelem := b.nelem - n })
          (x2 := { addr := b.addr + r.2, nbytes := b.nbytes - r.2, client := 0, dt := 0, nelem := 0 })
          hdU rfl rfl (by simp only; omega) (by simp only; omega) (by simp only; omega)
      refine (D_perm ?_).mp hd2
      refine (List.Perm.swap _ _ _).trans (List.Perm.cons _ ?_)
      have h9 : (setAddr b.addr { b with nbytes := r.2, nelem := b.nelem - n } s.hused).Perm
        ({ b with nbytes := r.2, nelem := b.nelem - n } :: delAddr a s.hused) := by
        rw [← hba]; exact hps
      exact (h9.symm.append_right s.hfree)
    · simp only
      rw [bytes_perm hps, bytes_cons]
      rw [hba]
      simp only
      omega
    · exact h.stack

theorem Inv.pushS {e : Env} (he : EnvOK e) {s : St} (h : Inv e s) (dt : Nat) (n : Int)
    (hn1 : n * e.sz dt < 4611686018427387904) : Inv e (pushStack e s dt n).1 := by
  unfold pushStack
  by_cases hn : n < 0
  · simp only [if_pos hn]; exact h
  simp only [if_neg hn]
  have b1 := h.seg0; have b2 := h.lo; have b3 := h.mid; have b4 := h.hi; have b5 := h.eos1
  obtain ⟨C, c1, c2, c3, _, c5, c6, c7, c8⟩ := before_spec (dt := dt) he h.al (by omega : 0 ≤ s.sp) (by omega)
    h.sp8 (by omega : 0 ≤ n) (by omega)
  have hL : 0 ≤ n * e.sz dt := mul_nonneg (by omega) (by have := size_pos he dt; omega)
  obtain ⟨r, hr⟩ : ∃ r, r = ballocBefore e s.al s.sp dt n := ⟨_, rfl⟩
  rw [← hr] at c1 c5 c6 c7 c8 ⊢
  rw [U_id (by omega) (by omega)]
  by_cases hc : s.sp - s.hp < r.2
  · simp only [if_pos hc]; exact h
  simp only [if_neg hc]
  have hC : r.1 = C := by rw [c1]; exact U_id (by omega) (by omega)
  refine ⟨h.al, h.seg0, h.eos1, h.seg8, h.hp8, c7, h.lo, ?_, ?_, h.used, h.free, h.disj, h.sum, ?_⟩
  · simp only; omega
  · simp only; omega
  · refine ⟨rfl, ?_, ?_, ?_⟩
    · have := h.sp8; simp only; omega
    · unfold GoodBlk
      simp only
      rw [hC]
      refine ⟨by omega, by omega, by omega, ?_, c7⟩
      have := c3.1
      rw [mod_eq_iff] at this
      exact Int.emod_eq_zero_of_dvd this
    · have : s.sp - r.2 + r.2 = s.sp := by omega
      simp only [this]
      exact h.stack

theorem Inv.popS {e : Env} (he : EnvOK e) {s : St} (h : Inv e s) (a : Int) : Inv e (popStack s a).1 := by
  unfold popStack
  cases hf : findAddr a s.sused with
  | none => exact h
  | some b =>
    simp only
    by_cases hc : a ≠ s.sp
    · simp only [if_pos hc]; exact h
    simp only [if_neg hc]
    have hst := h.stack
    cases hs : s.sused with
    | nil => rw [hs] at hf; simp [findAddr] at hf
    | cons x t =>
      rw [hs] at hst hf
      obtain ⟨t1, t2, t3, t4⟩ := hst
      have hxa : x.addr = a := by omega
      simp only [findAddr, if_pos hxa] at hf
      cases hf
      have h88 := good_len he t3
      obtain ⟨m1, _, _⟩ := t4.mem he
      have := h.mid
      have := h.sp8
      refine ⟨h.al, h.seg0, h.eos1, h.seg8, h.hp8, ?_, h.lo, ?_, ?_, h.used, h.free, h.disj, h.sum, ?_⟩
      · simp only; omega
      · simp only; omega
      · simp only; omega
      · simp only [delAddr, if_pos hxa]
        rw [← t1]; exact t4

theorem chop_tile {e : Env} (he : EnvOK e) {sp eos a : Int} {l : List Blk} {b : Blk}
    (h : StackTile e sp l eos) (hf : findAddr a l = some b) :
    StackTile e (a + b.nbytes) (l.filter (fun x => ¬ x.addr ≤ a)) eos := by
  induction l generalizing sp with
  | nil => simp [findAddr] at hf
  | cons x t ih =>
    obtain ⟨t1, t2, t3, t4⟩ := h
    have h88 := good_len he t3
    unfold findAddr at hf
    split at hf
    · rename_i hxa
      cases hf
      have hfil : (b :: t).filter (fun x => ¬ x.addr ≤ a) = t := by
        rw [List.filter_cons]
        have : ¬ ¬ b.addr ≤ a := by omega
        simp only [this, decide_false]
        rw [if_neg (by simp)]
        rw [List.filter_eq_self]
        intro y hy
        have := (t4.mem he).2.2 y hy
        have h2 : ¬ y.addr ≤ a := by omega
        simp [h2]
      rw [hfil, ← hxa]
      exact t4
    · have hin := findAddr_mem hf
      have hba := findAddr_addr hf
      have hle := ((t4.mem he).2.2 b hin).1
      have : (x :: t).filter (fun x => ¬ x.addr ≤ a) = t.filter (fun x => ¬ x.addr ≤ a) := by
        rw [List.filter_cons]
        have h1 : x.addr ≤ a := by omega
        simp [h1]
      rw [this]
      exact ih t4 hf

theorem Inv.chopS {e : Env} (he : EnvOK e) {s : St} (h : Inv e s) (a : Int) : Inv e (chopStack s a).1 := by
  unfold chopStack
  cases hf : findAddr a s.sused with
  | none => exact h
  | some b =>
    simp only
    have ht := chop_tile he h.stack hf
    obtain ⟨m1, _, m3⟩ := h.stack.mem he
    have hb := m3 b (findAddr_mem hf)
    have hba := findAddr_addr hf
    have h88 := good_len he hb.2.2.1
    have := h.mid
    have h8 := hb.2.2.1.2.2.2.2
    have h9 := hb.2.2.2
    refine ⟨h.al, h.seg0, h.eos1, h.seg8, h.hp8, ?_, h.lo, ?_, ?_, h.used, h.free, h.disj, h.sum, ht⟩
    · simp only; omega
    · simp only; omega
    · exact (ht.mem he).1

theorem Inv.align {e : Env} {s : St} (h : Inv e s) (v : Int) : Inv e (setNumalign s v).1 := by
  unfold setNumalign
  split
  · exact h
  · exact ⟨by simp only; omega, h.seg0, h.eos1, h.seg8, h.hp8, h.sp8, h.lo, h.mid, h.hi, h.used, h.free, h.disj,
      h.sum, h.stack⟩

theorem Inv.step {e : Env} (he : EnvOK e) {s : St} (h : Inv e s) {o : Op} (h1 : ReqOK e o) (h2 : PieceOK e s o) :
    Inv e (MA.step e s o) := by
  cases o with
  | alloc dt n => exact h.alloc he dt n (lt_of_lt_of_eq h1 (by norm_num))
  | free a => exact h.freeH he a
  | piece a n => exact h.pieceH he a n h2
  | push dt n => exact h.pushS he dt n (lt_of_lt_of_eq h1 (by norm_num))
  | pop a => exact h.popS he a
  | chop a => exact h.chopS he a
  | numalign v => exact h.align v

theorem Inv.run {e : Env} (he : EnvOK e) {s : St} (h : Inv e s) {ops : List Op} (ha : Allowed e s ops) :
    Inv e (MA.run e s ops) := by
  induction ops generalizing s with
  | nil => exact h
  | cons o t ih => exact ih (h.step he ha.1 ha.2.1) ha.2.2

theorem Inv.init {e : Env} {seg heap stack : Int} {al : Nat} (hs : SegOK seg heap stack) (hal : al ≤ 30) :
    Inv e (MA.init seg heap stack al) := by
  obtain ⟨h1, h2, h3, h4, h5, h6, h7⟩ := hs
  norm_num at h4
  refine ⟨hal, h1, ?_, h5, h5, ?_, ?_, ?_, ?_, ?_, ?_, ?_, ?_, ?_⟩
  all_goals simp only [MA.init, StackTile]
  · exact h4
  · omega
  · omega
  · omega
  · omega
  · simp
  · simp
  · simp
  · simp

end GA.MA
