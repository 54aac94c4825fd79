import Verif.Lemmas.MAMore

namespace GA.MA

/-- Room for `n` elements between two 8-byte aligned addresses. -/
def Room (e : Env) (al : Nat) (dt : Nat) (lo hi n : Int) : Prop :=
  ∃ c, InC (e.sz dt) (e.base dt) (2 ^ al) c ∧ lo + 84 ≤ c ∧ c + n * e.sz dt + 4 ≤ hi

theorem after_room {e : Env} (he : EnvOK e) {al : Nat} (hal : al ≤ 30) {a len n : Int} {dt : Nat}
    (ha0 : 0 ≤ a) (ha1 : a ≤ 4611686018427387904) (hn0 : 0 ≤ n)
    (hn1 : n * e.sz dt < 4611686018427387904) :
    ((ballocAfter e al a dt n).2 ≤ len → Room e al dt a (a + len) n) ∧
    (len % 8 = 0 → Room e al dt a (a + len) n → (ballocAfter e al a dt n).2 ≤ len) := by
  obtain ⟨h1, h2, h3, h4, h5, h6, h7, _⟩ := after_spec he hal ha0 ha1 hn0 hn1
  constructor
  · intro h
    exact ⟨_, h3, h1, by omega⟩
  · intro h8 ⟨c, c1, c2, c3⟩
    have := h4 c c2 c1
    omega

theorem before_room {e : Env} (he : EnvOK e) {al : Nat} (hal : al ≤ 30) {a lo n : Int} {dt : Nat}
    (ha0 : 0 ≤ a) (ha1 : a ≤ 4611686018427387904) (ha8 : a % 8 = 0) (hlo8 : lo % 8 = 0) (hn0 : 0 ≤ n)
    (hn1 : n * e.sz dt < 4611686018428000000) :
    (ballocBefore e al a dt n).2 ≤ a - lo ↔ Room e al dt lo a n := by
  obtain ⟨C, c1, c2, c3, c4, c5, c6, c7, c8⟩ := before_spec he hal ha0 ha1 ha8 hn0 hn1
  constructor
  · intro h
    exact ⟨C, c3, by omega, c2⟩
  · intro ⟨c, d1, d2, d3⟩
    have := c4 c d3 d1
    omega

theorem Room.mono {e : Env} {al dt : Nat} {lo hi n lo' hi' n' : Int} (h : Room e al dt lo hi n)
    (h1 : lo' ≤ lo) (h2 : hi ≤ hi') (h3 : n' ≤ n) (hs : 0 ≤ e.sz dt) : Room e al dt lo' hi' n' := by
  obtain ⟨c, c1, c2, c3⟩ := h
  have := mul_le_mul_of_nonneg_right h3 hs
  exact ⟨c, c1, by omega, by omega⟩

theorem nelemLoop_spec (e : Env) (al : Nat) (a len : Int) (dt : Nat) (k : Nat) :
    nelemLoop e al a len dt k ≤ k ∧
    (0 < nelemLoop e al a len dt k → (ballocAfter e al a dt (nelemLoop e al a len dt k : Nat)).2 ≤ len) ∧
    ∀ m, nelemLoop e al a len dt k < m → m ≤ k → ¬ (ballocAfter e al a dt (m : Nat)).2 ≤ len := by
  induction k with
  | zero => exact ⟨le_refl _, fun h => absurd h (by simp [nelemLoop]), fun m h1 h2 => by omega⟩
  | succ k ih =>
    unfold nelemLoop
    by_cases h : (ballocAfter e al a dt ((k + 1 : Nat) : Int)).2 > len
    · simp only [if_pos h]
      refine ⟨by omega, ih.2.1, ?_⟩
      intro m h1 h2
      rcases Nat.lt_or_ge m (k + 1) with h3 | h3
      · exact ih.2.2 m h1 (by omega)
      · have : m = k + 1 := by omega
        subst this; omega
    · simp only [if_neg h]
      exact ⟨le_refl _, fun _ => by omega, fun m h1 h2 => by omega⟩

/-- What `ma_nelem` computes. -/
theorem maNelem_spec {e : Env} (he : EnvOK e) {al : Nat} (hal : al ≤ 30) {a len : Int} {dt : Nat}
    (ha0 : 0 ≤ a) (ha1 : a ≤ 4611686018427387904) (hl1 : len ≤ 4611686018427387904) :
    (0 < maNelem e al a len dt → (ballocAfter e al a dt (maNelem e al a len dt : Nat)).2 ≤ len ∧
      (maNelem e al a len dt : Int) * e.sz dt ≤ len - 88) ∧
    (len % 8 = 0 → ∀ m : Nat, maNelem e al a len dt < m → ¬ Room e al dt a (a + len) m) := by
  have hs := size_pos he dt
  have hov : overhead = 88 := by decide
  unfold maNelem
  by_cases h : len ≤ overhead
  · simp only [if_pos h]
    refine ⟨fun h => absurd h (by simp), ?_⟩
    intro _ m hm ⟨c, c1, c2, c3⟩
    have : 1 * e.sz dt ≤ (m : Int) * e.sz dt := mul_le_mul_of_nonneg_right (by omega) (by omega)
    omega
  · simp only [if_neg h]
    obtain ⟨k, hk⟩ : ∃ k, k = ((len - overhead) / e.sz dt).toNat := ⟨_, rfl⟩
    have hq0 : 0 ≤ (len - overhead) / e.sz dt := Int.ediv_nonneg (by omega) (by omega)
    have hkq : (k : Int) = (len - overhead) / e.sz dt := by rw [hk]; exact Int.toNat_of_nonneg hq0
    have hk1 : (k : Int) * e.sz dt ≤ len - 88 := by
      rw [hkq, hov]; exact Int.ediv_mul_le _ (by omega)
    have hk2 : len - 88 < ((k : Int) + 1) * e.sz dt := by
      rw [hkq, hov]; exact Int.lt_ediv_add_one_mul_self _ (by omega)
    rw [← hk]
    obtain ⟨l1, l2, l3⟩ := nelemLoop_spec e al a len dt k
    refine ⟨fun h => ⟨l2 h, ?_⟩, ?_⟩
    · have : ((nelemLoop e al a len dt k : Nat) : Int) * e.sz dt ≤ (k : Int) * e.sz dt :=
        mul_le_mul_of_nonneg_right (by omega) (by omega)
      omega
    · intro h8 m hm hroom
      by_cases hmk : m ≤ k
      · apply l3 m hm hmk
        have hmb : (m : Int) * e.sz dt ≤ (k : Int) * e.sz dt :=
          mul_le_mul_of_nonneg_right (by omega) (by omega)
        exact (after_room he hal ha0 ha1 (by omega) (by omega)).2 h8 hroom
      · obtain ⟨c, c1, c2, c3⟩ := hroom
        have hmb : ((k : Int) + 1) * e.sz dt ≤ (m : Int) * e.sz dt :=
          mul_le_mul_of_nonneg_right (by omega) (by omega)
        omega

/-- An allocation on the heap succeeds if a free block or the space above the heap is big enough. -/
theorem allocHeap_ok {e : Env} (he : EnvOK e) {s : St} (h : Inv e s) {dt : Nat} {n : Int} (hn0 : 0 ≤ n)
    (hn1 : n * e.sz dt < 4611686018427387904)
    (hfit : (∃ x ∈ s.hfree, (ballocAfter e s.al x.addr dt n).2 ≤ x.nbytes) ∨
      (ballocAfter e s.al s.hp dt n).2 ≤ s.sp - s.hp) :
    (allocHeap e s dt n).2.isSome := by
  unfold allocHeap
  have hn : ¬ n < 0 := by omega
  simp only [if_neg hn]
  cases hf : firstFit e s.al dt n s.hfree with
  | some x => rfl
  | none =>
    rcases hfit with ⟨x, hx, hle⟩ | hle
    · exact absurd hle (firstFit_none hf x hx)
    · have b1 := h.seg0; have b2 := h.lo; have b3 := h.mid; have b4 := h.hi; have b5 := h.eos1
      obtain ⟨h1, h2, h3, _, h5, h6, h7, _⟩ := after_spec (dt := dt) he h.al (by omega : 0 ≤ s.hp) (by omega) hn0 hn1
      have hL : 0 ≤ n * e.sz dt := mul_nonneg hn0 (by have := size_pos he dt; omega)
      simp only
      rw [U_id (by omega) (by omega)]
      have : ¬ s.hp + (ballocAfter e s.al s.hp dt n).2 > s.sp := by omega
      simp only [if_neg this]
      rfl

theorem allocHeap_fail {e : Env} (he : EnvOK e) {s : St} (h : Inv e s) {dt : Nat} {n : Int} (hn0 : 0 ≤ n)
    (hn1 : n * e.sz dt < 4611686018427387904) (hfree : s.hfree = [])
    (hfit : ¬ (ballocAfter e s.al s.hp dt n).2 ≤ s.sp - s.hp) :
    (allocHeap e s dt n).2 = none := by
  unfold allocHeap
  have hn : ¬ n < 0 := by omega
  simp only [if_neg hn]
  rw [hfree]
  simp only [firstFit]
  have b1 := h.seg0; have b2 := h.lo; have b3 := h.mid; have b4 := h.hi; have b5 := h.eos1
  obtain ⟨h1, h2, h3, _, h5, h6, h7, _⟩ := after_spec (dt := dt) he h.al (by omega : 0 ≤ s.hp) (by omega) hn0 hn1
  have hL : 0 ≤ n * e.sz dt := mul_nonneg hn0 (by have := size_pos he dt; omega)
  rw [U_id (by omega) (by omega)]
  have : s.hp + (ballocAfter e s.al s.hp dt n).2 > s.sp := by omega
  simp only [if_pos this]

theorem pushStack_iff {e : Env} (he : EnvOK e) {s : St} (h : Inv e s) {dt : Nat} {n : Int} (hn0 : 0 ≤ n)
    (hn1 : n * e.sz dt < 4611686018428000000) :
    (pushStack e s dt n).2.isSome ↔ Room e s.al dt s.hp s.sp n := by
  have b1 := h.seg0; have b2 := h.lo; have b3 := h.mid; have b4 := h.hi; have b5 := h.eos1
  rw [← before_room he h.al (by omega : 0 ≤ s.sp) (by omega) h.sp8 h.hp8 hn0 hn1]
  unfold pushStack
  have hn : ¬ n < 0 := by omega
  simp only [if_neg hn]
  rw [U_id (by omega) (by omega)]
  by_cases hc : s.sp - s.hp < (ballocBefore e s.al s.sp dt n).2
  · simp only [if_pos hc]
    constructor
    · intro h; cases h
    · intro h; omega
  · simp only [if_neg hc]
    constructor
    · intro _; omega
    · intro _; rfl

theorem inquireAvail_eq {e : Env} {s : St} (h : Inv e s) (dt : Nat) :
    inquireAvail e s dt = maNelem e s.al s.hp (s.sp - s.hp) dt := by
  have b1 := h.seg0; have b2 := h.lo; have b3 := h.mid; have b4 := h.hi; have b5 := h.eos1
  unfold inquireAvail
  simp only
  rw [U_id (by omega) (by omega)]
  by_cases hg : s.sp - s.hp > 0
  · simp only [if_pos hg]
  · simp only [if_neg hg]
    unfold maNelem
    have hov : overhead = 88 := by decide
    have : s.sp - s.hp ≤ overhead := by omega
    simp only [if_pos this]

/-- A positive fragment size is the size of some free block. -/
theorem fragNelem_spec {e : Env} {s : St} (dt mn : Nat) :
    fragNelem e s dt mn = 0 ∨ ∃ x ∈ s.hfree, x.addr < s.part ∧
      fragNelem e s dt mn = maNelem e s.al x.addr
        (if x.addr + x.nbytes ≥ s.part then U (s.part - x.addr) else x.nbytes) dt := by
  unfold fragNelem
  simp only
  generalize U (↑mn * e.sz dt + overhead) = mb
  have key : ∀ (l : List Blk) (m0 : Nat), (m0 = 0 ∨ ∃ x ∈ s.hfree, x.addr < s.part ∧
      m0 = maNelem e s.al x.addr (if x.addr + x.nbytes ≥ s.part then U (s.part - x.addr) else x.nbytes) dt) →
      (∀ x ∈ l, x ∈ s.hfree) →
      (let r := l.foldl (fun m x =>
        if x.addr ≥ s.part then m
        else
          if (if x.addr + x.nbytes ≥ s.part then U (s.part - x.addr) else x.nbytes) ≥ mb then
            max m (maNelem e s.al x.addr (if x.addr + x.nbytes ≥ s.part then U (s.part - x.addr) else x.nbytes) dt)
          else m) m0
      r = 0 ∨ ∃ x ∈ s.hfree, x.addr < s.part ∧
      r = maNelem e s.al x.addr (if x.addr + x.nbytes ≥ s.part then U (s.part - x.addr) else x.nbytes) dt) := by
    intro l
    induction l with
    | nil => intro m0 h _; exact h
    | cons y t ih =>
      intro m0 h hl
      simp only [List.foldl_cons]
      apply ih _ _ (fun x hx => hl x (List.mem_cons_of_mem _ hx))
      by_cases h1 : y.addr ≥ s.part
      · simp only [if_pos h1]; exact h
      · simp only [if_neg h1]
        by_cases h2 : (if y.addr + y.nbytes ≥ s.part then U (s.part - y.addr) else y.nbytes) ≥ mb
        · simp only [if_pos h2]
          rcases Nat.le_total m0 (maNelem e s.al y.addr
            (if y.addr + y.nbytes ≥ s.part then U (s.part - y.addr) else y.nbytes) dt) with h3 | h3
          · rw [Nat.max_eq_right h3]
            right
            exact ⟨y, hl y List.mem_cons_self, by omega, rfl⟩
          · rw [Nat.max_eq_left h3]; exact h
        · simp only [if_neg h2]; exact h
  exact key s.hfree 0 (Or.inl rfl) (fun x hx => hx)

/-- Allocating what a fragment inquiry reports succeeds. -/
theorem frag_ok {e : Env} (he : EnvOK e) {s : St} (h : Inv e s) (hpart : s.part ≤ s.eos) (dt mn : Nat)
    (hpos : 0 < fragNelem e s dt mn) :
    ((fragNelem e s dt mn : Nat) : Int) * e.sz dt < 4611686018427387904 ∧
    ∃ x ∈ s.hfree, (ballocAfter e s.al x.addr dt (fragNelem e s dt mn : Nat)).2 ≤ x.nbytes := by
  have b1 := h.seg0; have b2 := h.lo; have b3 := h.mid; have b4 := h.hi; have b5 := h.eos1
  rcases fragNelem_spec (e := e) (s := s) dt mn with h0 | ⟨x, hx, hlt, heq⟩
  · omega
  · obtain ⟨f1, f2, f3, f4, f5⟩ := h.free x hx
    obtain ⟨nb, hnb⟩ : ∃ nb, nb = (if x.addr + x.nbytes ≥ s.part then U (s.part - x.addr) else x.nbytes) := ⟨_, rfl⟩
    have hle : nb ≤ x.nbytes := by
      rw [hnb]
      split
      · rw [U_id (by omega) (by omega)]; omega
      · exact le_refl _
    rw [← hnb] at heq
    rw [heq] at hpos ⊢
    obtain ⟨m1, _⟩ := maNelem_spec (dt := dt) he h.al (a := x.addr) (len := nb) (by omega) (by omega) (by omega)
    obtain ⟨m2, m3⟩ := m1 hpos
    exact ⟨by omega, x, hx, by omega⟩

end GA.MA
