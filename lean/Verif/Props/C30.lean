import Verif.Lemmas.MAInquire

/-!
# C30, C50: the availability inquiries of MA
-/

namespace GA.MA

private def inqEnv : Env := { sz := fun d => if d = 0 then 1 else 16, base := fun _ => 4096 }

private theorem inqEnv_ok : EnvOK inqEnv := by
  intro d
  by_cases h0 : d = 0
  · exact ⟨0, by omega, by simp [inqEnv, h0]⟩
  · exact ⟨4, by omega, by simp [inqEnv, h0]⟩

private def inqOps : List Op := [.alloc 0 1000, .alloc 1 3, .push 1 7, .free 8200]

private theorem inqSeg : SegOK 8200 4096 4096 := by unfold SegOK; norm_num

private theorem inqAllowed : Allowed inqEnv (init 8200 4096 4096 3) inqOps :=
  allowed_fixed (Canon.init _ _ _ _ _) (by simp [inqOps, ReqOK, inqEnv]) (by simp [inqOps])

/-- `MA_inquire_avail` is exact: any positive number of elements up to the
returned number can be allocated on the heap as well as on the stack, and no
larger number on the stack. -/
theorem C30_inquire_avail {e : Env} (he : EnvOK e) {seg heap stack : Int} (hs : SegOK seg heap stack)
    {al : Nat} (hal : al ≤ 30) (ops : List Op) (hops : Allowed e (init seg heap stack al) ops) (dt : Nat) :
    let s := run e (init seg heap stack al) ops
    (∀ m : Nat, 0 < m → m ≤ inquireAvail e s dt →
      (allocHeap e s dt m).2.isSome ∧ (pushStack e s dt m).2.isSome) ∧
    (∀ m : Nat, inquireAvail e s dt < m → (m : Int) * e.sz dt < 2 ^ 62 → (pushStack e s dt m).2 = none) ∧
    (pushStack e s dt (inquireAvail e s dt + 1 : Nat)).2 = none := by
  intro s
  have h : Inv e s := (Inv.init hs hal).run he hops
  have b1 := h.seg0; have b2 := h.lo; have b3 := h.mid; have b4 := h.hi; have b5 := h.eos1
  have hsz := size_pos he dt
  obtain ⟨m1, m2⟩ := maNelem_spec (dt := dt) he h.al (a := s.hp) (len := s.sp - s.hp) (by omega) (by omega) (by omega)
  rw [inquireAvail_eq h dt]
  obtain ⟨r, hr⟩ : ∃ r, r = maNelem e s.al s.hp (s.sp - s.hp) dt := ⟨_, rfl⟩
  rw [← hr] at m1 m2 ⊢
  have h8 : (s.sp - s.hp) % 8 = 0 := by have := h.hp8; have := h.sp8; omega
  have m2 := m2 h8
  have hsp : s.hp + (s.sp - s.hp) = s.sp := by omega
  rw [hsp] at m2
  have fail : ∀ m : Nat, r < m → (m : Int) * e.sz dt < 4611686018428000000 → (pushStack e s dt m).2 = none := by
    intro m hm hb
    have := (pushStack_iff he h (dt := dt) (n := m) (by omega) hb).not.mpr (m2 m hm)
    simpa using this
  refine ⟨?_, ?_, ?_⟩
  · intro m hm0 hm
    obtain ⟨n1, n2⟩ := m1 (by omega)
    have hle : (m : Int) * e.sz dt ≤ (r : Int) * e.sz dt := mul_le_mul_of_nonneg_right (by omega) (by omega)
    have hroom := (after_room he h.al (by omega : 0 ≤ s.hp) (by omega) (by omega : (0 : Int) ≤ r)
      (by omega)).1 n1
    rw [hsp] at hroom
    have hroom' : Room e s.al dt s.hp s.sp m := hroom.mono (le_refl _) (le_refl _) (by omega) (by omega)
    constructor
    · refine allocHeap_ok he h (by omega) (by omega) (Or.inr ?_)
      refine (after_room he h.al (by omega : 0 ≤ s.hp) (by omega) (by omega) (by omega)).2 h8 ?_
      rw [hsp]; exact hroom'
    · exact (pushStack_iff he h (by omega) (by omega)).mpr hroom'
  · intro m hm hb
    exact fail m hm (lt_trans hb (by norm_num))
  · apply fail _ (by omega)
    obtain ⟨k, hk, hsk⟩ := he dt
    have hs2 := (pow_bd16 hk).2
    by_cases h0 : 0 < r
    · obtain ⟨n1, n2⟩ := m1 h0
      have : ((r + 1 : Nat) : Int) * e.sz dt = (r : Int) * e.sz dt + e.sz dt := by push_cast; ring
      omega
    · have : r = 0 := by omega
      rw [this]
      have : ((0 + 1 : Nat) : Int) * e.sz dt = e.sz dt := by norm_num
      omega

/-- If there is no free block in the heap, no larger number can be allocated on
the heap either. -/
theorem C30_inquire_avail_heap_max {e : Env} (he : EnvOK e) {seg heap stack : Int} (hs : SegOK seg heap stack)
    {al : Nat} (hal : al ≤ 30) (ops : List Op) (hops : Allowed e (init seg heap stack al) ops) (dt : Nat) :
    let s := run e (init seg heap stack al) ops
    s.hfree = [] → ∀ m : Nat, inquireAvail e s dt < m → (m : Int) * e.sz dt < 2 ^ 62 →
      (allocHeap e s dt m).2 = none := by
  intro s hf m hm hb
  have h : Inv e s := (Inv.init hs hal).run he hops
  have b1 := h.seg0; have b2 := h.lo; have b3 := h.mid; have b4 := h.hi; have b5 := h.eos1
  obtain ⟨_, m2⟩ := maNelem_spec (dt := dt) he h.al (a := s.hp) (len := s.sp - s.hp) (by omega) (by omega) (by omega)
  rw [inquireAvail_eq h dt] at hm
  have h8 : (s.sp - s.hp) % 8 = 0 := by have := h.hp8; have := h.sp8; omega
  have hb' : (m : Int) * e.sz dt < 4611686018427387904 := lt_of_lt_of_eq hb (by norm_num)
  refine allocHeap_fail he h (by omega) hb' hf ?_
  intro hle
  exact m2 h8 m hm ((after_room he h.al (by omega : 0 ≤ s.hp) (by omega) (by omega) hb').1 hle)

example : inquireAvail inqEnv (run inqEnv (init 8200 4096 4096 3) inqOps) 1 = 415 := by decide +kernel
example : (allocHeap inqEnv (run inqEnv (init 8200 4096 4096 3) inqOps) 1 415).2.isSome ∧
    (pushStack inqEnv (run inqEnv (init 8200 4096 4096 3) inqOps) 1 415).2.isSome ∧
    (pushStack inqEnv (run inqEnv (init 8200 4096 4096 3) inqOps) 1 416).2 = none :=
  let h := C30_inquire_avail inqEnv_ok inqSeg (by decide) inqOps inqAllowed 1
  ⟨(h.1 415 (by decide) (by decide +kernel)).1, (h.1 415 (by decide) (by decide +kernel)).2,
   h.2.1 416 (by decide +kernel) (by decide +kernel)⟩

/-! ### The other inquiries -/

/-- The heap inquiry which honours the partition and checks the stack never
promises more than can be allocated. -/
theorem C50_heap_check_stack {e : Env} (he : EnvOK e) {seg heap stack : Int} (hs : SegOK seg heap stack)
    {al : Nat} (hal : al ≤ 30) (ops : List Op) (hops : Allowed e (init seg heap stack al) ops) (dt : Nat) :
    let s := run e (init seg heap stack al) ops
    0 < inquireHeapCheckStack e s dt → (allocHeap e s dt (inquireHeapCheckStack e s dt : Nat)).2.isSome := by
  intro s hpos
  have h : Inv e s := (Inv.init hs hal).run he hops
  obtain ⟨c1, c2, c3⟩ := run_const e (init seg heap stack al) ops
  have e2 : s.part = seg + heap := c2
  have e3 : s.eos = seg + (heap + stack) := c3
  obtain ⟨g1, g2, g3, _⟩ := hs
  have b1 := h.seg0; have b2 := h.lo; have b3 := h.mid; have b4 := h.hi; have b5 := h.eos1
  unfold inquireHeapCheckStack at hpos ⊢
  simp only at hpos ⊢
  obtain ⟨gap, hgap⟩ : ∃ g, g = min (U (s.part - s.hp)) (U (s.sp - s.hp)) := ⟨_, rfl⟩
  have hgle : gap ≤ s.sp - s.hp := by
    rw [hgap, U_id (x := s.sp - s.hp) (by omega) (by omega)]; exact min_le_right _ _
  rw [← hgap] at hpos ⊢
  obtain ⟨g, hg⟩ : ∃ g, g = (if gap > 0 then maNelem e s.al s.hp gap dt else 0) := ⟨_, rfl⟩
  rw [← hg] at hpos ⊢
  rcases Nat.le_total g (fragNelem e s dt g) with hle | hle
  · rw [Nat.max_eq_right hle] at hpos ⊢
    obtain ⟨f1, f2⟩ := frag_ok he h (by omega) dt g hpos
    exact allocHeap_ok he h (by omega) f1 (Or.inl f2)
  · rw [Nat.max_eq_left hle] at hpos ⊢
    by_cases hgp : gap > 0
    · simp only [if_pos hgp] at hg
      obtain ⟨m1, _⟩ := maNelem_spec (dt := dt) he h.al (a := s.hp) (len := gap) (by omega) (by omega) (by omega)
      rw [← hg] at m1
      obtain ⟨n1, n2⟩ := m1 hpos
      exact allocHeap_ok he h (by omega) (by omega) (Or.inr (by omega))
    · simp only [if_neg hgp] at hg
      omega

/-- The heap inquiry which ignores the partition never promises more than can be
allocated. -/
theorem C50_heap_no_partition {e : Env} (he : EnvOK e) {seg heap stack : Int} (hs : SegOK seg heap stack)
    {al : Nat} (hal : al ≤ 30) (ops : List Op) (hops : Allowed e (init seg heap stack al) ops) (dt : Nat) :
    let s := run e (init seg heap stack al) ops
    0 < inquireHeapNoPartition e s dt → (allocHeap e s dt (inquireHeapNoPartition e s dt : Nat)).2.isSome := by
  intro s hpos
  have h : Inv e s := (Inv.init hs hal).run he hops
  obtain ⟨c1, c2, c3⟩ := run_const e (init seg heap stack al) ops
  have e2 : s.part = seg + heap := c2
  have e3 : s.eos = seg + (heap + stack) := c3
  obtain ⟨g1, g2, g3, _⟩ := hs
  have b1 := h.seg0; have b2 := h.lo; have b3 := h.mid; have b4 := h.hi; have b5 := h.eos1
  unfold inquireHeapNoPartition at hpos ⊢
  simp only at hpos ⊢
  obtain ⟨gap, hgap⟩ : ∃ g, g = U (s.sp - s.hp) := ⟨_, rfl⟩
  have hgle : gap ≤ s.sp - s.hp := by
    rw [hgap, U_id (x := s.sp - s.hp) (by omega) (by omega)]
  rw [← hgap] at hpos ⊢
  obtain ⟨g, hg⟩ : ∃ g, g = (if gap > 0 then maNelem e s.al s.hp gap dt else 0) := ⟨_, rfl⟩
  rw [← hg] at hpos ⊢
  rcases Nat.le_total g (fragNelem e s dt g) with hle | hle
  · rw [Nat.max_eq_right hle] at hpos ⊢
    obtain ⟨f1, f2⟩ := frag_ok he h (by omega) dt g hpos
    exact allocHeap_ok he h (by omega) f1 (Or.inl f2)
  · rw [Nat.max_eq_left hle] at hpos ⊢
    by_cases hgp : gap > 0
    · simp only [if_pos hgp] at hg
      obtain ⟨m1, _⟩ := maNelem_spec (dt := dt) he h.al (a := s.hp) (len := gap) (by omega) (by omega) (by omega)
      rw [← hg] at m1
      obtain ⟨n1, n2⟩ := m1 hpos
      exact allocHeap_ok he h (by omega) (by omega) (Or.inr (by omega))
    · simp only [if_neg hgp] at hg
      omega

example : inquireHeapCheckStack inqEnv (run inqEnv (init 8200 2048 8192 3) inqOps) 1 = 62 := by decide +kernel
example : inquireHeapNoPartition inqEnv (run inqEnv (init 8200 2048 1024 3) inqOps) 1 = 95 := by decide +kernel

/-- The stack inquiry which honours the partition and checks the heap does not
promise too much as long as neither side has overgrown the partition.  (What is
missing: the inquiry is documented to be right also when the heap has overgrown
the partition, which is false, see `C50_stack_check_heap_overpromises`.) -/
theorem C50_stack_check_heap_partial {e : Env} (he : EnvOK e) {seg heap stack : Int} (hs : SegOK seg heap stack)
    {al : Nat} (hal : al ≤ 30) (ops : List Op) (hops : Allowed e (init seg heap stack al) ops) (dt : Nat) :
    let s := run e (init seg heap stack al) ops
    s.hp ≤ s.part → s.part ≤ s.sp → 0 < inquireStackCheckHeap e s dt →
      (pushStack e s dt (inquireStackCheckHeap e s dt : Nat)).2.isSome := by
  intro s hp1 hp2 hpos
  have h : Inv e s := (Inv.init hs hal).run he hops
  have b1 := h.seg0; have b2 := h.lo; have b3 := h.mid; have b4 := h.hi; have b5 := h.eos1
  unfold inquireStackCheckHeap at hpos ⊢
  simp only at hpos ⊢
  rw [U_id (x := s.sp - s.part) (by omega) (by omega), U_id (x := s.sp - s.hp) (by omega) (by omega),
    min_eq_left (by omega : s.sp - s.part ≤ s.sp - s.hp)] at hpos ⊢
  by_cases hgp : s.sp - s.part > 0
  · simp only [if_pos hgp] at hpos ⊢
    obtain ⟨m1, _⟩ := maNelem_spec (dt := dt) he h.al (a := s.part) (len := s.sp - s.part) (by omega) (by omega) (by omega)
    obtain ⟨n1, n2⟩ := m1 hpos
    have hroom := (after_room he h.al (by omega : 0 ≤ s.part) (by omega) (by omega) (by omega)).1 n1
    have hsp : s.part + (s.sp - s.part) = s.sp := by omega
    rw [hsp] at hroom
    refine (pushStack_iff he h (by omega) (by omega)).mpr ?_
    exact hroom.mono hp1 (le_refl _) (le_refl _) (by have := size_pos he dt; omega)
  · simp only [if_neg hgp] at hpos
    omega

example : let s := run inqEnv (init 8200 4096 4096 3) inqOps
    s.hp ≤ s.part ∧ s.part ≤ s.sp ∧ inquireStackCheckHeap inqEnv s 1 = 237 := by decide +kernel

/-- When the heap has overgrown the partition the stack inquiry can promise an
element that cannot be pushed. -/
theorem C50_stack_check_heap_overpromises :
    let s := run inqEnv (init 4096 104 120 0) [.alloc 0 24]
    inquireStackCheckHeap inqEnv s 1 = 1 ∧ (pushStack inqEnv s 1 1).2 = none := by
  decide +kernel

/-- The heap inquiry which ignores the partition is documented to return the
largest piece of memory available; it ignores free blocks beyond the partition:
here it returns 0 although 1000 elements can be allocated. -/
theorem C50_heap_no_partition_not_largest :
    let s := run inqEnv (init 8192 0 1288 0) [.alloc 0 1000, .alloc 0 8, .push 0 1, .free 8192]
    inquireHeapNoPartition inqEnv s 0 = 0 ∧ (allocHeap inqEnv s 0 1000).2.isSome := by
  decide +kernel

end GA.MA
