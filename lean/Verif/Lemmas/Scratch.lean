import Verif.Model.Scratch
import Mathlib.Tactic.ByContra
import Mathlib.Data.List.Pairwise

namespace GA.Lemmas.Scratch
open Spec.Scratch Model.Scratch

theorem align_spec (a : Int) : align a % 16 = 0 ∧ a ≤ align a ∧ align a ≤ a + 15 := by
  unfold align; split <;> omega

theorem asked_eq {n size : Int} (h0 : 0 < size) (h : size ∣ 16) : asked n size = n * size + 32 := by
  obtain ⟨k, hk⟩ := h
  have e : (2 * 16 : Int).tdiv size = 2 * k := by
    have : (2 * 16 : Int) = 2 * k * size := by rw [Int.mul_assoc, Int.mul_comm k, ← hk]
    rw [this]; exact Int.mul_tdiv_cancel _ (by omega)
  unfold asked
  rw [e, Int.add_mul]
  have : 2 * k * size = 2 * (size * k) := by rw [Int.mul_assoc, Int.mul_comm k]
  rw [this, ← hk]; rfl

/-- one buffer in use, as the memory shows it -/
structure BOK (s : St) (b : Blk) : Prop where
  bytes : b.bytes = b.size + 32
  size : 0 ≤ b.size
  lo : b.base + 16 ≤ b.ptr
  hi : b.ptr ≤ b.base + 31
  al : b.ptr % 16 = 0
  hdr : s.hdr (b.ptr - 16) = some (if s.usesMA then b.id else b.ptr - 16 - b.base)
  id : s.usesMA = false → b.id = b.base

structure Inv (s : St) (live : List Blk) : Prop where
  ok : ∀ b ∈ live, BOK s b
  apart : live.Pairwise fun a b => Apart a.base a.bytes b.base b.bytes
  stack : s.usesMA = true → s.stack = live.map (·.id)

theorem ptr_inj {s live} (I : Inv s live) {a b : Blk} (ha : a ∈ live) (hb : b ∈ live)
    (h : a.ptr = b.ptr) : a = b := by
  by_contra hne
  have hs : ∀ x y : Blk, Apart x.base x.bytes y.base y.bytes →
      Apart y.base y.bytes x.base x.bytes := fun _ _ h => h.symm
  have := (haveI : Std.Symm (fun x y : Blk => Apart x.base x.bytes y.base y.bytes) := ⟨hs⟩; I.apart.forall ha hb hne)
  have A := I.ok a ha
  have B := I.ok b hb
  have := A.bytes; have := A.size; have := A.lo; have := A.hi
  have := B.bytes; have := B.size; have := B.lo; have := B.hi
  unfold Apart at *
  omega

/-- overwriting memory outside the header of a buffer leaves the header alone -/
theorem clobber_keep {hdr a len x} (h : x + 8 ≤ a ∨ a + len ≤ x) : clobber hdr a len x = hdr x := by
  unfold clobber; rw [if_neg (by omega)]

theorem store_keep {hdr a v x} (h : x + 8 ≤ a ∨ a + 8 ≤ x) : store hdr a v x = hdr x := by
  unfold store; rw [if_neg (by omega), if_neg (by omega)]

theorem bok_hdr {s b} (B : BOK s b) {hdr} (h : hdr (b.ptr - 16) = s.hdr (b.ptr - 16)) :
    BOK { s with hdr := hdr } b :=
  ⟨B.bytes, B.size, B.lo, B.hi, B.al, by rw [← B.hdr]; exact h, B.id⟩

/-- `ga_malloc` is served -/
theorem malloc_some {s n size base handle} (h0 : 0 < size) (h : size ∣ 16) (hb : 0 < base) :
    gaMalloc s n size base handle = some (asked n size, align base + 16,
      ⟨store s.hdr (align base) (if s.usesMA then handle else align base - base), s.usesMA,
        if s.usesMA then handle :: s.stack else s.stack⟩) := by
  have h16 : (16 : Int) % size = 0 := Int.emod_eq_zero_of_dvd h
  have := (align_spec base).2.1
  have ha : align base ≠ 0 := by omega
  unfold gaMalloc
  rw [if_neg (by simp [h16])]
  simp [ha]

theorem inv_alloc {s live n size base handle} (I : Inv s live) (hn : 0 ≤ n) (h0 : 0 < size)
    (h : size ∣ 16) (hb : 0 < base)
    (hap : ∀ b ∈ live, Apart base (asked n size) b.base b.bytes) :
    Inv ⟨store s.hdr (align base) (if s.usesMA then handle else align base - base), s.usesMA,
        if s.usesMA then handle :: s.stack else s.stack⟩
      (⟨if s.usesMA then handle else base, base, asked n size, align base + 16, n * size⟩ :: live) := by
  have hal := align_spec base
  have hask := asked_eq (n := n) h0 h
  have hns : 0 ≤ n * size := Int.mul_nonneg hn (by omega)
  refine ⟨?_, List.pairwise_cons.2 ⟨hap, I.apart⟩, ?_⟩
  · intro b hbm
    rcases List.mem_cons.1 hbm with rfl | hbm
    · refine ⟨hask, hns, ?_, ?_, ?_, ?_, ?_⟩ <;> dsimp only <;> try omega
      · have : align base + 16 - 16 = align base := by omega
        rw [this]
        unfold store
        rw [if_pos rfl]
        split <;> simp_all
      · intro hm; simp [hm]
    · have B := I.ok b hbm
      have A := hap b hbm
      have := B.bytes; have := B.size; have := B.lo; have := B.hi
      refine ⟨B.bytes, B.size, B.lo, B.hi, B.al, ?_, B.id⟩
      rw [← B.hdr]
      refine store_keep ?_
      unfold Apart at A
      omega
  · intro hm
    dsimp only at hm ⊢
    simp [hm, I.stack hm]

theorem inv_clobber {s live a len} (I : Inv s live)
    (h : ∀ b ∈ live, b.ptr - 16 + 8 ≤ a ∨ a + len ≤ b.ptr - 16) :
    Inv { s with hdr := clobber s.hdr a len } live :=
  ⟨fun b hb => bok_hdr (I.ok b hb) (clobber_keep (h b hb)), I.apart, I.stack⟩

theorem write_apart {s live b off len} (I : Inv s live) (hb : b ∈ live) (h0 : 0 ≤ off)
    (h1 : off + len ≤ b.size) :
    ∀ c ∈ live, c.ptr - 16 + 8 ≤ b.ptr + off ∨ b.ptr + off + len ≤ c.ptr - 16 := by
  intro c hc
  by_cases hcb : c = b
  · subst hcb; omega
  · have hs : ∀ x y : Blk, Apart x.base x.bytes y.base y.bytes →
        Apart y.base y.bytes x.base x.bytes := fun _ _ h => h.symm
    have := (haveI : Std.Symm (fun x y : Blk => Apart x.base x.bytes y.base y.bytes) := ⟨hs⟩; I.apart.forall hc hb hcb)
    have A := I.ok c hc
    have B := I.ok b hb
    have := A.bytes; have := A.size; have := A.lo; have := A.hi
    have := B.bytes; have := B.size; have := B.lo; have := B.hi
    unfold Apart at *
    omega

theorem other_apart {s live a len} (I : Inv s live)
    (h : ∀ b ∈ live, Apart a len b.base b.bytes) :
    ∀ c ∈ live, c.ptr - 16 + 8 ≤ a ∨ a + len ≤ c.ptr - 16 := by
  intro c hc
  have A := I.ok c hc
  have := A.bytes; have := A.size; have := A.lo; have := A.hi
  have := h c hc
  unfold Apart at *
  omega

theorem inv_filter {s live} (I : Inv s live) (hm : s.usesMA = false) (p : Blk → Bool) :
    Inv s (live.filter p) :=
  ⟨fun b hb => I.ok b (List.mem_filter.1 hb).1, I.apart.filter p, fun h => by simp [hm] at h⟩

theorem filter_head {s b rest} (I : Inv s (b :: rest)) :
    (b :: rest).filter (fun c => c.ptr ≠ b.ptr) = rest := by
  rw [List.filter_cons_of_neg (by simp)]
  refine List.filter_eq_self.2 fun c hc => ?_
  have hap := (List.pairwise_cons.1 I.apart).1 c hc
  have A := I.ok c (List.mem_cons_of_mem _ hc)
  have B := I.ok b (List.mem_cons_self ..)
  have := A.bytes; have := A.size; have := A.lo; have := A.hi
  have := B.bytes; have := B.size; have := B.lo; have := B.hi
  unfold Apart at hap
  simp only [ne_eq, decide_eq_true_eq]
  omega

/-- the promise is kept along every history -/
theorem kept_run {ma : Bool} (ops : List Op) : ∀ {s : St} {live : List Blk}, Inv s live →
    s.usesMA = ma → Kept ma live (run s ops) := by
  induction ops with
  | nil => intros; trivial
  | cons o ops ih =>
    intro s live I hma
    unfold run
    intro hf
    cases o with
    | alloc n size base handle =>
      have hf' : 0 ≤ n ∧ 0 < size ∧ size ∣ 16 ∧ 0 < base := by
        generalize (step s (.alloc n size base handle)).1 = a at hf
        cases a with
        | got _ _ => exact ⟨hf.1, hf.2.1, hf.2.2.1, hf.2.2.2.1⟩
        | done => exact hf
        | freed _ => exact hf
        | broken => exact hf
      obtain ⟨hn, h0, h, hb⟩ := hf'
      have e := malloc_some (s := s) (n := n) (handle := handle) h0 h hb
      have es : step s (.alloc n size base handle) = (.got (asked n size) (align base + 16),
          ⟨store s.hdr (align base) (if s.usesMA then handle else align base - base), s.usesMA,
            if s.usesMA then handle :: s.stack else s.stack⟩) := by
        simp only [step, e]
      rw [es] at hf ⊢
      have hap := hf.2.2.2.2
      have I' := inv_alloc (handle := handle) I hn h0 h hb hap
      have hal := align_spec base
      have hask := asked_eq (n := n) h0 h
      have hns : 0 ≤ n * size := Int.mul_nonneg hn (by omega)
      refine ⟨⟨by omega, by omega, by omega, ?_⟩, ?_⟩
      · intro b hbm he
        have A := hap b hbm
        have B := I.ok b hbm
        have := B.bytes; have := B.size; have := B.lo; have := B.hi
        unfold Apart at A
        omega
      · have := ih I' hma
        dsimp only [after]
        rw [hma] at this ⊢
        exact this
    | write ptr off len =>
      obtain ⟨b, hb, rfl, h0, h1, h2⟩ := hf
      exact ⟨trivial, ih (inv_clobber I (write_apart I hb h0 h2)) hma⟩
    | other a len =>
      exact ⟨trivial, ih (inv_clobber I (other_apart I hf.2)) hma⟩
    | free ptr =>
      cases hmb : ma with
      | true =>
        rw [hmb] at hf hma
        obtain ⟨b, rest, rfl, rfl⟩ := hf
        have B := I.ok b (List.mem_cons_self ..)
        have hst := I.stack hma
        have hh : s.hdr (b.ptr - 16) = some b.id := by rw [B.hdr, if_pos hma]
        have es : step s (.free b.ptr) = (.freed b.id, { s with stack := rest.map (·.id) }) := by
          simp [step, gaFree, hh, hma, hst]
        rw [es]
        refine ⟨⟨b, List.mem_cons_self .., rfl, rfl⟩, ?_⟩
        dsimp only [after]
        rw [filter_head I]
        have I' : Inv { s with stack := rest.map (·.id) } rest :=
          ⟨fun c hc => by
            have C := I.ok c (List.mem_cons_of_mem _ hc)
            exact ⟨C.bytes, C.size, C.lo, C.hi, C.al, C.hdr, C.id⟩,
           (List.pairwise_cons.1 I.apart).2, fun _ => rfl⟩
        have := ih I' (by rw [hmb]; exact hma)
        rw [hmb] at this
        exact this
      | false =>
        rw [hmb] at hf hma
        obtain ⟨b, hb, rfl⟩ := hf
        have B := I.ok b hb
        have hh : s.hdr (b.ptr - 16) = some (b.ptr - 16 - b.base) := by rw [B.hdr]; simp [hma]
        have es : step s (.free b.ptr) = (.freed b.base, s) := by
          simp [step, gaFree, hh, hma]; omega
        rw [es]
        refine ⟨⟨b, hb, rfl, B.id hma⟩, ?_⟩
        have := ih (inv_filter I hma (fun c => c.ptr ≠ b.ptr)) (by rw [hmb]; exact hma)
        rw [hmb] at this
        exact this

end GA.Lemmas.Scratch
