import Verif.Lemmas.Scratch

/-!
# C95: temporary buffers out of a registered stack memory
-/

namespace GA
open Spec.Scratch Model.Scratch Lemmas.Scratch

/-- **C95.** With a registered pair of functions: in every history in which the registered allocator
hands out memory not in use, holders write inside their buffers and everybody else outside them, every
buffer is served, aligned to 16 bytes and inside the memory of the allocator, and each buffer given
back, in whatever order, hands `ext_free` exactly the address `ext_alloc` returned for it. -/
theorem C95_history (hdr : Int → Option Int) (stack : List Int) (ops : List Op) :
    Kept false [] (run ⟨hdr, false, stack⟩ ops) :=
  kept_run ops ⟨by simp, List.Pairwise.nil, by simp⟩ rfl

/-- **C95.** With MA: the same, for buffers given back last one first: `MA_pop_stack` gets the handle
that `MA_push_stack` returned. -/
theorem C95_ma_history (hdr : Int → Option Int) (ops : List Op) :
    Kept true [] (run ⟨hdr, true, []⟩ ops) :=
  kept_run ops ⟨by simp, List.Pairwise.nil, fun _ => rfl⟩ rfl

/-- **C95.** Two buffers in use never have a byte in common, and neither has a byte outside the memory
the allocator gave for it, if the allocator gave disjoint memory. -/
theorem C95_disjoint {s₁ s₁' s₂ s₂' : St} {n₁ size₁ base₁ g₁ n₂ size₂ base₂ g₂ b₁ p₁ b₂ p₂ : Int}
    (h₁ : gaMalloc s₁ n₁ size₁ base₁ g₁ = some (b₁, p₁, s₁'))
    (h₂ : gaMalloc s₂ n₂ size₂ base₂ g₂ = some (b₂, p₂, s₂'))
    (hs₁ : 0 < size₁) (hs₂ : 0 < size₂) (hap : Apart base₁ b₁ base₂ b₂) :
    Apart p₁ (n₁ * size₁) p₂ (n₂ * size₂) := by
  have key : ∀ {s : St} {n size base g b p : Int} {t : St}, 0 < size →
      gaMalloc s n size base g = some (b, p, t) →
      b = n * size + 32 ∧ base + 16 ≤ p ∧ p ≤ base + 31 := by
    intro s n size base g b p t h0 h
    unfold gaMalloc at h
    split at h
    · cases h
    · rename_i hd
      dsimp only at h
      split at h
      · cases h
      · simp only [Option.some.injEq, Prod.mk.injEq] at h
        obtain ⟨rfl, rfl, _⟩ := h
        have := align_spec base
        exact ⟨asked_eq h0 (Int.dvd_of_emod_eq_zero (by simpa using hd)), by omega, by omega⟩
  obtain ⟨e₁, l₁, u₁⟩ := key hs₁ h₁
  obtain ⟨e₂, l₂, u₂⟩ := key hs₂ h₂
  unfold Apart at *
  omega

/-- **C95.** An element size that does not divide 16 (as that of long double complex, 32) is refused. -/
theorem C95_refused (s : St) (n base handle : Int) {size : Int} (h : ¬ size ∣ 16) :
    gaMalloc s n size base handle = none := by
  unfold gaMalloc
  rw [if_pos]
  intro e
  exact h (Int.dvd_of_emod_eq_zero e)

/-- **C95.** The allocator has no memory (null pointer): error exit, no access. -/
theorem C95_no_memory (s : St) (n size handle : Int) : gaMalloc s n size 0 handle = none := by
  unfold gaMalloc
  split
  · rfl
  · simp [align]

/-- **C95, what the code does not do.** With MA, a buffer that is not the last one in use cannot be given
back: the program ends (a registered allocator has no such restriction, `C95_history`). -/
theorem C95_ma_not_last {s : St} {live : List Blk} {t b : Blk} (hm : s.usesMA = true)
    (hst : s.stack = t.id :: live.map (·.id)) (hne : b.id ≠ t.id)
    (hh : s.hdr (b.ptr - 16) = some b.id) : gaFree s b.ptr = none := by
  simp [gaFree, hh, hm, hst, Ne.symm hne]

/-- **C95, what the code does not do.** If the user registers their functions while a buffer of MA is in
use, giving that buffer back hands `ext_free` the address of its header minus the handle of MA, an
address no `ext_alloc` has returned. -/
theorem C95_register_between (hdr : Int → Option Int) (n base handle : Int) {size : Int}
    (h0 : 0 < size) (h : size ∣ 16) (hb : 0 < base) :
    ∃ bytes ptr s s', gaMalloc ⟨hdr, true, []⟩ n size base handle = some (bytes, ptr, s) ∧
      register s true = some s' ∧
      gaFree s' ptr = some (ptr - 16 - handle, s') := by
  refine ⟨_, _, _, _, malloc_some h0 h hb, rfl, ?_⟩
  have e : align base + 16 - 16 = align base := by omega
  simp [gaFree, store, e]

/-! ## The hypotheses are met -/

/-- two buffers with unaligned memory, writes up to their ends, given back in the order of allocation -/
example : run ⟨fun _ => none, false, []⟩
    [.alloc 5 8 1001 0, .alloc 3 4 2000 0, .write 1024 0 40, .write 2016 0 12, .other 1073 900,
     .free 1024, .other 1001 72, .free 2016] =
    [(.alloc 5 8 1001 0, .got 72 1024), (.alloc 3 4 2000 0, .got 44 2016), (.write 1024 0 40, .done),
     (.write 2016 0 12, .done), (.other 1073 900, .done), (.free 1024, .freed 1001),
     (.other 1001 72, .done), (.free 2016, .freed 2000)] := by decide +kernel

/-- that history keeps the bargain at every step -/
example : Fair false [] (.alloc 5 8 1001 0) (.got 72 1024) ∧
    Fair false [⟨1001, 1001, 72, 1024, 40⟩] (.alloc 3 4 2000 0) (.got 44 2016) ∧
    Fair false [⟨2000, 2000, 44, 2016, 12⟩, ⟨1001, 1001, 72, 1024, 40⟩] (.write 1024 0 40) .done ∧
    Fair false [⟨2000, 2000, 44, 2016, 12⟩, ⟨1001, 1001, 72, 1024, 40⟩] (.free 1024) (.freed 1001) := by
  refine ⟨⟨by decide, by decide, ⟨2, by decide⟩, by decide, by simp⟩,
    ⟨by decide, by decide, ⟨4, by decide⟩, by decide, ?_⟩, ?_, ?_⟩
  · intro b hb
    simp only [List.mem_singleton] at hb
    subst hb
    exact Or.inr (by decide)
  · exact ⟨⟨1001, 1001, 72, 1024, 40⟩, by simp, rfl, by decide, by decide, by decide⟩
  · exact ⟨⟨1001, 1001, 72, 1024, 40⟩, by simp, rfl⟩

/-- with MA the first of two buffers cannot be given back -/
example : (run ⟨fun _ => none, true, []⟩
    [.alloc 5 8 1000 7, .alloc 3 4 2000 9, .free 1024]).map (·.2) =
    [.got 72 1024, .got 44 2016, .broken] := by decide +kernel

example : ¬ (32 : Int) ∣ 16 := by decide

end GA
