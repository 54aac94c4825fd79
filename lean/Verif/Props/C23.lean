import Verif.Lemmas.Handles

/-! # C23: array handles are unique and reusable -/

namespace GA.Handles

private theorem step_handles {p : PState} (h : Inv p) {o : Op}
    (ha : Allowed p.slots.length (abs p) o) :
    HStep p.slots.length (abs p) o (step p o).1 (abs (step p o).2) ∧
      Inv (step p o).2 ∧ (step p o).2.slots.length = p.slots.length := by
  cases o with
  | create =>
    rcases eff_create h with ⟨q, g, e, hv, hf, e2, hi, hc⟩ | ⟨e, hf⟩
    · simp only [step, e, e2]; exact ⟨.create g hv hf, hi, hc.len⟩
    · simp only [step, e]; exact ⟨.createFull hf, h, trivial⟩
  | allocate g n ot =>
    obtain ⟨q, ok, -, e, hi, e2, hc⟩ := eff_allocate h ha.1 n ot
    simp only [step, e, e2]
    refine ⟨?_, hi, hc.len⟩
    cases ok
    · exact .allocateFail ha.1
    · exact .allocateOk ha.1
  | duplicate g ot =>
    by_cases hl : ∃ n, abs p g = .live n
    · obtain ⟨n, hn⟩ := hl
      rcases eff_duplicate h hn ot with ⟨q, g', ok, -, e, hi, hv, hf, e2, hc⟩ | ⟨e, hf⟩
      · simp only [step, e, e2]
        refine ⟨?_, hi, hc.len⟩
        cases ok
        · have : upd (abs p) g' HState.free = abs p := by
            funext x; simp only [upd]; split
            · simp_all
            · rfl
          simpa [this] using HStep.duplicateFail hn
        · simpa using HStep.duplicateOk g' hn hv hf
      · simp only [step, e]; exact ⟨.duplicateFull hn hf, h, trivial⟩
    · have hl' : ∀ n, abs p g ≠ .live n := fun n hn => hl ⟨n, hn⟩
      simp only [step, eff_duplicate_bad hl' ot]
      exact ⟨.duplicateBad hl', h, trivial⟩
  | destroy g =>
    by_cases hl : ∃ n, abs p g = .live n
    · obtain ⟨n, hn⟩ := hl
      obtain ⟨q, e, e2, hi, hc⟩ := eff_destroy h hn
      simp only [step, e, e2]
      exact ⟨.destroy hn, hi, hc.len⟩
    · have hl' : ∀ n, abs p g ≠ .live n := fun n hn => hl ⟨n, hn⟩
      simp only [step, eff_destroy_bad hl']
      exact ⟨.destroyBad hl', h, trivial⟩
  | deallocate g =>
    by_cases hl : ∃ n, abs p g = .live n
    · obtain ⟨n, hn⟩ := hl
      obtain ⟨q, e, e2, hi, hc⟩ := eff_deallocate h hn
      simp only [step, e, e2]
      exact ⟨.deallocate hn, hi, hc.len⟩
    · have hl' : ∀ n, abs p g ≠ .live n := fun n hn => hl ⟨n, hn⟩
      simp only [step, eff_deallocate_bad hl']
      exact ⟨.deallocateBad hl', h, trivial⟩
  | use g =>
    by_cases hl : ∃ n, abs p g = .live n
    · obtain ⟨n, hn⟩ := hl
      simp only [step, eff_use hn]
      exact ⟨.use hn, h, trivial⟩
    · have hl' : ∀ n, abs p g ≠ .live n := fun n hn => hl ⟨n, hn⟩
      simp only [step, eff_use_bad hl']
      exact ⟨.useBad hl', h, trivial⟩
  | avail => exact ⟨.avail, h, rfl⟩
  | inquire => exact ⟨.inquire, h, rfl⟩
  | setLimit m =>
    have e : (setMemoryLimit p m).slots = p.slots := by
      unfold setMemoryLimit; split
      · split <;> rfl
      · rfl
    simp only [step]
    rw [abs_congr e, e]
    exact ⟨.setLimit, inv_congr e.symm h, rfl⟩

private theorem run_handles (p : PState) (h : Inv p) (os : List Op) :
    Run (HStep p.slots.length) (Allowed p.slots.length) (abs p) os (run p os) := by
  induction os generalizing p with
  | nil => exact .nil
  | cons o os ih =>
    by_cases ha : Allowed p.slots.length (abs p) o
    · obtain ⟨h1, h2, h3⟩ := step_handles h ha
      unfold run
      by_cases e : (step p o).1 = .abort
      · simp only [e, if_true]
        rw [e] at h1
        exact .abort h1
      · simp only [e, if_false]
        refine .cons h1 e ?_
        have := ih (step p o).2 h2
        rwa [h3] at this
    · exact .outside ha

/-- **C23.** For every history of calls, beginning with no array, the answers are those the
specification `HStep` allows: `create` and `duplicate` return a handle that stands for nothing, an
error is reported instead only when all `max` handles are in use, every operation on a handle that is
not a live array is reported, and destroying a live array frees its handle. -/
theorem C23_handles (max : Nat) (os : List Op) :
    Run (HStep max) (Allowed max) (fun _ => .free) os (run (init max) os) := by
  have h := run_handles (init max) (inv_init _ max rfl) os
  rw [abs_init _ max rfl] at h
  simpa [init] using h

/-- Destroying an array always makes room: the next `create` succeeds. -/
theorem C23_reuse {p : PState} (h : Inv p) {g n} (e : abs p g = .live n) :
    ∃ g', (createHandle (destroy p g).2).1 = .handle g' := by
  obtain ⟨q, hq, e2, hi, hc⟩ := eff_destroy h e
  rw [hq]
  rcases eff_create hi with ⟨q', g', e', -⟩ | ⟨-, hf⟩
  · exact ⟨g', by simp [e']⟩
  · obtain ⟨i, hi', rfl⟩ := abs_ne_free (p := p) (h := g) (by rw [e]; simp)
    exact absurd (by simp [e2, upd]) (hf ((i : Int) - 1000) (by rw [hc.len]; exact valid_index hi'))

/-- What the code does not do: a handle whose memory was never allocated, or was deallocated, cannot
be destroyed. The call answers `false` and the handle stays in use; with one handle no further array
can be created. -/
theorem C23_unallocated_not_freed :
    run (init 1) [.create, .destroy (-1000), .create] = [.handle (-1000), .bool false, .abort] ∧
    run (init 1) [.create, .allocate (-1000) 8 true, .deallocate (-1000), .destroy (-1000), .create] =
      [.handle (-1000), .bool true, .bool true, .bool false, .abort] := by decide

/-- a history with reuse of a handle and a detected use of a destroyed array -/
example : run (init 2) [.create, .allocate (-1000) 80 true, .duplicate (-1000) true, .use (-999),
      .destroy (-1000), .destroy (-1000), .create, .allocate (-1000) 16 true, .use (-1000),
      .destroy (-999), .use (-999)] =
    [.handle (-1000), .bool true, .handle (-999), .done, .bool true, .bool false, .handle (-1000),
      .bool true, .done, .bool true, .abort] := by decide

end GA.Handles
