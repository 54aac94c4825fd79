import Verif.Lemmas.CBuf

/-!
# C102: registered buffers have one user at a time
-/

namespace GA
open Model.CBuf

/-- States that correct use leads to, with the buffers handed out and not yet given back: `n` buffers at the start, any calls of the two functions, in which only buffers that
are held are given back. -/
inductive C102_reach (n pool : Nat) : St → List Nat → Prop
  | start {st : St} : allocate Model.CBuf.empty n = some st → C102_reach n pool st []
  | get {st st' : St} {held : List Nat} {v : Nat} : C102_reach n pool st held → getBuf pool st = some (v, st') → C102_reach n pool st' (v :: held)
  | release {st st' : St} {held : List Nat} {v : Nat} : C102_reach n pool st held → v ∈ held → release st v = some st' → C102_reach n pool st' (held.erase v)

private theorem reach_inv {n pool : Nat} (hp : 0 < pool) {st : St} {held : List Nat} (h : C102_reach n pool st held) : Inv st held := by
  induction h with
  | start h => exact inv_allocate (st := Model.CBuf.empty) ⟨[], rfl, by simp, by simp [Model.CBuf.empty], rfl⟩ rfl h
  | get _ hg ih =>
    obtain ⟨v, st', h1, -, h2, -⟩ := inv_get ih hp
    rw [hg] at h1
    cases h1
    exact h2
  | release _ hv hr ih =>
    obtain ⟨st', h1, h2, -⟩ := inv_release ih hv
    rw [hr] at h1
    cases h1
    exact h2

/-- **C102, one user.** After every correct history a request for a buffer succeeds and returns one that nobody holds; memory is allocated only when all buffers are held. -/
theorem C102_get {n pool : Nat} (hp : 0 < pool) {st : St} {held : List Nat} (h : C102_reach n pool st held) :
    held.Nodup ∧ ∃ v st', getBuf pool st = some (v, st') ∧ v ∉ held ∧ v < st'.total ∧
      (st'.total = st.total ∨ held.length = st.total ∧ st'.total = st.total + pool) := by
  obtain ⟨v, st', h1, h2, -, h4⟩ := inv_get (reach_inv hp h) hp
  obtain ⟨l, -, hnd, -⟩ := reach_inv hp h
  exact ⟨(List.nodup_append'.1 hnd).2.1, v, st', h1, h2, h4⟩

/-- **C102, giving back.** A buffer that is held can always be given back, without failure. -/
theorem C102_release {n pool : Nat} (hp : 0 < pool) {st : St} {held : List Nat} (h : C102_reach n pool st held) {v : Nat} (hv : v ∈ held) :
    ∃ st', release st v = some st' := by
  obtain ⟨st', h1, -⟩ := inv_release (reach_inv hp h) hv
  exact ⟨st', h1⟩

/-- **C102, none is lost.** The counter of free buffers is right: every buffer is free or held. -/
theorem C102_count {n pool : Nat} (hp : 0 < pool) {st : St} {held : List Nat} (h : C102_reach n pool st held) : st.nfree + held.length = st.total := by
  obtain ⟨l, -, hnd, hm, hf⟩ := reach_inv hp h
  have : (l ++ held).Perm (List.range st.total) := (List.perm_ext_iff_of_nodup hnd List.nodup_range).2 fun x => by rw [hm, List.mem_range]
  have := this.length_eq
  rw [List.length_append, List.length_range] at this
  omega

/-- **C102, negation: wrong use is noticed only at once.** The assertion refuses a second release of the buffer just given back. If another buffer is given back in between,
the second release is accepted, and the same buffer is then handed to two users. -/
theorem C102_double {n pool : Nat} (hp : 0 < pool) {st : St} {held : List Nat} (h : C102_reach n pool st held) {a b : Nat} (ha : a ∈ held) (_hb : b ∈ held) (hab : a ≠ b) :
    ∃ s1, release st a = some s1 ∧ release s1 a = none ∧ ∃ s2 s3, release s1 b = some s2 ∧ release s2 a = some s3 ∧
      ∃ s4 s5 s6, getBuf pool s3 = some (a, s4) ∧ getBuf pool s4 = some (b, s5) ∧ getBuf pool s5 = some (a, s6) := by
  obtain ⟨s1, h1⟩ := C102_release hp h ha
  refine ⟨s1, h1, ?_⟩
  unfold release at h1
  split at h1
  · cases h1
  cases h1
  have hba : b ≠ a := fun h => hab h.symm
  simp [release, getBuf, hab, hba]

/-! ## concrete cases -/

/-- one buffer at the start; a second request makes a new region of two -/
example : ∃ s0 s1 s2, allocate Model.CBuf.empty 1 = some s0 ∧ getBuf 2 s0 = some (0, s1) ∧ getBuf 2 s1 = some (1, s2) ∧ s2.total = 3 ∧ s2.nfree = 1 ∧
    C102_reach 1 2 s2 [1, 0] :=
  ⟨_, _, _, rfl, rfl, rfl, rfl, rfl, .get (.get (.start rfl) rfl) rfl⟩

end GA
