import Verif.Model.CBuf

namespace GA.Model.CBuf

/-- the list that starts at `o` -/
def Chain (next : Nat → Option Nat) : Option Nat → List Nat → Prop
  | o, [] => o = none
  | o, v :: l => o = some v ∧ Chain next (next v) l

theorem Chain.congr {f g : Nat → Option Nat} : ∀ {l : List Nat} {o : Option Nat}, (∀ x ∈ l, f x = g x) → Chain f o l → Chain g o l := by
  intro l
  induction l with
  | nil => intro o _ h; exact h
  | cons v l ih =>
    intro o h hc
    refine ⟨hc.1, ?_⟩
    rw [← h v (by simp)]
    exact ih (fun x hx => h x (by simp [hx])) hc.2

theorem chain_range {f : Nat → Option Nat} : ∀ (n a : Nat), (∀ x, a ≤ x → x < a + n → f x = if x + 1 < a + n then some (x + 1) else none) → 0 < n →
    Chain f (some a) (List.range' a n) := by
  intro n
  induction n with
  | zero => intro a _ h; omega
  | succ n ih =>
    intro a hf _
    rw [List.range'_succ]
    refine ⟨rfl, ?_⟩
    rw [hf a (by omega) (by omega)]
    by_cases hn : n = 0
    · subst hn
      rw [if_neg (by omega)]
      exact rfl
    · rw [if_pos (by omega)]
      refine ih (a + 1) (fun x h1 h2 => ?_) (by omega)
      rw [hf x (by omega) (by omega), show a + (n + 1) = a + 1 + n by omega]

/-- free list and buffers in use are all buffers, each once -/
def Inv (st : St) (held : List Nat) : Prop :=
  ∃ l, Chain st.next st.head l ∧ (l ++ held).Nodup ∧ (∀ x, x ∈ l ++ held ↔ x < st.total) ∧ st.nfree = l.length

theorem inv_allocate {st st' : St} {held : List Nat} (h : Inv st held) (hh : st.head = none) {n : Nat} (ha : allocate st n = some st') : Inv st' held := by
  obtain ⟨l, h1, h2, h3, h4⟩ := h
  have hl : l = [] := by
    cases l with
    | nil => rfl
    | cons v l => rw [hh] at h1; cases h1.1
  subst hl
  simp only [List.nil_append, List.length_nil] at *
  unfold allocate at ha
  split at ha
  · cases ha
  cases ha
  refine ⟨List.range' st.total n, ?_, ?_, ?_, ?_⟩
  · refine chain_range n st.total (fun x h1 h2 => ?_) (by omega)
    dsimp only
    rw [if_pos ⟨h1, h2⟩]
  · refine List.nodup_append'.2 ⟨List.nodup_range', h2, fun x hx hx' => ?_⟩
    rw [List.mem_range'_1] at hx
    have := (h3 x).1 hx'
    omega
  · intro x
    rw [List.mem_append, List.mem_range'_1, h3]
    dsimp only
    omega
  · dsimp only
    rw [List.length_range', h4]
    simp

theorem inv_get {st : St} {held : List Nat} (h : Inv st held) {pool : Nat} (hp : 0 < pool) : ∃ v st', getBuf pool st = some (v, st') ∧ v ∉ held ∧ Inv st' (v :: held) ∧
    v < st'.total ∧ (st'.total = st.total ∨ held.length = st.total ∧ st'.total = st.total + pool) := by
  have key : ∀ (s : St), Inv s held → s.head ≠ none → ∃ v, s.head = some v ∧ v ∉ held ∧ Inv { s with head := s.next v, nfree := s.nfree - 1 } (v :: held) ∧ v < s.total := by
    rintro s ⟨l, h1, h2, h3, h4⟩ hs
    cases l with
    | nil => exact absurd h1 hs
    | cons v l =>
      rw [List.cons_append, List.nodup_cons] at h2
      refine ⟨v, h1.1, fun hv => h2.1 (by simp [hv]), ⟨l, h1.2, ?_, fun x => ?_, ?_⟩, (h3 v).1 (by simp)⟩
      · rw [List.nodup_middle, List.nodup_cons]
        exact h2
      · rw [← h3 x]
        simp only [List.mem_append, List.mem_cons, List.cons_append]
        tauto
      · simp [h4]
  cases hh : st.head with
  | some w =>
    obtain ⟨v, v1, v2, v3, v4⟩ := key st h (by rw [hh]; simp)
    refine ⟨v, _, ?_, v2, v3, v4, .inl rfl⟩
    simp [getBuf, v1]
  | none =>
    obtain ⟨s, hs⟩ : ∃ s, allocate st pool = some s := by
      unfold allocate
      rw [if_neg (by omega)]
      exact ⟨_, rfl⟩
    have hi := inv_allocate h hh hs
    have hst : s.head ≠ none ∧ s.total = st.total + pool := by
      unfold allocate at hs
      rw [if_neg (by omega)] at hs
      cases hs
      simp
    obtain ⟨v, v1, v2, v3, v4⟩ := key s hi hst.1
    refine ⟨v, { s with head := s.next v, nfree := s.nfree - 1 }, ?_, v2, v3, v4, .inr ⟨?_, hst.2⟩⟩
    · simp [getBuf, hh, hs, v1]
    · obtain ⟨l, h1, h2, h3, -⟩ := h
      have hl : l = [] := by
        cases l with
        | nil => rfl
        | cons v l => rw [hh] at h1; cases h1.1
      subst hl
      simp only [List.nil_append] at *
      have : held.Perm (List.range st.total) := (List.perm_ext_iff_of_nodup h2 List.nodup_range).2 fun x => by rw [h3, List.mem_range]
      simpa using this.length_eq

theorem inv_release {st : St} {held : List Nat} (h : Inv st held) {v : Nat} (hv : v ∈ held) : ∃ st', release st v = some st' ∧ Inv st' (held.erase v) ∧ st'.total = st.total := by
  obtain ⟨l, h1, h2, h3, h4⟩ := h
  obtain ⟨n1, n2, n3⟩ := List.nodup_append'.1 h2
  have hvl : v ∉ l := fun hx => n3 hx hv
  have hne : st.head ≠ some v := by
    intro he
    cases l with
    | nil => rw [he] at h1; cases h1
    | cons w l =>
      have := h1.1
      rw [he] at this
      cases this
      simp at hvl
  refine ⟨{ st with next := fun x => if x = v then st.head else st.next x, head := some v, nfree := st.nfree + 1 }, by rw [release, if_neg hne], ⟨v :: l, ⟨rfl, ?_⟩, ?_, fun x => ?_, ?_⟩, rfl⟩
  · dsimp only
    rw [if_pos rfl]
    refine h1.congr fun x hx => ?_
    rw [if_neg]
    rintro rfl
    exact hvl hx
  · rw [List.cons_append, List.nodup_cons]
    refine ⟨?_, List.nodup_append'.2 ⟨n1, n2.erase v, fun x hx hx' => n3 hx (List.mem_of_mem_erase hx')⟩⟩
    rw [List.mem_append, not_or]
    exact ⟨hvl, n2.not_mem_erase⟩
  · dsimp only
    rw [← h3 x, List.cons_append, List.mem_cons, List.mem_append, List.mem_append, n2.mem_erase_iff]
    by_cases hx : x = v
    · subst hx
      simp [hv]
    · simp [hx]
  · simp [h4]

end GA.Model.CBuf
