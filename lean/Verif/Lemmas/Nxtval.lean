import Verif.Model.Nxtval
import Mathlib.Tactic.ByContra

/-! # Lemmas about the shared counter -/

namespace GA.Nxt

/-- the values drawn by processes that completed `r` resets, in the order of drawing -/
def drawn (r : Nat) (st : St) : List Int := (st.draws.filter fun d => d.2.1 == r).map fun d => d.2.2

structure Inv (n : Nat) (st : St) : Prop where
  near : ∀ p, st.ent p = st.lft p ∨ st.ent p = st.lft p + 1
  all : ∀ p q, p < n → q < n → st.lft p ≤ st.ent q
  res : 0 < n → st.resets = st.ent (server n) / 2 ∨ (st.ent (server n) = st.lft (server n) ∧ st.lft (server n) % 2 = 1 ∧ st.resets = st.lft (server n) / 2 + 1)
  nonneg : 0 ≤ st.cnt
  cur : drawn st.resets st = (List.range st.cnt.toNat).map fun (i : Nat) => (i : Int)
  old : ∀ r, r ≠ st.resets → ∃ k : Nat, drawn r st = (List.range k).map fun (i : Nat) => (i : Int)
  future : ∀ r, st.resets < r → drawn r st = []

theorem inv_start (n : Nat) : Inv n start := by
  constructor
  · intro p; exact Or.inl rfl
  · intro p q _ _; exact Nat.le_refl _
  · intro _; left; simp [start]
  · exact Int.le_refl _
  · rfl
  · intro r _; exact ⟨0, rfl⟩
  · intro r _; rfl

theorem drawn_append (r : Nat) (st : St) (p k : Nat) (v : Int) (c : Int) :
    drawn r { st with cnt := c, draws := st.draws ++ [(p, k, v)] } = drawn r st ++ (if k = r then [v] else []) := by
  unfold drawn
  by_cases h : k = r
  · simp [h]
  · simp [h]

theorem inv_step {n : Nat} {st st' : St} {a : Act} (hi : Inv n st) (h : step n st a = some st') : Inv n st' := by
  cases a with
  | draw p =>
    simp only [step] at h
    split at h
    · next hc =>
      simp only [Bool.and_eq_true, decide_eq_true_eq, idle, beq_iff_eq] at hc
      obtain ⟨hp, he, hev⟩ := hc
      injection h with h
      subst h
      have hn : 0 < n := by omega
      have hsn : server n < n := by unfold server; omega
      have hr : st.lft p / 2 = st.resets := by
        have h1 := hi.all p (server n) hp hsn
        have h2 := hi.all (server n) p hsn hp
        have h3 := hi.near (server n)
        rcases hi.res hn with h4 | ⟨h4, h5, h6⟩ <;> omega
      constructor
      · exact hi.near
      · exact hi.all
      · exact hi.res
      · have := hi.nonneg
        show 0 ≤ st.cnt + 1
        omega
      · show drawn st.resets { st with cnt := st.cnt + 1, draws := st.draws ++ [(p, st.lft p / 2, st.cnt)] } = _
        rw [drawn_append, if_pos hr, hi.cur]
        have := hi.nonneg
        have e : (st.cnt + 1).toNat = st.cnt.toNat + 1 := by omega
        simp only [e, List.range_succ, List.map_append, List.map_cons, List.map_nil]
        rw [Int.toNat_of_nonneg this]
      · intro r hrr
        show ∃ k : Nat, drawn r { st with cnt := st.cnt + 1, draws := st.draws ++ [(p, st.lft p / 2, st.cnt)] } = _
        obtain ⟨k, hk⟩ := hi.old r hrr
        refine ⟨k, ?_⟩
        rw [drawn_append, if_neg (by rw [hr]; exact fun h => hrr h.symm), List.append_nil, hk]
      · intro r hrr
        show drawn r { st with cnt := st.cnt + 1, draws := st.draws ++ [(p, st.lft p / 2, st.cnt)] } = _
        rw [drawn_append, if_neg (by rw [hr]; exact Nat.ne_of_lt hrr), hi.future r hrr]
        rfl
    · nomatch h
  | enter p =>
    simp only [step] at h
    split at h
    · next hc =>
      simp only [Bool.and_eq_true, decide_eq_true_eq, idle, middle, beq_iff_eq, Bool.or_eq_true, bne_iff_ne] at hc
      obtain ⟨hp, hc⟩ := hc
      injection h with h
      subst h
      constructor
      · intro q
        show (if q = p then st.ent q + 1 else st.ent q) = _ ∨ (if q = p then st.ent q + 1 else st.ent q) = _
        have := hi.near q
        by_cases hq : q = p
        · subst hq
          rw [if_pos rfl]
          dsimp only
          omega
        · rw [if_neg hq]
          exact this
      · intro a b ha hb
        show st.lft a ≤ if b = p then st.ent b + 1 else st.ent b
        have := hi.all a b ha hb
        split <;> omega
      · intro hn
        show st.resets = (if server n = p then st.ent (server n) + 1 else st.ent (server n)) / 2 ∨
          ((if server n = p then st.ent (server n) + 1 else st.ent (server n)) = st.lft (server n) ∧ st.lft (server n) % 2 = 1 ∧ st.resets = st.lft (server n) / 2 + 1)
        have h1 := hi.res hn
        have h2 := hi.near (server n)
        by_cases hq : server n = p
        · rw [if_pos hq]
          subst hq
          left
          rcases hc with hc | ⟨hc, hc' | hc'⟩
          · omega
          · exact absurd rfl hc'
          · omega
        · rw [if_neg hq]
          exact h1
      · exact hi.nonneg
      · exact hi.cur
      · exact hi.old
      · exact hi.future
    · nomatch h
  | reset =>
    simp only [step] at h
    split at h
    · next hc =>
      simp only [Bool.and_eq_true, decide_eq_true_eq, middle, beq_iff_eq] at hc
      obtain ⟨⟨hn, he, hm⟩, hr⟩ := hc
      injection h with h
      subst h
      constructor
      · exact hi.near
      · exact hi.all
      · intro _
        show st.resets + 1 = st.ent (server n) / 2 ∨ (st.ent (server n) = st.lft (server n) ∧ st.lft (server n) % 2 = 1 ∧ st.resets + 1 = st.lft (server n) / 2 + 1)
        exact Or.inr ⟨he, hm, by omega⟩
      · exact Int.le_refl _
      · exact hi.future _ (Nat.lt_succ_self _)
      · intro r hrr
        by_cases hr' : r = st.resets
        · exact ⟨st.cnt.toNat, by rw [hr']; exact hi.cur⟩
        · exact hi.old r hr'
      · intro r hrr
        exact hi.future r (by have : st.resets + 1 < r := hrr; omega)
    · nomatch h
  | leave p =>
    simp only [step] at h
    split at h
    · next hc =>
      simp only [Bool.and_eq_true, decide_eq_true_eq, beq_iff_eq, List.all_eq_true, List.mem_range] at hc
      obtain ⟨⟨hp, he⟩, ha⟩ := hc
      injection h with h
      subst h
      constructor
      · intro q
        show st.ent q = (if q = p then st.lft q + 1 else st.lft q) ∨ st.ent q = (if q = p then st.lft q + 1 else st.lft q) + 1
        have := hi.near q
        by_cases hq : q = p
        · subst hq
          rw [if_pos rfl]
          omega
        · rw [if_neg hq]
          exact this
      · intro a b hla hlb
        show (if a = p then st.lft a + 1 else st.lft a) ≤ st.ent b
        split
        · next h => subst h; exact ha b hlb
        · exact hi.all a b hla hlb
      · intro hn
        show st.resets = st.ent (server n) / 2 ∨ (st.ent (server n) = (if server n = p then st.lft (server n) + 1 else st.lft (server n)) ∧
          (if server n = p then st.lft (server n) + 1 else st.lft (server n)) % 2 = 1 ∧ st.resets = (if server n = p then st.lft (server n) + 1 else st.lft (server n)) / 2 + 1)
        have h1 := hi.res hn
        by_cases hq : server n = p
        · rw [if_pos hq]
          subst hq
          left
          omega
        · rw [if_neg hq]
          exact h1
      · exact hi.nonneg
      · exact hi.cur
      · exact hi.old
      · exact hi.future
    · nomatch h

theorem inv_run {n : Nat} {s : List Act} {st st' : St} (hi : Inv n st) (h : run n s st = some st') : Inv n st' := by
  induction s generalizing st with
  | nil =>
    injection h with h
    subst h
    exact hi
  | cons a s ih =>
    simp only [run] at h
    split at h
    · nomatch h
    · next st1 h1 => exact ih (inv_step hi h1) h

theorem exists_min (n : Nat) (f : Nat → Nat) (hn : 0 < n) : ∃ p, p < n ∧ ∀ q, q < n → f p ≤ f q := by
  induction n with
  | zero => omega
  | succ n ih =>
    by_cases h : n = 0
    · subst h
      exact ⟨0, Nat.one_pos, fun q hq => by rw [show q = 0 by omega]; exact Nat.le_refl _⟩
    · obtain ⟨p, hp, hm⟩ := ih (by omega)
      by_cases hle : f p ≤ f n
      · refine ⟨p, by omega, fun q hq => ?_⟩
        by_cases hqn : q = n
        · subst hqn; exact hle
        · exact hm q (by omega)
      · refine ⟨n, by omega, fun q hq => ?_⟩
        by_cases hqn : q = n
        · subst hqn; exact Nat.le_refl _
        · have := hm q (by omega)
          omega

theorem can {n : Nat} {st : St} {a : Act} (ha : ∀ p, a ≠ .draw p) (h : step n st a ≠ none) : ∃ a st', step n st a = some st' ∧ ∀ p, a ≠ .draw p := by
  cases hs : step n st a with
  | none => exact absurd hs h
  | some st' => exact ⟨a, st', hs, ha⟩

/-- if no process is outside of a call `NXTVAL(-n)`, one of them can go on -/
theorem progress {n : Nat} {st : St} (hn : 0 < n) (hi : Inv n st) (h : ∀ p, p < n → idle st p = false) :
    ∃ a st', step n st a = some st' ∧ ∀ p, a ≠ .draw p := by
  obtain ⟨p, hp, hm⟩ := exists_min n st.lft hn
  have hip := h p hp
  simp only [idle, Bool.and_eq_false_iff, beq_eq_false_iff_ne] at hip
  by_cases he : st.ent p = st.lft p
  · have hodd : st.lft p % 2 = 1 := by omega
    by_cases hs : p = server n ∧ st.resets ≠ st.lft p / 2 + 1
    · obtain ⟨hs, hr⟩ := hs
      subst hs
      have := hi.res hn
      refine can (a := .reset) (fun p => by simp) ?_
      simp only [step]
      rw [if_pos]
      · exact fun h => nomatch h
      simp only [Bool.and_eq_true, decide_eq_true_eq, middle, beq_iff_eq]
      exact ⟨⟨hn, he, hodd⟩, by omega⟩
    · refine can (a := .enter p) (fun p => by simp) ?_
      simp only [step]
      rw [if_pos]
      · exact fun h => nomatch h
      simp only [Bool.and_eq_true, decide_eq_true_eq, idle, middle, beq_iff_eq, Bool.or_eq_true, bne_iff_ne]
      exact ⟨hp, Or.inr ⟨⟨he, hodd⟩, by
        by_cases hps : p = server n
        · right
          by_contra hc
          exact hs ⟨hps, hc⟩
        · exact Or.inl hps⟩⟩
  · have he1 := (hi.near p).resolve_left he
    by_cases ha : ∃ q, q < n ∧ st.ent q ≤ st.lft p
    · obtain ⟨q, hq, hqe⟩ := ha
      have h1 := hm q hq
      have h2 := hi.near q
      have heq : st.ent q = st.lft q := by omega
      have hiq := h q hq
      simp only [idle, Bool.and_eq_false_iff, beq_eq_false_iff_ne] at hiq
      have hodd : st.lft q % 2 = 1 := by omega
      by_cases hs : q = server n ∧ st.resets ≠ st.lft q / 2 + 1
      · obtain ⟨hs, hr⟩ := hs
        subst hs
        have := hi.res hn
        refine can (a := .reset) (fun p => by simp) ?_
        simp only [step]
        rw [if_pos]
        · exact fun h => nomatch h
        simp only [Bool.and_eq_true, decide_eq_true_eq, middle, beq_iff_eq]
        exact ⟨⟨hn, heq, hodd⟩, by omega⟩
      · refine can (a := .enter q) (fun p => by simp) ?_
        simp only [step]
        rw [if_pos]
        · exact fun h => nomatch h
        simp only [Bool.and_eq_true, decide_eq_true_eq, idle, middle, beq_iff_eq, Bool.or_eq_true, bne_iff_ne]
        exact ⟨hq, Or.inr ⟨⟨heq, hodd⟩, by
          by_cases hps : q = server n
          · right
            by_contra hc
            exact hs ⟨hps, hc⟩
          · exact Or.inl hps⟩⟩
    · refine can (a := .leave p) (fun p => by simp) ?_
      simp only [step]
      rw [if_pos]
      · exact fun h => nomatch h
      simp only [Bool.and_eq_true, decide_eq_true_eq, beq_iff_eq, List.all_eq_true, List.mem_range]
      refine ⟨⟨hp, he1⟩, fun q hq => ?_⟩
      by_contra hc
      exact ha ⟨q, hq, by omega⟩

end GA.Nxt
