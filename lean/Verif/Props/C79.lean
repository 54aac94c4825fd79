import Verif.Model.Nxtval
import Verif.Spec.Nxtval
import Verif.Lemmas.Nxtval
import Mathlib.Data.List.Nodup

/-!
# C79: the shared counter NXTVAL hands out every value once
-/

namespace GA
open Nxt Spec

/-- C79: for any number of processes and any schedule, the values drawn by processes that completed the same number `r` of resets are 0, 1, 2, ... in the order of drawing -/
theorem C79_counter {n : Nat} {s : List Act} {st : St} (h : run n s start = some st) (r : Nat) : ∃ k, Counter.ofRound r st.draws = Counter.counted k := by
  have hi := inv_run (inv_start n) h
  by_cases hr : r = st.resets
  · exact ⟨st.cnt.toNat, by rw [hr]; exact hi.cur⟩
  · exact hi.old r hr

/-- C79: no value is handed out twice in a round -/
theorem C79_unique {n : Nat} {s : List Act} {st : St} (h : run n s start = some st) (r : Nat) : (Counter.ofRound r st.draws).Nodup := by
  obtain ⟨k, hk⟩ := C79_counter h r
  rw [hk]
  exact List.Nodup.map (fun a b h => Int.ofNat.inj h) List.nodup_range

/-- C79: a reset returns only after every process has called it as often: a process that completed `r + 1` resets has seen every process begin its `r + 1`st -/
theorem C79_reset_waits {n : Nat} {s : List Act} {st : St} (h : run n s start = some st) {p q : Nat} (hp : p < n) (hq : q < n) : st.lft p ≤ st.ent q :=
  (inv_run (inv_start n) h).all p q hp hq

/-- C79: a reset never waits forever: if every process has called it and not returned, one of them can take a step -/
theorem C79_progress {n : Nat} (hn : 0 < n) {s : List Act} {st : St} (h : run n s start = some st) (hc : ∀ p, p < n → ¬ (st.ent p = st.lft p ∧ st.lft p % 2 = 0)) :
    ∃ a st', run n (s ++ [a]) start = some st' ∧ ∀ p, a ≠ .draw p := by
  obtain ⟨a, st', h1, h2⟩ := progress hn (inv_run (inv_start n) h) (by
    intro p hp
    have := hc p hp
    simp only [idle, Bool.and_eq_false_iff, beq_eq_false_iff_ne]
    omega)
  refine ⟨a, st', ?_, h2⟩
  have happ : ∀ (s : List Act) (st0 : St), run n s st0 = some st → run n (s ++ [a]) st0 = some st' := by
    intro s
    induction s with
    | nil =>
      intro st0 h0
      injection h0 with h0
      subst h0
      simp [run, h1]
    | cons b s ih =>
      intro st0 h0
      simp only [run, List.cons_append] at h0 ⊢
      split at h0
      · nomatch h0
      · next st1 hb => exact ih st1 h0
  exact happ s start h

/-- C79 fails for a part of the processes: the documentation says that `NXTVAL(-m)` blocks until `m` processes are queued, but as long as one process does not call it nobody returns -/
theorem C79_subset {n : Nat} {s : List Act} {st : St} (h : run n s start = some st) {q : Nat} (hq : q < n) (hs : ∀ a ∈ s, a ≠ .enter q) {p : Nat} (hp : p < n) : st.lft p = 0 := by
  have h0 : ∀ (s : List Act) (st0 st : St), (∀ a ∈ s, a ≠ .enter q) → run n s st0 = some st → st.ent q = st0.ent q := by
    intro s
    induction s with
    | nil =>
      intro st0 st _ h
      injection h with h
      subst h
      rfl
    | cons a s ih =>
      intro st0 st hs h
      simp only [run] at h
      split at h
      · nomatch h
      · next st1 h1 =>
        rw [ih st1 st (fun b hb => hs b (List.mem_cons_of_mem _ hb)) h]
        cases a with
        | draw p =>
          simp only [step] at h1
          split at h1
          · injection h1 with h1; subst h1; rfl
          · nomatch h1
        | enter p =>
          simp only [step] at h1
          split at h1
          · injection h1 with h1
            subst h1
            dsimp only
            rw [if_neg]
            intro hqp
            exact hs _ List.mem_cons_self (by rw [hqp])
          · nomatch h1
        | reset =>
          simp only [step] at h1
          split at h1
          · injection h1 with h1; subst h1; rfl
          · nomatch h1
        | leave p =>
          simp only [step] at h1
          split at h1
          · injection h1 with h1; subst h1; rfl
          · nomatch h1
  have h1 := C79_reset_waits h hp hq
  have h2 := h0 s start st hs h
  rw [h2] at h1
  exact Nat.le_zero.1 h1

/-- C79 fails for the C interface of builds with Fortran integers of 4 bytes: the value returned is right only if the upper half of an uninitialised variable happens to be zero -/
theorem C79_c_interface (upper value : Int) : cValue upper value = value ↔ upper = 0 := by
  unfold cValue
  omega

/-- C79: in the sequential version the values count up from 0 after a reset, whatever the counter was -/
theorem C79_sequential (c : Int) (k : Nat) : Nat.rec (motive := fun _ => Option (Int × Int)) (seq c (-1)) (fun _ o => o.bind fun x => seq x.2 1) (k + 1) = some ((k : Int), (k : Int) + 1) := by
  induction k with
  | zero => rfl
  | succ k ih =>
    rw [show (Nat.rec (motive := fun _ => Option (Int × Int)) (seq c (-1)) (fun _ o => o.bind fun x => seq x.2 1) (k + 1 + 1)) =
      (Nat.rec (motive := fun _ => Option (Int × Int)) (seq c (-1)) (fun _ o => o.bind fun x => seq x.2 1) (k + 1)).bind fun x => seq x.2 1 from rfl, ih]
    simp [seq]

/-- three processes; two of them draw, all reset, and one draws while the others are still leaving the reset -/
private def ex79 : List Act := [.draw 0, .draw 2, .enter 0, .draw 1, .enter 1, .enter 2, .leave 2, .reset, .leave 0, .enter 0, .leave 1, .enter 2, .enter 1, .leave 1, .draw 1, .leave 0, .draw 0, .draw 1]

example : (run 3 ex79 start).map (fun st => st.draws) = some [(0, 0, 0), (2, 0, 1), (1, 0, 2), (1, 1, 0), (0, 1, 1), (1, 1, 2)] := by decide
/-- all are in the reset -/
example : (run 3 (ex79.take 7) start).map (fun st => (List.range 3).map fun p => (st.ent p, st.lft p)) = some [(1, 0), (1, 0), (1, 1)] := by decide
/-- process 1 does not call it -/
example : (run 3 [.draw 0, .enter 0, .enter 2, .draw 1] start).isSome = true := by decide
example : (run 3 [.draw 0, .enter 0, .enter 2, .leave 0] start).isSome = false := by decide

end GA
