import Verif.Props.C19
import Mathlib.Logic.Relation

/-! # C20: GA_Lock maps each mutex number to its own lock

The code computes the lock from the number of mutexes instead of the mutex number, so the property is
false: all mutex numbers share one lock. -/

namespace GA.Mutex

/-- the share of the processes and the lock used are consistent -/
private theorem chunk_facts {num nproc : Nat} (hn : 1 ≤ num) (hp : 1 ≤ nproc) :
    1 ≤ chunkMutex num nproc ∧ chunkMutex num nproc ≤ num ∧ num ≤ nproc * chunkMutex num nproc := by
  unfold chunkMutex
  have h1 := Nat.div_add_mod (num + nproc - 1) nproc
  have h2 := Nat.mod_lt (num + nproc - 1) (show nproc > 0 by omega)
  generalize hc : (num + nproc - 1) / nproc = c at *
  refine ⟨?_, ?_, by omega⟩
  · rcases Nat.eq_zero_or_pos c with h | h
    · subst h; omega
    · exact h
  · rw [← hc]
    apply Nat.div_le_of_le_mul
    have : nproc * num = nproc + nproc * (num - 1) := by
      obtain ⟨k, rfl⟩ : ∃ k, num = k + 1 := ⟨num - 1, by omega⟩
      rw [Nat.mul_succ]; simp; omega
    have h3 : num - 1 ≤ nproc * (num - 1) := Nat.le_mul_of_pos_left _ hp
    omega

/-- **C20 (partial).** Every mutex number maps to a lock that exists: the process is one of the
`nproc`, and the lock is one of those created there by `GA_Create_mutexes`. Critical sections of one
mutex therefore exclude each other (C19).

Missing: different mutexes have different locks. False of the code: `C20_one_lock_for_all`. -/
theorem C20_lock_exists_partial (num nproc : Nat) (hn : 1 ≤ num) (hp : 1 ≤ nproc) (i : Int)
    (hi : 0 ≤ i) (hi' : i < num) :
    ∃ p m : Nat, gaLockKey num nproc i = some ((p : Int), (m : Int)) ∧ p < nproc ∧
      m < myShare num nproc p := by
  obtain ⟨h1, h2, h3⟩ := chunk_facts hn hp
  unfold gaLockKey myShare
  generalize chunkMutex num nproc = c at *
  have hdiv : 1 ≤ num / c := (Nat.one_le_div_iff (by omega)).2 h2
  refine ⟨num / c - 1, num % c, ?_, ?_, ?_⟩
  · rw [if_neg (by omega)]
    rw [Option.some.injEq, Prod.mk.injEq]
    refine ⟨?_, by simp⟩
    rw [← Int.natCast_ediv]; omega
  · have : num / c ≤ nproc := by
      apply Nat.div_le_of_le_mul
      rw [Nat.mul_comm]; exact h3
    omega
  · have h5 : (num / c - 1) * c < num := by
      have h6 : (num / c) * c ≤ num := Nat.div_mul_le_self num c
      rw [Nat.sub_mul]
      have : c ≤ num / c * c := Nat.le_mul_of_pos_left _ (by omega)
      omega
    rw [if_neg (by omega)]
    exact Nat.mod_lt _ (by omega)

/-- What the code does: all mutex numbers map to the same lock. -/
theorem C20_one_lock_for_all (num nproc : Nat) (i j : Int) (hi : i < num) (hj : j < num) :
    gaLockKey num nproc i = gaLockKey num nproc j := by
  unfold gaLockKey
  rw [if_neg (by omega), if_neg (by omega)]

/-- so the property fails for every number of mutexes above one -/
theorem C20_not_distinct (num nproc : Nat) (h : 2 ≤ num) :
    ¬ ∀ i j : Int, 0 ≤ i → i < num → 0 ≤ j → j < num → i ≠ j →
      gaLockKey num nproc i ≠ gaLockKey num nproc j := by
  intro hd
  exact hd 0 1 (by omega) (by omega) (by omega) (by omega) (by omega)
    (C20_one_lock_for_all num nproc 0 1 (by omega) (by omega))

/-- Consequence: a process that has locked one GA mutex and asks for another one never gets it. In
every state after that, under every schedule, it still waits. (`k` is the common lock of both.) -/
theorem C20_second_lock_never_granted (srv : Nat → Nat) (s : Sys) (h : Reach srv s) (p : Nat) (k : Key)
    (hh : s.held p k = true) (hw : s.waiting p = some k) (t : Sys)
    (hst : Relation.ReflTransGen (Step srv) s t) : t.waiting p = some k ∧ t.held p k = true := by
  have key : ∀ t, Relation.ReflTransGen (Step srv) s t →
      Reach srv t ∧ t.waiting p = some k ∧ t.held p k = true := by
    intro t hst
    induction hst with
    | refl => exact ⟨h, hw, hh⟩
    | tail _ hs ih =>
      obtain ⟨hr, hw, hh⟩ := ih
      refine ⟨.step hr hs, ?_⟩
      cases hs with
      | sendLock q k' hq =>
        have : p ≠ q := by rintro rfl; rw [hw] at hq; simp at hq
        simp [set1, this, hw, hh]
      | sendUnlock q k' hq _ =>
        have : p ≠ q := by rintro rfl; rw [hw] at hq; simp at hq
        simp [set1, this, hw, hh]
      | lock => exact ⟨hw, hh⟩
      | unlock => exact ⟨hw, hh⟩
      | ack q k' l ha =>
        have : p ≠ q := by
          rintro rfl
          obtain ⟨e1, e2⟩ := C19_ack_for_waiter hr ha
          rw [hw] at e1
          cases e1
          rw [hh] at e2
          exact absurd e2 (by simp)
        simp [set1, this, hw, hh]
  exact (key t hst).2

/-- a reachable state of that kind: locks 0 and 1 of three GA mutexes on two processes are the same
one, number 1 on process 0 -/
example : gaLockKey 3 2 0 = some (0, 1) ∧ gaLockKey 3 2 1 = some (0, 1) ∧
    ∃ s, Reach (fun _ => 0) s ∧ s.held 1 (0, 1) = true ∧ s.waiting 1 = some (0, 1) := by
  refine ⟨by decide, by decide, _, .step (.step (.step (.step .init (.sendLock 1 (0, 1) rfl))
    (.lock 1 0 (0, 1) [] rfl)) (.ack 1 (0, 1) [] rfl)) (.sendLock 1 (0, 1) rfl), by decide, by decide⟩

end GA.Mutex
