import Verif.Lemmas.Implicit

/-!
# C98: requests without a handle
-/

namespace GA
open Spec.Implicit Model.Implicit

private theorem good {near : Nat → Bool} {ops : List Op} {s : St} (hs : run near ops = some s) :
    Good near s (implicitIds 0 ops []) (ops.foldl (openStep near) (0, [])) := run_good start_good hs

/-- **C98, waiting.** After every history a request that is not complete is one the caller may not take for complete: in particular none without a handle after a wait
for all, and none without a handle to process `p` after a wait for `p`. -/
theorem C98_waited {near : Nat → Bool} {ops : List Op} {s : St} (hs : run near ops = some s) : ∀ r ∈ s.out, r ∈ openReqs near ops := (good hs).sub

theorem C98_wait_all {near : Nat → Bool} {ops : List Op} {s : St} (hs : run near (ops ++ [.waitAll]) = some s) : ∀ r ∈ s.out, r.implicit = false := by
  intro r hr
  have := C98_waited hs r hr
  simp only [openReqs, List.foldl_append, List.foldl_cons, List.foldl_nil, openStep] at this
  simpa using (List.mem_filter.1 this).2

theorem C98_wait_proc {near : Nat → Bool} {ops : List Op} {p : Nat} {s : St} (hs : run near (ops ++ [.waitProc p]) = some s) :
    ∀ r ∈ s.out, r.proc = p → r.implicit = false := by
  intro r hr hp
  have := C98_waited hs r hr
  simp only [openReqs, List.foldl_append, List.foldl_cons, List.foldl_nil, openStep] at this
  have := (List.mem_filter.1 this).2
  simpa [hp] using this

/-- **C98, handles of the caller.** These calls neither complete nor disturb requests with a handle of the caller. -/
theorem C98_explicit {near : Nat → Bool} {ops : List Op} {s : St} (hs : run near ops = some s) :
    s.out.filter (fun r => !r.implicit) = (openReqs near ops).filter fun r => !r.implicit := (good hs).expl

/-- **C98, other processes.** A wait for process `p` leaves all requests to other processes alone. -/
theorem C98_other_procs {near : Nat → Bool} {ops : List Op} {p : Nat} {s s' : St} (hs : run near ops = some s) (hs' : step near s (.waitProc p) = some s') :
    s'.out.filter (fun r => r.proc ≠ p) = s.out.filter fun r => r.proc ≠ p := by
  cases hs'
  exact (loop_inv (good hs).inv (good hs).nodup _).2.2.2.2.2 _ fun r _ h => by simpa using h

/-- **C98, bound.** Only the last fifteen requests without a handle can be incomplete. -/
theorem C98_last_fifteen {near : Nat → Bool} {ops : List Op} {s : St} (hs : run near ops = some s) :
    ∀ r ∈ s.out, r.implicit = true → r.id ∈ (implicitIds 0 ops []).take 15 := by
  intro r hr himp
  obtain ⟨i, -, hf, -, hid⟩ := (good hs).inv.held r hr himp
  obtain ⟨k, k1, -, -, k4⟩ := (good hs).inv.ring i hf
  rw [← hid]
  exact List.mem_iff_getElem?.2 ⟨k, by rw [List.getElem?_take, if_pos k1]; exact k4⟩

private theorem since_eq (pre : List Op) : sinceWait pre = pre.foldl count 0 := by
  rw [sinceWait]
  congr 1

/-- **C98, progress.** The calls fail exactly when 2³¹ requests without a handle are issued and no wait for all comes in between: waits for single processes
do not help. -/
theorem C98_progress (near : Nat → Bool) (ops : List Op) : run near ops = none ↔ ∃ pre, pre <+: ops ∧ 2 ^ 31 ≤ sinceWait pre := by
  simp only [since_eq]
  exact run_imp (s := start) (by simp [start])

/-- **C98, negation.** A program that issues requests without a handle and waits for their process each time fails in the end. -/
theorem C98_overflow (near : Nat → Bool) (p : Nat) : ∃ n, run near (List.replicate n [Op.issue p, Op.waitProc p]).flatten = none := by
  refine ⟨2 ^ 31, (C98_progress near _).2 ⟨_, List.prefix_refl _, ?_⟩⟩
  generalize 2 ^ 31 = n
  suffices h : ∀ n k, ((List.replicate n [Op.issue p, Op.waitProc p]).flatten).foldl count k = k + n by
    rw [since_eq, h]
    omega
  intro n
  induction n with
  | zero => intro k; rfl
  | succ n ih =>
    intro k
    rw [List.replicate_succ, List.flatten_cons, List.foldl_append, ih]
    simp only [List.foldl_cons, List.foldl_nil, count]
    omega

/-! ## concrete cases -/

/-- seventeen requests to processes 0 to 4 (0 is near) and one with a handle, the second one has arrived -/
def C98_ex : List Op := .explicit 3 :: (List.range 17).map (fun i => .issue (i % 5)) ++ [.arrive 7]

example : (run (· == 0) C98_ex).map (fun s => (s.out.map Req.id, s.imp)) = some ([0, 3, 4, 5, 8, 9, 10, 12, 13, 14, 15, 17], 17) ∧
    (run (· == 0) (C98_ex ++ [.waitProc 2])).map (fun s => s.out.map Req.id) = some [0, 4, 5, 9, 10, 12, 14, 15, 17] ∧
    (run (· == 0) (C98_ex ++ [.waitAll])).map (fun s => (s.out.map Req.id, s.imp)) = some ([0], 0) := by decide +kernel

end GA
