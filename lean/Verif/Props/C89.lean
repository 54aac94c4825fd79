import Verif.Lemmas.MsgLockEnd

/-!
# C89: mutexes over two-sided MPI

Every process makes the calls `program K (body p)`: it creates `K` mutexes, waits
for all others, makes the calls `body p` and destroys the mutexes.  `sched` is any
list of turns of the processes (go on in the call, receive a message, look at the
lock requests).  `(s.loc p).pc` is the number of calls of `p` that have returned, so
`p` holds `x` in `s` if `holding ((program K (body p)).take (s.loc p).pc) x`.
-/

namespace GA

open Spec.LockUse
open MsgLock (Turn AI)

/-- the state after a schedule -/
private abbrev c89At (n K : Nat) (body : Nat → List Call) (sched : List (Nat × Turn)) : MsgLock.State :=
  MsgLock.exec n (fun p => program K (body p)) sched MsgLock.start

/-- the calls of process `p` that have returned -/
private abbrev c89Calls (K : Nat) (body : Nat → List Call) (s : MsgLock.State) (p : Nat) : List Call :=
  (program K (body p)).take (s.loc p).pc

private theorem c89_inv {n K : Nat} {body : Nat → List Call} (hb : ∀ p, p < n → Proper n K (body p))
    (sched : List (Nat × Turn)) : AI n K (fun p => program K (body p)) (c89At n K body sched) :=
  AI.exec (fun p hp => MsgLock.shape_program (hb p hp)) sched
    (AI.init fun p hp => MsgLock.shape_program (hb p hp))

/-- **C89, mutual exclusion.**  Under every schedule two processes that hold a mutex
(their lock calls for it have returned, and they have not unlocked it since) are the same. -/
theorem C89_mutual_exclusion {n K : Nat} {body : Nat → List Call} (hb : ∀ p, p < n → Proper n K (body p))
    (sched : List (Nat × Turn)) (p q : Nat) (hp : p < n) (hq : q < n) (x : Mutex) :
    let s := MsgLock.exec n (fun p => program K (body p)) sched MsgLock.start
    holding ((program K (body p)).take (s.loc p).pc) x = true →
    holding ((program K (body q)).take (s.loc q).pc) x = true → p = q := by
  intro s h1 h2
  have hs := fun p hp => MsgLock.shape_program (hb p hp)
  have h := c89_inv hb sched
  have hx := (MsgLock.held_home (hs p hp) h1).1
  have e1 := MsgLock.owner_of_hold hs h hp hx h1
  have e2 := MsgLock.owner_of_hold hs h hq hx h2
  rw [e1] at e2
  exact Option.some.inj e2

/-- **C89, no failure.**  No assertion of the mutex calls and handlers fails and the
table of mutexes is never read outside its bounds. -/
theorem C89_no_fault {n K : Nat} {body : Nat → List Call} (hb : ∀ p, p < n → Proper n K (body p))
    (sched : List (Nat × Turn)) (p : Nat) (hp : p < n) :
    ((MsgLock.exec n (fun p => program K (body p)) sched MsgLock.start).loc p).fault = false :=
  (c89_inv hb sched).xi.nofault p hp

/-- **C89, first come first served.**  The requests for a mutex are granted in the order
in which they reached the process it is at. -/
theorem C89_fifo {n K : Nat} {body : Nat → List Call} (hb : ∀ p, p < n → Proper n K (body p))
    (sched : List (Nat × Turn)) (x : Mutex) :
    let s := MsgLock.exec n (fun p => program K (body p)) sched MsgLock.start
    ((s.loc x.1).grants.filter fun e => e.2.1 == x.2) <+: ((s.loc x.1).reqs.filter fun e => e.2.1 == x.2) :=
  ⟨_, (c89_inv hb sched).xi.fq x.1 x.2⟩

/-- **C89, visibility.**  If process `p` updated the memory of the process a mutex is at
(call `j`) before it unlocked the mutex (call `k`), then the update has taken effect
whenever another process holds the mutex afterwards, without a fence. -/
theorem C89_visible {n K : Nat} {body : Nat → List Call} (hb : ∀ p, p < n → Proper n K (body p))
    (sched : List (Nat × Turn)) (p q : Nat) (hp : p < n) (hq : q < n) (hne : q ≠ p) (x : Mutex) (j k : Nat) :
    let s := MsgLock.exec n (fun p => program K (body p)) sched MsgLock.start
    (program K (body p))[j]? = some (.upd x.1) → (program K (body p))[k]? = some (.unlock x) → j < k →
    k < (s.loc p).pc → holding ((program K (body q)).take (s.loc q).pc) x = true →
    (p, j) ∈ (s.loc x.1).log := by
  intro s hj hk hjk hkp hh
  exact MsgLock.visible (fun p hp => MsgLock.shape_program (hb p hp)) (c89_inv hb sched) hp hq hne hh hj hk hjk hkp

/-- **C89, destruction.**  When the barrier in the call that destroys the mutexes is over, no
mutex of this process is held or asked for: its loop ends at the first test. -/
theorem C89_destroy {n K : Nat} {body : Nat → List Call} (hb : ∀ p, p < n → Proper n K (body p))
    (sched : List (Nat × Turn)) (p : Nat) (hp : p < n) :
    let s := MsgLock.exec n (fun p => program K (body p)) sched MsgLock.start
    (s.loc p).ph = .dloop ∨ (s.loc p).pc = (program K (body p)).length →
    (s.loc p).lq = [] ∧ (∀ m, (s.loc p).mtx m = none) := by
  intro s h
  exact MsgLock.destroy_free (fun p hp => MsgLock.shape_program (hb p hp)) (c89_inv hb sched) hp h

/-- **C89, no deadlock.**  If all processes take mutexes in increasing order of some
numbering, then in every state reached all calls have returned or some process can go on. -/
theorem C89_no_deadlock {n K : Nat} {body : Nat → List Call} (hb : ∀ p, p < n → Proper n K (body p))
    (ord : Mutex → Nat) (ho : ∀ p, p < n → Ordered ord (body p)) (sched : List (Nat × Turn)) :
    let s := MsgLock.exec n (fun p => program K (body p)) sched MsgLock.start
    (∀ p, p < n → (s.loc p).pc = (program K (body p)).length) ∨
    ∃ p t, p < n ∧ MsgLock.step n (fun p => program K (body p)) p t s ≠ none := by
  intro s
  apply Classical.byContradiction
  intro hc
  have h := MsgLock.stuck_done (s := s) (fun p hp => MsgLock.shape_program (hb p hp))
    (fun p hp => MsgLock.incr_program (ho p hp)) (c89_inv hb sched)
    (fun p t hp => Classical.byContradiction fun x => hc (.inr ⟨p, t, hp, x⟩))
  exact hc (.inl fun p hp => (h p hp).1)

/-- **C89, the end.**  If, moreover, the schedule gives every process every kind of turn
again and again, all calls of all processes return. -/
theorem C89_end {n K : Nat} {body : Nat → List Call} (hb : ∀ p, p < n → Proper n K (body p))
    (ord : Mutex → Nat) (ho : ∀ p, p < n → Ordered ord (body p)) (σ : Nat → Nat × Turn)
    (hfair : ∀ p t, p < n → (∀ q, t = Turn.recv q → q < n) → ∀ i, ∃ j, i ≤ j ∧ σ j = (p, t)) :
    ∃ t, ∀ p, p < n → ((MsgLock.exec n (fun p => program K (body p)) ((List.range t).map σ)
      MsgLock.start).loc p).pc = (program K (body p)).length := by
  obtain ⟨t, -, h⟩ := MsgLock.fair_done (s := MsgLock.start) (σ := σ)
    (fun p hp => MsgLock.shape_program (hb p hp))
    (fun p hp => MsgLock.incr_program (ho p hp)) (fun t => c89_inv hb _) hfair _ 0 rfl
  exact ⟨t, fun p hp => (h p hp).1⟩

/-! ## cases -/

/-- three processes; the mutex is at process 0; process 1 updates process 0 and process 2 under it -/
private def c89Body : Nat → List Call
  | 0 => [.lock (0, 0), .unlock (0, 0)]
  | 1 => [.lock (0, 0), .upd 0, .upd 2, .unlock (0, 0)]
  | _ => [.lock (0, 0), .upd 0, .unlock (0, 0)]

private theorem proper_one {n K : Nat} {x : Mutex} (hx : x.1 < n ∧ x.2 < K) {us : List Nat} (hu : ∀ q ∈ us, q < n) :
    Proper n K (.lock x :: (us.map .upd ++ [.unlock x])) := by
  have hus : ∀ (l : List Nat) (b : Bool) (y : Mutex),
      (l.map Call.upd).foldl (fun b c => if c = .lock y then true else if c = .unlock y then false else b) b = b := by
    intro l
    induction l with
    | nil => intro b y; rfl
    | cons a l ih => intro b y; rw [List.map_cons, List.foldl_cons, if_neg (by simp), if_neg (by simp)]; exact ih b y
  have hheld : ∀ (l : List Nat) (y : Mutex), holding (.lock x :: l.map .upd) y = decide (x = y) := by
    intro l y
    unfold holding
    rw [List.foldl_cons, hus]
    by_cases e : x = y <;> simp [e]
  refine ⟨fun i c hc => ?_, fun y => ?_⟩
  · match i with
    | 0 => simp at hc; subst hc; exact ⟨hx.1, hx.2, rfl⟩
    | i + 1 =>
      rw [List.getElem?_cons_succ] at hc
      by_cases e : i < us.length
      · rw [List.getElem?_append_left (by simpa using e)] at hc
        simp [List.getElem?_eq_getElem e] at hc
        subst hc
        exact hu _ (List.getElem_mem e)
      · have e2 : i = us.length := by
          have := (List.getElem?_eq_some_iff.1 hc).1
          simp at this; omega
        rw [List.getElem?_append_right (by simpa using Nat.le_of_not_lt e)] at hc
        simp [e2] at hc
        subst hc
        have e3 : ((.lock x :: (us.map .upd ++ [.unlock x])) : List Call).take (i + 1) = .lock x :: us.map .upd := by
          rw [List.take_succ_cons, e2, List.take_append_of_le_length (by simp), List.take_of_length_le (by simp)]
        rw [e3]
        change holding (.lock x :: us.map .upd) x = true
        rw [hheld]; simp
  · have : holding (.lock x :: (us.map .upd ++ [.unlock x])) y =
        if Call.unlock x = .lock y then true else if Call.unlock x = .unlock y then false
          else holding (.lock x :: us.map .upd) y := by
      unfold holding
      rw [← List.cons_append, List.foldl_append]; rfl
    rw [this, hheld]
    by_cases e : x = y <;> simp [e]

private theorem ordered_one {x : Mutex} {us : List Nat} (ord : Mutex → Nat) :
    Ordered ord (.lock x :: (us.map .upd ++ [.unlock x])) := by
  intro i y hi z hz
  match i with
  | 0 => simp [holding] at hz
  | i + 1 =>
    exfalso
    rw [List.getElem?_cons_succ] at hi
    have := List.mem_of_getElem? hi
    simp at this

private theorem c89Body_proper (p : Nat) (_ : p < 3) : Proper 3 1 (c89Body p) := by
  match p with
  | 0 => exact proper_one (us := []) (by decide) (by simp)
  | 1 => exact proper_one (us := [0, 2]) (by decide) (by simp)
  | _ + 2 => exact proper_one (us := [0]) (by decide) (by simp)

private theorem c89Body_ordered (p : Nat) : Ordered (fun _ => 0) (c89Body p) := by
  match p with
  | 0 => exact ordered_one (us := []) _
  | 1 => exact ordered_one (us := [0, 2]) _
  | _ + 2 => exact ordered_one (us := [0]) _

/-- all processes pass the barrier after the creation -/
private def c89Begin : List (Nat × Turn) :=
  ((List.range 3).flatMap fun p => [(p, .own), (p, .own)]) ++
  ((List.range 3).flatMap fun p => (List.range 3).map fun q => (p, .recv q)) ++ (List.range 3).map fun p => (p, .own)

/-- process 1 locks, updates 0 and 2 and unlocks; process 0 serves it and then locks itself -/
private def c89Run : List (Nat × Turn) :=
  c89Begin ++ [(1, .own), (2, .own), (0, .own), (0, .recv 1), (0, .recv 2), (0, .pass), (1, .recv 0), (1, .own),
    (1, .own), (1, .own), (1, .own), (0, .recv 1), (0, .recv 1), (0, .pass), (2, .recv 0), (2, .own)]

/-- process 2 holds the mutex after process 1 released it: process 0 was first asked by 1, then by 2 -/
example :
    let s := c89At 3 1 c89Body c89Run
    holding (c89Calls 1 c89Body s 2) (0, 0) = true ∧ (s.loc 1).pc = 6 ∧ (s.loc 0).log = [(1, 3)] ∧
    (s.loc 0).grants = [(1, 0, 2), (2, 0, 2)] := by decide +kernel

/-- the hypotheses of the theorems hold for these programs -/
example (sched : List (Nat × Turn)) (p q : Nat) (hp : p < 3) (hq : q < 3) :=
  C89_mutual_exclusion c89Body_proper sched p q hp hq

example := C89_visible c89Body_proper c89Run 1 2 (by decide) (by decide) (by decide) (0, 0) 3 5

/-- and so do those of the implication -/
example :
    let s := MsgLock.exec 3 (fun p => program 1 (c89Body p)) c89Run MsgLock.start
    (program 1 (c89Body 1))[3]? = some (.upd 0) ∧ (program 1 (c89Body 1))[5]? = some (.unlock (0, 0)) ∧
    5 < (s.loc 1).pc ∧ holding ((program 1 (c89Body 2)).take (s.loc 2).pc) (0, 0) = true := by decide +kernel

/-- every kind of turn of every process, again and again -/
private def c89Fair (i : Nat) : Nat × Turn :=
  (i % 3, match i / 3 % 5 with | 0 => .own | 1 => .pass | 2 => .recv 0 | 3 => .recv 1 | _ => .recv 2)

private theorem c89Fair_fair (p : Nat) (t : Turn) (hp : p < 3) (ht : ∀ q, t = Turn.recv q → q < 3) (i : Nat) :
    ∃ j, i ≤ j ∧ c89Fair j = (p, t) := by
  have key : ∀ k, k < 5 → ∃ j, i ≤ j ∧ j % 3 = p ∧ j / 3 % 5 = k := fun k hk =>
    ⟨15 * i + 3 * k + p, by omega, by omega, by omega⟩
  have fin : ∀ k, k < 5 → (match k with | 0 => .own | 1 => .pass | 2 => .recv 0 | 3 => .recv 1 | _ => .recv 2) = t →
      ∃ j, i ≤ j ∧ c89Fair j = (p, t) := by
    intro k hk hkt
    obtain ⟨j, h1, h2, h3⟩ := key k hk
    refine ⟨j, h1, ?_⟩
    unfold c89Fair
    rw [h2, h3, hkt]
  cases t with
  | own => exact fin 0 (by decide) rfl
  | pass => exact fin 1 (by decide) rfl
  | recv q =>
    have := ht q rfl
    match q with
    | 0 => exact fin 2 (by decide) rfl
    | 1 => exact fin 3 (by decide) rfl
    | 2 => exact fin 4 (by decide) rfl

example := C89_end c89Body_proper (fun _ => 0) (fun p _ => c89Body_ordered p) c89Fair c89Fair_fair
example := fun sched => C89_no_deadlock c89Body_proper (fun _ => 0) (fun p _ => c89Body_ordered p) sched

/-- it takes less than 300 turns -/
example : ∀ p ∈ List.range 3, ((c89At 3 1 c89Body ((List.range 300).map c89Fair)).loc p).pc =
    (program 1 (c89Body p)).length := by decide +kernel

/-- **C89, other memories need a fence.**  An update of a process the mutex is not at, made
while the mutex was held, may not have taken effect when the next process holds the mutex. -/
theorem C89_needs_fence :
    let s := MsgLock.exec 3 (fun p => program 1 (c89Body p)) c89Run MsgLock.start
    (program 1 (c89Body 1))[4]? = some (.upd 2) ∧ (program 1 (c89Body 1))[5]? = some (.unlock (0, 0)) ∧
    5 < (s.loc 1).pc ∧ holding ((program 1 (c89Body 2)).take (s.loc 2).pc) (0, 0) = true ∧
    (1, 4) ∉ (s.loc 2).log := by decide +kernel

/-- both processes create mutexes after a barrier but there is none after the creation -/
private def c89Early : Nat → List Call
  | 0 => [.sync, .create 1, .lock (1, 0), .unlock (1, 0), .destroy]
  | _ => [.sync, .create 1, .destroy]

/-- **C89, the creation does not synchronise.**  Without a barrier after the creation a lock
request can reach a process that has no mutexes yet: it reads the table outside its bounds. -/
theorem C89_create_race :
    let s := MsgLock.exec 2 c89Early [(0, .own), (1, .own), (0, .recv 0), (0, .recv 1), (0, .own), (0, .own),
      (0, .own), (1, .recv 0), (1, .recv 0), (1, .pass)] MsgLock.start
    (s.loc 0).num = 1 ∧ (s.loc 1).num = 0 ∧ (s.loc 1).ph = .bar ∧ (s.loc 1).fault = true := by decide +kernel

/-- two processes that take two mutexes in opposite order -/
private def c89Cross : Nat → List Call
  | 0 => [.lock (0, 0), .lock (1, 0), .unlock (1, 0), .unlock (0, 0)]
  | _ => [.lock (1, 0), .lock (0, 0), .unlock (0, 0), .unlock (1, 0)]

private def c89Dead : List (Nat × Turn) :=
  [(0, .own), (1, .own), (0, .own), (1, .own), (0, .recv 0), (0, .recv 1), (1, .recv 0), (1, .recv 1), (0, .own), (1, .own),
    (0, .own), (1, .own), (0, .recv 0), (1, .recv 1), (0, .pass), (1, .pass), (0, .recv 0), (1, .recv 1), (0, .own),
    (1, .own), (0, .own), (1, .own), (0, .recv 1), (1, .recv 0)]

/-- **C89, the order is needed.**  Without a common order two processes can wait for each other
for ever. -/
theorem C89_needs_order :
    let s := MsgLock.exec 2 (fun p => program 1 (c89Cross p)) c89Dead MsgLock.start
    (∀ p ∈ List.range 2, (s.loc p).pc < (program 1 (c89Cross p)).length) ∧
    ∀ p t, MsgLock.step 2 (fun p => program 1 (c89Cross p)) p t s = none := by
  refine ⟨by decide +kernel, fun p t => ?_⟩
  match p with
  | 0 =>
    cases t with
    | own => exact Option.isNone_iff_eq_none.1 (by decide +kernel)
    | pass => exact Option.isNone_iff_eq_none.1 (by decide +kernel)
    | recv q =>
      match q with
      | 0 => exact Option.isNone_iff_eq_none.1 (by decide +kernel)
      | 1 => exact Option.isNone_iff_eq_none.1 (by decide +kernel)
      | q + 2 => unfold MsgLock.step; rw [if_neg (by omega)]; dsimp only; rw [if_pos (.inl (by omega))]
  | 1 =>
    cases t with
    | own => exact Option.isNone_iff_eq_none.1 (by decide +kernel)
    | pass => exact Option.isNone_iff_eq_none.1 (by decide +kernel)
    | recv q =>
      match q with
      | 0 => exact Option.isNone_iff_eq_none.1 (by decide +kernel)
      | 1 => exact Option.isNone_iff_eq_none.1 (by decide +kernel)
      | q + 2 => unfold MsgLock.step; rw [if_neg (by omega)]; dsimp only; rw [if_pos (.inl (by omega))]
  | p + 2 => unfold MsgLock.step; rw [if_pos (by omega)]

end GA
