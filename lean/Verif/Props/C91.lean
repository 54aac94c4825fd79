import Verif.Lemmas.SharedFiles

/-!
# C91: shared files: requests take effect in order, waits return when they are done, handles are fresh

Model: `Verif/Model/SharedFiles.lean` (pario/sf/shared.files.c and the asynchronous calls of
pario/elio/elio.c); specification: `Verif/Spec/SharedFiles.lean`.
-/

namespace GA
open SharedFiles Spec.Sf

variable {V : Type}

/-! ## The program as it is built -/

/-- In every run of any number of processes, every request to a shared file has been carried out when the call
returns, its id says so, and files and memories are as if all actions were carried out one after the other; no
condition on the program is needed. (The macro `ASYNC` is never defined, so the table of asynchronous
requests is never marked free.) -/
theorem C91_in_order (K mx : Nat) (c : Cell → V) (as : List (Act V)) (s : St V)
    (h : run K mx (init false c) as = some s) :
    s.cells = seqRun c as ∧ (∀ k, s.ids k = -1) ∧ ∀ p i sl, s.aio p i ≠ .busy sl := by
  obtain ⟨h1, h2, h3⟩ := zero_run as _ _ (fun _ _ => rfl) (fun _ => rfl) h
  refine ⟨h3, h2, fun p i sl e => ?_⟩
  rw [h1 p i] at e
  exact absurd e (by simp)

/-- No call fails or blocks: writes, reads, stores and waits for the ids that the requests return. -/
theorem C91_never_blocks (K mx : Nat) (c : Cell → V) (as : List (Act V))
    (h : ∀ a ∈ as, (∃ p, a = .wait p (-1)) ∨ (∃ p f off b n, a = .write p f off b n) ∨
      (∃ p f off b n, a = .read p f off b n) ∨ ∃ p x v, a = .store p x v) :
    ∃ s, run K mx (init false c) as = some s := by
  generalize init false c = s
  induction as generalizing s with
  | nil => exact ⟨s, rfl⟩
  | cons a as ih =>
    have : ∃ s', step K mx s a = some s' := by
      rcases h a List.mem_cons_self with ⟨p, rfl⟩ | ⟨p, f, off, b, n, rfl⟩ | ⟨p, f, off, b, n, rfl⟩ | ⟨p, x, v, rfl⟩
      · exact ⟨s, rfl⟩
      · exact ⟨_, rfl⟩
      · exact ⟨_, rfl⟩
      · exact ⟨_, rfl⟩
    obtain ⟨s', hs'⟩ := this
    obtain ⟨s'', h''⟩ := ih (fun a ha => h a (List.mem_cons_of_mem _ ha)) s'
    exact ⟨s'', by simp only [run, hs', Option.bind_some, h'']⟩

/-- two processes write, one waits, a third reads: the memory has both bytes -/
example : ((run 4 1000 (init false (fun x => match x with | .mem p a => p * 10 + a | .file _ _ => 0))
    [.write 0 7 0 1 1, .write 1 7 1 2 1, .wait 0 (-1), .read 2 7 0 5 2]).map
      fun s => (s.cells (.mem 2 5), s.cells (.mem 2 6), s.ids 0)) = some (1, 12, -1) := by decide +kernel

/-- The table the program has been given for asynchronous requests is full from the start, so every request that
looks for an entry reads the entry behind the end of the table. -/
theorem C91_lookup_overrun (K : Nat) (c : Cell → V) (p : Nat) :
    lookupFrom ((init false c).aio p) K 0 = K ∧ K ∈ lookupReads ((init false c).aio p) K 0 := by
  have := lookup_full ((init false c).aio p) K 0 (fun _ _ _ => rfl)
  rwa [Nat.zero_add] at this

/-! ## The program as intended: the table is marked free -/

/-- With asynchronous requests, whatever the order in which the system transfers bytes: if no request, and no store
by a process into its memory, gets into the way of a request in progress, and no transfer fails, then every byte that no request
in progress will change is as if all actions were carried out one after the other. -/
theorem C91_async (K mx : Nat) (async : Bool) (c : Cell → V) (as : List (Act V)) (s : St V)
    (h : run K mx (init async c) as = some s) (hc : RunClear K mx (init async c) as) (x : Cell)
    (hx : ∀ p i sl, s.aio p i = .busy sl → ¬ Writes sl.act x) : s.cells x = seqRun c as x := by
  have inv := inv_run as _ _ _ (inv_init async c) hc h
  refine inv.same x ?_
  rintro ⟨p, i, sl, t, h1, h2, rfl⟩
  exact hx p i sl h1 (inv.wr p i sl h1 t h2).1

private def c91c : Cell → Nat
  | .mem p a => p * 10 + a
  | .file _ _ => 0

/-- process 0 writes two bytes, the system transfers the second first, process 1 writes another place meanwhile; the
bytes are waited for and read back by process 2 -/
private def c91as : List (Act Nat) :=
  [.write 0 7 0 1 2, .sys 0 0 1, .write 1 7 2 4 1, .sys 0 0 0, .wait 0 0, .sys 1 0 0, .wait 1 0, .read 2 7 0 5 3,
   .sys 2 0 2, .sys 2 0 0, .sys 2 0 0, .wait 2 0]

example : ((run 4 1000 (init true c91c) c91as).map
    fun s => (s.cells (.mem 2 5), s.cells (.mem 2 6), s.cells (.mem 2 7), s.ids 2)) = some (1, 2, 14, 0) := by decide +kernel

/-- both requests are in progress at the same time and do not get into each other's way -/
example : Apart (V := Nat) (.write 1 7 2 4 1) (.write 0 7 0 1 2) := by
  intro x
  cases x <;> simp [Writes, Reads] ; all_goals omega

/-- the hypothesis of the theorem for a run with two requests in progress at once -/
example : RunClear 4 1000 (init true c91c) [.write 0 7 0 1 2, .write 1 7 2 4 1] := by
  refine ⟨fun p i sl hs => absurd hs (by simp [init]), fun _ _ => by simp, fun s hs => ?_⟩
  refine ⟨?_, fun _ _ => by simp, fun _ _ => trivial⟩
  obtain rfl := (Option.some.inj hs).symm
  intro p i sl hsl
  by_cases e : p = 0 ∧ i = 0
  · obtain ⟨rfl, rfl⟩ := e
    obtain rfl := (Ent.busy.inj (show Ent.busy _ = Ent.busy sl from hsl)).symm
    intro x
    cases x <;> simp [Writes, Reads] ; all_goals omega
  · rw [show (issue 4 1000 (init true c91c) 0 (0 + 2) (.write 0 7 0 1 2)).aio p i = .free from if_neg e] at hsl
    exact absurd hsl (by simp)

/-- Requests in progress have ids that tell them apart, and a wait for the id of a request returns only when all its
bytes have been transferred; then it is no longer in progress. This holds with failures and conflicts. -/
theorem C91_wait (K mx : Nat) (async : Bool) (c : Cell → V) (as : List (Act V)) (s : St V)
    (h : run K mx (init async c) as = some s) :
    (∀ p i sl q j sk, s.aio p i = .busy sl → s.aio q j = .busy sk → sl.req = sk.req → p = q ∧ i = j) ∧
    (∀ p i sl, s.aio p i = .busy sl → i < K ∧ s.ids sl.req = (i : Int) ∧ s.own sl.req = p) ∧
    ∀ k s', step K mx s (.wait (s.own k) (s.ids k)) = some s' →
      (∀ q i sl, s.aio q i = .busy sl → sl.req = k → sl.todo = []) ∧
        (∀ q i sl, s'.aio q i = .busy sl → sl.req ≠ k) ∧ s'.cells = s.cells := by
  have inv := id_run as _ _ (id_init K async c) h
  refine ⟨?_, ?_, ?_⟩
  · intro p i sl q j sk h1 h2 e
    have r1 := inv p i sl h1
    have r2 := inv q j sk h2
    rw [e] at r1
    exact ⟨r1.2.2.2.symm.trans r2.2.2.2, by have := r1.2.2.1.symm.trans r2.2.2.1; omega⟩
  · intro p i sl h1
    exact ⟨(inv p i sl h1).1, (inv p i sl h1).2.2⟩
  · intro k s' hs
    exact wait_done inv rfl hs

/-- the wait blocks while a byte is missing and returns afterwards -/
example : (run 4 1000 (init true c91c) [.write 0 7 0 1 1, .wait 0 0]).isNone = true ∧
    (run 4 1000 (init true c91c) [.write 0 7 0 1 1, .sys 0 0 0, .wait 0 0]).isSome = true := by decide +kernel

/-- A request that is issued takes an entry that was free or is carried out at once: requests in progress
are never lost. -/
theorem C91_issue_keeps (K mx : Nat) (s : St V) (p last : Nat) (a : Act V) (q j : Nat) (sl : Slot V)
    (h : s.aio q j = .busy sl) : (issue K mx s p last a).aio q j = .busy sl := by
  unfold issue
  dsimp only
  split
  · exact h
  · rename_i hh
    dsimp only
    rw [setSlot_other]
    · exact h
    · rintro ⟨rfl, rfl⟩
      rw [lookup_free (s.aio q) K 0 (by omega)] at h
      exact absurd h (by simp)

example : ((run 4 1000 (init true c91c) [.write 0 7 0 1 1, .write 0 7 1 1 1, .write 0 7 2 1 1, .write 0 7 3 1 1,
    .write 0 7 4 1 1]).map fun s => (s.ids 3, s.ids 4, s.cells (.file 7 4), s.cells (.file 7 3))) = some (3, -1, 1, 0) := by
  decide +kernel

/-- From every state that can be reached the system can finish any request in progress, and then the wait for it returns. -/
theorem C91_wait_returns (K mx : Nat) (async : Bool) (c : Cell → V) (as : List (Act V)) (s : St V)
    (h : run K mx (init async c) as = some s) (p i : Nat) (sl : Slot V) (hs : s.aio p i = .busy sl) :
    ∃ (n : Nat) (s' : St V), run K mx s (List.replicate n (.sys p i 0) ++ [.wait p (s.ids sl.req)]) = some s' ∧ s'.aio p i = .free := by
  have inv := id_run as _ _ (id_init K async c) h p i sl hs
  obtain ⟨s1, h1, h2, _⟩ := can_finish (K := K) (mx := mx) p i _ s sl hs rfl
  have app : ∀ (l m : List (Act V)) (u : St V), run K mx u (l ++ m) = (run K mx u l).bind fun w => run K mx w m := by
    intro l m
    induction l with
    | nil => intro u; rfl
    | cons a l ih =>
      intro u
      simp only [List.cons_append, run]
      cases step K mx u a with
      | none => rfl
      | some w => exact ih w
  refine ⟨sl.todo.length, { s1 with aio := setSlot s1.aio p i .free }, ?_, setSlot_self _ _ _ _⟩
  rw [app, h1, inv.2.2.1]
  have hK := inv.1
  simp only [Option.bind_some, run, step]
  rw [if_neg (by omega), if_neg (by omega), Int.toNat_natCast, h2]
  rfl

/-! ## What the waits do not tell -/

/-- A transfer that fails is not reported: the wait returns as for a transfer that was carried out, and the file does
not have the byte. -/
theorem C91_failure_not_reported :
    ∃ (s s' : St Nat), run 4 1000 (init true c91c) [.write 0 7 0 5 1, .fail 0 0, .wait 0 0] = some s ∧
      run 4 1000 (init true c91c) [.write 0 7 0 5 1, .sys 0 0 0, .wait 0 0] = some s' ∧
      s.cells (.file 7 0) = 0 ∧ s'.cells (.file 7 0) = 5 := ⟨_, _, rfl, rfl, rfl, rfl⟩

/-- Without the condition on requests in progress the outcome depends on the system: a byte that is read while it is being
written. -/
theorem C91_conflict :
    ∃ (s s' : St Nat), run 4 1000 (init true c91c) [.write 0 7 0 5 1, .read 1 7 0 3 1, .sys 0 0 0, .sys 1 0 0, .wait 1 0] = some s ∧
      run 4 1000 (init true c91c) [.write 0 7 0 5 1, .read 1 7 0 3 1, .sys 1 0 0, .sys 0 0 0, .wait 1 0] = some s' ∧
      s.cells (.mem 1 3) = 5 ∧ s'.cells (.mem 1 3) = 0 := ⟨_, _, rfl, rfl, rfl, rfl⟩

/-! ## Handles -/

/-- After every history of calls other than `sf_create_suffix`, files in use have different names, `sf_create` returns a handle that is not in
use, gives it a name of its own, changes no other file, and fails only if the table is full. -/
theorem C91_handles_partial (n : Nat) (cs : List Call) (hs : List Nat) (t : Nat → SfEnt) (h : sfRun n sfInit cs = some (hs, t))
    (hn : NoSuffix cs) :
    (∀ a b, (t a).actv = true → (t b).actv = true → a ≠ b → (t a).name ≠ (t b).name) ∧
    (∀ fname, sfCall n t (.create fname) = none ↔ ∀ k, k < n → (t k).actv = true) ∧
    ∀ fname r t', sfCall n t (.create fname) = some (r, t') → r < n ∧ (t r).actv = false ∧
      (t' r).actv = true ∧ (t' r).opn = true ∧ (∀ k, k ≠ r → t' k = t k) ∧
      ∀ k, k ≠ r → (t k).actv = true → (t k).name ≠ (t' r).name := by
  have inv : NameInv t := name_run cs sfInit t hs (fun _ hh => absurd hh (by simp [sfInit])) hn h
  refine ⟨?_, ?_, ?_⟩
  · intro a b ha hb hab e
    have := (inv a ha).symm.trans ((congrArg Prod.snd e).trans (inv b hb))
    omega
  · intro fname
    simp only [sfCall, Option.map_eq_none_iff, getHandle_none]
    constructor
    · intro hh k hk; exact hh k (by omega) (by omega)
    · intro hh k _ hk; exact hh k (by omega)
  · intro fname r t' e
    simp only [sfCall, Option.map_eq_some_iff] at e
    obtain ⟨k, hk, e⟩ := e
    obtain ⟨rfl, rfl⟩ := Prod.mk.inj e
    have g := getHandle_some t n 0 k hk
    dsimp only
    refine ⟨by omega, g.2.2.1, by rw [if_pos rfl], by rw [if_pos rfl], fun j hj => if_neg hj, ?_⟩
    intro j hj ha e2
    rw [if_pos rfl] at e2
    have := (inv j ha).symm.trans (congrArg Prod.snd e2)
    dsimp only at this
    omega

example : (sfRun 100 sfInit [.create 7, .create 7, .destroy 0, .create 8, .create 7]).map (·.1) = some [0, 1, 0, 0, 2] := by
  decide +kernel

/-- Missing from the above: with `sf_create_suffix` two files in use can be one file on disk. -/
theorem C91_suffix_shared :
    ∃ (t : Nat → SfEnt), sfRun 100 sfInit [.createSuffix 7 1, .create 7] = some ([0, 1], t) ∧
      (t 0).actv = true ∧ (t 1).actv = true ∧ (t 0).name = (t 1).name := ⟨_, rfl, rfl, rfl, rfl⟩

/-- A file that has been closed cannot be destroyed: `sf_destroy` closes it once more, which uses memory that has
been freed; after `sf_open` it can. -/
theorem C91_destroy_closed (n : Nat) (t : Nat → SfEnt) (h : Nat) (t' : Nat → SfEnt) (r : Nat)
    (hc : sfCall n t (.close h) = some (r, t')) : sfCall n t' (.destroy h) = none := by
  simp only [sfCall] at hc
  split at hc
  · exact absurd hc (by simp)
  · obtain ⟨rfl, rfl⟩ := Prod.mk.inj (Option.some.inj hc)
    simp [sfCall]

example : (sfRun 100 sfInit [.create 7, .close 0]).isSome = true ∧ (sfRun 100 sfInit [.create 7, .close 0, .destroy 0]).isNone = true ∧
    (sfRun 100 sfInit [.create 7, .close 0, .reopen 0, .destroy 0]).isSome = true := by decide +kernel

end GA
