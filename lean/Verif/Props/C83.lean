import Verif.Lemmas.GopCall

/-!
# C83: collective operations over message trees

Every history of broadcasts and global operations, in the world and in groups,
ends under every schedule and every buffering of the transport, and gives the
memories that the operations say.
-/

namespace GA
open Gop Net Spec.Gop

variable {α : Type}

/-- The effect of one call, in terms of the specification. -/
def c83Effect (nproc : Nat) : Call α → (Nat → Nat → α) → Nat → Nat → α
  | .bcast len root, x => bcastAll nproc len root x
  | .gop op _ n, x => gopAll op nproc n x
  | .gbcast ms len orig, x => bcastGroup ms len orig x
  | .ggop ms op _ n, x => gopGroup op ms n x

/-- A legal call: the root exists, the operation is commutative and
associative, the work buffer is not empty, the members of a group are
different. -/
def c83Legal (nproc : Nat) : Call α → Prop
  | .bcast _ root => root < nproc
  | .gop op B _ => 0 < B ∧ (∀ a b, op a b = op b a) ∧ ∀ a b c, op (op a b) c = op a (op b c)
  | .gbcast ms _ orig => ms.Nodup ∧ orig < ms.length
  | .ggop ms op B _ => ms.Nodup ∧ ms ≠ [] ∧ 0 < B ∧ (∀ a b, op a b = op b a) ∧
      ∀ a b c, op (op a b) c = op a (op b c)

private theorem call_run {cap : Nat → Nat → Nat → Option Nat} {T : Topo} (hT : Valid T)
    {c : Call α} (hc : c83Legal T.nproc c) {rest : Nat → Prog α} {s : Net (Nat → α) (List α)}
    (hp : ∀ p, s.prog p = callProg T c p ++ rest p) (hch : s.ch = fun _ _ _ => []) :
    ∃ s', Runs cap s s' ∧ s'.ch = s.ch ∧ (∀ p, s'.prog p = rest p) ∧
      s'.buf = c83Effect T.nproc c s.buf := by
  cases c with
  | bcast len root =>
    obtain ⟨s', h1, h2, h3, h4, h5⟩ := bcast_call (cap := cap) hT (len := len) (root := root) hc
      (rest := rest) (s := s) (fun p h => by rw [hp p]; simp only [callProg, if_pos h]) hch
    refine ⟨s', h1, h2, fun p => ?_, ?_⟩
    · by_cases h : p < T.nproc
      · exact h3 p h
      · rw [(h4 p (by omega)).1, hp p]; simp only [callProg, if_neg h]; rfl
    · funext p k
      simp only [c83Effect, bcastAll]
      by_cases h : p < T.nproc
      · simp only [h, true_and]; exact h5 p h k
      · simp only [h, false_and, if_false]; rw [(h4 p (by omega)).2]
  | gop op B n =>
    obtain ⟨hB, hcm, has⟩ := hc
    have : Std.Commutative op := ⟨hcm⟩
    have : Std.Associative op := ⟨has⟩
    obtain ⟨s', h1, h2, h3, h4, h5⟩ := gop_call (cap := cap) hT op hB (n := n)
      (rest := rest) (s := s) (fun p h => by rw [hp p]; simp only [callProg, if_pos h]) hch
    refine ⟨s', h1, h2, fun p => ?_, ?_⟩
    · by_cases h : p < T.nproc
      · exact h3 p h
      · rw [(h4 p (by omega)).1, hp p]; simp only [callProg, if_neg h]; rfl
    · funext p k
      simp only [c83Effect, gopAll]
      by_cases h : p < T.nproc
      · simp only [h, true_and]; exact h5 p h k
      · simp only [h, false_and, if_false]; rw [(h4 p (by omega)).2]
  | gbcast ms len orig =>
    obtain ⟨hn, ho⟩ := hc
    obtain ⟨s', h1, h2, h3, h4, h5⟩ := gbcast_call (cap := cap) hn (len := len) ho
      (rest := rest) (s := s) (fun i hi => by
        rw [hp _]; simp only [callProg, idxOf_absOf hn hi]) hch
    refine ⟨s', h1, h2, fun p => ?_, ?_⟩
    · by_cases h : p ∈ ms
      · exact h3 p h
      · rw [(h4 p h).1, hp p]; simp only [callProg, idxOf_none h]; rfl
    · funext p k
      simp only [c83Effect, bcastGroup]
      by_cases h : p ∈ ms
      · simp only [h, true_and]; exact h5 p h k
      · simp only [h, false_and, if_false]; rw [(h4 p h).2]
  | ggop ms op B n =>
    obtain ⟨hn, hne, hB, hcm, has⟩ := hc
    have : Std.Commutative op := ⟨hcm⟩
    have : Std.Associative op := ⟨has⟩
    obtain ⟨s', h1, h2, h3, h4, h5⟩ := ggop_call (cap := cap) hn
      (List.length_pos_iff.mpr hne) op hB (n := n)
      (rest := rest) (s := s) (fun i hi => by
        rw [hp _]; simp only [callProg, idxOf_absOf hn hi]) hch
    refine ⟨s', h1, h2, fun p => ?_, ?_⟩
    · by_cases h : p ∈ ms
      · exact h3 p h
      · rw [(h4 p h).1, hp p]; simp only [callProg, idxOf_none h]; rfl
    · funext p k
      simp only [c83Effect, gopGroup]
      by_cases h : p ∈ ms
      · simp only [h, true_and]; exact h5 p h k
      · simp only [h, false_and, if_false]; rw [(h4 p h).2]

private theorem history_run {cap : Nat → Nat → Nat → Option Nat} {T : Topo} (hT : Valid T) :
    ∀ (h : List (Call α)), (∀ c ∈ h, c83Legal T.nproc c) → ∀ (s : Net (Nat → α) (List α)),
    (∀ p, s.prog p = h.flatMap (callProg T · p)) → s.ch = (fun _ _ _ => []) →
    ∃ s', Runs cap s s' ∧ Done s' ∧ s'.ch = (fun _ _ _ => []) ∧
      s'.buf = h.foldl (fun x c => c83Effect T.nproc c x) s.buf
  | [], _, s, hp, hch => ⟨s, Runs.refl s, fun p => by rw [hp p]; rfl, hch, rfl⟩
  | c :: h, hl, s, hp, hch => by
      obtain ⟨s1, hr1, hc1, hp1, hb1⟩ := call_run (cap := cap) hT (hl c (by simp))
        (rest := fun p => h.flatMap (callProg T · p)) (s := s)
        (fun p => by rw [hp p, List.flatMap_cons]) hch
      obtain ⟨s2, hr2, hd2, hc2, hb2⟩ := history_run (cap := cap) hT h
        (fun c hc => hl c (by simp [hc])) s1 hp1 (by rw [hc1, hch])
      exact ⟨s2, hr1.trans hr2, hd2, hc2, by rw [hb2, hb1]; rfl⟩

/-- C83: every history of broadcasts (from any process, of any length) and
global operations (on any number of elements, with any commutative and
associative operation), called by all processes or by the members of groups
that may overlap, on any number of nodes of any sizes: whatever the schedule
and however many messages the transport stores (`cap`),
* from every state that can be reached all processes can finish, and a state
  in which no process can move is one in which all have finished (no
  deadlock);
* when all have finished, the memories are those of the operations applied
  one after the other, nothing else has changed, and no message is left. -/
theorem C83_history (T : Topo) (hT : Nodes T.nproc T.nclus T.master T.nslave T.clus)
    (h : List (Call α)) (hl : ∀ c ∈ h, c83Legal T.nproc c) (x : Nat → Nat → α)
    (cap : Nat → Nat → Nat → Option Nat) (sched : List Nat) :
    (∃ more, Done (exec cap (sched ++ more) (history T h x))) ∧
    ((∀ p, step cap p (exec cap sched (history T h x)) = none) →
      Done (exec cap sched (history T h x))) ∧
    (Done (exec cap sched (history T h x)) →
      (exec cap sched (history T h x)).buf = h.foldl (fun x c => c83Effect T.nproc c x) x ∧
      (exec cap sched (history T h x)).ch = fun _ _ _ => []) := by
  obtain ⟨t, hr, hd, hc, hb⟩ := history_run (cap := cap) hT h hl (history T h x) (fun p => rfl) rfl
  obtain ⟨⟨more, hm⟩, h2, h3⟩ := every_schedule hd hr sched
  exact ⟨⟨more, by rw [hm]; exact hd⟩, h3, fun hdone => by rw [h2 hdone]; exact ⟨hb, hc⟩⟩

/-- Two nodes with two and three processes. -/
def c83Topo : Topo :=
  ⟨5, 2, fun c => 2 * c, fun c => if c = 0 then 2 else 3, fun p => if p < 2 then 0 else 1⟩

/-- The hypotheses can be met: five processes on two nodes, a sum over all
(nine elements in pieces of four), a broadcast from process 3, and a maximum in
the group of processes 4, 0 and 2. -/
example : Nodes c83Topo.nproc c83Topo.nclus c83Topo.master c83Topo.nslave c83Topo.clus ∧
    ∀ c ∈ ([.gop (· + ·) 4 9, .bcast 7 3, .ggop [4, 0, 2] max 2 5] : List (Call Int)),
      c83Legal c83Topo.nproc c := by
  constructor
  · refine ⟨by decide, rfl, ?_, ?_, rfl, ?_⟩
    · intro c _
      simp only [c83Topo]
      split <;> omega
    · intro c hc
      simp only [c83Topo] at hc ⊢
      have : c = 0 := by omega
      subst this
      rfl
    · intro p hp
      simp only [c83Topo] at hp ⊢
      split <;> (simp; omega)
  · intro c hc
    simp only [List.mem_cons, List.not_mem_nil, or_false] at hc
    rcases hc with rfl | rfl | rfl
    · exact ⟨by decide, Int.add_comm, Int.add_assoc⟩
    · exact (by decide : (3 : Nat) < 5)
    · exact ⟨by decide, by simp, by decide, Int.max_comm, Int.max_assoc⟩

/-- Two processes add up two numbers, one after the other. -/
example : (exec (fun _ _ _ => some 0) [1, 0, 1, 0, 1, 0]
    (history ⟨2, 1, fun _ => 0, fun _ => 2, fun _ => 0⟩ [.gop (· + ·) 8 1]
      (fun p _ => (p : Int) + 5))).buf 1 0 = 11 := by decide +kernel

/-! ## Which operations -/

/-- What the names mean: sum, product, largest, smallest, largest and smallest
absolute value, logical and, logical or of `f 0, ..., f n`. -/
def c83Meaning (name : String) (f : Nat → Int) (n : Nat) : Option Int :=
  if name = "+" then some (combine (fun x y => x + y) f n)
  else if name = "*" then some (combine (fun x y => x * y) f n)
  else if name = "max" then some (combine max f n)
  else if name = "min" then some (combine min f n)
  else if name = "absmax" then some (combine max (fun i => ((f i).natAbs : Int)) n)
  else if name = "absmin" then some (combine min (fun i => ((f i).natAbs : Int)) n)
  else if name = "&&" then some (if (List.range (n + 1)).all (fun i => f i != 0) then 1 else 0)
  else if name = "||" then some (if (List.range (n + 1)).any (fun i => f i != 0) then 1 else 0)
  else none

/-- The names. -/
def c83Names : List String := ["+", "*", "max", "min", "absmax", "absmin", "&&", "||"]

private theorem absI_eq (x : Int) : absI x = (x.natAbs : Int) := by unfold absI; split <;> omega

private theorem combine_absmax (f : Nat → Int) : ∀ n,
    combine (fun x w => max (absI x) (absI w)) f (n + 1) =
      combine max (fun i => ((f i).natAbs : Int)) (n + 1) ∧
      0 ≤ combine max (fun i => ((f i).natAbs : Int)) (n + 1)
  | 0 => by
      simp only [combine, absI_eq]
      exact ⟨trivial, by omega⟩
  | n + 1 => by
      obtain ⟨h1, h2⟩ := combine_absmax f n
      have e1 : combine (fun x w => max (absI x) (absI w)) f (n + 1 + 1) =
        max (absI (combine (fun x w => max (absI x) (absI w)) f (n + 1))) (absI (f (n + 1 + 1))) := rfl
      have e2 : combine max (fun i => ((f i).natAbs : Int)) (n + 1 + 1) =
        max (combine max (fun i => ((f i).natAbs : Int)) (n + 1)) ((f (n + 1 + 1)).natAbs : Int) := rfl
      rw [e1, e2, h1, absI_eq, absI_eq]
      generalize combine max (fun i => ((f i).natAbs : Int)) (n + 1) = c at *
      omega

private theorem combine_absmin (f : Nat → Int) : ∀ n,
    combine (fun x w => min (absI x) (absI w)) f (n + 1) =
      combine min (fun i => ((f i).natAbs : Int)) (n + 1) ∧
      0 ≤ combine min (fun i => ((f i).natAbs : Int)) (n + 1)
  | 0 => by
      simp only [combine, absI_eq]
      exact ⟨trivial, by omega⟩
  | n + 1 => by
      obtain ⟨h1, h2⟩ := combine_absmin f n
      have e1 : combine (fun x w => min (absI x) (absI w)) f (n + 1 + 1) =
        min (absI (combine (fun x w => min (absI x) (absI w)) f (n + 1))) (absI (f (n + 1 + 1))) := rfl
      have e2 : combine min (fun i => ((f i).natAbs : Int)) (n + 1 + 1) =
        min (combine min (fun i => ((f i).natAbs : Int)) (n + 1)) ((f (n + 1 + 1)).natAbs : Int) := rfl
      rw [e1, e2, h1, absI_eq, absI_eq]
      generalize combine min (fun i => ((f i).natAbs : Int)) (n + 1) = c at *
      omega

private theorem combine_and (f : Nat → Int) : ∀ n,
    combine (fun x w => if x ≠ 0 ∧ w ≠ 0 then 1 else 0) f (n + 1) =
      if (List.range (n + 1 + 1)).all (fun i => f i != 0) then (1 : Int) else 0
  | 0 => by simp [combine, List.range_succ]
  | n + 1 => by
      rw [combine, combine_and f n, List.range_succ (n := n + 1 + 1), List.all_append]
      cases h1 : (List.range (n + 1 + 1)).all (fun i => f i != 0) <;> simp

private theorem combine_or (f : Nat → Int) : ∀ n,
    combine (fun x w => if x ≠ 0 ∨ w ≠ 0 then 1 else 0) f (n + 1) =
      if (List.range (n + 1 + 1)).any (fun i => f i != 0) then (1 : Int) else 0
  | 0 => by simp [combine, List.range_succ]
  | n + 1 => by
      rw [combine, combine_or f n, List.range_succ (n := n + 1 + 1), List.any_append]
      cases h1 : (List.range (n + 1 + 1)).any (fun i => f i != 0) <;> simp

/-- C83 (partial: two processes and more, see `C83_single`): every operation
of the documentation is found under its name, is commutative and associative
(so that `C83_history` applies to it), and combining the contributions of the
processes with it gives what its name means. -/
theorem C83_names_partial (name : String) (hn : name ∈ c83Names) (f : Nat → Int) (n : Nat) :
    ∃ op, intOp name = some op ∧ (∀ a b, op a b = op b a) ∧
      (∀ a b c, op (op a b) c = op a (op b c)) ∧
      some (combine op f (n + 1)) = c83Meaning name f (n + 1) := by
  simp only [c83Names, List.mem_cons, List.not_mem_nil, or_false] at hn
  rcases hn with rfl | rfl | rfl | rfl | rfl | rfl | rfl | rfl
  · exact ⟨_, rfl, Int.add_comm, Int.add_assoc, rfl⟩
  · exact ⟨_, rfl, Int.mul_comm, Int.mul_assoc, rfl⟩
  · exact ⟨_, rfl, Int.max_comm, Int.max_assoc, rfl⟩
  · exact ⟨_, rfl, Int.min_comm, Int.min_assoc, rfl⟩
  · refine ⟨_, rfl, ?_, ?_, ?_⟩
    · intro a b; exact Int.max_comm _ _
    · intro a b c; simp only [absI_eq]; omega
    · exact congrArg some (combine_absmax f n).1
  · refine ⟨_, rfl, ?_, ?_, ?_⟩
    · intro a b; exact Int.min_comm _ _
    · intro a b c; simp only [absI_eq]; omega
    · exact congrArg some (combine_absmin f n).1
  · refine ⟨_, rfl, ?_, ?_, ?_⟩
    · intro a b; simp only [and_comm]
    · intro a b c
      by_cases ha : a = 0 <;> by_cases hb : b = 0 <;> by_cases hc : c = 0 <;> simp [ha, hb, hc]
    · exact congrArg some (combine_and f n)
  · refine ⟨_, rfl, ?_, ?_, ?_⟩
    · intro a b; simp only [or_comm]
    · intro a b c
      by_cases ha : a = 0 <;> by_cases hb : b = 0 <;> by_cases hc : c = 0 <;> simp [ha, hb, hc]
    · exact congrArg some (combine_or f n)

example : "absmax" ∈ c83Names ∧ c83Meaning "absmax" (fun i => -(i : Int)) 3 = some 3 := by
  decide

/-- The disagreement: with a single process the message trees combine nothing,
so an operation of any kind leaves the memory as it is; the largest absolute
value of -3 is given as -3, and 5 && is given as 5. -/
theorem C83_single (op : Int → Int → Int) (hc : ∀ a b, op a b = op b a)
    (ha : ∀ a b c, op (op a b) c = op a (op b c)) (B n : Nat) (hB : 0 < B) (x : Nat → Nat → Int)
    (cap : Nat → Nat → Nat → Option Nat) (sched : List Nat)
    (hd : Done (exec cap sched (history ⟨1, 1, fun _ => 0, fun _ => 1, fun _ => 0⟩
      [.gop op B n] x))) :
    (exec cap sched (history ⟨1, 1, fun _ => 0, fun _ => 1, fun _ => 0⟩ [.gop op B n] x)).buf = x ∧
    c83Meaning "absmax" (fun _ => -3) 0 = some 3 ∧ c83Meaning "&&" (fun _ => 5) 0 = some 1 := by
  refine ⟨?_, by decide, by decide⟩
  have h := (C83_history ⟨1, 1, fun _ => 0, fun _ => 1, fun _ => 0⟩
    ⟨Nat.one_pos, rfl, fun _ _ => Nat.one_pos, fun c hc => absurd hc (by simp), rfl,
      fun p hp => ⟨Nat.one_pos, Nat.zero_le _, by simpa using hp⟩⟩ [.gop op B n]
    (by intro c hm; simp only [List.mem_singleton] at hm; subst hm; exact ⟨hB, hc, ha⟩)
    x cap sched).2.2 hd
  rw [h.1]
  funext p k
  simp only [List.foldl_cons, List.foldl_nil, c83Effect, gopAll]
  split
  · rename_i h
    obtain ⟨h1, -⟩ := h
    have : p = 0 := by omega
    subst this
    rfl
  · rfl

/-- It does end: the hypothesis of `C83_single` can be met. -/
example : Done (exec (fun _ _ _ => some 0) []
    (history ⟨1, 1, fun _ => 0, fun _ => 1, fun _ => 0⟩
      [.gop (fun x w => max (absI x) (absI w)) 8 1] (fun _ _ => -3))) := by
  intro p
  by_cases hp : p < 1
  · have : p = 0 := by omega
    subst this
    rfl
  · simp only [exec, history, callProg, List.flatMap_cons, List.flatMap_nil, if_neg hp]
    rfl

private theorem combine_pre (op : Int → Int → Int) (f : Nat → Int) : ∀ n,
    combine op (fun i => absI (f i)) n = combine op (fun i => ((f i).natAbs : Int)) n
  | 0 => absI_eq _
  | n + 1 => by rw [combine, combine, combine_pre op f n, absI_eq]

/-- The port on MPI alone takes the absolute values first: its arithmetic
operations mean the same for any number of processes, one included. -/
theorem C83_names_mpi (name : String) (hn : name ∈ c83Names.take 6) (f : Nat → Int) (n : Nat) :
    ∃ pre op, comexOp name = some (pre, op) ∧ (∀ a b, op a b = op b a) ∧
      (∀ a b c, op (op a b) c = op a (op b c)) ∧
      some (combine op (fun i => pre (f i)) n) = c83Meaning name f n := by
  simp only [c83Names, List.take_succ_cons, List.take_zero, List.mem_cons, List.not_mem_nil,
    or_false] at hn
  rcases hn with rfl | rfl | rfl | rfl | rfl | rfl
  · exact ⟨_, _, rfl, Int.add_comm, Int.add_assoc, rfl⟩
  · exact ⟨_, _, rfl, Int.mul_comm, Int.mul_assoc, rfl⟩
  · exact ⟨_, _, rfl, Int.max_comm, Int.max_assoc, rfl⟩
  · exact ⟨_, _, rfl, Int.min_comm, Int.min_assoc, rfl⟩
  · exact ⟨_, _, rfl, Int.max_comm, Int.max_assoc, congrArg some (combine_pre max f n)⟩
  · exact ⟨_, _, rfl, Int.min_comm, Int.min_assoc, congrArg some (combine_pre min f n)⟩

example : "absmin" ∈ c83Names.take 6 := by decide

/-! ## Complex numbers -/

private theorem combine_parts (z : Nat → Nat → Int × Int) (k : Nat) : ∀ n,
    (combine (fun x y => x + y) (fun p => parts (z p) (2 * k)) n,
      combine (fun x y => x + y) (fun p => parts (z p) (2 * k + 1)) n) =
    combine (fun u v : Int × Int => (u.1 + v.1, u.2 + v.2)) (fun p => z p k) n
  | 0 => by
      simp only [combine, parts]
      rw [if_pos (by omega), if_neg (by omega), show 2 * k / 2 = k by omega,
        show (2 * k + 1) / 2 = k by omega]
  | n + 1 => by
      have h := combine_parts z k n
      rw [combine, combine, combine, ← h]
      simp only [parts]
      rw [if_pos (by omega), if_neg (by omega), show 2 * k / 2 = k by omega,
        show (2 * k + 1) / 2 = k by omega]

/-- Sums of complex numbers: adding the parts of `n` numbers as `2 * n`
numbers gives, at the parts of number `k`, the parts of the sum. -/
theorem C83_complex_sum (nproc n : Nat) (z : Nat → Nat → Int × Int) (p k : Nat)
    (hp : p < nproc) (hk : k < n) :
    (gopAll (fun x y => x + y) nproc (2 * n) (fun q => parts (z q)) p (2 * k),
      gopAll (fun x y => x + y) nproc (2 * n) (fun q => parts (z q)) p (2 * k + 1)) =
    gopAll (fun u v : Int × Int => (u.1 + v.1, u.2 + v.2)) nproc n z p k := by
  simp only [gopAll]
  rw [if_pos (by omega), if_pos (by omega), if_pos (by omega)]
  exact combine_parts z k (nproc - 1)

example : (2 : Nat) < 3 ∧ (1 : Nat) < 4 := by decide

/-- The disagreement: `GA_Zgop` with `"*"` multiplies the parts, not the
numbers.  Two processes with the imaginary unit get the imaginary unit; the
product is -1. -/
theorem C83_complex_product :
    ∃ (z : Nat → Nat → Int × Int),
      (gopAll (fun x y => x * y) 2 2 (fun q => parts (z q)) 0 0,
        gopAll (fun x y => x * y) 2 2 (fun q => parts (z q)) 0 1) = (0, 1) ∧
      gopAll (fun u v : Int × Int => (u.1 * v.1 - u.2 * v.2, u.1 * v.2 + u.2 * v.1)) 2 1 z 0 0 =
        (-1, 0) := ⟨fun _ _ => (0, 1), by decide, by decide⟩

end GA
