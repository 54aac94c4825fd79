/-!
# Processes that talk through messages

The message passing layer under the collective operations of ARMCI
(`armci/src/collectives/message.c`, lines 693-760, `armci_msg_snd` and
`armci_msg_rcv`, which call `MPI_Send` and `MPI_Recv` with one tag on one
communicator).

A process is a list of actions.  A send is two actions: the message is handed
over (`post`), and the sender goes on when the transport lets it (`wait`).
How many messages a transport stores before it makes the sender wait is not
known to the program; it is the parameter `cap`: `some 0` is a rendezvous,
`none` is unlimited storage.  Messages of one pair of processes and one tag
arrive in the order of their sending (the MPI rule of non-overtaking).
The schedule, that is which process makes the next step, is arbitrary.

Simplified: `MPI_Recv` with a length that is too small, errors of the
transport and the byte representation of the elements are left out.
-/

namespace GA.Net

/-- One action of a process with memory `β` and messages `μ`.
`armci/src/collectives/message.c` lines 693-703 (send), 708-719 (receive). -/
inductive Act (β μ : Type) where
  /-- hand over the message `f buf` for process `dst` -/
  | post (dst tag : Nat) (f : β → μ)
  /-- `MPI_Send` returns -/
  | wait (dst tag : Nat)
  /-- receive from `src`; `g` says what becomes of the memory -/
  | recv (src tag : Nat) (g : β → μ → β)

/-- All processes and the messages on the way, by sender, receiver and tag. -/
structure Net (β μ : Type) where
  prog : Nat → List (Act β μ)
  buf : Nat → β
  ch : Nat → Nat → Nat → List μ

variable {β μ : Type}

/-- Function update. -/
def upd {γ : Type} (f : Nat → γ) (p : Nat) (v : γ) : Nat → γ :=
  fun q => if q = p then v else f q

/-- Update of one channel. -/
def updCh (c : Nat → Nat → Nat → List μ) (p q t : Nat) (v : List μ) :
    Nat → Nat → Nat → List μ :=
  fun p' q' t' => if p' = p ∧ q' = q ∧ t' = t then v else c p' q' t'

/-- The transport lets a sender go on when it stores `n` of its messages. -/
def room (cap : Option Nat) (n : Nat) : Bool :=
  match cap with
  | none => true
  | some c => decide (n ≤ c)

/-- The next step of process `p`; `none` when it has finished or has to wait.
`MPI_Send`, `MPI_Recv` in `armci/src/collectives/message.c` lines 693-719. -/
def step (cap : Nat → Nat → Nat → Option Nat) (p : Nat) (s : Net β μ) :
    Option (Net β μ) :=
  match s.prog p with
  | [] => none
  | .post d t f :: k =>
      some { s with prog := upd s.prog p k, ch := updCh s.ch p d t (s.ch p d t ++ [f (s.buf p)]) }
  | .wait d t :: k =>
      if room (cap p d t) (s.ch p d t).length then some { s with prog := upd s.prog p k } else none
  | .recv q t g :: k =>
      match s.ch q p t with
      | [] => none
      | m :: ms => some { prog := upd s.prog p k, buf := upd s.buf p (g (s.buf p) m),
                          ch := updCh s.ch q p t ms }

/-- A whole schedule; the turn of a process that cannot move is lost. -/
def exec (cap : Nat → Nat → Nat → Option Nat) : List Nat → Net β μ → Net β μ
  | [], s => s
  | p :: l, s => exec cap l ((step cap p s).getD s)

/-- All processes have finished. -/
def Done (s : Net β μ) : Prop := ∀ p, s.prog p = []

end GA.Net
