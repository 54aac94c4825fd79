/-!
# Specification of global operations

No definition of the model is used here.
-/

namespace GA.Spec.Gop

/-- `f 0 ∘ f 1 ∘ ... ∘ f n`. -/
def combine {α : Type} (op : α → α → α) (f : Nat → α) : Nat → α
  | 0 => f 0
  | n + 1 => op (combine op f n) (f (n + 1))

/-- The nodes are intervals of processes, one after the other, from process 0
on, and every process belongs to the node in whose interval it is. -/
def Nodes (nproc nclus : Nat) (master nslave clus : Nat → Nat) : Prop :=
  0 < nclus ∧ master 0 = 0 ∧ (∀ c, c < nclus → 0 < nslave c) ∧
  (∀ c, c + 1 < nclus → master (c + 1) = master c + nslave c) ∧
  master (nclus - 1) + nslave (nclus - 1) = nproc ∧
  ∀ p, p < nproc → clus p < nclus ∧ master (clus p) ≤ p ∧
    p < master (clus p) + nslave (clus p)

variable {α : Type}

/-- The memories `x p` of the processes after a broadcast from `root`: the
first `len` elements are those of `root`. -/
def bcastAll (nproc len root : Nat) (x : Nat → Nat → α) : Nat → Nat → α :=
  fun p k => if p < nproc ∧ k < len then x root k else x p k

/-- After a global operation: the first `n` elements are combined over all
processes. -/
def gopAll (op : α → α → α) (nproc n : Nat) (x : Nat → Nat → α) : Nat → Nat → α :=
  fun p k => if p < nproc ∧ k < n then combine op (fun q => x q k) (nproc - 1) else x p k

/-- After a broadcast in a group from its member number `orig`. -/
def bcastGroup (members : List Nat) (len orig : Nat) (x : Nat → Nat → α) : Nat → Nat → α :=
  fun p k => if p ∈ members ∧ k < len then x (members.getD orig 0) k else x p k

/-- After a global operation in a group. -/
def gopGroup (op : α → α → α) (members : List Nat) (n : Nat) (x : Nat → Nat → α) :
    Nat → Nat → α :=
  fun p k => if p ∈ members ∧ k < n
    then combine op (fun r => x (members.getD r 0) k) (members.length - 1) else x p k

end GA.Spec.Gop
