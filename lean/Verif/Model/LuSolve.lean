import Mathlib.Algebra.Order.Field.Basic
import Mathlib.Algebra.Order.Group.Abs

/-!
# Model: solution of linear equations (global/src/ga_solve_seq.c)

The routines of LINPACK that are used when neither LAPACK nor Fortran is configured. The values are those of an ordered field: rounding is not modelled. The element
`a[lda*k+i]` of the buffer is `a k i`: column `k`, row `i`; all rows used are smaller than `lda`, so different pairs are different elements. A vector that starts
at `&x[lo]` is given by `x` and `lo`.

`roll` says whether the macro `ROLL` (or `UNROLL`) is defined when the file is compiled. No file of the distribution and no build script defines one of them.
-/

namespace GA.Lu

variable {V : Type} [Field V] [LinearOrder V]

/-- `f` with the value `v` at `i` -/
def set (f : Nat → V) (i : Nat) (v : V) : Nat → V := fun x => if x = i then v else f x

/-- `LP_daxpy(n, da, &dx[lo], 1, &dy[lo], 1)` (ga_solve_seq.c 28-79) with different vectors. Each element is stored once, so the loop is the assignment of all. -/
def daxpy (roll : Bool) (lo n : Nat) (da : V) (dx dy : Nat → V) : Nat → V :=
  if n = 0 then dy
  else if da = 0 then dy
  else if roll then fun i => if lo ≤ i ∧ i < lo + n then dy i + da * dx i else dy i
  else dy

/-- `LP_ddot(n, &dx[lo], 1, &dy[lo], 1)` (ga_solve_seq.c 83-134) -/
def ddot (roll : Bool) (lo n : Nat) (dx dy : Nat → V) : V :=
  if n = 0 then 0
  else if roll then (List.range n).foldl (fun t i => t + dx (lo + i) * dy (lo + i)) 0
  else 0

/-- `LP_dscal(n, da, &dx[lo], 1)` (ga_solve_seq.c 137-182) -/
def dscal (roll : Bool) (lo n : Nat) (da : V) (dx : Nat → V) : Nat → V :=
  if n = 0 then dx
  else if roll then fun i => if lo ≤ i ∧ i < lo + n then da * dx i else dx i
  else dx

/-- `LP_idamax(n, &dx[lo], 1)` (ga_solve_seq.c 185-233) for `n > 0`: index and absolute value of the largest element so far -/
def idamax (n lo : Nat) (dx : Nat → V) : Nat :=
  if n = 1 then 0
  else ((List.range (n - 1)).foldl (fun s i => if s.2 < |dx (lo + (i + 1))| then (i + 1, |dx (lo + (i + 1))|) else s) (0, |dx lo|)).1

/-- buffer, pivots and `info` -/
structure Fac (V : Type) where
  a : Nat → Nat → V
  ipvt : Nat → Nat
  info : Nat

/-- interchange of two elements of a column, `if (l != k) {...}` (ga_solve_seq.c 312-316, 328-331) -/
def swapIf (l k : Nat) (c : Nat → V) : Nat → V := if l ≠ k then set (set c l (c k)) k (c l) else c

/-- one step of the elimination in `LP_dgefa` (ga_solve_seq.c 299-339) -/
def dgefaStep (roll : Bool) (n : Nat) (s : Fac V) (k : Nat) : Fac V :=
  let l := idamax (n - k) k (s.a k) + k
  if s.a k l ≠ 0 then
    let c := swapIf l k (s.a k)
    let ck := dscal roll (k + 1) (n - (k + 1)) (-1 / c k) c
    { a := fun j =>
        if j = k then ck
        else if k < j ∧ j < n then daxpy roll (k + 1) (n - (k + 1)) (s.a j l) ck (swapIf l k (s.a j))
        else s.a j
      ipvt := fun x => if x = k then l else s.ipvt x
      info := s.info }
  else { s with ipvt := fun x => if x = k then l else s.ipvt x, info := k }

/-- `LP_dgefa` (ga_solve_seq.c 237-343) for `n > 0`; `ipvt0` is the content of the allocated vector of pivots -/
def dgefa (roll : Bool) (n : Nat) (a : Nat → Nat → V) (ipvt0 : Nat → Nat) : Fac V :=
  let s := (List.range (n - 1)).foldl (dgefaStep roll n) ⟨a, ipvt0, 0⟩
  { s with ipvt := fun x => if x = n - 1 then n - 1 else s.ipvt x, info := if s.a (n - 1) (n - 1) = 0 then n - 1 else s.info }

/-- the loop for `l*y = b` (ga_solve_seq.c 411-421), one pass -/
def forwardStep (roll : Bool) (n : Nat) (s : Fac V) (b : Nat → V) (k : Nat) : Nat → V :=
  daxpy roll (k + 1) (n - (k + 1)) (b (s.ipvt k)) (s.a k) (swapIf (s.ipvt k) k b)

/-- the loop for `u*x = y` (ga_solve_seq.c 425-430), one pass -/
def backStep (roll : Bool) (s : Fac V) (b : Nat → V) (k : Nat) : Nat → V :=
  let b' := set b k (b k / s.a k k)
  daxpy roll 0 k (-b' k) (s.a k) b'

/-- the loop for `trans(u)*y = b` (ga_solve_seq.c 437-440), one pass -/
def forwardT (roll : Bool) (s : Fac V) (b : Nat → V) (k : Nat) : Nat → V :=
  set b k ((b k - ddot roll 0 k (s.a k) b) / s.a k k)

/-- the loop for `trans(l)*x = y` (ga_solve_seq.c 445-454), one pass -/
def backT (roll : Bool) (n : Nat) (s : Fac V) (b : Nat → V) (k : Nat) : Nat → V :=
  swapIf (s.ipvt k) k (set b k (b k + ddot roll (k + 1) (n - (k + 1)) (s.a k) b))

/-- `LP_dgesl` (ga_solve_seq.c 347-458). In the last loop `kb` runs from 1 to `n-2`, so `k = n-1-kb` runs from `n-2` down to 1. -/
def dgesl (roll : Bool) (n : Nat) (s : Fac V) (b : Nat → V) (job : Bool) : Nat → V :=
  if ¬ job then
    let y := (List.range (n - 1)).foldl (forwardStep roll n s) b
    (List.range n).foldl (fun y kb => backStep roll s y (n - (kb + 1))) y
  else
    let y := (List.range n).foldl (forwardT roll s) b
    (List.range (n - 2)).foldl (fun y i => backT roll n s y (n - (i + 1 + 1))) y

/-- results of a call -/
inductive Out (V : Type)
  /-- `pnga_error` -/
  | abort
  /-- a division by zero: the elements of the result are not numbers -/
  | div0
  /-- `x j` is column `j` of the result -/
  | ok (x : Nat → Nat → V)

/-- `pnga_lu_solve_seq` (ga_solve_seq.c 484-595) on arrays with `n` rows and columns and `n` rows: process 0 copies both arrays, solves for each column of `b` and
copies the result back into `g_b`. `a` and `b` are given by columns. -/
def luSolve (roll trans : Bool) (n dimB1 : Nat) (a b : Nat → Nat → V) (ipvt0 : Nat → Nat) : Out V :=
  if n ≠ dimB1 then .abort
  else
    let s := dgefa roll n a ipvt0
    if s.info = 0 then
      if (List.range n).any fun k => decide (s.a k k = 0) then .div0 else .ok fun j => dgesl roll n s (b j) trans
    else .abort

end GA.Lu
