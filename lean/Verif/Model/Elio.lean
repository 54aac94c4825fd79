import Mathlib.Algebra.Group.Defs

/-!
# Model: independent files (pario/elio/elio.c), used by EAF, by shared files and by disk arrays

A file is a chain of physical files, the extents. `M` is the largest size of a physical file (`elio_max_file_size`) and `A` the bound for offsets (`ABSURDLY_LARGE`).
A 64 bit build has `M = A = 10^14`, a 32 bit build without large files `M` = 2 GB - 1 MB and `A` = 127 * 2 GB. The contents of a physical file are its length and
the bytes below it. Simplifications: offsets are integers, seeking never fails, the system does not run out of descriptors, nobody else changes the files.
-/

namespace GA.Elio

/-- a physical file -/
structure Phys (V : Type) where
  len : Nat
  dat : Nat → V

/-- the types of `elio_open` (elio.c 717-727) -/
inductive Mode
  | w
  | r
  | rw
deriving DecidableEq

/-- the physical files on the disk, by extent, and the descriptors: the first `opened` extents are open (`fd->next` of the last of them is null) -/
structure File (V : Type) where
  disk : Nat → Option (Phys V)
  mode : Mode
  opened : Nat

/-- error codes (eliop.h 108-) -/
inductive Err
  | seek
  | opn
  | writ
  | read
  | eof
deriving DecidableEq

/-- answers of the system to a call of `read` or `write`: interrupted, at most `k + 1` bytes, an error -/
inductive Ans
  | intr
  | part (k : Nat)
  | err

section
variable {V : Type} [Zero V]

/-- an empty physical file -/
def empty : Phys V := ⟨0, fun _ => 0⟩

/-- the system writes bytes at an offset; a gap behind the end is filled with zeros -/
def pwrite (p : Phys V) (off : Nat) (d : List V) : Phys V :=
  if d.isEmpty then p
  else ⟨max p.len (off + d.length), fun z => if off ≤ z ∧ z < off + d.length then d.getD (z - off) 0 else if z < p.len then p.dat z else 0⟩

/-- the loop of `elio_write` (elio.c 233-243). At the end of the list of answers the system writes everything. -/
def writeLoop : List Ans → Phys V → Nat → List V → Bool × Phys V × List Ans
  | [], p, off, d => (true, pwrite p off d, [])
  | a :: s, p, off, d =>
    if d.isEmpty then (true, p, a :: s)
    else match a with
      | .intr => writeLoop s p off d
      | .err => (false, p, s)
      | .part k => let n := min (k + 1) d.length; writeLoop s (pwrite p off (d.take n)) (off + n) (d.drop n)

/-- bytes of a physical file -/
def slice (p : Phys V) (off n : Nat) : List V := (List.range n).map fun i => p.dat (off + i)

/-- the loop of `elio_read` (elio.c 484-497): `read` returns 0 at the end of the file -/
def readLoop : List Ans → Phys V → Nat → Nat → Except Err (List V) × List Ans
  | [], p, off, n => (if n = 0 ∨ off + n ≤ p.len then .ok (slice p off n) else .error .eof, [])
  | a :: s, p, off, n =>
    if n = 0 then (.ok [], a :: s)
    else match a with
      | .intr => readLoop s p off n
      | .err => (.error .read, s)
      | .part k =>
        let m := min (k + 1) (min n (p.len - off))
        if m = 0 then (.error .eof, s)
        else match readLoop s p (off + m) (n - m) with
          | (.ok l, s') => (.ok (slice p off m ++ l), s')
          | e => e

/-- open a physical file (elio.c 717-727, 760): `O_CREAT | O_TRUNC`, nothing, or `O_CREAT` -/
def openPhys (m : Mode) (p : Option (Phys V)) : Option (Phys V) :=
  match m with
  | .w => some empty
  | .r => p
  | .rw => some (p.getD empty)

/-- `MAX_EXTENT` (elio.c 144) -/
def maxExtent : Nat := 127

/-- `elio_get_next_extent` (elio.c 166-192) of extent `e` -/
def nextExt (e : Nat) (f : File V) : Option (File V) :=
  if e + 1 < f.opened then some f
  else if maxExtent ≤ e then none
  else match openPhys f.mode (f.disk (e + 1)) with
    | none => none
    | some p => some { f with disk := fun i => if i = e + 1 then some p else f.disk i, opened := e + 2 }

/-- `elio_write` (elio.c 203-265) for extent `e`; `left` is the number of extents that can follow -/
def write (M A : Nat) : Nat → Nat → Nat → List V → File V → List Ans → Except Err Unit × File V × List Ans
  | left, e, off, d, f, s =>
    if A ≤ off then (.error .seek, f, s)
    else if M ≤ off then
      match nextExt e f, left with
      | some f', left + 1 => write M A left (e + 1) (off - M) d f' s
      | _, _ => (.error .opn, f, s)
    else
      let here := if M ≤ off + d.length then d.take (M - off) else d
      let rest := if M ≤ off + d.length then d.drop (M - off) else []
      match f.disk e with
      | none => (.error .seek, f, s)
      | some p =>
        if f.mode = .r ∧ ¬ here.isEmpty then (.error .writ, f, s)
        else
          let w := writeLoop s p off here
          let f1 : File V := { f with disk := fun i => if i = e then some w.2.1 else f.disk i }
          if w.1 = false then (.error .writ, f1, w.2.2)
          else if rest.isEmpty then (.ok (), f1, w.2.2)
          else
            match nextExt e f1, left with
            | some f2, left + 1 =>
              match write M A left (e + 1) 0 rest f2 w.2.2 with
              | (.ok _, f3, s3) => (.ok (), f3, s3)
              | (.error _, f3, s3) => (.error .writ, f3, s3)
            | _, _ => (.error .opn, f1, w.2.2)

/-- `elio_read` (elio.c 447-515) -/
def read (M A : Nat) : Nat → Nat → Nat → Nat → File V → List Ans → Except Err (List V) × File V × List Ans
  | left, e, off, n, f, s =>
    if A ≤ off then (.error .seek, f, s)
    else if M ≤ off then
      match nextExt e f, left with
      | some f', left + 1 => read M A left (e + 1) (off - M) n f' s
      | _, _ => (.error .opn, f, s)
    else
      let here := if M ≤ off + n then M - off else n
      let rest := if M ≤ off + n then n - (M - off) else 0
      match f.disk e with
      | none => (.error .seek, f, s)
      | some p =>
        if f.mode = .w ∧ here ≠ 0 then (.error .read, f, s)
        else
          match readLoop s p off here with
          | (.error x, s1) => (.error x, f, s1)
          | (.ok l, s1) =>
            if rest = 0 then (.ok l, f, s1)
            else
              match nextExt e f, left with
              | some f2, left + 1 =>
                match read M A left (e + 1) 0 rest f2 s1 with
                | (.ok l', f3, s3) => (.ok (l ++ l'), f3, s3)
                | (.error _, f3, s3) => (.error .read, f3, s3)
              | _, _ => (.error .opn, f, s1)

/-- `elio_write` of a file (elio.c 203-265): the descriptor of extent 0 -/
def elioWrite (M A off : Nat) (d : List V) (f : File V) (s : List Ans) : Except Err Unit × File V := ((write M A maxExtent 0 off d f s).1, (write M A maxExtent 0 off d f s).2.1)

/-- `elio_read` of a file (elio.c 447-515): the descriptor of extent 0 -/
def elioRead (M A off n : Nat) (f : File V) (s : List Ans) : Except Err (List V) × File V := ((read M A maxExtent 0 off n f s).1, (read M A maxExtent 0 off n f s).2.1)

/-- `elio_open` (elio.c 692-790) -/
def openFile (m : Mode) (disk : Nat → Option (Phys V)) : Option (File V) :=
  match openPhys m (disk 0) with
  | none => none
  | some p => some ⟨fun i => if i = 0 then some p else disk i, m, 1⟩

/-- `elio_length` (elio.c 413-441): the open extents but the last count as full -/
def length (M : Nat) (f : File V) : Nat := (f.opened - 1) * M + ((f.disk (f.opened - 1)).map Phys.len).getD 0

/-- `ftruncate` -/
def ptrunc (p : Phys V) (n : Nat) : Phys V := ⟨n, fun z => if z < p.len then p.dat z else 0⟩

/-- `elio_truncate` (elio.c 382-408); a failed open of the next extent is followed through a null pointer: `none` -/
def truncate (M : Nat) : Nat → Nat → Nat → File V → Option (File V)
  | left, e, n, f =>
    if M ≤ n then
      match nextExt e f, left with
      | some f', left + 1 => truncate M left (e + 1) (n - M) f'
      | _, _ => none
    else some { f with disk := fun i => if i = e then (f.disk i).map fun p => ptrunc p n else f.disk i }

/-- `elio_truncate` of a file -/
def elioTruncate (M n : Nat) (f : File V) : Option (File V) := truncate M maxExtent 0 n f

/-- the extents `elio_delete` removes (elio.c 876-884): `k` more, from `e` on, until one does not exist -/
def deleteFrom : Nat → Nat → (Nat → Option (Phys V)) → Nat → Option (Phys V)
  | 0, _, disk => disk
  | k + 1, e, disk =>
    match disk e with
    | none => disk
    | some _ => deleteFrom k (e + 1) fun i => if i = e then none else disk i

/-- `elio_delete` (elio.c 856-894) -/
def delete (disk : Nat → Option (Phys V)) : Nat → Option (Phys V) :=
  match disk 0 with
  | none => disk
  | some _ => deleteFrom (maxExtent - 1) 1 fun i => if i = 0 then none else disk i

end

end GA.Elio
