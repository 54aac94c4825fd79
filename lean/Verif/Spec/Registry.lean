/-!
# Specification: a registry of memory segments

The registry holds, per process, a set of disjoint segments.
-/

namespace GA.Spec

/-- A segment: first address, number of bytes, and where it is mapped locally. -/
structure Seg where
  buf : Int
  len : Int
  mapped : Int
deriving DecidableEq, Repr

/-- byte `a` belongs to the segment -/
def Seg.Has (s : Seg) (a : Int) : Prop := s.buf ≤ a ∧ a < s.buf + s.len

/-- the bytes of the range `buf, len` are asked for; an empty range stands for the byte at `buf` -/
def InRange (buf len a : Int) : Prop := buf ≤ a ∧ a < buf + (if len = 0 then 1 else len)

/-- the segment contains the whole range -/
def Seg.Contains (s : Seg) (buf len : Int) : Prop := ∀ a, InRange buf len a → s.Has a

inductive ROp where
  /-- a segment of `len > 0` bytes -/
  | register (rank : Int) (s : Seg)
  | deregister (rank : Int) (buf : Int)
  | lookup (rank : Int) (buf len : Int)

inductive RRes where
  | done
  | found (s : Option Seg)
  /-- the call aborts the program -/
  | abort
deriving DecidableEq, Repr

/-- content: which segments of which process are registered -/
abbrev RegSet := Int → Seg → Prop

/-- What a registry for `nprocs` processes may answer, and its new content. -/
inductive RStep (nprocs : Int) : RegSet → ROp → RRes → RegSet → Prop
  | registerOk {S r s} : 0 ≤ r → r < nprocs → s.buf ≠ 0 →
      (∀ t, S r t → ∀ a, ¬ (t.Has a ∧ s.Has a)) →
      RStep nprocs S (.register r s) .done (fun r' t => S r' t ∨ (r' = r ∧ t = s))
  | registerBad {S r s} : (¬ (0 ≤ r ∧ r < nprocs) ∨ s.buf = 0 ∨ ∃ t a, S r t ∧ t.Has a ∧ s.Has a) →
      RStep nprocs S (.register r s) .abort S
  | deregisterOk {S r b} (s : Seg) : 0 ≤ r → r < nprocs → S r s → s.buf = b →
      RStep nprocs S (.deregister r b) .done (fun r' t => S r' t ∧ ¬ (r' = r ∧ t = s))
  | deregisterBad {S r b} :
      (¬ (0 ≤ r ∧ r < nprocs) ∨ b = 0 ∨ ∀ s, S r s → s.buf ≠ b) →
      RStep nprocs S (.deregister r b) .abort S
  | lookupSome {S r b n} (s : Seg) : 0 ≤ r → r < nprocs → b ≠ 0 → S r s → s.Contains b n →
      RStep nprocs S (.lookup r b n) (.found (some s)) S
  | lookupNone {S r b n} : 0 ≤ r → r < nprocs → (∀ s, S r s → ¬ s.Contains b n) →
      RStep nprocs S (.lookup r b n) (.found none) S
  | lookupBad {S r b n} : (¬ (0 ≤ r ∧ r < nprocs) ∨ b = 0) →
      RStep nprocs S (.lookup r b n) .abort S

/-- histories -/
inductive RRun (nprocs : Int) : RegSet → List (ROp × RRes) → RegSet → Prop
  | nil {S} : RRun nprocs S [] S
  | cons {S S' S'' o r rs} : RStep nprocs S o r S' → RRun nprocs S' rs S'' →
      RRun nprocs S ((o, r) :: rs) S''

end GA.Spec
