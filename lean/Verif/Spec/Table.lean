/-!
# Specification: a table of handles

Abstractly a handle table is a partial map from handles to data.
-/

namespace GA.Spec

/-- Requests to a handle table. `memOk` says whether the system can provide memory for growing the
table during this call. -/
inductive TOp (D : Type) where
  | alloc (d : D) (memOk : Bool)
  | dealloc (h : Int)
  | lookup (h : Int)
  | assoc (d : D)
  | verify (h : Int)

/-- Responses; `handle none` and `data none` are the failure values. -/
inductive TRes (D : Type) where
  | handle (h : Option Int)
  | data (d : Option D)
  | done
  | valid (b : Bool)
deriving DecidableEq

variable {D : Type} [DecidableEq D]

/-- What a handle table may answer and how its content changes. -/
inductive TStep : (Int → Option D) → TOp D → TRes D → (Int → Option D) → Prop
  /-- a new handle is not negative and not in use, and afterwards leads to the data -/
  | allocOk {m d b h} : 0 ≤ h → m h = none →
      TStep m (.alloc d b) (.handle (some h)) (fun x => if x = h then some d else m x)
  /-- allocation fails only if the system has no memory, and then changes nothing -/
  | allocFail {m d} : TStep m (.alloc d false) (.handle none) m
  | dealloc {m h} : TStep m (.dealloc h) .done (fun x => if x = h then none else m x)
  | lookup {m h} : TStep m (.lookup h) (.data (m h)) m
  | assocSome {m d h} : m h = some d → TStep m (.assoc d) (.handle (some h)) m
  | assocNone {m d} : (∀ h, m h ≠ some d) → TStep m (.assoc d) (.handle none) m
  | verify {m h} : TStep m (.verify h) (.valid (m h).isSome) m

/-- A history of requests and responses that a handle table may show. -/
inductive TRun : (Int → Option D) → List (TOp D × TRes D) → (Int → Option D) → Prop
  | nil {m} : TRun m [] m
  | cons {m m' m'' o r rs} : TStep m o r m' → TRun m' rs m'' → TRun m ((o, r) :: rs) m''

end GA.Spec
