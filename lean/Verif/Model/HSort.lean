/-!
# Model: the heap sort of gather/scatter (global/src/hsort.scat.c)

`INDEX_SORT` (23-57) is a macro over a `SWAP` macro; here it is a function over the key accessor
and the swap function. Positions are counted from 1, as the C code does through `base0 = base - 1`.
-/

namespace GA.Model

section
variable {S : Type} (key : S → Nat → Int) (sw : S → Nat → Nat → S)

/-- Sift loop (hsort.scat.c 33-41 and 46-54): `p` is the current position, `g` the offset to its
left child. The fuel bounds the number of iterations; `hi` iterations always suffice. -/
def siftLoop (hi : Nat) : (fuel p g : Nat) → S → S
  | 0, _, _, s => s
  | f + 1, p, g, s =>
    let q := p + g
    if q ≤ hi then
      let g := g + g
      let right := decide (q ≠ hi) && decide (key s (q + 1) > key s q)
      let q' := if right then q + 1 else q
      let g' := if right then g + 1 else g
      if key s p ≥ key s q' then s
      else siftLoop hi f q' g' (sw s p q')
    else s

/-- First loop (hsort.scat.c 32-42): `for ( ; gap != 1; gap--)`. -/
def buildLoop (hi : Nat) : (gap : Nat) → S → S
  | gap + 2, s => buildLoop hi (gap + 1) (siftLoop key sw hi hi (gap + 2) (gap + 2) s)
  | _, s => s

/-- Second loop (hsort.scat.c 44-56): `for ( ; hi != base; hi--)`; position 1 is `base`. -/
def extractLoop : (hi : Nat) → S → S
  | hi + 2, s =>
    let s := siftLoop key sw (hi + 2) (hi + 2) 1 1 s
    extractLoop (hi + 1) (sw s 1 (hi + 2))
  | _, s => s

/-- `INDEX_SORT` with the early return for fewer than two elements (e.g. hsort.scat.c 70).
`hi = base0 + gap + gap (+1 if n is odd)`. -/
def indexSort (n : Nat) (s : S) : S :=
  if n < 2 then s
  else
    let gap := n / 2
    let hi := if n % 2 = 1 then gap + gap + 1 else gap + gap
    extractLoop key sw hi (buildLoop key sw hi gap s)

end

/-- exchange two positions (counted from 1) of an array -/
def hswapAt {α} [Inhabited α] (l : List α) (a b : Nat) : List α :=
  (l.set (a - 1) (l.getD (b - 1) default)).set (b - 1) (l.getD (a - 1) default)

/-- arrays handled by `ga_sort_scat`: keys, values and two subscript arrays -/
structure ScatArrays (β : Type) where
  base : List Int
  v : List β
  i : List Int
  j : List Int
deriving Repr, DecidableEq

/-- `SWAP` of the value-sorting variants (hsort.scat.c 73-82, 97-106, 142-151, 194-203). -/
def scatSwap {β} [Inhabited β] (s : ScatArrays β) (a b : Nat) : ScatArrays β :=
  ⟨hswapAt s.base a b, hswapAt s.v a b, hswapAt s.i a b, hswapAt s.j a b⟩

/-- `ga_sort_scat` for double, complex, long and float values (hsort.scat.c 62-108, 131-153,
183-229). -/
def sortScat {β} [Inhabited β] (n : Nat) (s : ScatArrays β) : ScatArrays β :=
  indexSort (fun s p => s.base.getD (p - 1) 0) scatSwap n s

/-- conversion of a 64-bit integer to `int` -/
def int32 (n : Int) : Int := (n + 2147483648) % 4294967296 - 2147483648

/-- exchange through a temporary of type `int`: the value moved to `b` is truncated -/
def hswapAtInt (l : List Int) (a b : Nat) : List Int :=
  (l.set (a - 1) (l.getD (b - 1) 0)).set (b - 1) (int32 (l.getD (a - 1) 0))

/-- `SWAP` of `ga_sort_scat_int_` (hsort.scat.c 167-176): `ltmp` is an `int`, so keys and
subscripts are truncated; the values are `int` anyway. -/
def scatSwapInt (s : ScatArrays Int) (a b : Nat) : ScatArrays Int :=
  ⟨hswapAtInt s.base a b, hswapAt s.v a b, hswapAtInt s.i a b, hswapAtInt s.j a b⟩

/-- `ga_sort_scat_int_` (hsort.scat.c 156-178). -/
def sortScatInt (n : Nat) (s : ScatArrays Int) : ScatArrays Int :=
  indexSort (fun s p => s.base.getD (p - 1) 0) scatSwapInt n s

/-- `ga_sort_gath` (hsort.scat.c 251-270): keys and two subscript arrays, no values. -/
def sortGath (n : Nat) (s : List Int × List Int × List Int) : List Int × List Int × List Int :=
  indexSort (fun s p => s.1.getD (p - 1) 0)
    (fun s a b => (hswapAt s.1 a b, hswapAt s.2.1 a b, hswapAt s.2.2 a b)) n s

/-- `ga_sort_permutation` (hsort.scat.c 110-126): keys and one index array. -/
def sortPermutation (n : Nat) (s : List Int × List Int) : List Int × List Int :=
  indexSort (fun s p => s.1.getD (p - 1) 0) (fun s a b => (hswapAt s.1 a b, hswapAt s.2 a b)) n s

/-- `gai_hsort` (hsort.scat.c 273-279): keys only. -/
def hsort (n : Nat) (l : List Int) : List Int :=
  indexSort (fun l p => l.getD (p - 1) 0) (fun l a b => hswapAt l a b) n l

end GA.Model
