import Verif.Spec.Patch

/-!
# Specification: a global array is one plain array

`f : List Int → V` is the content of the array as a function of the subscript.
-/

namespace GA.Spec

/-- Number of elements of a patch. -/
def numElems : (lo hi : List Int) → Int
  | l :: lo, h :: hi => (h - l + 1) * numElems lo hi
  | _, _ => 1

/-- Edge lengths of a patch. -/
def edgeLens : (lo hi : List Int) → List Int
  | l :: lo, h :: hi => (h - l + 1) :: edgeLens lo hi
  | _, _ => []

/-- product of a list -/
def prodL : List Int → Int
  | [] => 1
  | a :: as => a * prodL as

/-- A put or accumulate request: patch, leading dimensions of the buffer, buffer content
(as a function of the element position in the buffer). -/
inductive Op (V : Type) where
  | put (lo hi ld : List Int) (buf : Int → V)
  | acc (lo hi ld : List Int) (alpha : V) (buf : Int → V)

/-- leading dimensions of a request are legal -/
def Op.LdOK {V} : Op V → Prop
  | .put lo hi ld _ => Spec.LdOK lo hi ld
  | .acc lo hi ld _ _ => Spec.LdOK lo hi ld

/-- Effect of one request on the plain array. -/
def specStep {V} [Add V] [Mul V] (f : List Int → V) : Op V → (List Int → V)
  | .put lo hi ld buf => fun x => if InPatch lo hi x then buf (bufPos lo ld x) else f x
  | .acc lo hi ld alpha buf =>
    fun x => if InPatch lo hi x then f x + alpha * buf (bufPos lo ld x) else f x

/-- Effect of a history of requests. -/
def specRun {V} [Add V] [Mul V] (f : List Int → V) (ops : List (Op V)) : List Int → V :=
  ops.foldl specStep f

/-- `buf'` is a correct result of getting patch `lo..hi` of `f` into the buffer `buf`: the
patch elements are at their places and all other buffer positions are unchanged. -/
def GetResult {V} (lo hi ld : List Int) (f : List Int → V) (buf buf' : Int → V) : Prop :=
  (∀ x, InPatch lo hi x → buf' (bufPos lo ld x) = f x) ∧
  (∀ i, (∀ x, InPatch lo hi x → bufPos lo ld x ≠ i) → buf' i = buf i)

end GA.Spec
