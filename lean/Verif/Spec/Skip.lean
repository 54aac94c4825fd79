import Verif.Spec.Patch

/-!
# Specification: patches with skips

`NGA_Strided_put(g_a, lo, hi, skip, buf, ld)` addresses the elements
`lo + skip*i` (componentwise, `i = 0, 1, 2, ...`) of the patch `lo..hi`, and element `lo + skip*i`
is at position `i` of the buffer.
-/

namespace GA.Spec

/-- `x` is one of the elements `lo`, `lo+skip`, `lo+2*skip`, ... of the patch, in every dimension -/
def Selected : (lo hi skip x : List Int) → Prop
  | [], [], [], [] => True
  | l :: lo, h :: hi, s :: skip, x :: xs => (∃ i, 0 ≤ i ∧ x = l + s * i ∧ x ≤ h) ∧ Selected lo hi skip xs
  | _, _, _, _ => False

/-- Position of element `lo + skip*i` in the user buffer: that of index `i` in column-major order
with leading dimensions `ld`. -/
def skipPos : (lo skip ld x : List Int) → Int
  | l :: lo, s :: skip, d :: ld, x :: xs => (x - l) / s + d * skipPos lo skip ld xs
  | l :: _, s :: _, [], x :: _ => (x - l) / s
  | _, _, _, _ => 0

/-- The leading dimensions of the buffer hold the selected elements: `ld[d] ≥ (hi[d]-lo[d])/skip[d]+1`
for all dimensions but the last. -/
def SkipLdOK : (lo hi skip ld : List Int) → Prop
  | [_], [_], [_], [] => True
  | l :: l' :: lo, h :: h' :: hi, s :: s' :: skip, d :: ld =>
    (h - l) / s + 1 ≤ d ∧ SkipLdOK (l' :: lo) (h' :: hi) (s' :: skip) ld
  | _, _, _, _ => False

instance decSkipLdOK : (lo hi skip ld : List Int) → Decidable (SkipLdOK lo hi skip ld)
  | [_], [_], [_], [] => isTrue trivial
  | l :: l' :: lo, h :: h' :: hi, s :: s' :: skip, d :: ld =>
    have := decSkipLdOK (l' :: lo) (h' :: hi) (s' :: skip) ld
    inferInstanceAs (Decidable ((h - l) / s + 1 ≤ d ∧ SkipLdOK (l' :: lo) (h' :: hi) (s' :: skip) ld))
  | [], _, _, _ | _, [], _, _ | _, _, [], _ | [_], _ :: _ :: _, _, _ | [_], _, _ :: _ :: _, _ |
    [_], _, _, _ :: _ | _ :: _ :: _, [_], _, _ | _ :: _ :: _, _, [_], _ | _ :: _ :: _, _, _, [] =>
    isFalse (by simp [SkipLdOK])

end GA.Spec
