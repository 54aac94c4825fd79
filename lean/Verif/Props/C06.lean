import Verif.Lemmas.PutGet

/-!
# C06: distinct elements never share storage

The element `x` of process `p` is stored at offset `locOffset A p x` (in elements) of the segment
of `p`, which has `allocElems A p` elements.
-/

namespace GA
open Spec Model

/-- **C06.** Offsets of owned elements lie inside the allocated segment and are pairwise
different, for every grid, every (also empty) block and every ghost width. -/
theorem C06_storage (A : RegArray) (hA : ArrOK A) (p : Int) (x : List Int) (hx : OwnedBy A p x) :
    (0 ≤ locOffset A p x ∧ locOffset A p x < allocElems A p) ∧
    ∀ y, OwnedBy A p y → locOffset A p y = locOffset A p x → y = x := by
  have key : ∀ y, OwnedBy A p y → FB (locZ y (owns A p).1 A.width) (locD (owns A p).1 (owns A p).2 A.width) ∧
      y.length = (owns A p).1.length ∧ A.width.length = (owns A p).1.length := by
    intro y hy
    have hy' := hy
    rw [ownedBy_iff hA.ne hA.map] at hy'
    obtain ⟨⟨p0, p1⟩, _⟩ := hy'
    have hlt : p.toNat < gridSize A.nblock := by omega
    have hl := owns_length hA (digits_ok hlt)
    have ho := owns_of_coord (A := A) (digits_ok hlt)
    rw [undigits_digits hlt, Int.toNat_of_nonneg p0] at ho
    have hw : A.width.length = (owns A p).1.length := by rw [ho, hl.1, hA.width]
    exact ⟨loc_fb hy hw, hy.length.1, hw⟩
  obtain ⟨a1, a2, a3⟩ := key x hx
  constructor
  · have := fb_bound a1
    unfold locOffset allocElems
    rw [locLoop_eq, allocLoop_eq]
    omega
  · intro y hy he
    obtain ⟨b1, b2, b3⟩ := key y hy
    unfold locOffset at he
    rw [locLoop_eq, locLoop_eq] at he
    exact locZ_inj b2 a2 a3 (fb_inj b1 a1 (by omega))

/-- example array with ghost cells: 10 x 7, blocks 1..4 / 5..4 / 5..10 times 1..3 / 4..7 -/
def exG : RegArray := ⟨[10, 7], [3, 2], [1, 5, 5, 1, 4], [2, 1]⟩

theorem exG_ok : ArrOK exG := ⟨by decide, by decide, by decide⟩

example : OwnedBy exG 5 [6, 5] ∧ locOffset exG 5 [6, 5] = 23 ∧ allocElems exG 5 = 60 := by decide

end GA
