import Verif.Model.SprsDense
import Verif.Spec.SprsDense
import Verif.Lemmas.SprsProd
import Mathlib.Algebra.Order.BigOperators.Group.List
import Mathlib.Algebra.Order.Monoid.NatCast

/-! # Lemmas: sparse and dense arrays -/

namespace GA.Sprs
open GA.Model GA.Spec.Sprs

variable {V : Type}

/-- an element is inside a patch -/
def Box.Has (b : Box) (x0 x1 : Int) : Prop := b.lo0 ≤ x0 ∧ x0 ≤ b.hi0 ∧ b.lo1 ≤ x1 ∧ x1 ≤ b.hi1

/-- the element added for the internal subscripts `x0`, `x1` -/
def mkEl (trans : Bool) (x0 x1 : Int) (v : V) : El V := if trans then ⟨x1 - 1, x0 - 1, v⟩ else ⟨x0 - 1, x1 - 1, v⟩

section
variable [Zero V] [DecidableEq V]

theorem mem_filterElems {trans : Bool} {b : Box} {mem : Int → V} {D : Int → Int → V}
    (hmem : ∀ x0 x1, b.Has x0 x1 → mem (x0 - b.lo0 + (x1 - b.lo1) * (b.hi0 - b.lo0 + 1)) = D x0 x1) (e : El V) :
    e ∈ filterElems trans b mem ↔ ∃ x0 x1, b.Has x0 x1 ∧ (D x0 x1 ≠ 0 ∨ x0 = x1) ∧ e = mkEl trans x0 x1 (D x0 x1) := by
  unfold filterElems
  simp only [List.mem_flatMap, List.mem_filterMap, List.mem_range]
  constructor
  · rintro ⟨jj, hj, ii, hi, h⟩
    have hh : b.Has (b.lo0 + ii) (b.lo1 + jj) := by
      unfold Box.Has
      omega
    have hm := hmem _ _ hh
    have e1 : b.lo0 + (ii : Int) - b.lo0 = ii := by omega
    have e2 : b.lo1 + (jj : Int) - b.lo1 = jj := by omega
    rw [e1, e2] at hm
    rw [hm] at h
    split at h
    · next hc =>
      refine ⟨_, _, hh, hc, ?_⟩
      exact (Option.some.inj h).symm
    · cases h
  · rintro ⟨x0, x1, hh, hc, rfl⟩
    unfold Box.Has at hh
    refine ⟨(x1 - b.lo1).toNat, by omega, (x0 - b.lo0).toNat, by omega, ?_⟩
    have e1 : ((x1 - b.lo1).toNat : Int) = x1 - b.lo1 := by omega
    have e2 : ((x0 - b.lo0).toNat : Int) = x0 - b.lo0 := by omega
    have e3 : b.lo0 + (x0 - b.lo0) = x0 := by omega
    have e4 : b.lo1 + (x1 - b.lo1) = x1 := by omega
    rw [e1, e2, hmem x0 x1 hh, e3, e4, if_pos hc]
    rfl

theorem nodup_filterElems (trans : Bool) (b : Box) (mem : Int → V) : ((filterElems trans b mem).map fun e => (e.row, e.col)).Nodup := by
  unfold filterElems
  rw [List.map_flatMap, List.nodup_flatMap]
  have key : ∀ (jj ii : Nat) (x : Int × Int), (((if mem (ii + jj * (b.hi0 - b.lo0 + 1)) ≠ 0 ∨ b.lo0 + (ii : Int) = b.lo1 + jj then
        some (if trans then (⟨b.lo1 + jj - 1, b.lo0 + ii - 1, mem (ii + jj * (b.hi0 - b.lo0 + 1))⟩ : El V)
          else ⟨b.lo0 + ii - 1, b.lo1 + jj - 1, mem (ii + jj * (b.hi0 - b.lo0 + 1))⟩) else none).map fun e => (e.row, e.col)) = some x) →
      x = if trans then (b.lo1 + jj - 1, b.lo0 + (ii : Int) - 1) else (b.lo0 + ii - 1, b.lo1 + (jj : Int) - 1) := by
    intro jj ii x h
    split at h
    · have := (Option.some.inj h).symm
      rw [this]
      cases trans <;> rfl
    · cases h
  constructor
  · intro jj _
    rw [List.map_filterMap]
    refine List.Nodup.filterMap ?_ List.nodup_range
    intro a a' x h h'
    have h1 := key jj a x h
    have h2 := key jj a' x h'
    rw [h1] at h2
    cases trans
    · have := (Prod.ext_iff.1 h2).1
      simp only [Bool.false_eq_true, if_false] at this
      omega
    · have := (Prod.ext_iff.1 h2).2
      simp only [if_true] at this
      omega
  · refine (List.pairwise_lt_range (n := (b.hi1 - b.lo1 + 1).toNat)).imp ?_
    intro jj jj' hlt
    simp only [Function.onFun]
    intro x hx hx'
    rw [List.map_filterMap] at hx hx'
    obtain ⟨a, -, h⟩ := List.mem_filterMap.1 hx
    obtain ⟨a', -, h'⟩ := List.mem_filterMap.1 hx'
    have h1 := key jj a x h
    have h2 := key jj' a' x h'
    rw [h1] at h2
    cases trans
    · have := (Prod.ext_iff.1 h2).2
      simp only [Bool.false_eq_true, if_false] at this
      omega
    · have := (Prod.ext_iff.1 h2).1
      simp only [if_true] at this
      omega

/-- the elements added by all processes represent the dense array -/
theorem filter_represents {n : Nat} {trans : Bool} {d0 d1 : Int} {box : Nat → Box} {mem : Nat → Int → V} {D : Int → Int → V}
    (hin : ∀ p, p < n → 1 ≤ (box p).lo0 ∧ (box p).hi0 ≤ d0 ∧ 1 ≤ (box p).lo1 ∧ (box p).hi1 ≤ d1)
    (hcov : ∀ x0 x1, 1 ≤ x0 → x0 ≤ d0 → 1 ≤ x1 → x1 ≤ d1 → ∃ p, p < n ∧ (box p).Has x0 x1)
    (huni : ∀ x0 x1 p q, p < n → q < n → (box p).Has x0 x1 → (box q).Has x0 x1 → p = q)
    (hmem : ∀ p, p < n → ∀ x0 x1, (box p).Has x0 x1 →
      mem p (x0 - (box p).lo0 + (x1 - (box p).lo1) * ((box p).hi0 - (box p).lo0 + 1)) = D x0 x1) :
    Represents (if trans then d1 else d0) (if trans then d0 else d1) (fun i j => if trans then D (j + 1) (i + 1) else D (i + 1) (j + 1))
      ((List.range n).flatMap fun p => filterElems trans (box p) (mem p)) := by
  have hm : ∀ e, (e ∈ (List.range n).flatMap fun p => filterElems trans (box p) (mem p)) ↔
      ∃ x0 x1, 1 ≤ x0 ∧ x0 ≤ d0 ∧ 1 ≤ x1 ∧ x1 ≤ d1 ∧ (D x0 x1 ≠ 0 ∨ x0 = x1) ∧ e = mkEl trans x0 x1 (D x0 x1) := by
    intro e
    rw [List.mem_flatMap]
    constructor
    · rintro ⟨p, hp, he⟩
      have hp := List.mem_range.1 hp
      obtain ⟨x0, x1, h1, h2, h3⟩ := (mem_filterElems (hmem p hp) e).1 he
      have := hin p hp
      have h1' := h1
      unfold Box.Has at h1'
      exact ⟨x0, x1, by omega, by omega, by omega, by omega, h2, h3⟩
    · rintro ⟨x0, x1, h1, h2, h3, h4, h5, h6⟩
      obtain ⟨p, hp, hh⟩ := hcov x0 x1 h1 h2 h3 h4
      exact ⟨p, List.mem_range.2 hp, (mem_filterElems (hmem p hp) e).2 ⟨x0, x1, hh, h5, h6⟩⟩
  constructor
  · rw [List.map_flatMap, List.nodup_flatMap]
    refine ⟨fun p _ => nodup_filterElems trans (box p) (mem p), ?_⟩
    refine (List.pairwise_lt_range (n := n)).imp_of_mem ?_
    intro p q hp hq hpq
    simp only [Function.onFun]
    intro x hx hx'
    obtain ⟨e, he, rfl⟩ := List.mem_map.1 hx
    obtain ⟨e', he', hee⟩ := List.mem_map.1 hx'
    have hp := List.mem_range.1 hp
    have hq := List.mem_range.1 hq
    obtain ⟨x0, x1, h1, -, h3⟩ := (mem_filterElems (hmem p hp) e).1 he
    obtain ⟨y0, y1, g1, -, g3⟩ := (mem_filterElems (hmem q hq) e').1 he'
    rw [h3, g3] at hee
    have : x0 = y0 ∧ x1 = y1 := by
      have e1 := (Prod.ext_iff.1 hee).1
      have e2 := (Prod.ext_iff.1 hee).2
      cases trans <;> simp only [mkEl, Bool.false_eq_true, if_true, if_false] at e1 e2 <;> omega
    rw [← this.1, ← this.2] at g1
    have := huni x0 x1 p q hp hq h1 g1
    omega
  · intro e
    rw [hm]
    cases trans
    · simp only [Bool.false_eq_true, if_false, mkEl, Entry.In]
      constructor
      · rintro ⟨x0, x1, h1, h2, h3, h4, h5, rfl⟩
        have e1 : x0 - 1 + 1 = x0 := by omega
        have e2 : x1 - 1 + 1 = x1 := by omega
        dsimp only
        rw [e1, e2]
        exact ⟨⟨by omega, by omega, by omega, by omega⟩, rfl, h5.imp id fun h => by omega⟩
      · rintro ⟨⟨h1, h2, h3, h4⟩, h5, h6⟩
        refine ⟨e.row + 1, e.col + 1, by omega, by omega, by omega, by omega, h6.imp id fun h => by omega, ?_⟩
        rw [← h5]
        simp
    · simp only [if_true, mkEl, Entry.In]
      constructor
      · rintro ⟨x0, x1, h1, h2, h3, h4, h5, rfl⟩
        have e1 : x0 - 1 + 1 = x0 := by omega
        have e2 : x1 - 1 + 1 = x1 := by omega
        dsimp only
        rw [e1, e2]
        exact ⟨⟨by omega, by omega, by omega, by omega⟩, rfl, h5.imp id fun h => by omega⟩
      · rintro ⟨⟨h1, h2, h3, h4⟩, h5, h6⟩
        refine ⟨e.col + 1, e.row + 1, by omega, by omega, by omega, by omega, h6.imp id fun h => by omega, ?_⟩
        rw [← h5]
        simp

end

/-- an array with the whole diagonal has enough entries -/
theorem enough_diag {n : Nat} {idim jdim : Int} {M : List (Entry V)} {loc : Nat → Loc V} (hn : 0 < n) (hi : (n : Int) ≤ idim) (hj : (n : Int) ≤ jdim)
    (hlim : ∀ p, p < n → (loc p).ilo = bound idim n p ∧ (loc p).ihi = limHi idim n p)
    (hblk : ∀ p, p < n → (loc p).blkidx = (List.range n).filter fun c => ∃ e ∈ owned idim n M p, owner jdim n e.col = c)
    (hdiag : ∀ i : Int, 0 ≤ i → i < n → ∃ e ∈ M, e.row = i ∧ e.col = i) :
    n ≤ M.length ∧ n ≤ ((List.range n).map fun p => ((loc p).nrows + 1) * (loc p).blkidx.length).sum := by
  classical
  constructor
  · have : ((List.range n).map fun i : Nat => ((i : Int), (i : Int))).length ≤ (M.map fun e => (e.row, e.col)).length := by
      apply List.Subperm.length_le
      apply List.subperm_of_subset
      · rw [List.nodup_map_iff_inj_on List.nodup_range]
        intro a _ b _ h
        have := (Prod.ext_iff.1 h).1
        dsimp only at this
        omega
      · intro x hx
        obtain ⟨i, hi, rfl⟩ := List.mem_map.1 hx
        obtain ⟨e, he, h1, h2⟩ := hdiag i (by omega) (by have := List.mem_range.1 hi; omega)
        exact List.mem_map.2 ⟨e, he, Prod.ext h1 h2⟩
    simpa using this
  · have hb := (bucket_perm (List.range n) (fun i : Nat => owner idim n (i : Int)) (n := n) fun i _ => owner_lt hn).length_eq
    rw [List.length_range, List.length_flatMap] at hb
    refine Nat.le_trans (Nat.le_of_eq hb.symm) ?_
    refine List.sum_le_sum ?_
    intro p hp
    have hp := List.mem_range.1 hp
    obtain ⟨l1, l2⟩ := hlim p hp
    by_cases hne : ((List.range n).filter fun i : Nat => owner idim n (i : Int) = p) = []
    · simp [hne]
    · obtain ⟨i, hmem⟩ := List.exists_mem_of_ne_nil _ hne
      obtain ⟨h1, h2⟩ := List.mem_filter.1 hmem
      simp only [decide_eq_true_eq] at h2
      have h1 := List.mem_range.1 h1
      obtain ⟨e, he, e1, e2⟩ := hdiag i (by omega) (by omega)
      have hc : owner jdim n e.col ∈ (loc p).blkidx := by
        rw [hblk p hp]
        refine List.mem_filter.2 ⟨List.mem_range.2 (owner_lt hn), ?_⟩
        simp only [decide_eq_true_eq]
        exact ⟨e, List.mem_filter.2 ⟨he, by simpa [e1] using h2⟩, rfl⟩
      have hlen : 1 ≤ (loc p).blkidx.length := List.length_pos_of_mem hc
      have hcount : ((List.range n).filter fun i : Nat => owner idim n (i : Int) = p).length ≤ (loc p).nrows := by
        have : (((List.range n).filter fun i : Nat => owner idim n (i : Int) = p).map fun i : Nat => ((i : Int) - (loc p).ilo).toNat).length ≤
            (List.range (loc p).nrows).length := by
          have hr : ∀ i ∈ (List.range n).filter fun i : Nat => owner idim n (i : Int) = p, bound idim n p ≤ (i : Int) ∧ (i : Int) ≤ limHi idim n p := by
            intro i hmem
            obtain ⟨h1, h2⟩ := List.mem_filter.1 hmem
            simp only [decide_eq_true_eq] at h2
            have h1 := List.mem_range.1 h1
            exact (owner_iff hi hp (by omega) (by omega)).1 h2
          apply List.Subperm.length_le
          apply List.subperm_of_subset
          · rw [List.nodup_map_iff_inj_on (List.Nodup.filter _ List.nodup_range)]
            intro a ha b hb h
            have := hr a ha
            have := hr b hb
            omega
          · intro x hx
            obtain ⟨i, hi, rfl⟩ := List.mem_map.1 hx
            have := hr i hi
            rw [List.mem_range]
            simp only [Loc.nrows]
            omega
        simpa using this
      calc _ ≤ (loc p).nrows := hcount
        _ ≤ ((loc p).nrows + 1) * 1 := by omega
        _ ≤ _ := Nat.mul_le_mul_left _ hlen

end GA.Sprs
