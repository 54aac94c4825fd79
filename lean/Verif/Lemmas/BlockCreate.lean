import Verif.Lemmas.BlockCell

/-! # Arrays made by the block-cyclic creation calls -/

namespace GA
open Spec Model

/-- dimensions are given and positive -/
def DimsPos (dims : List Int) : Prop := dims ≠ [] ∧ ∀ d ∈ dims, 1 ≤ d

instance (dims : List Int) : Decidable (DimsPos dims) := by unfold DimsPos; infer_instance

/-- the block starts of every axis begin with 1 -/
def StartsAtOne : (nblocks : List Nat) → (mapc : List Int) → Prop
  | n :: ns, m => (m.take n).head? = some 1 ∧ StartsAtOne ns (m.drop n)
  | [], _ => True

instance decStartsAtOne : (ns : List Nat) → (m : List Int) → Decidable (StartsAtOne ns m)
  | n :: ns, m =>
    have := decStartsAtOne ns (m.drop n)
    inferInstanceAs (Decidable (_ ∧ _))
  | [], _ => isTrue trivial

/-- total number of entries of a distribution map -/
def mapLen : List Nat → Nat
  | [] => 0
  | n :: ns => n + mapLen ns

/-- The arrays a program can create with the block-cyclic calls on `nproc` processes. The
arguments have the lengths the interface asks for. An irregular map must start with 1 in every
dimension (the code does not check this). -/
inductive Created : BArray → Prop
  | cyclic (nproc : Nat) (dims bd : List Int) (A : BArray) (h0 : 0 < nproc) (h1 : DimsPos dims)
      (h2 : bd.length = dims.length) (h : setBlockCyclic nproc dims bd = some A) : Created A
  | grid (tile : Bool) (nproc : Nat) (dims bd : List Int) (pg : List Nat) (A : BArray)
      (h1 : DimsPos dims) (h2 : bd.length = dims.length) (h3 : pg.length = dims.length)
      (h : setProcGrid tile nproc dims bd pg = some A) : Created A
  | irreg (nproc : Nat) (dims mapc : List Int) (nblocks pg : List Nat) (A : BArray)
      (h1 : DimsPos dims) (h2 : nblocks.length = dims.length) (h3 : pg.length = dims.length)
      (h4 : mapc.length = mapLen nblocks) (h5 : StartsAtOne nblocks mapc)
      (h : setTiledIrreg nproc dims mapc nblocks pg = some A) : Created A

theorem axisMonotone_spec {d ichk : Int} {l : List Int} (h : axisMonotone d ichk l = true) :
    (ichk :: l).Pairwise (· ≤ ·) ∧ ∀ m ∈ l, m ≤ d + 1 := by
  induction l generalizing ichk with
  | nil => simp
  | cons a l ih =>
    simp only [axisMonotone, Bool.and_eq_true, Bool.not_eq_true', Bool.or_eq_false_iff,
      decide_eq_false_iff_not] at h
    obtain ⟨i1, i2⟩ := ih h.2
    constructor
    · rw [List.pairwise_cons]
      refine ⟨?_, i1⟩
      intro b hb
      rcases List.mem_cons.1 hb with rfl | hb
      · omega
      · have := (List.pairwise_cons.1 i1).1 b hb; omega
    · intro m hm
      rcases List.mem_cons.1 hm with rfl | hm
      · omega
      · exact i2 m hm

theorem axisCheck_spec {d : Int} {l : List Int} (h : axisCheck d l = true) :
    l.Pairwise (· ≤ ·) ∧ ∀ m ∈ l, m ≤ d + 1 := by
  cases l with
  | nil => simp
  | cons a l =>
    simp only [axisCheck, Bool.and_eq_true, Bool.not_eq_true', Bool.or_eq_false_iff,
      decide_eq_false_iff_not] at h
    obtain ⟨i1, i2⟩ := axisMonotone_spec h.2
    refine ⟨i1, ?_⟩
    intro m hm
    rcases List.mem_cons.1 hm with rfl | hm
    · omega
    · exact i2 m hm

theorem mapCheck_mapOK {ns : List Nat} {ds m : List Int} (hd : ∀ d ∈ ds, 1 ≤ d)
    (hl : ns.length = ds.length) (hm : mapLen ns ≤ m.length) (hs : StartsAtOne ns m)
    (h : mapCheck ns ds m = true) : MapOK ns ds m := by
  induction ns generalizing ds m with
  | nil => cases ds <;> simp_all [MapOK]
  | cons n ns ih =>
    match ds, hl with
    | d :: ds, hl =>
      simp only [mapCheck, Bool.and_eq_true] at h
      simp only [mapLen] at hm
      obtain ⟨a1, a2⟩ := axisCheck_spec h.1
      refine ⟨⟨?_, by omega, hd d (by simp), hs.1, a1, a2⟩, ?_⟩
      · rcases Nat.eq_zero_or_pos n with h0 | h0
        · have := hs.1; rw [h0] at this; simp at this
        · exact h0
      · exact ih (fun x hx => hd x (by simp [hx])) (by simpa using hl)
          (by rw [List.length_drop]; omega) hs.2 h.2

theorem Created.ok {A : BArray} (h : Created A) : BOK A := by
  cases h with
  | cyclic nproc dims bd _ h0 h1 h2 h =>
    unfold setBlockCyclic at h
    split at h
    · simp at h
    · rename_i hb
      simp only [Option.some.injEq] at h
      subst h
      have hb' : ∀ b ∈ bd, 1 ≤ b := by
        intro b hbm
        by_contra hlt
        exact hb (List.any_eq_true.2 ⟨b, hbm, by simp; omega⟩)
      have hu := unifOK_of h2 h1.2 hb'
      exact ⟨h1.1, fun _ => hu, by simpa [starts] using unif_mapOK hu, h0, fun hk => absurd rfl hk⟩
  | grid tile nproc dims bd pg _ h1 h2 h3 h =>
    unfold setProcGrid at h
    split at h
    · simp at h
    split at h
    · simp at h
    split at h
    · simp at h
    rename_i hb hp hg
    simp only [Option.some.injEq] at h
    subst h
    have hb' : ∀ b ∈ bd, 1 ≤ b := by
      intro b hbm
      by_contra hlt
      exact hb (List.any_eq_true.2 ⟨b, hbm, by simp; omega⟩)
    have hp' : ∀ g ∈ pg, 0 < g := by
      intro g hgm
      by_contra hlt
      exact hp (List.any_eq_true.2 ⟨g, hgm, by simp; omega⟩)
    have hg' : gridSize pg = nproc := by simpa using hg
    have hu := unifOK_of h2 h1.2 hb'
    refine ⟨h1.1, fun _ => hu, ?_, ?_, fun _ => ⟨h3, hp', hg'⟩⟩
    · have hk : (if tile then BKind.tiled else BKind.scalapack) ≠ .tiledIrreg := by
        cases tile <;> simp
      simp only [starts]
      rw [if_neg hk]
      exact unif_mapOK hu
    · show 0 < nproc
      rw [← hg']
      clear * - hp'
      induction pg with
      | nil => simp [gridSize]
      | cons g gs ih =>
        exact Nat.mul_pos (hp' g (by simp)) (ih fun x hx => hp' x (by simp [hx]))
  | irreg nproc dims mapc nblocks pg _ h1 h2 h3 h4 h5 h =>
    unfold setTiledIrreg at h
    split at h
    · simp at h
    split at h
    · simp at h
    split at h
    · simp at h
    split at h
    · simp at h
    rename_i ht hm hp hg
    simp only [Option.some.injEq] at h
    subst h
    have hp' : ∀ g ∈ pg, 0 < g := by
      intro g hgm
      by_contra hlt
      exact hp (List.any_eq_true.2 ⟨g, hgm, by simp; omega⟩)
    have hg' : gridSize pg = nproc := by simpa using hg
    refine ⟨h1.1, fun hk => absurd rfl hk, ?_, ?_, fun _ => ⟨h3, hp', hg'⟩⟩
    · simp only [starts, if_true]
      exact mapCheck_mapOK h1.2 h2 (by omega) h5 (by simpa using hm)
    · show 0 < nproc
      rw [← hg']
      clear * - hp'
      induction pg with
      | nil => simp [gridSize]
      | cons g gs ih =>
        exact Nat.mul_pos (hp' g (by simp)) (ih fun x hx => hp' x (by simp [hx]))

end GA
