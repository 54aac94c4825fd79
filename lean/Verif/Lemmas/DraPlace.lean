import Verif.Model.Dra
import Verif.Lemmas.GPArray
import Mathlib.Tactic.Ring
import Mathlib.Tactic.Linarith
import Mathlib.Tactic.LinearCombination

/-! # Lemmas: the place of an element of a disk resident array -/

namespace GA.Dra
open GA.Spec GA.Model

/-- all extents of chunks are possible -/
def ShapeOK (sh : List (Int × Int)) : Prop := ∀ s ∈ sh, 1 ≤ s.2 ∧ s.2 ≤ s.1

/-- `lo..hi` is part of one block: complete in all dimensions but the last -/
def ChunkOK : (sh : List (Int × Int)) → (lo hi : List Int) → Prop
  | [(d, c)], [l], [h] => (l - 1) / c = (h - 1) / c ∧ 1 ≤ l ∧ l ≤ h ∧ h ≤ d
  | (d, c) :: sh, l :: ls, h :: hs => ((l - 1) % c = 0 ∧ 1 ≤ l ∧ l ≤ d ∧ h = min (l + c - 1) d) ∧ ChunkOK sh ls hs
  | _, _, _ => False

theorem div_char {x c b : Int} (hc : 1 ≤ c) : (x - 1) / c = b ↔ b * c + 1 ≤ x ∧ x ≤ b * c + c := by
  constructor
  · rintro rfl
    have h1 := Int.emod_add_mul_ediv (x - 1) c
    have h2 := Int.emod_nonneg (x - 1) (by omega : c ≠ 0)
    have h3 := Int.emod_lt_of_pos (x - 1) (by omega : 0 < c)
    have : (x - 1) / c * c = c * ((x - 1) / c) := by ring
    constructor <;> linarith
  · rintro ⟨h1, h2⟩
    have : x - 1 = (x - 1 - b * c) + b * c := by ring
    rw [this, Int.add_mul_ediv_right _ _ (by omega), Int.ediv_eq_zero_of_lt (by linarith) (by linarith)]
    simp

theorem mod_char {x c b : Int} (hc : 1 ≤ c) (h : b * c + 1 ≤ x ∧ x ≤ b * c + c) : (x - 1) % c = x - 1 - b * c := by
  have h1 := Int.emod_add_mul_ediv (x - 1) c
  rw [(div_char hc).2 h] at h1
  linarith

theorem divmod (x c : Int) : (x - 1) % c = x - 1 - (x - 1) / c * c := by
  have h1 := Int.emod_add_mul_ediv (x - 1) c
  linarith

theorem divd {d c : Int} (hc : 1 ≤ c) : d / c * c ≤ d ∧ d < d / c * c + c := by
  have h1 := Int.emod_add_mul_ediv d c
  have h2 := Int.emod_nonneg d (by omega : c ≠ 0)
  have h3 := Int.emod_lt_of_pos d (by omega : 0 < c)
  constructor <;> linarith

theorem mul_le_iff {a b c : Int} (hc : 1 ≤ c) (h : a < b) : a * c + c ≤ b * c := by
  have : (a + 1) * c ≤ b * c := Int.mul_le_mul_of_nonneg_right (by omega) (by omega)
  linarith

/-- extent of the block of `x` -/
theorem curLd_eq {d c b : Int} (hc : 1 ≤ c) (hb : b * c + 1 ≤ d) : curLd d c b = min (b * c + c) d - b * c := by
  unfold curLd
  have h := divd (d := d) hc
  split
  · rename_i e
    have h1 := Int.emod_add_mul_ediv d c
    rw [← e] at h h1
    have : c * b = b * c := by ring
    omega
  · rename_i e
    rcases lt_or_gt_of_ne e with h1 | h1
    · have := mul_le_iff hc h1
      omega
    · have := mul_le_iff hc h1
      omega

theorem nblk_char {d c b : Int} (hc : 1 ≤ c) : b < nblk d c ↔ b * c + 1 ≤ d := by
  have h := divd (d := d + c - 1) hc
  unfold nblk
  constructor
  · intro h1
    have := mul_le_iff hc h1
    linarith
  · intro h1
    by_contra h2
    have : (d + c - 1) / c * c ≤ b * c := Int.mul_le_mul_of_nonneg_right (by omega) (by omega)
    linarith

theorem extent_eq {d c b : Int} (hc : 1 ≤ c) (hb : b * c + 1 ≤ d) : extent d c b = min (b * c + c) d - b * c := by
  unfold extent
  split
  · rename_i h
    have h1 := (nblk_char (b := b + 1) (d := d) hc).1 (by omega)
    have : (b + 1) * c = b * c + c := by ring
    omega
  · rename_i h
    have h1 : ¬ (b + 1 < nblk d c) := by omega
    rw [nblk_char hc] at h1
    have e : (b + 1) * c = b * c + c := by ring
    have hle : d ≤ b * c + c := by omega
    have hb2 := Int.emod_add_mul_ediv d c
    have hm := Int.emod_nonneg d (by omega : c ≠ 0)
    split
    · rename_i h3
      have : d / c = b := by
        have hd := divd (d := d) hc
        by_contra hne
        rcases lt_or_gt_of_ne hne with h4 | h4
        · have := mul_le_iff hc h4; omega
        · have := mul_le_iff hc h4
          have : d / c * c = c * (d / c) := by ring
          omega
      rw [this] at hb2
      have : c * b = b * c := by ring
      omega
    · rename_i h3
      have h3 : d % c = 0 := by omega
      have hd : d = d / c * c := by linarith
      have : d / c = b + 1 := by
        by_contra hne
        rcases lt_or_gt_of_ne hne with h4 | h4
        · have := mul_le_iff hc h4
          omega
        · have := mul_le_iff hc h4
          omega
      rw [this] at hd
      omega

/-! ## one file -/

/-- place of an element when there is one file -/
def place1 : (sh : List (Int × Int)) → (x : List Int) → Int
  | (d, c) :: sh, x :: xs => (x - 1) / c * c * prodI (sh.map (·.1)) + ((x - 1) % c + curLd d c ((x - 1) / c) * place1 sh xs)
  | _, _ => 0

theorem parBlocks_sum {sh : List (Int × Int)} (hs : ShapeOK sh) {lo hi : List Int} (hc : ChunkOK sh lo hi) {x : List Int} (hx : InPatch lo hi x)
    (acc : Int) : (parBlocks acc sh lo).sum + acc * bufPos lo (edges lo hi).dropLast x = acc * place1 sh x := by
  induction sh generalizing lo hi x acc with
  | nil => cases lo <;> simp [ChunkOK] at hc
  | cons s sh ih =>
    obtain ⟨d, c⟩ := s
    have hs1 : 1 ≤ c ∧ c ≤ d := hs _ List.mem_cons_self
    match lo, hi, x, hx with
    | [], [], [], _ => simp [ChunkOK] at hc
    | l :: ls, h :: hs', x :: xs, hx =>
      cases sh with
      | nil =>
        cases ls with
        | cons _ _ => cases hs' <;> simp [ChunkOK] at hc
        | nil =>
          cases hs' with
          | cons _ _ => simp [ChunkOK] at hc
          | nil =>
            simp only [parBlocks, List.sum_cons, List.sum_nil, edges, List.dropLast_singleton, bufPos, place1, List.map_nil, prodI]
            have := divmod x c
            rw [this]; ring
      | cons s2 sh =>
        cases ls with
        | nil => cases hs' <;> simp [ChunkOK] at hc
        | cons l2 ls =>
          cases hs' with
          | nil => simp [ChunkOK] at hc
          | cons h2 hs' =>
            simp only [ChunkOK] at hc
            obtain ⟨⟨hc1, hc2, hc3, hc4⟩, hc5⟩ := hc
            simp only [InPatch] at hx
            have ih := ih (fun s hm => hs s (List.mem_cons_of_mem _ hm)) hc5 (x := xs) (by simpa only [InPatch] using hx.2)
              (acc * curLd d c ((l - 1) / c))
            have hl : l = (l - 1) / c * c + 1 := by have := divmod l c; omega
            have hb : (x - 1) / c = (l - 1) / c := by
              rw [div_char hs1.1]; omega
            have hcl : curLd d c ((l - 1) / c) = h - l + 1 := by
              rw [curLd_eq hs1.1 (by omega)]; omega
            have hmx : (x - 1) % c = x - l := by rw [divmod x c, hb]; omega
            have e : (edges (l :: l2 :: ls) (h :: h2 :: hs')).dropLast = (h - l + 1) :: (edges (l2 :: ls) (h2 :: hs')).dropLast := by
              simp [edges]
            rw [e]
            have e2 : parBlocks acc ((d, c) :: s2 :: sh) (l :: l2 :: ls) = acc * ((l - 1) / c * c) * prodI ((s2 :: sh).map (·.1)) ::
              parBlocks (acc * curLd d c ((l - 1) / c)) (s2 :: sh) (l2 :: ls) := rfl
            rw [e2, List.sum_cons]
            have e3 : bufPos (l :: l2 :: ls) ((h - l + 1) :: (edges (l2 :: ls) (h2 :: hs')).dropLast) (x :: xs) =
              (x - l) + (h - l + 1) * bufPos (l2 :: ls) (edges (l2 :: ls) (h2 :: hs')).dropLast xs := rfl
            have e4 : place1 ((d, c) :: s2 :: sh) (x :: xs) = (x - 1) / c * c * prodI ((s2 :: sh).map (·.1)) +
              ((x - 1) % c + curLd d c ((x - 1) / c) * place1 (s2 :: sh) xs) := rfl
            rw [e3, e4, hb, hmx]
            rw [← hcl]
            linear_combination ih

theorem prodI_dims_pos {sh : List (Int × Int)} (hs : ShapeOK sh) : 1 ≤ prodI (sh.map (·.1)) := by
  induction sh with
  | nil => simp [prodI]
  | cons s sh ih =>
    have h1 := hs s List.mem_cons_self
    have h2 := ih fun s hm => hs s (List.mem_cons_of_mem _ hm)
    simp only [List.map_cons, prodI]
    have := Int.mul_pos (by omega : 0 < s.1) (by omega : 0 < prodI (sh.map (·.1)))
    omega

theorem place1_range {sh : List (Int × Int)} (hs : ShapeOK sh) {x : List Int} (hx : InArray (sh.map (·.1)) x) :
    0 ≤ place1 sh x ∧ place1 sh x < prodI (sh.map (·.1)) := by
  induction sh generalizing x with
  | nil => simp [place1, prodI]
  | cons s sh ih =>
    obtain ⟨d, c⟩ := s
    have hs1 : 1 ≤ c ∧ c ≤ d := hs _ List.mem_cons_self
    have hs2 : ShapeOK sh := fun s hm => hs s (List.mem_cons_of_mem _ hm)
    cases x with
    | nil => simp [InArray, InPatch] at hx
    | cons x xs =>
      simp only [InArray, List.map_cons, InPatch] at hx
      have ih := ih hs2 hx.2
      have hP := prodI_dims_pos hs2
      simp only [place1, List.map_cons, prodI]
      generalize hbb : (x - 1) / c = b
      have hb1 := (div_char hs1.1).1 hbb
      have hm := mod_char hs1.1 hb1
      rw [hm, curLd_eq hs1.1 (by omega)]
      have hb0 : 0 ≤ b := by rw [← hbb]; exact Int.ediv_nonneg (by omega) (by omega)
      have hbc : 0 ≤ b * c := Int.mul_nonneg hb0 (by omega)
      generalize hT : b * c = T at *
      generalize place1 sh xs = q at *
      generalize prodI (sh.map (·.1)) = P at *
      have hm1 : x ≤ min (T + c) d := by omega
      generalize hM : min (T + c) d = M at *
      have hMd : M ≤ d := by omega
      constructor
      · have := Int.mul_nonneg hbc (by omega : 0 ≤ P)
        have := Int.mul_nonneg (by omega : 0 ≤ M - T) ih.1
        linarith
      · have h1 : (M - T) * q ≤ (M - T) * (P - 1) := Int.mul_le_mul_of_nonneg_left (by omega) (by omega)
        have h2 : M * P ≤ d * P := Int.mul_le_mul_of_nonneg_right hMd (by omega)
        have h3 : (M - T) * (P - 1) = M * P - T * P - (M - T) := by ring
        linarith

theorem mul_add_inj {m p q r s : Int} (h : p + m * r = q + m * s) (hp : 0 ≤ p) (hpm : p < m) (hq : 0 ≤ q) (hqm : q < m) : p = q ∧ r = s := by
  have h1 : (p + m * r) / m = r := by rw [Int.add_mul_ediv_left _ _ (by omega), Int.ediv_eq_zero_of_lt hp hpm]; simp
  have h2 : (q + m * s) / m = s := by rw [Int.add_mul_ediv_left _ _ (by omega), Int.ediv_eq_zero_of_lt hq hqm]; simp
  have : r = s := by rw [← h1, h, h2]
  subst this
  exact ⟨by linarith, rfl⟩

theorem place1_inj {sh : List (Int × Int)} (hs : ShapeOK sh) {x y : List Int} (hx : InArray (sh.map (·.1)) x) (hy : InArray (sh.map (·.1)) y)
    (h : place1 sh x = place1 sh y) : x = y := by
  induction sh generalizing x y with
  | nil =>
    cases x <;> cases y <;> simp_all [InArray, InPatch]
  | cons s sh ih =>
    obtain ⟨d, c⟩ := s
    have hs1 : 1 ≤ c ∧ c ≤ d := hs _ List.mem_cons_self
    have hs2 : ShapeOK sh := fun s hm => hs s (List.mem_cons_of_mem _ hm)
    cases x with
    | nil => simp [InArray, InPatch] at hx
    | cons x xs =>
      cases y with
      | nil => simp [InArray, InPatch] at hy
      | cons y ys =>
        simp only [InArray, List.map_cons, InPatch] at hx hy
        have rx := place1_range hs2 hx.2
        have ry := place1_range hs2 hy.2
        have ih := @ih hs2 xs ys hx.2 hy.2
        simp only [place1] at h
        have hP := prodI_dims_pos hs2
        generalize hbx : (x - 1) / c = b at h
        generalize hby : (y - 1) / c = b' at h
        have hbx1 := (div_char hs1.1).1 hbx
        have hby1 := (div_char hs1.1).1 hby
        rw [mod_char hs1.1 hbx1, mod_char hs1.1 hby1] at h
        have key : ∀ {b b' x y q q' : Int}, b < b' → b * c + 1 ≤ x ∧ x ≤ b * c + c → b' * c + 1 ≤ y → x ≤ d → y ≤ d → 0 ≤ q → q < prodI (sh.map (·.1)) → 0 ≤ q' →
            b * c * prodI (sh.map (·.1)) + (x - 1 - b * c + curLd d c b * q) < b' * c * prodI (sh.map (·.1)) + (y - 1 - b' * c + curLd d c b' * q') := by
          intro b b' x y q q' hlt hx hy hxd hyd hq0 hq hq'
          rw [curLd_eq hs1.1 (by omega), curLd_eq hs1.1 (by omega)]
          have h1 := mul_le_iff hs1.1 hlt
          generalize b * c = T at *
          generalize b' * c = T' at *
          generalize prodI (sh.map (·.1)) = P at *
          have h2 : 0 ≤ (min (T' + c) d - T') * q' := Int.mul_nonneg (by omega) hq'
          have h3 : (min (T + c) d - T) * q ≤ c * (P - 1) := by
            calc (min (T + c) d - T) * q ≤ c * q := Int.mul_le_mul_of_nonneg_right (by omega) hq0
              _ ≤ c * (P - 1) := Int.mul_le_mul_of_nonneg_left (by omega) (by omega)
          have h4 : (T + c) * P ≤ T' * P := Int.mul_le_mul_of_nonneg_right h1 (by omega)
          have : (T + c) * P = T * P + c * (P - 1) + c := by ring
          linarith [hx.2]
        rcases lt_trichotomy b b' with hlt | heq | hgt
        · exact absurd h (ne_of_lt (key hlt hbx1 hby1.1 hx.1.2 hy.1.2 rx.1 rx.2 ry.1))
        · subst heq
          have hcl := curLd_eq (d := d) hs1.1 (b := b) (by omega)
          have h' : (x - 1 - b * c) + curLd d c b * place1 sh xs = (y - 1 - b * c) + curLd d c b * place1 sh ys := by linarith
          obtain ⟨e1, e2⟩ := mul_add_inj h' (by omega) (by omega) (by omega) (by omega)
          rw [ih e2, show x = y by omega]
        · exact absurd h.symm (ne_of_lt (key hgt hby1 hbx1.1 hy.1.2 hx.1.2 ry.1 ry.2 rx.1))

/-! ## several files -/

/-- place of an element within its block -/
def inner : (sh : List (Int × Int)) → (x : List Int) → Int
  | (d, c) :: sh, x :: xs => (x - 1) % c + extent d c ((x - 1) / c) * inner sh xs
  | _, _ => 0

/-- indices of the block of an element -/
def blkOf : (sh : List (Int × Int)) → (x : List Int) → List Int
  | (_, c) :: sh, x :: xs => (x - 1) / c :: blkOf sh xs
  | _, _ => []

theorem blockIdx_blockNo {sh : List (Int × Int)} (hs : ShapeOK sh) {x : List Int} (hx : InArray (sh.map (·.1)) x) :
    blockIdx sh (blockNo sh x) = blkOf sh x ∧ 0 ≤ blockNo sh x := by
  induction sh generalizing x with
  | nil => simp [blockIdx, blkOf, blockNo]
  | cons s sh ih =>
    obtain ⟨d, c⟩ := s
    have hs1 : 1 ≤ c ∧ c ≤ d := hs _ List.mem_cons_self
    cases x with
    | nil => simp [InArray, InPatch] at hx
    | cons x xs =>
      simp only [InArray, List.map_cons, InPatch] at hx
      have ih := ih (fun s hm => hs s (List.mem_cons_of_mem _ hm)) hx.2
      simp only [blockNo, blockIdx, blkOf]
      generalize hb : (x - 1) / c = b
      have hb1 := (div_char hs1.1).1 hb
      have hlt : b < nblk d c := (nblk_char hs1.1).2 (by omega)
      have h0 : 0 ≤ b := by rw [← hb]; exact Int.ediv_nonneg (by omega) (by omega)
      have em : (blockNo sh xs * nblk d c + b) % nblk d c = b := by
        rw [Int.add_comm, Int.add_mul_emod_self_right, Int.emod_eq_of_lt h0 hlt]
      rw [em]
      have : (blockNo sh xs * nblk d c + b - b) / nblk d c = blockNo sh xs := by
        rw [Int.add_sub_cancel, Int.mul_ediv_cancel _ (by omega)]
      rw [this, ih.1]
      refine ⟨rfl, ?_⟩
      have := Int.mul_nonneg ih.2 (by omega : 0 ≤ nblk d c)
      omega

theorem blockNo_congr {sh : List (Int × Int)} {x y : List Int} (h : blkOf sh x = blkOf sh y) : blockNo sh x = blockNo sh y := by
  induction sh generalizing x y with
  | nil => simp [blockNo]
  | cons s sh ih =>
    obtain ⟨d, c⟩ := s
    cases x <;> cases y <;> simp_all [blkOf, blockNo]
    rw [ih h.2]; exact Or.inl rfl

theorem extents_pos {sh : List (Int × Int)} (hs : ShapeOK sh) {x : List Int} (hx : InArray (sh.map (·.1)) x) :
    0 ≤ inner sh x ∧ inner sh x < prodI (extents sh (blkOf sh x)) := by
  induction sh generalizing x with
  | nil => simp [inner, extents, prodI]
  | cons s sh ih =>
    obtain ⟨d, c⟩ := s
    have hs1 : 1 ≤ c ∧ c ≤ d := hs _ List.mem_cons_self
    cases x with
    | nil => simp [InArray, InPatch] at hx
    | cons x xs =>
      simp only [InArray, List.map_cons, InPatch] at hx
      have ih := ih (fun s hm => hs s (List.mem_cons_of_mem _ hm)) hx.2
      simp only [inner, blkOf, extents, prodI]
      generalize hb : (x - 1) / c = b
      have hb1 := (div_char hs1.1).1 hb
      rw [mod_char hs1.1 hb1, extent_eq hs1.1 (by omega)]
      generalize b * c = T at *
      generalize inner sh xs = q at *
      generalize prodI (extents sh (blkOf sh xs)) = P at *
      have hM : x ≤ min (T + c) d := by omega
      generalize min (T + c) d = M at *
      have h1 := Int.mul_nonneg (by omega : 0 ≤ M - T) ih.1
      have h2 : (M - T) * q ≤ (M - T) * (P - 1) := Int.mul_le_mul_of_nonneg_left (by omega) (by omega)
      have h3 : (M - T) * (P - 1) = (M - T) * P - (M - T) := by ring
      constructor <;> omega

theorem inner_inj {sh : List (Int × Int)} (hs : ShapeOK sh) {x y : List Int} (hx : InArray (sh.map (·.1)) x) (hy : InArray (sh.map (·.1)) y)
    (hb : blkOf sh x = blkOf sh y) (h : inner sh x = inner sh y) : x = y := by
  induction sh generalizing x y with
  | nil => cases x <;> cases y <;> simp_all [InArray, InPatch]
  | cons s sh ih =>
    obtain ⟨d, c⟩ := s
    have hs1 : 1 ≤ c ∧ c ≤ d := hs _ List.mem_cons_self
    cases x with
    | nil => simp [InArray, InPatch] at hx
    | cons x xs =>
      cases y with
      | nil => simp [InArray, InPatch] at hy
      | cons y ys =>
        simp only [InArray, List.map_cons, InPatch] at hx hy
        simp only [blkOf, List.cons.injEq] at hb
        simp only [inner] at h
        rw [← hb.1] at h
        have ih := @ih (fun s hm => hs s (List.mem_cons_of_mem _ hm)) xs ys hx.2 hy.2 hb.2
        generalize hbb : (x - 1) / c = b at h hb
        have hbx1 := (div_char hs1.1).1 hbb
        have hby1 := (div_char hs1.1).1 hb.1.symm
        rw [mod_char hs1.1 hbx1, mod_char hs1.1 hby1] at h
        have he := extent_eq (d := d) hs1.1 (b := b) (by omega)
        obtain ⟨e1, e2⟩ := mul_add_inj h (by omega) (by omega) (by omega) (by omega)
        rw [ih e2, show x = y by omega]

theorem fracOff {sh : List (Int × Int)} (hs : ShapeOK sh) {lo hi : List Int} (hc : ChunkOK sh lo hi) {x : List Int} (hx : InPatch lo hi x) :
    prodI (extents sh (blkOf sh lo)).dropLast * ((lastOf lo - 1) % lastOf (sh.map (·.2))) + bufPos lo (edges lo hi).dropLast x = inner sh x ∧
      blkOf sh x = blkOf sh lo := by
  induction sh generalizing lo hi x with
  | nil => cases lo <;> simp [ChunkOK] at hc
  | cons s sh ih =>
    obtain ⟨d, c⟩ := s
    have hs1 : 1 ≤ c ∧ c ≤ d := hs _ List.mem_cons_self
    match lo, hi, x, hx with
    | [], [], [], _ => simp [ChunkOK] at hc
    | l :: ls, h :: hs', x :: xs, hx =>
      cases sh with
      | nil =>
        cases ls with
        | cons _ _ => cases hs' <;> simp [ChunkOK] at hc
        | nil =>
          cases hs' with
          | cons _ _ => simp [ChunkOK] at hc
          | nil =>
            simp only [ChunkOK] at hc
            simp only [InPatch] at hx
            have hb : (x - 1) / c = (l - 1) / c := by
              rw [div_char hs1.1]
              have := (div_char (x := l) hs1.1).1 rfl
              have := (div_char (x := h) hs1.1).1 rfl
              rw [← hc.1] at this
              omega
            constructor
            · simp only [blkOf, extents, List.dropLast_singleton, prodI, lastOf, List.getLastD_cons, List.getLastD_nil, List.map_cons, List.map_nil, edges,
                bufPos, inner]
              rw [divmod x c, divmod l c, hb]; ring
            · simp [blkOf, hb]
      | cons s2 sh =>
        cases ls with
        | nil => cases hs' <;> simp [ChunkOK] at hc
        | cons l2 ls =>
          cases hs' with
          | nil => simp [ChunkOK] at hc
          | cons h2 hs' =>
            simp only [ChunkOK] at hc
            obtain ⟨⟨hc1, hc2, hc3, hc4⟩, hc5⟩ := hc
            simp only [InPatch] at hx
            obtain ⟨ih1, ih2⟩ := ih (fun s hm => hs s (List.mem_cons_of_mem _ hm)) hc5 (x := xs) (by simpa only [InPatch] using hx.2)
            have hl : l = (l - 1) / c * c + 1 := by have := divmod l c; omega
            have hb : (x - 1) / c = (l - 1) / c := by
              rw [div_char hs1.1]; omega
            have hcl : extent d c ((l - 1) / c) = h - l + 1 := by
              rw [extent_eq hs1.1 (by omega)]; omega
            have hmx : (x - 1) % c = x - l := by rw [divmod x c, hb]; omega
            have e : (edges (l :: l2 :: ls) (h :: h2 :: hs')).dropLast = (h - l + 1) :: (edges (l2 :: ls) (h2 :: hs')).dropLast := by
              simp [edges]
            rw [e]
            have e0 : (extents ((d, c) :: s2 :: sh) (blkOf ((d, c) :: s2 :: sh) (l :: l2 :: ls))).dropLast =
              extent d c ((l - 1) / c) :: (extents (s2 :: sh) (blkOf (s2 :: sh) (l2 :: ls))).dropLast := by
              obtain ⟨d2, c2⟩ := s2
              simp [blkOf, extents]
            rw [e0]
            have e3 : bufPos (l :: l2 :: ls) ((h - l + 1) :: (edges (l2 :: ls) (h2 :: hs')).dropLast) (x :: xs) =
              (x - l) + (h - l + 1) * bufPos (l2 :: ls) (edges (l2 :: ls) (h2 :: hs')).dropLast xs := rfl
            have e4 : inner ((d, c) :: s2 :: sh) (x :: xs) = (x - 1) % c + extent d c ((x - 1) / c) * inner (s2 :: sh) xs := rfl
            have e5 : lastOf (l :: l2 :: ls) = lastOf (l2 :: ls) := by simp [lastOf]
            have e6 : lastOf (((d, c) :: s2 :: sh).map (·.2)) = lastOf ((s2 :: sh).map (·.2)) := by simp [lastOf]
            rw [e3, e4, hb, hmx, e5, e6]
            constructor
            · simp only [prodI]
              rw [hcl]
              linear_combination (h - l + 1) * ih1
            · have e7 : ∀ z zs, blkOf ((d, c) :: s2 :: sh) (z :: zs) = (z - 1) / c :: blkOf (s2 :: sh) zs := fun _ _ => rfl
              rw [e7, e7, hb, ih2]

theorem sumBlocks_nonneg {f : Int → Int} (hf : ∀ i, 0 ≤ f i) (step cr : Int) (fuel : Nat) (i : Int) : 0 ≤ sumBlocks f step cr fuel i := by
  induction fuel generalizing i with
  | zero => simp [sumBlocks]
  | succ k ih =>
    simp only [sumBlocks]
    split
    · have := ih (i + step); have := hf i; omega
    · simp

theorem sumBlocks_lt {f : Int → Int} (hf : ∀ i, 0 ≤ f i) {step c1 c2 : Int} (hs : 0 < step) (hc : c1 < c2) (f1 f2 : Nat) {i k : Int} (hik : c1 = i + k * step)
    (hk : 0 ≤ k) (hf2 : c2 - i ≤ f2) :
    sumBlocks f step c1 f1 i + f c1 ≤ sumBlocks f step c2 f2 i := by
  induction f2 generalizing f1 i k with
  | zero =>
    have := Int.mul_nonneg hk (by omega : 0 ≤ step)
    omega
  | succ f2 ih =>
    have hkn := Int.mul_nonneg hk (by omega : 0 ≤ step)
    have h2 : sumBlocks f step c2 (f2 + 1) i = f i + sumBlocks f step c2 f2 (i + step) := by
      simp only [sumBlocks]; rw [if_pos (by omega)]
    rw [h2]
    by_cases hk0 : k = 0
    · have hi : i = c1 := by rw [hk0] at hik; omega
      subst hi
      have : sumBlocks f step i f1 i = 0 := by
        cases f1 with
        | zero => rfl
        | succ f1 => simp [sumBlocks]
      have := sumBlocks_nonneg hf step c2 f2 (i + step)
      omega
    · have e1 : (k - 1) * step = k * step - step := by ring
      have ih' := fun f1 => ih f1 (i := i + step) (k := k - 1) (by omega) (by omega) (by omega)
      cases f1 with
      | zero =>
        have := ih' 0
        have h0 := hf i
        simp only [sumBlocks] at this ⊢
        omega
      | succ f1 =>
        have := ih' f1
        simp only [sumBlocks]
        have hnn := Int.mul_nonneg (by omega : 0 ≤ k - 1) (by omega : 0 ≤ step)
        rw [if_pos (by omega)]
        omega

/-- file and offset of an element -/
def loc (A : DArr) (x : List Int) : Int × Int :=
  if A.multi then
    let cr := blockNo A.shape x
    (cr % A.ioprocs, sumBlocks (blockSize A.shape) A.ioprocs cr cr.toNat (cr % A.ioprocs) + inner A.shape x)
  else (0, place1 A.shape x)

theorem ChunkOK.inArray {sh : List (Int × Int)} {lo hi x : List Int} (hc : ChunkOK sh lo hi) (hx : InPatch lo hi x) : InArray (sh.map (·.1)) x := by
  induction sh generalizing lo hi x with
  | nil => cases lo <;> simp [ChunkOK] at hc
  | cons s sh ih =>
    obtain ⟨d, c⟩ := s
    match lo, hi, x, hx with
    | [], [], [], _ => simp [ChunkOK] at hc
    | l :: ls, h :: hs', x :: xs, hx =>
      simp only [InPatch] at hx
      cases sh with
      | nil =>
        match ls, hs', hc with
        | [], [], hc =>
          simp only [ChunkOK] at hc
          cases xs with
          | cons _ _ => simp [InPatch] at hx
          | nil => simp only [InArray, List.map_cons, List.map_nil, InPatch]; exact ⟨by omega, trivial⟩
      | cons s2 sh =>
        simp only [ChunkOK] at hc
        have := ih hc.2 hx.2
        simp only [InArray, List.map_cons, InPatch] at this ⊢
        exact ⟨by omega, this⟩

theorem ChunkOK.aligned {sh : List (Int × Int)} {lo hi : List Int} (hc : ChunkOK sh lo hi) : alignedLo sh lo = true := by
  induction sh generalizing lo hi with
  | nil => cases lo <;> simp [ChunkOK] at hc
  | cons s sh ih =>
    obtain ⟨d, c⟩ := s
    cases lo with
    | nil => simp [ChunkOK] at hc
    | cons l ls =>
      cases hi with
      | nil => cases sh <;> cases ls <;> simp [ChunkOK] at hc
      | cons h hs =>
        cases sh with
        | nil => simp [alignedLo]
        | cons s2 sh =>
          simp only [ChunkOK] at hc
          simp only [alignedLo, Bool.and_eq_true, decide_eq_true_eq]
          exact ⟨hc.1.1, ih hc.2⟩

theorem ChunkOK.lo_in {sh : List (Int × Int)} (hs : ShapeOK sh) {lo hi : List Int} (hc : ChunkOK sh lo hi) : InPatch lo hi lo := by
  induction sh generalizing lo hi with
  | nil => cases lo <;> simp [ChunkOK] at hc
  | cons s sh ih =>
    obtain ⟨d, c⟩ := s
    have hs1 : 1 ≤ c ∧ c ≤ d := hs _ List.mem_cons_self
    cases lo with
    | nil => simp [ChunkOK] at hc
    | cons l ls =>
      cases hi with
      | nil => cases sh <;> cases ls <;> simp [ChunkOK] at hc
      | cons h hs' =>
        cases sh with
        | nil =>
          match ls, hs', hc with
          | [], [], hc => simp only [ChunkOK] at hc; simp only [InPatch]; exact ⟨by omega, trivial⟩
        | cons s2 sh =>
          simp only [ChunkOK] at hc
          simp only [InPatch]
          exact ⟨by omega, ih (fun s hm => hs s (List.mem_cons_of_mem _ hm)) hc.2⟩

/-- `ndai_file_location` finds the place of the elements of a chunk -/
theorem fileLoc_eq {A : DArr} (hs : ShapeOK A.shape) (hio : 0 < A.ioprocs) {iome : Int} {lo hi : List Int} (hc : ChunkOK A.shape lo hi)
    (ht : myturn A iome lo = true) :
    ∃ o, fileLoc A iome lo = some o ∧ ∀ x, InPatch lo hi x → loc A x = (fileOf A iome, o + bufPos lo (edges lo hi).dropLast x) := by
  unfold fileLoc loc fileOf
  rw [hc.aligned]
  simp only [Bool.not_true, Bool.false_eq_true, if_false]
  simp only [myturn, decide_eq_true_eq] at ht
  have hlo := hc.inArray (hc.lo_in hs)
  cases hm : A.multi
  · simp only [Bool.false_eq_true, if_false]
    refine ⟨_, rfl, fun x hx => ?_⟩
    have := parBlocks_sum hs hc hx 1
    rw [Int.one_mul, Int.one_mul] at this
    rw [this]
  · simp only [if_true]
    have hi0 : 0 ≤ iome := by rw [← ht]; exact Int.emod_nonneg _ (by omega)
    rw [if_pos hi0]
    refine ⟨_, rfl, fun x hx => ?_⟩
    obtain ⟨h1, h2⟩ := fracOff hs hc hx
    rw [blockNo_congr h2, ht, (blockIdx_blockNo hs hlo).1, ← h1]
    rw [Int.add_assoc]

theorem blkOf_eq_of_blockNo {sh : List (Int × Int)} (hs : ShapeOK sh) {x y : List Int} (hx : InArray (sh.map (·.1)) x) (hy : InArray (sh.map (·.1)) y)
    (h : blockNo sh x = blockNo sh y) : blkOf sh x = blkOf sh y := by
  rw [← (blockIdx_blockNo hs hx).1, ← (blockIdx_blockNo hs hy).1, h]

theorem extent_nonneg {d c k : Int} (hc : 1 ≤ c) : 0 ≤ extent d c k := by
  unfold extent
  split
  · omega
  · split
    · exact Int.emod_nonneg _ (by omega)
    · omega

theorem blockSize_nonneg {sh : List (Int × Int)} (hs : ShapeOK sh) (n : Int) : 0 ≤ blockSize sh n := by
  unfold blockSize
  generalize blockIdx sh n = ix
  induction sh generalizing ix with
  | nil => simp [extents, prodI]
  | cons s sh ih =>
    obtain ⟨d, c⟩ := s
    have hs1 : 1 ≤ c ∧ c ≤ d := hs _ List.mem_cons_self
    cases ix with
    | nil => simp [extents, prodI]
    | cons k ix =>
      simp only [extents, prodI]
      exact Int.mul_nonneg (extent_nonneg hs1.1) (ih (fun s hm => hs s (List.mem_cons_of_mem _ hm)) ix)

/-- different elements have different places -/
theorem loc_inj {A : DArr} (hs : ShapeOK A.shape) (hio : 0 < A.ioprocs) {x y : List Int} (hx : InArray (A.shape.map (·.1)) x)
    (hy : InArray (A.shape.map (·.1)) y) (h : loc A x = loc A y) : x = y := by
  unfold loc at h
  cases hm : A.multi
  · rw [hm] at h
    simp only [Bool.false_eq_true, if_false, Prod.mk.injEq, true_and] at h
    exact place1_inj hs hx hy h
  · rw [hm] at h
    simp only [if_true, Prod.mk.injEq] at h
    have key : ∀ {x y : List Int}, InArray (A.shape.map (·.1)) x → InArray (A.shape.map (·.1)) y → blockNo A.shape x % A.ioprocs = blockNo A.shape y % A.ioprocs →
        blockNo A.shape x < blockNo A.shape y →
        sumBlocks (blockSize A.shape) A.ioprocs (blockNo A.shape x) (blockNo A.shape x).toNat (blockNo A.shape x % A.ioprocs) + inner A.shape x <
        sumBlocks (blockSize A.shape) A.ioprocs (blockNo A.shape y) (blockNo A.shape y).toNat (blockNo A.shape y % A.ioprocs) + inner A.shape y := by
      intro x y hx hy he hlt
      have hnx := (blockIdx_blockNo hs hx)
      have hny := (blockIdx_blockNo hs hy)
      have hm0 := Int.emod_nonneg (blockNo A.shape x) (by omega : A.ioprocs ≠ 0)
      have hd := Int.emod_add_mul_ediv (blockNo A.shape x) A.ioprocs
      have h1 := sumBlocks_lt (blockSize_nonneg hs) hio hlt (blockNo A.shape x).toNat (blockNo A.shape y).toNat
        (i := blockNo A.shape x % A.ioprocs) (k := blockNo A.shape x / A.ioprocs) (by rw [Int.mul_comm]; omega)
        (Int.ediv_nonneg hnx.2 (by omega)) (by omega)
      have h2 := extents_pos hs hx
      have h3 := extents_pos hs hy
      have e : blockSize A.shape (blockNo A.shape x) = prodI (extents A.shape (blkOf A.shape x)) := by
        unfold blockSize; rw [hnx.1]
      rw [← he]
      omega
    rcases lt_trichotomy (blockNo A.shape x) (blockNo A.shape y) with hlt | heq | hgt
    · exact absurd h.2 (ne_of_lt (key hx hy h.1 hlt))
    · rw [heq] at h
      exact inner_inj hs hx hy (blkOf_eq_of_blockNo hs hx hy heq) (by omega)
    · exact absurd h.2.symm (ne_of_lt (key hy hx h.1.symm hgt))

end GA.Dra
