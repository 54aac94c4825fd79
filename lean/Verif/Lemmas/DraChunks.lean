import Verif.Lemmas.DraPlace
import Verif.Lemmas.RegIter

/-! # Lemmas: the loop over the chunks of a section -/

namespace GA.Dra
open GA.Spec GA.Model

/-- a section that consists of complete blocks in all dimensions but the last -/
def CoverOK : (sh : List (Int × Int)) → (clo chi : List Int) → Prop
  | [(d, _)], [a], [h] => 1 ≤ a ∧ a ≤ h ∧ h ≤ d
  | (d, c) :: sh, a :: as, h :: hs => ((a - 1) % c = 0 ∧ 1 ≤ a ∧ a ≤ h ∧ h ≤ d ∧ (h % c = 0 ∨ h = d)) ∧ CoverOK sh as hs
  | _, _, _ => False

/-- the part of the section in block `b` -/
def secLo : (sh : List (Int × Int)) → (clo b : List Int) → List Int
  | (_, c) :: sh, a :: as, b :: bs => max a (b * c + 1) :: secLo sh as bs
  | _, _, _ => []

def secHi : (sh : List (Int × Int)) → (chi b : List Int) → List Int
  | (_, c) :: sh, h :: hs, b :: bs => min h (b * c + c) :: secHi sh hs bs
  | _, _, _ => []

def raw : (sh : List (Int × Int)) → (b : List Int) → List Int
  | (_, c) :: sh, b :: bs => (b * c + 1) :: raw sh bs
  | _, _ => []

/-- next block, first dimension fastest; no bound in the last dimension -/
def incB : (bl bh b : List Int) → List Int
  | [_], [_], [b] => [b + 1]
  | l :: ls, h :: hs, b :: bs => if b < h then (b + 1) :: bs else l :: incB ls hs bs
  | _, _, _ => []

theorem CoverOK.cons {s : Int × Int} {s2 : Int × Int} {sh : List (Int × Int)} {lo hi : List Int} (h : CoverOK (s :: s2 :: sh) lo hi) :
    ∃ a as h' hs, lo = a :: as ∧ hi = h' :: hs ∧
      ((a - 1) % s.2 = 0 ∧ 1 ≤ a ∧ a ≤ h' ∧ h' ≤ s.1 ∧ (h' % s.2 = 0 ∨ h' = s.1)) ∧ CoverOK (s2 :: sh) as hs := by
  obtain ⟨d, c⟩ := s
  match lo, hi, h with
  | a :: as, h' :: hs, h => exact ⟨a, as, h', hs, rfl, rfl, h⟩
  | [], _, h => simp [CoverOK] at h
  | _ :: _, [], h => simp [CoverOK] at h

theorem CoverOK.one {s : Int × Int} {lo hi : List Int} (h : CoverOK [s] lo hi) :
    ∃ a h', lo = [a] ∧ hi = [h'] ∧ 1 ≤ a ∧ a ≤ h' ∧ h' ≤ s.1 := by
  obtain ⟨d, c⟩ := s
  match lo, hi, h with
  | [a], [h'], h => exact ⟨a, h', rfl, rfl, h⟩
  | [], _, h => simp [CoverOK] at h
  | [_], [], h => simp [CoverOK] at h
  | _ :: _ :: _, [], h => simp [CoverOK] at h
  | [_], _ :: _ :: _, h => simp [CoverOK] at h
  | _ :: _ :: _, [_], h => simp [CoverOK] at h
  | _ :: _ :: _, _ :: _ :: _, h => simp [CoverOK] at h

theorem blk_le {a h c : Int} (hc : 1 ≤ c) (h1 : a ≤ h) : (a - 1) / c ≤ (h - 1) / c := Int.ediv_le_ediv (by omega) (by omega)

theorem CoverOK.blk {sh : List (Int × Int)} (hs : ShapeOK sh) {lo hi : List Int} (h : CoverOK sh lo hi) :
    InPatch (blkOf sh lo) (blkOf sh hi) (blkOf sh lo) := by
  induction sh generalizing lo hi with
  | nil => simp [CoverOK] at h
  | cons s sh ih =>
    obtain ⟨d, c⟩ := s
    have hs1 : 1 ≤ c ∧ c ≤ d := hs _ List.mem_cons_self
    cases sh with
    | nil =>
      obtain ⟨a, h', rfl, rfl, h1⟩ := h.one
      simp only [blkOf, InPatch]
      exact ⟨⟨le_refl _, blk_le hs1.1 h1.2.1⟩, trivial⟩
    | cons s2 sh =>
      obtain ⟨a, as, h', hs', rfl, rfl, h1, h2⟩ := h.cons
      simp only [blkOf, InPatch]
      exact ⟨⟨le_refl _, blk_le hs1.1 h1.2.2.1⟩, ih (fun s hm => hs s (List.mem_cons_of_mem _ hm)) h2⟩

theorem mem_sec {sh : List (Int × Int)} (hs : ShapeOK sh) {clo chi b x : List Int} (hl : clo.length = sh.length) (hh : chi.length = sh.length)
    (hb : b.length = sh.length) : InPatch (secLo sh clo b) (secHi sh chi b) x ↔ InPatch clo chi x ∧ blkOf sh x = b := by
  induction sh generalizing clo chi b x with
  | nil =>
    cases clo <;> cases chi <;> cases b <;> cases x <;> simp_all [secLo, secHi, InPatch, blkOf]
  | cons s sh ih =>
    obtain ⟨d, c⟩ := s
    have hs1 : 1 ≤ c ∧ c ≤ d := hs _ List.mem_cons_self
    match clo, chi, b, hl, hh, hb with
    | a :: as, h :: hs', b :: bs, hl, hh, hb =>
      cases x with
      | nil => simp [secLo, secHi, InPatch]
      | cons x xs =>
        have ih := @ih (fun s hm => hs s (List.mem_cons_of_mem _ hm)) as hs' bs xs (by simpa using hl) (by simpa using hh) (by simpa using hb)
        simp only [secLo, secHi, InPatch, ih, blkOf, List.cons.injEq]
        rw [div_char hs1.1]
        constructor
        · rintro ⟨h1, h2, h3⟩
          exact ⟨⟨by omega, h2⟩, by omega, h3⟩
        · rintro ⟨⟨h1, h2⟩, h3, h4⟩
          exact ⟨by omega, h2, h4⟩

theorem sec_chunkOK {sh : List (Int × Int)} (hs : ShapeOK sh) {clo chi b : List Int} (h : CoverOK sh clo chi)
    (hb : InPatch (blkOf sh clo) (blkOf sh chi) b) : ChunkOK sh (secLo sh clo b) (secHi sh chi b) := by
  induction sh generalizing clo chi b with
  | nil => simp [CoverOK] at h
  | cons s sh ih =>
    obtain ⟨d, c⟩ := s
    have hs1 : 1 ≤ c ∧ c ≤ d := hs _ List.mem_cons_self
    cases sh with
    | nil =>
      obtain ⟨a, h', rfl, rfl, h1⟩ := h.one
      match b, hb with
      | [b], hb =>
        simp only [blkOf, InPatch] at hb
        have ha := (div_char (x := a) hs1.1).1 rfl
        have hh := (div_char (x := h') hs1.1).1 rfl
        have m1 : (a - 1) / c * c ≤ b * c := Int.mul_le_mul_of_nonneg_right hb.1.1 (by omega)
        have m2 : b * c ≤ (h' - 1) / c * c := Int.mul_le_mul_of_nonneg_right hb.1.2 (by omega)
        have m3 : (a - 1) / c < b → (a - 1) / c * c + c ≤ b * c := fun h => mul_le_iff hs1.1 h
        have m4 : b < (h' - 1) / c → b * c + c ≤ (h' - 1) / c * c := fun h => mul_le_iff hs1.1 h
        have hle : a ≤ b * c + c := by omega
        simp only [secLo, secHi, ChunkOK]
        have e1 : (max a (b * c + 1) - 1) / c = b := by rw [div_char hs1.1]; omega
        have e2 : (min h' (b * c + c) - 1) / c = b := by rw [div_char hs1.1]; omega
        rw [e1, e2]
        have : 0 ≤ b * c := Int.mul_nonneg (by have := Int.ediv_nonneg (by omega : 0 ≤ a - 1) (by omega : 0 ≤ c); omega) (by omega)
        omega
    | cons s2 sh =>
      obtain ⟨a, as, h', hs', rfl, rfl, h1, h2⟩ := h.cons
      match b, hb with
      | b :: bs, hb =>
        simp only [blkOf, InPatch] at hb
        have ih := @ih (fun s hm => hs s (List.mem_cons_of_mem _ hm)) as hs' bs h2 (by simpa only [blkOf] using hb.2)
        have ha := (div_char (x := a) hs1.1).1 rfl
        have hh := (div_char (x := h') hs1.1).1 rfl
        have m1 : (a - 1) / c * c ≤ b * c := Int.mul_le_mul_of_nonneg_right hb.1.1 (by omega)
        have m2 : b * c ≤ (h' - 1) / c * c := Int.mul_le_mul_of_nonneg_right hb.1.2 (by omega)
        have m4 : b < (h' - 1) / c → b * c + c ≤ (h' - 1) / c * c := fun h => mul_le_iff hs1.1 h
        have ea := divmod a c
        dsimp only at h1
        have e0 : max a (b * c + 1) = b * c + 1 := by omega
        have e1 : min h' (b * c + c) = min (b * c + c) d := by
          rcases h1.2.2.2.2 with h3 | h3
          · have hm := Int.emod_add_mul_ediv h' c
            rw [h3] at hm
            have e5 : (h' - 1) / c * c + c = h' := by
              have : h' / c * c = h' := by linarith
              have : (h' - 1) / c = h' / c - 1 := by
                rw [div_char hs1.1]
                have : (h' / c - 1) * c = h' / c * c - c := by ring
                omega
              rw [this]
              have : (h' / c - 1) * c = h' / c * c - c := by ring
              omega
            omega
          · omega
        have hb0 : 0 ≤ b * c := Int.mul_nonneg (by have := Int.ediv_nonneg (by omega : 0 ≤ a - 1) (by omega : 0 ≤ c); omega) (by omega)
        have e6 : ∀ z zs y ys, secLo ((d, c) :: s2 :: sh) (z :: zs) (y :: ys) = max z (y * c + 1) :: secLo (s2 :: sh) zs ys := fun _ _ _ _ => rfl
        have e7 : ∀ z zs y ys, secHi ((d, c) :: s2 :: sh) (z :: zs) (y :: ys) = min z (y * c + c) :: secHi (s2 :: sh) zs ys := fun _ _ _ _ => rfl
        rw [e6, e7, e0, e1]
        have e8 : ∀ l ls h hs, ChunkOK ((d, c) :: s2 :: sh) (l :: ls) (h :: hs) = (((l - 1) % c = 0 ∧ 1 ≤ l ∧ l ≤ d ∧ h = min (l + c - 1) d) ∧
          ChunkOK (s2 :: sh) ls hs) := fun _ _ _ _ => by simp only [ChunkOK]
        rw [e8]
        refine ⟨⟨?_, by omega, by omega, by omega⟩, ih⟩
        rw [Int.add_sub_cancel, Int.mul_emod_left]

/-! ## the loop -/

theorem raw_pos {sh : List (Int × Int)} (hs : ShapeOK sh) {b : List Int} (hb : ∀ z ∈ b, 0 ≤ z) : ∀ z ∈ raw sh b, 1 ≤ z := by
  induction sh generalizing b with
  | nil => simp [raw]
  | cons s sh ih =>
    obtain ⟨d, c⟩ := s
    have hs1 : 1 ≤ c ∧ c ≤ d := hs _ List.mem_cons_self
    cases b with
    | nil => simp [raw]
    | cons b bs =>
      simp only [raw, List.mem_cons, forall_eq_or_imp]
      exact ⟨by have := Int.mul_nonneg (hb b List.mem_cons_self) (by omega : 0 ≤ c); omega,
        ih (fun s hm => hs s (List.mem_cons_of_mem _ hm)) fun z hz => hb z (List.mem_cons_of_mem _ hz)⟩

theorem alignLast_sec {sh : List (Int × Int)} (hs : ShapeOK sh) {clo chi b : List Int} (h : CoverOK sh clo chi)
    (hb : InPatch (blkOf sh clo) (blkOf sh chi) b) : alignLast sh (secLo sh clo b) = raw sh b := by
  induction sh generalizing clo chi b with
  | nil => simp [CoverOK] at h
  | cons s sh ih =>
    obtain ⟨d, c⟩ := s
    have hs1 : 1 ≤ c ∧ c ≤ d := hs _ List.mem_cons_self
    cases sh with
    | nil =>
      obtain ⟨a, h', rfl, rfl, h1⟩ := h.one
      match b, hb with
      | [b], hb =>
        simp only [blkOf, InPatch] at hb
        have ha := (div_char (x := a) hs1.1).1 rfl
        have m1 : (a - 1) / c * c ≤ b * c := Int.mul_le_mul_of_nonneg_right hb.1.1 (by omega)
        have m3 : (a - 1) / c < b → (a - 1) / c * c + c ≤ b * c := fun h => mul_le_iff hs1.1 h
        have hle : a ≤ b * c + c := by
          rcases lt_or_eq_of_le hb.1.1 with h3 | h3
          · have := m3 h3; omega
          · rw [← h3]; omega
        simp only [secLo, alignLast, raw]
        have em := mod_char (x := max a (b * c + 1)) (b := b) hs1.1 (by omega)
        rw [em]
        congr 1
        split
        · omega
        · have : c = 1 := by omega
          subst this
          omega
    | cons s2 sh =>
      obtain ⟨a, as, h', hs', rfl, rfl, h1, h2⟩ := h.cons
      match b, hb with
      | b :: bs, hb =>
        simp only [blkOf, InPatch] at hb
        have ih := @ih (fun s hm => hs s (List.mem_cons_of_mem _ hm)) as hs' bs h2 (by simpa only [blkOf] using hb.2)
        have ea := divmod a c
        dsimp only at h1
        have m1 : (a - 1) / c * c ≤ b * c := Int.mul_le_mul_of_nonneg_right hb.1.1 (by omega)
        have e0 : max a (b * c + 1) = b * c + 1 := by omega
        have e6 : ∀ z zs y ys, secLo ((d, c) :: s2 :: sh) (z :: zs) (y :: ys) = max z (y * c + 1) :: secLo (s2 :: sh) zs ys := fun _ _ _ _ => rfl
        have e7 : ∀ y ys, raw ((d, c) :: s2 :: sh) (y :: ys) = (y * c + 1) :: raw (s2 :: sh) ys := fun _ _ => rfl
        have e8 : ∀ y ys, alignLast ((d, c) :: s2 :: sh) (y :: ys) = y :: alignLast (s2 :: sh) ys := fun _ _ => by simp only [alignLast]
        rw [e6, e8, e7, ih, e0]

theorem incr_raw {sh : List (Int × Int)} (hs : ShapeOK sh) {clo chi b : List Int} (h : CoverOK sh clo chi)
    (hb : InPatch (blkOf sh clo) (blkOf sh chi) b) : incr sh (raw sh b) clo chi = raw sh (incB (blkOf sh clo) (blkOf sh chi) b) := by
  induction sh generalizing clo chi b with
  | nil => simp [CoverOK] at h
  | cons s sh ih =>
    obtain ⟨d, c⟩ := s
    have hs1 : 1 ≤ c ∧ c ≤ d := hs _ List.mem_cons_self
    cases sh with
    | nil =>
      obtain ⟨a, h', rfl, rfl, h1⟩ := h.one
      match b, hb with
      | [b], hb =>
        simp only [blkOf, raw, incr, incB]
        congr 1; ring
    | cons s2 sh =>
      obtain ⟨a, as, h', hs', rfl, rfl, h1, h2⟩ := h.cons
      match b, hb with
      | b :: bs, hb =>
        simp only [blkOf, InPatch] at hb
        have ih := @ih (fun s hm => hs s (List.mem_cons_of_mem _ hm)) as hs' bs h2 (by simpa only [blkOf] using hb.2)
        have ea := divmod a c
        dsimp only at h1
        have hh := (div_char (x := h') hs1.1).1 rfl
        have e7 : ∀ y ys, raw ((d, c) :: s2 :: sh) (y :: ys) = (y * c + 1) :: raw (s2 :: sh) ys := fun _ _ => rfl
        have e8 : ∀ l ls h hs, incr ((d, c) :: s2 :: sh) (l :: ls) (a :: as) (h :: hs) = if h < l + c then a :: incr (s2 :: sh) ls as hs else (l + c) :: ls :=
          fun _ _ _ _ => by simp only [incr]
        have e9 : ∀ z zs, blkOf ((d, c) :: s2 :: sh) (z :: zs) = (z - 1) / c :: blkOf (s2 :: sh) zs := fun _ _ => rfl
        rw [e7, e8, e9, e9]
        have e10 : incB ((a - 1) / c :: blkOf (s2 :: sh) as) ((h' - 1) / c :: blkOf (s2 :: sh) hs') (b :: bs) =
          if b < (h' - 1) / c then (b + 1) :: bs else (a - 1) / c :: incB (blkOf (s2 :: sh) as) (blkOf (s2 :: sh) hs') bs := by
          obtain ⟨d2, c2⟩ := s2
          cases as with
          | nil => cases sh <;> simp [CoverOK] at h2
          | cons _ _ =>
            cases hs' with
            | nil => cases sh <;> simp [CoverOK] at h2
            | cons _ _ => simp only [blkOf, incB]
        rw [e10]
        by_cases hlt : b < (h' - 1) / c
        · have := mul_le_iff hs1.1 hlt
          rw [if_neg (by omega), if_pos hlt, e7]
          congr 1; ring
        · have : b = (h' - 1) / c := by omega
          subst this
          rw [if_pos (by omega), if_neg hlt, e7, ih]
          congr 1; omega

theorem InPatch_nonneg {bl bh b : List Int} (hb : InPatch bl bh b) (h0 : ∀ z ∈ bl, 0 ≤ z) : ∀ z ∈ b, 0 ≤ z := by
  induction bl generalizing bh b with
  | nil => cases bh <;> cases b <;> simp_all [InPatch]
  | cons l ls ih =>
    match bh, b, hb with
    | h :: hs, b :: bs, hb =>
      simp only [InPatch] at hb
      intro z hz
      rcases List.mem_cons.1 hz with rfl | hz
      · have := h0 l List.mem_cons_self; omega
      · exact ih hb.2 (fun z hz => h0 z (List.mem_cons_of_mem _ hz)) z hz

theorem incB_nonneg {bl bh b : List Int} (hb : InPatch bl bh b) (h0 : ∀ z ∈ bl, 0 ≤ z) : (∀ z ∈ incB bl bh b, 0 ≤ z) := by
  induction bl generalizing bh b with
  | nil => intro z hz; simp [incB] at hz
  | cons l ls ih =>
    match bh, b, hb with
    | h :: hs, b :: bs, hb =>
      simp only [InPatch] at hb
      have hl := h0 l List.mem_cons_self
      have h0' : ∀ z ∈ ls, 0 ≤ z := fun z hz => h0 z (List.mem_cons_of_mem _ hz)
      have hbs : ∀ z ∈ bs, 0 ≤ z := InPatch_nonneg hb.2 h0'
      cases ls with
      | nil =>
        cases hs with
        | cons _ _ => cases bs <;> simp [InPatch] at hb
        | nil =>
          cases bs with
          | cons _ _ => simp [InPatch] at hb
          | nil =>
            intro z hz
            simp only [incB, List.mem_singleton] at hz
            omega
      | cons l' ls =>
        have e : incB (l :: l' :: ls) (h :: hs) (b :: bs) = if b < h then (b + 1) :: bs else l :: incB (l' :: ls) hs bs := by
          simp only [incB]
        rw [e]
        intro z hz
        split at hz
        · rcases List.mem_cons.1 hz with rfl | hz
          · omega
          · exact hbs z hz
        · rcases List.mem_cons.1 hz with rfl | hz
          · exact hl
          · exact ih hb.2 h0' z hz

theorem chunk_raw {sh : List (Int × Int)} (hs : ShapeOK sh) {clo chi b : List Int} (h : CoverOK sh clo chi)
    (hb : InPatch (blkOf sh clo) (blkOf sh chi) b) :
    chunkLo (raw sh b) clo = secLo sh clo b ∧ chunkHi sh (raw sh b) chi = secHi sh chi b ∧ lastOf (raw sh b) ≤ lastOf chi := by
  induction sh generalizing clo chi b with
  | nil => simp [CoverOK] at h
  | cons s sh ih =>
    obtain ⟨d, c⟩ := s
    have hs1 : 1 ≤ c ∧ c ≤ d := hs _ List.mem_cons_self
    cases sh with
    | nil =>
      obtain ⟨a, h', rfl, rfl, h1⟩ := h.one
      match b, hb with
      | [b], hb =>
        simp only [blkOf, InPatch] at hb
        have hh := (div_char (x := h') hs1.1).1 rfl
        have m2 : b * c ≤ (h' - 1) / c * c := Int.mul_le_mul_of_nonneg_right hb.1.2 (by omega)
        simp only [raw, chunkLo, secLo, chunkHi, secHi, lastOf, List.getLastD_cons, List.getLastD_nil]
        have e : (b * c + 1 + c - 1) % c = 0 := by
          have : b * c + 1 + c - 1 = (b + 1) * c := by ring
          rw [this, Int.mul_emod_left]
        rw [e]
        refine ⟨?_, ?_, by omega⟩
        · congr 1; omega
        · congr 1; omega
    | cons s2 sh =>
      obtain ⟨a, as, h', hs', rfl, rfl, h1, h2⟩ := h.cons
      match b, hb with
      | b :: bs, hb =>
        simp only [blkOf, InPatch] at hb
        obtain ⟨i1, i2, i3⟩ := @ih (fun s hm => hs s (List.mem_cons_of_mem _ hm)) as hs' bs h2 (by simpa only [blkOf] using hb.2)
        have ea := divmod a c
        dsimp only at h1
        have m1 : (a - 1) / c * c ≤ b * c := Int.mul_le_mul_of_nonneg_right hb.1.1 (by omega)
        have hbs : ∃ b2 bs', bs = b2 :: bs' := by
          cases bs with
          | cons b2 bs => exact ⟨b2, bs, rfl⟩
          | nil =>
            exfalso
            have := hb.2
            cases as <;> cases hs' <;> simp [blkOf, InPatch] at this
            all_goals (cases sh <;> simp [CoverOK] at h2)
        obtain ⟨b2, bs, rfl⟩ := hbs
        have has : ∃ a2 as', as = a2 :: as' := by
          cases as with
          | cons b2 bs => exact ⟨b2, bs, rfl⟩
          | nil => cases sh <;> simp [CoverOK] at h2
        obtain ⟨a2, as, rfl⟩ := has
        have hhs : ∃ a2 as', hs' = a2 :: as' := by
          cases hs' with
          | cons b2 bs => exact ⟨b2, bs, rfl⟩
          | nil => cases sh <;> simp [CoverOK] at h2
        obtain ⟨h2', hs', rfl⟩ := hhs
        have e6 : ∀ z zs y ys, secLo ((d, c) :: s2 :: sh) (z :: zs) (y :: ys) = max z (y * c + 1) :: secLo (s2 :: sh) zs ys := fun _ _ _ _ => rfl
        have e7 : ∀ z zs y ys, secHi ((d, c) :: s2 :: sh) (z :: zs) (y :: ys) = min z (y * c + c) :: secHi (s2 :: sh) zs ys := fun _ _ _ _ => rfl
        have e8 : ∀ y ys, raw ((d, c) :: s2 :: sh) (y :: ys) = (y * c + 1) :: raw (s2 :: sh) ys := fun _ _ => rfl
        have e8' : ∃ z zs, raw (s2 :: sh) (b2 :: bs) = z :: zs := ⟨_, _, rfl⟩
        rw [e6, e7, e8]
        rw [← i1, ← i2]
        obtain ⟨z, zs, hz⟩ := e8'
        rw [hz] at i3 ⊢
        refine ⟨?_, ?_, ?_⟩
        · have : max a (b * c + 1) = b * c + 1 := by omega
          rw [this]; simp only [chunkLo]
        · have : min h' (b * c + c) = min h' (b * c + 1 + c - 1) := by congr 1; omega
          rw [this]; simp only [chunkHi]
        · simpa [lastOf] using i3

theorem clo_raw {sh : List (Int × Int)} (hs : ShapeOK sh) {clo chi : List Int} (h : CoverOK sh clo chi) :
    chunkLo clo clo = secLo sh clo (blkOf sh clo) ∧ chunkHi sh clo chi = secHi sh chi (blkOf sh clo) ∧ lastOf clo ≤ lastOf chi ∧
      (clo.map fun _ => (0 : Int)) = alignLast sh (clo.map fun _ => (0 : Int)) ∧ clo ≠ [] := by
  induction sh generalizing clo chi with
  | nil => simp [CoverOK] at h
  | cons s sh ih =>
    obtain ⟨d, c⟩ := s
    have hs1 : 1 ≤ c ∧ c ≤ d := hs _ List.mem_cons_self
    cases sh with
    | nil =>
      obtain ⟨a, h', rfl, rfl, h1⟩ := h.one
      have ha := (div_char (x := a) hs1.1).1 rfl
      simp only [blkOf, chunkLo, secLo, chunkHi, secHi, lastOf, List.getLastD_cons, List.getLastD_nil, List.map_cons, List.map_nil, alignLast]
      have e : (a + c - 1) % c = a - 1 - (a - 1) / c * c := by
        have : a + c - 1 = (a - 1) + 1 * c := by ring
        rw [this, Int.add_mul_emod_self_right, divmod]
      rw [e]
      refine ⟨?_, ?_, by omega, by simp, by simp⟩
      · congr 1; omega
      · congr 1; omega
    | cons s2 sh =>
      obtain ⟨a, as, h', hs', rfl, rfl, h1, h2⟩ := h.cons
      obtain ⟨i1, i2, i3, i4, i5⟩ := @ih (fun s hm => hs s (List.mem_cons_of_mem _ hm)) as hs' h2
      have ea := divmod a c
      dsimp only at h1
      obtain ⟨a2, as, rfl⟩ := List.exists_cons_of_ne_nil i5
      have hhs : ∃ a2 as', hs' = a2 :: as' := by
        cases hs' with
        | cons b2 bs => exact ⟨b2, bs, rfl⟩
        | nil => cases sh <;> simp [CoverOK] at h2
      obtain ⟨h2', hs', rfl⟩ := hhs
      have e6 : ∀ z zs y ys, secLo ((d, c) :: s2 :: sh) (z :: zs) (y :: ys) = max z (y * c + 1) :: secLo (s2 :: sh) zs ys := fun _ _ _ _ => rfl
      have e7 : ∀ z zs y ys, secHi ((d, c) :: s2 :: sh) (z :: zs) (y :: ys) = min z (y * c + c) :: secHi (s2 :: sh) zs ys := fun _ _ _ _ => rfl
      have e9 : ∀ z zs, blkOf ((d, c) :: s2 :: sh) (z :: zs) = (z - 1) / c :: blkOf (s2 :: sh) zs := fun _ _ => rfl
      rw [e9, e6, e7, ← i1, ← i2]
      refine ⟨?_, ?_, ?_, ?_, by simp⟩
      · have : max a ((a - 1) / c * c + 1) = a := by omega
        rw [this]; simp only [chunkLo]
      · have : min h' ((a - 1) / c * c + c) = min h' (a + c - 1) := by congr 1; omega
        rw [this]; simp only [chunkHi]
      · simpa [lastOf] using i3
      · rw [List.map_cons]
        have : ∀ y ys, alignLast ((d, c) :: s2 :: sh) (y :: ys) = y :: alignLast (s2 :: sh) ys := fun _ _ => by simp only [alignLast]
        rw [this, ← i4]

/-- next block, `none` after the last one -/
def bnxt : (bl bh b : List Int) → Option (List Int)
  | l :: ls, h :: hs, b :: bs => if b < h then some ((b + 1) :: bs) else (bnxt ls hs bs).map (l :: ·)
  | _, _, _ => none

theorem bnxt_incB {bl bh b : List Int} (hb : InPatch bl bh b) (hne : bl ≠ []) :
    (bnxt bl bh b = some (incB bl bh b) ∧ InPatch bl bh (incB bl bh b)) ∨ (bnxt bl bh b = none ∧ lastOf (incB bl bh b) = lastOf bh + 1 ∧
      (incB bl bh b).length = bl.length) := by
  induction bl generalizing bh b with
  | nil => exact absurd rfl hne
  | cons l ls ih =>
    match bh, b, hb with
    | h :: hs, b :: bs, hb =>
      simp only [InPatch] at hb
      cases ls with
      | nil =>
        cases hs with
        | cons _ _ => cases bs <;> simp [InPatch] at hb
        | nil =>
          cases bs with
          | cons _ _ => simp [InPatch] at hb
          | nil =>
            by_cases hlt : b < h
            · left; simp only [bnxt, incB, if_pos hlt, InPatch]; exact ⟨trivial, by omega, trivial⟩
            · right; simp only [bnxt, incB, if_neg hlt, lastOf, List.getLastD_cons, List.getLastD_nil, List.length_singleton]; exact ⟨rfl, by omega, trivial⟩
      | cons l2 ls =>
        have e : incB (l :: l2 :: ls) (h :: hs) (b :: bs) = if b < h then (b + 1) :: bs else l :: incB (l2 :: ls) hs bs := by
          simp only [incB]
        have hlh : l ≤ h := by omega
        rw [e]
        simp only [bnxt]
        by_cases hlt : b < h
        · left
          rw [if_pos hlt, if_pos hlt]
          refine ⟨rfl, ?_⟩
          simp only [InPatch]
          exact ⟨by omega, hb.2⟩
        · rw [if_neg hlt, if_neg hlt]
          rcases ih hb.2 (by simp) with ⟨h1, h2⟩ | ⟨h1, h2, h3⟩
          · left
            rw [h1]
            refine ⟨rfl, ?_⟩
            simp only [InPatch]
            exact ⟨by omega, h2⟩
          · right
            rw [h1]
            refine ⟨rfl, ?_, by simp [h3]⟩
            have : hs ≠ [] := by rintro rfl; simp [InPatch] at hb
            obtain ⟨h'', hs, rfl⟩ := List.exists_cons_of_ne_nil this
            have : incB (l2 :: ls) (h'' :: hs) bs ≠ [] := by intro h0; rw [h0] at h3; simp at h3
            obtain ⟨y, ys, hy⟩ := List.exists_cons_of_ne_nil this
            rw [hy] at h2 ⊢
            simpa [lastOf] using h2

/-- the blocks visited from `b` on -/
inductive Tr (bl bh : List Int) : List Int → List (List Int) → Prop
  | last {b} (h : bnxt bl bh b = none) : Tr bl bh b [b]
  | step {b b' L} (h : bnxt bl bh b = some b') (t : Tr bl bh b' L) : Tr bl bh b (b :: L)

theorem Tr.row {l h : Int} {ls hs t : List Int} {L' : List (List Int)}
    (hrest : (bnxt ls hs t = none ∧ L' = []) ∨ ∃ t', bnxt ls hs t = some t' ∧ Tr (l :: ls) (h :: hs) (l :: t') L') (k : Nat) (x : Int)
    (hk : (h - x).toNat = k) (hx : x ≤ h) : Tr (l :: ls) (h :: hs) (x :: t) ((irange x h).map (· :: t) ++ L') := by
  induction k generalizing x with
  | zero =>
    have : x = h := by omega
    subst this
    have e : irange x x = [x] := by simp [irange]
    rw [e]
    rcases hrest with ⟨h1, rfl⟩ | ⟨t', h1, h2⟩
    · exact Tr.last (by simp [bnxt, h1])
    · exact Tr.step (b' := l :: t') (by simp [bnxt, h1]) h2
  | succ k ih =>
    have e : irange x h = x :: irange (x + 1) h := by
      unfold irange
      have e1 : (h + 1 - x).toNat = (h + 1 - (x + 1)).toNat + 1 := by omega
      rw [e1, List.range_succ_eq_map, List.map_cons, List.map_map]
      congr 1
      · simp
      · apply List.map_congr_left; intro i _; simp only [Function.comp]; push_cast; ring
    rw [e]
    exact Tr.step (b' := (x + 1) :: t) (by simp [bnxt, show x < h by omega]) (ih (x + 1) (by omega) (by omega))

theorem Tr.cons {l h : Int} {ls hs t : List Int} {L : List (List Int)} (hlh : l ≤ h) (ht : Tr ls hs t L) :
    Tr (l :: ls) (h :: hs) (l :: t) (L.flatMap fun t => (irange l h).map (· :: t)) := by
  induction ht with
  | last h1 =>
    simpa using Tr.row (l := l) (L' := []) (Or.inl ⟨h1, rfl⟩) _ l rfl hlh
  | step h1 _ ih =>
    rw [List.flatMap_cons]
    exact Tr.row (Or.inr ⟨_, h1, ih⟩) _ l rfl hlh

theorem Tr.box {bl bh : List Int} (hb : InPatch bl bh bl) : Tr bl bh bl (box bl bh) := by
  induction bl generalizing bh with
  | nil => cases bh <;> simp [InPatch] at hb; exact Tr.last rfl
  | cons l ls ih =>
    match bh, hb with
    | h :: hs, hb =>
      simp only [InPatch] at hb
      exact Tr.cons hb.1.2 (ih hb.2)

theorem Tr.mem {bl bh b : List Int} {L : List (List Int)} (h : Tr bl bh b L) : b ∈ L := by
  cases h <;> simp

theorem lastOf_raw {sh : List (Int × Int)} (hs : ShapeOK sh) {clo chi b : List Int} (h : CoverOK sh clo chi) (hl : b.length = (blkOf sh clo).length)
    (hb : lastOf b = lastOf (blkOf sh chi) + 1) : ¬ lastOf (raw sh b) ≤ lastOf chi := by
  induction sh generalizing clo chi b with
  | nil => simp [CoverOK] at h
  | cons s sh ih =>
    obtain ⟨d, c⟩ := s
    have hs1 : 1 ≤ c ∧ c ≤ d := hs _ List.mem_cons_self
    cases sh with
    | nil =>
      obtain ⟨a, h', rfl, rfl, h1⟩ := h.one
      match b, hl with
      | [b], _ =>
        simp only [blkOf, lastOf, List.getLastD_cons, List.getLastD_nil] at hb
        simp only [raw, lastOf, List.getLastD_cons, List.getLastD_nil]
        have hh := (div_char (x := h') hs1.1).1 rfl
        rw [hb]
        have : ((h' - 1) / c + 1) * c = (h' - 1) / c * c + c := by ring
        omega
    | cons s2 sh =>
      obtain ⟨a, as, h', hs', rfl, rfl, h1, h2⟩ := h.cons
      obtain ⟨-, -, -, -, i5⟩ := clo_raw (fun s hm => hs s (List.mem_cons_of_mem _ hm)) h2
      obtain ⟨a2, as, rfl⟩ := List.exists_cons_of_ne_nil i5
      have hhs : ∃ a2 as', hs' = a2 :: as' := by
        cases hs' with
        | cons b2 bs => exact ⟨b2, bs, rfl⟩
        | nil => cases sh <;> simp [CoverOK] at h2
      obtain ⟨h2', hs', rfl⟩ := hhs
      obtain ⟨d2, c2⟩ := s2
      match b, hl with
      | b :: b2 :: bs, hl =>
        have := @ih (fun s hm => hs s (List.mem_cons_of_mem _ hm)) _ _ (b2 :: bs) h2 (by simpa [blkOf] using hl) (by simpa [lastOf, blkOf] using hb)
        simpa [lastOf, raw] using this

theorem any_zero {l : List Int} (h : ∀ z ∈ l, 1 ≤ z) : l.any (· == 0) = false := by
  rw [List.any_eq_false]
  intro z hz
  have := h z hz
  simp only [beq_iff_eq]
  omega

theorem blkOf_nonneg {sh : List (Int × Int)} (hs : ShapeOK sh) {clo chi : List Int} (h : CoverOK sh clo chi) : ∀ z ∈ blkOf sh clo, 0 ≤ z := by
  induction sh generalizing clo chi with
  | nil => simp [CoverOK] at h
  | cons s sh ih =>
    obtain ⟨d, c⟩ := s
    have hs1 : 1 ≤ c ∧ c ≤ d := hs _ List.mem_cons_self
    cases sh with
    | nil =>
      obtain ⟨a, h', rfl, rfl, h1⟩ := h.one
      simp only [blkOf, List.mem_singleton, forall_eq]
      exact Int.ediv_nonneg (by omega) (by omega)
    | cons s2 sh =>
      obtain ⟨a, as, h', hs', rfl, rfl, h1, h2⟩ := h.cons
      have := @ih (fun s hm => hs s (List.mem_cons_of_mem _ hm)) as hs' h2
      have e9 : blkOf ((d, c) :: s2 :: sh) (a :: as) = (a - 1) / c :: blkOf (s2 :: sh) as := rfl
      rw [e9]
      intro z hz
      rcases List.mem_cons.1 hz with rfl | hz
      · exact Int.ediv_nonneg (by omega) (by omega)
      · exact this z hz

/-- `ndai_next_chunk` goes to the next block -/
theorem nextChunk_eq {sh : List (Int × Int)} (hs : ShapeOK sh) {clo chi b : List Int} (h : CoverOK sh clo chi)
    (hb : InPatch (blkOf sh clo) (blkOf sh chi) b) :
    nextChunk sh clo chi (secLo sh clo b) = (bnxt (blkOf sh clo) (blkOf sh chi) b).map fun b' => (secLo sh clo b', secHi sh chi b') := by
  have hne : blkOf sh clo ≠ [] := by
    cases sh with
    | nil => simp [CoverOK] at h
    | cons s sh => obtain ⟨d, c⟩ := s; cases clo with
      | nil => cases sh <;> simp [CoverOK] at h
      | cons a as => simp [blkOf]
  have h0 := blkOf_nonneg hs h
  unfold nextChunk
  rw [alignLast_sec hs h hb]
  simp only
  rw [any_zero (raw_pos hs (InPatch_nonneg hb h0)), incr_raw hs h hb]
  simp only [Bool.false_eq_true, if_false]
  rcases bnxt_incB hb hne with ⟨h1, h2⟩ | ⟨h1, h2, h3⟩
  · obtain ⟨c1, c2, c3⟩ := chunk_raw hs h h2
    rw [if_pos c3, c1, c2, h1]
    rfl
  · rw [if_neg (lastOf_raw hs h h3 h2), h1]
    rfl

theorem chunkLoop_tr {sh : List (Int × Int)} (hs : ShapeOK sh) {clo chi : List Int} (h : CoverOK sh clo chi) {b : List Int} {L : List (List Int)}
    (hb : InPatch (blkOf sh clo) (blkOf sh chi) b) (ht : Tr (blkOf sh clo) (blkOf sh chi) b L) (fuel : Nat) (hf : L.length ≤ fuel) :
    (secLo sh clo b, secHi sh chi b) :: chunkLoop sh clo chi fuel (secLo sh clo b) = L.map fun b => (secLo sh clo b, secHi sh chi b) := by
  have hne : blkOf sh clo ≠ [] := by
    cases sh with
    | nil => simp [CoverOK] at h
    | cons s sh => obtain ⟨d, c⟩ := s; cases clo with
      | nil => cases sh <;> simp [CoverOK] at h
      | cons a as => simp [blkOf]
  induction ht generalizing fuel with
  | last h1 =>
    cases fuel with
    | zero => simp at hf
    | succ fuel =>
      simp only [chunkLoop]
      rw [nextChunk_eq hs h hb, h1]
      rfl
  | @step b b' L h1 ht ih =>
    cases fuel with
    | zero => simp at hf
    | succ fuel =>
      simp only [chunkLoop]
      rw [nextChunk_eq hs h hb, h1]
      simp only [Option.map_some, List.map_cons]
      have hb' : InPatch (blkOf sh clo) (blkOf sh chi) b' := by
        rcases bnxt_incB hb hne with ⟨h2, h3⟩ | ⟨h2, -⟩
        · rw [h1] at h2; simp only [Option.some.injEq] at h2; rw [h2]; exact h3
        · rw [h1] at h2; simp at h2
      rw [ih hb' fuel (by simpa using hf)]

theorem box_blk_length {sh : List (Int × Int)} (hs : ShapeOK sh) {clo chi : List Int} (h : CoverOK sh clo chi) :
    ((box (blkOf sh clo) (blkOf sh chi)).length : Int) ≤ prodI (edges clo chi) ∧ 0 < prodI (edges clo chi) := by
  have hlen : ∀ (l h : Int), l ≤ h → ((irange l h).length : Int) = h - l + 1 := by
    intro l h hl; simp [irange]; omega
  have hfm : ∀ (L : List (List Int)) (l h : Int), (L.flatMap fun r => (irange l h).map (· :: r)).length = L.length * (irange l h).length := by
    intro L l h
    induction L with
    | nil => simp
    | cons a L ih => rw [List.flatMap_cons, List.length_append, ih, List.length_map, List.length_cons]; ring
  induction sh generalizing clo chi with
  | nil => simp [CoverOK] at h
  | cons s sh ih =>
    obtain ⟨d, c⟩ := s
    have hs1 : 1 ≤ c ∧ c ≤ d := hs _ List.mem_cons_self
    have hdiv : ∀ a h' : Int, 1 ≤ a → a ≤ h' → (h' - 1) / c - (a - 1) / c ≤ h' - a := by
      intro a h' h1 h2
      by_contra hcon
      have k1 := (div_char (x := a) hs1.1).1 rfl
      have k2 := (div_char (x := h') hs1.1).1 rfl
      generalize (h' - 1) / c = p at *
      generalize (a - 1) / c = q at *
      have h3 : (p - q - 1) * 1 ≤ (p - q - 1) * c := Int.mul_le_mul_of_nonneg_left hs1.1 (by omega)
      have h4 : (p - q - 1) * c = p * c - q * c - c := by ring
      by_cases he : p - q = 1
      · have : p = q + 1 := by omega
        subst this
        omega
      · by_cases hc1 : c = 1
        · subst hc1; omega
        · have h5 : (p - q - 1) * 2 ≤ (p - q - 1) * c := Int.mul_le_mul_of_nonneg_left (by omega) (by omega)
          omega
    cases sh with
    | nil =>
      obtain ⟨a, h', rfl, rfl, h1⟩ := h.one
      simp only [blkOf, box, edges, prodI]
      have := hdiv a h' h1.1 h1.2.1
      have hle := blk_le hs1.1 h1.2.1
      rw [hfm, Nat.cast_mul, hlen _ _ hle]
      simp
      omega
    | cons s2 sh =>
      obtain ⟨a, as, h', hs', rfl, rfl, h1, h2⟩ := h.cons
      have i := @ih (fun s hm => hs s (List.mem_cons_of_mem _ hm)) as hs' h2
      dsimp only at h1
      have e9 : ∀ z zs, blkOf ((d, c) :: s2 :: sh) (z :: zs) = (z - 1) / c :: blkOf (s2 :: sh) zs := fun _ _ => rfl
      rw [e9, e9]
      simp only [box, edges, prodI]
      have := hdiv a h' h1.2.1 h1.2.2.1
      have hle := blk_le hs1.1 h1.2.2.1
      rw [hfm, Nat.cast_mul, hlen _ _ hle]
      refine ⟨?_, Int.mul_pos (by omega) i.2⟩
      rw [Int.mul_comm]
      exact Int.mul_le_mul (by omega) i.1 (by omega) (by omega)

/-- the loop visits the blocks of the section, each once -/
theorem chunks_eq {sh : List (Int × Int)} (hs : ShapeOK sh) {clo chi : List Int} (h : CoverOK sh clo chi) :
    chunks sh clo chi = (box (blkOf sh clo) (blkOf sh chi)).map fun b => (secLo sh clo b, secHi sh chi b) := by
  obtain ⟨c1, c2, c3, c4, c5⟩ := clo_raw hs h
  unfold chunks
  simp only [chunkLoop]
  have hn : nextChunk sh clo chi (clo.map fun _ => 0) = some (secLo sh clo (blkOf sh clo), secHi sh chi (blkOf sh clo)) := by
    unfold nextChunk
    rw [← c4]
    have : (clo.map fun _ => (0 : Int)).any (· == 0) = true := by
      obtain ⟨a, as, rfl⟩ := List.exists_cons_of_ne_nil c5
      simp
    simp only
    rw [this, if_pos rfl, if_pos c3, c1, c2]
  rw [hn]
  have hb := h.blk hs
  have hl := box_blk_length hs h
  exact chunkLoop_tr hs h hb (Tr.box hb) _ (by omega)

end GA.Dra
