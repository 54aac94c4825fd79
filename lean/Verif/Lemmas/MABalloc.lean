import Verif.Spec.MAAlloc
import Mathlib.Tactic.Ring
import Mathlib.Tactic.Linarith
import Mathlib.Algebra.Order.Ring.Int
import Mathlib.Algebra.Group.Int.Even

namespace GA.MA

/-- The admissible client addresses for a type of size `sz` and base `base`
with alignment `P`. -/
def InC (sz base P c : Int) : Prop :=
  c % sz = base % sz ∧ (sz ∣ P → sz ∣ base → P ∣ c)

theorem U_id {x : Int} (h0 : 0 ≤ x) (h1 : x < 18446744073709551616) : U x = x :=
  Int.emod_eq_of_lt h0 h1

theorem U_mod {x s : Int} (h : s ∣ 18446744073709551616) : U x % s = x % s :=
  Int.emod_emod_of_dvd x h

theorem pow_dvd_w {k : Nat} (h : k ≤ 64) : (2 : Int) ^ k ∣ 18446744073709551616 := by
  have : (18446744073709551616 : Int) = 2 ^ 64 := by norm_num
  rw [this]; exact pow_dvd_pow 2 h

theorem pow_bd {k : Nat} (h : k ≤ 30) : (1 : Int) ≤ 2 ^ k ∧ (2 : Int) ^ k ≤ 1073741824 := by
  refine ⟨one_le_pow₀ (by norm_num), ?_⟩
  have : (2 : Int) ^ k ≤ 2 ^ 30 := pow_le_pow_right₀ (by norm_num) h
  simpa using this

theorem pow_bd16 {k : Nat} (h : k ≤ 16) : (1 : Int) ≤ 2 ^ k ∧ (2 : Int) ^ k ≤ 65536 := by
  refine ⟨one_le_pow₀ (by norm_num), ?_⟩
  have : (2 : Int) ^ k ≤ 2 ^ 16 := pow_le_pow_right₀ (by norm_num) h
  simpa using this

/-- If a nonzero remainder of `P` is a multiple of `sz`, then `sz` divides `P`. -/
theorem dvd_of_rem {k al : Nat} {d : Int} (h0 : 0 < d) (h1 : d < 2 ^ al)
    (hd : d % (2 : Int) ^ k = 0) : (2 : Int) ^ k ∣ 2 ^ al := by
  rcases Nat.lt_or_ge al k with h | h
  · exfalso
    have h2 : (2 : Int) ^ al ≤ 2 ^ k := pow_le_pow_right₀ (by norm_num) (by omega)
    have := Int.emod_eq_of_lt (le_of_lt h0) (by linarith : d < 2 ^ k)
    omega
  · exact pow_dvd_pow 2 h

theorem mod_eq_iff {a b s : Int} : a % s = b % s ↔ s ∣ a - b := by
  rw [Int.emod_eq_emod_iff_emod_sub_eq_zero]
  exact (Int.dvd_iff_emod_eq_zero).symm

theorem shiftUp_spec {al k : Nat} (hal : al ≤ 30) {base c : Int} (hc0 : 0 ≤ c)
    (hc1 : c < 9223372036854775808) (hc : c % (2 : Int) ^ k = base % 2 ^ k) :
    c ≤ shiftUp al (2 ^ k) c ∧ shiftUp al (2 ^ k) c < c + 2 ^ al ∧
    InC (2 ^ k) base (2 ^ al) (shiftUp al (2 ^ k) c) ∧
    ∀ x, c ≤ x → InC (2 ^ k) base (2 ^ al) x → shiftUp al (2 ^ k) c ≤ x := by
  obtain ⟨hp1, hp2⟩ := pow_bd hal
  have hr0 : 0 ≤ c % 2 ^ al := Int.emod_nonneg _ (by omega)
  have hr1 : c % 2 ^ al < 2 ^ al := Int.emod_lt_of_pos _ (by omega)
  have hdc : (2 : Int) ^ al ∣ c - c % 2 ^ al := Int.dvd_self_sub_emod
  unfold shiftUp
  by_cases h0 : al > 0
  · simp only [if_pos h0]
    by_cases hd : c % 2 ^ al ≠ 0
    · simp only [if_pos hd]
      by_cases hs : ((2 : Int) ^ al - c % 2 ^ al) % 2 ^ k = 0
      · simp only [if_pos hs]
        rw [U_id (by omega) (by omega)]
        have hdv : (2 : Int) ^ k ∣ 2 ^ al := dvd_of_rem (by omega) (by omega) hs
        have hP : (2 : Int) ^ al ∣ c + (2 ^ al - c % 2 ^ al) := by
          have : c + (2 ^ al - c % 2 ^ al) = (c - c % 2 ^ al) + 2 ^ al := by ring
          rw [this]; exact Int.dvd_add hdc (Int.dvd_refl _)
        have hsc : (2 : Int) ^ k ∣ c := by
          have h1 := dvd_trans hdv hP
          exact (Int.dvd_iff_dvd_of_dvd_add h1).mpr (Int.dvd_of_emod_eq_zero hs)
        have hsb : (2 : Int) ^ k ∣ base := by
          rw [Int.dvd_iff_emod_eq_zero] at hsc ⊢; omega
        refine ⟨by omega, by omega, ⟨?_, fun _ _ => hP⟩, ?_⟩
        · rw [Int.emod_eq_zero_of_dvd (dvd_trans hdv hP), Int.emod_eq_zero_of_dvd hsb]
        · intro x hx hxc
          have hPx := hxc.2 hdv hsb
          obtain ⟨q, hq⟩ := hdc
          obtain ⟨q', hq'⟩ := hPx
          by_contra hlt
          have e1 : c + (2 ^ al - c % 2 ^ al) = 2 ^ al * (q + 1) := by
            rw [mul_add]; omega
          rw [e1, hq'] at hlt
          have h3 : q' < q + 1 := by
            by_contra hge
            exact hlt (mul_le_mul_of_nonneg_left (by omega) (by omega))
          have h4 : 2 ^ al * q' ≤ 2 ^ al * q := mul_le_mul_of_nonneg_left (by omega) (by omega)
          omega
      · simp only [if_neg hs]
        refine ⟨le_refl _, by omega, ⟨hc, ?_⟩, fun x hx _ => hx⟩
        intro h1 h2
        exfalso
        apply hs
        apply Int.emod_eq_zero_of_dvd
        apply Int.dvd_sub h1
        have hcz : (2 : Int) ^ k ∣ c := by
          rw [Int.dvd_iff_emod_eq_zero] at h2 ⊢; omega
        exact (Int.dvd_iff_dvd_of_dvd_sub (dvd_trans h1 hdc)).mp hcz
    · simp only [if_neg hd]
      refine ⟨le_refl _, by omega, ⟨hc, fun _ _ => ?_⟩, fun x hx _ => hx⟩
      exact Int.dvd_of_emod_eq_zero (by omega)
  · simp only [if_neg h0]
    have : al = 0 := by omega
    subst this
    refine ⟨le_refl _, by omega, ⟨hc, fun _ _ => by simp⟩, fun x hx _ => hx⟩

theorem shiftDown_spec {al k : Nat} (hal : al ≤ 30) {base c C : Int} (hC0 : -4611686018428500000 ≤ C)
    (hC1 : C < 9223372036854775808) (hU : c = U C) (hc : C % (2 : Int) ^ k = base % 2 ^ k) (hk : k ≤ 16) :
    ∃ C', shiftDown al (2 ^ k) c = U C' ∧ C' ≤ C ∧ C - 2 ^ al < C' ∧
    InC (2 ^ k) base (2 ^ al) C' ∧
    ∀ x, x ≤ C → InC (2 ^ k) base (2 ^ al) x → x ≤ C' := by
  obtain ⟨hp1, hp2⟩ := pow_bd hal
  have hcP : c % 2 ^ al = C % 2 ^ al := by rw [hU]; exact U_mod (pow_dvd_w (by omega))
  have hr0 : 0 ≤ C % 2 ^ al := Int.emod_nonneg _ (by omega)
  have hr1 : C % 2 ^ al < 2 ^ al := Int.emod_lt_of_pos _ (by omega)
  have hdc : (2 : Int) ^ al ∣ C - C % 2 ^ al := Int.dvd_self_sub_emod
  unfold shiftDown
  by_cases h0 : al > 0
  · simp only [if_pos h0, hcP]
    by_cases hd : C % 2 ^ al ≠ 0
    · simp only [if_pos hd]
      by_cases hs : (C % 2 ^ al) % 2 ^ k = 0
      · simp only [if_pos hs]
        have hdv : (2 : Int) ^ k ∣ 2 ^ al := dvd_of_rem (by omega) (by omega) hs
        refine ⟨C - C % 2 ^ al, ?_, by omega, by omega, ?_, ?_⟩
        · rw [hU]; unfold U; rw [Int.emod_sub_emod]
        · have hsc : (2 : Int) ^ k ∣ C :=
            (Int.dvd_iff_dvd_of_dvd_sub (dvd_trans hdv hdc)).mpr (Int.dvd_of_emod_eq_zero hs)
          have hsb : (2 : Int) ^ k ∣ base := by
            rw [Int.dvd_iff_emod_eq_zero] at hsc ⊢; omega
          refine ⟨?_, fun _ _ => hdc⟩
          rw [Int.emod_eq_zero_of_dvd (dvd_trans hdv hdc), Int.emod_eq_zero_of_dvd hsb]
        · intro x hx hxc
          have hsc : (2 : Int) ^ k ∣ C :=
            (Int.dvd_iff_dvd_of_dvd_sub (dvd_trans hdv hdc)).mpr (Int.dvd_of_emod_eq_zero hs)
          have hsb : (2 : Int) ^ k ∣ base := by
            rw [Int.dvd_iff_emod_eq_zero] at hsc ⊢; omega
          obtain ⟨q', hq'⟩ := hxc.2 hdv hsb
          obtain ⟨q, hq⟩ := hdc
          by_contra hlt
          rw [hq, hq'] at hlt
          have h3 : q < q' := by
            by_contra hge
            exact hlt (mul_le_mul_of_nonneg_left (by omega) (by omega))
          have h4 : 2 ^ al * (q + 1) ≤ 2 ^ al * q' := mul_le_mul_of_nonneg_left (by omega) (by omega)
          rw [mul_add] at h4
          omega
      · simp only [if_neg hs]
        refine ⟨C, hU, le_refl _, by omega, ⟨hc, ?_⟩, fun x hx _ => hx⟩
        intro h1 h2
        exfalso
        apply hs
        apply Int.emod_eq_zero_of_dvd
        have hcz : (2 : Int) ^ k ∣ C := by
          rw [Int.dvd_iff_emod_eq_zero] at h2 ⊢; omega
        exact (Int.dvd_iff_dvd_of_dvd_sub (dvd_trans h1 hdc)).mp hcz
    · simp only [if_neg hd]
      refine ⟨C, hU, le_refl _, by omega, ⟨hc, fun _ _ => ?_⟩, fun x hx _ => hx⟩
      exact Int.dvd_of_emod_eq_zero (by omega)
  · simp only [if_neg h0]
    have : al = 0 := by omega
    subst this
    refine ⟨C, hU, le_refl _, by omega, ⟨hc, fun _ _ => by simp⟩, fun x hx _ => hx⟩

/-- What `balloc_after` computes. -/
theorem after_spec {e : Env} (he : EnvOK e) {al : Nat} (hal : al ≤ 30) {a n : Int} {dt : Nat}
    (ha0 : 0 ≤ a) (ha1 : a ≤ 4611686018427387904) (hn0 : 0 ≤ n)
    (hn1 : n * e.sz dt < 4611686018427387904) :
    a + 84 ≤ (ballocAfter e al a dt n).1 ∧
    (ballocAfter e al a dt n).1 < a + 84 + 65536 + 1073741824 ∧
    InC (e.sz dt) (e.base dt) (2 ^ al) (ballocAfter e al a dt n).1 ∧
    (∀ x, a + 84 ≤ x → InC (e.sz dt) (e.base dt) (2 ^ al) x → (ballocAfter e al a dt n).1 ≤ x) ∧
    (ballocAfter e al a dt n).1 + n * e.sz dt + 4 ≤ a + (ballocAfter e al a dt n).2 ∧
    a + (ballocAfter e al a dt n).2 < (ballocAfter e al a dt n).1 + n * e.sz dt + 12 ∧
    (ballocAfter e al a dt n).2 % 8 = 0 ∧
    ∀ m, (ballocAfter e al a dt m).1 = (ballocAfter e al a dt n).1 := by
  obtain ⟨k, hk, hsz⟩ := he dt
  obtain ⟨hs1, hs2⟩ := pow_bd16 hk
  obtain ⟨hp1, hp2⟩ := pow_bd hal
  have hL0 : 0 ≤ n * e.sz dt := mul_nonneg hn0 (by rw [hsz]; omega)
  have hL : U (n * e.sz dt) = n * e.sz dt := U_id hL0 (by omega)
  obtain ⟨g, hg⟩ : ∃ g, g = U (e.base dt - a - adL - guardL) % e.sz dt := ⟨_, rfl⟩
  have hg' : g = (e.base dt - a - 84) % e.sz dt := by
    rw [hg, hsz, U_mod (pow_dvd_w (by omega))]
    congr 1
    simp only [adL, guardL]; ring
  have hg0 : 0 ≤ g := by rw [hg']; exact Int.emod_nonneg _ (by rw [hsz]; omega)
  have hg1 : g < 2 ^ k := by rw [hg', ← hsz]; exact Int.emod_lt_of_pos _ (by rw [hsz]; omega)
  have hc0 : U (a + adL + g + guardL) = a + 84 + g := by
    simp only [adL, guardL]
    rw [U_id (by omega) (by omega)]; ring
  have hcm : (a + 84 + g) % (2 : Int) ^ k = e.base dt % 2 ^ k := by
    rw [mod_eq_iff, hg', hsz]
    have : (2 : Int) ^ k ∣ (e.base dt - a - 84) - (e.base dt - a - 84) % 2 ^ k := Int.dvd_self_sub_emod
    have h2 : a + 84 + (e.base dt - a - 84) % 2 ^ k - e.base dt
        = - ((e.base dt - a - 84) - (e.base dt - a - 84) % 2 ^ k) := by ring
    rw [h2]; exact (Int.dvd_neg).mpr this
  obtain ⟨s1, s2, s3, s4⟩ := shiftUp_spec (al := al) hal (by omega) (by omega) hcm
  obtain ⟨c, hcd⟩ : ∃ c, c = shiftUp al (2 ^ k) (a + 84 + g) := ⟨_, rfl⟩
  rw [← hcd] at s1 s2 s3 s4
  have hfst : ∀ m, (ballocAfter e al a dt m).1 = c := by
    intro m
    simp only [ballocAfter]
    rw [← hg, hc0, hsz, hcd]
  have hsnd : (ballocAfter e al a dt n).2 = U (c + n * e.sz dt + guardL + U (a - c - n * e.sz dt - guardL) % alignL - a) := by
    simp only [ballocAfter]
    rw [← hg, hc0, hL, hsz, hcd]
  have h8 : U (a - c - n * e.sz dt - guardL) % alignL = (a - c - n * e.sz dt - 4) % 8 := by
    simp only [alignL, guardL]
    exact U_mod (by norm_num)
  rw [h8] at hsnd
  have hsnd2 : (ballocAfter e al a dt n).2 = c + n * e.sz dt + 4 + (a - c - n * e.sz dt - 4) % 8 - a := by
    rw [hsnd]
    simp only [guardL]
    apply U_id <;> omega
  rw [hfst n, hsnd2]
  refine ⟨by omega, by omega, by rw [hsz]; exact s3, ?_, by omega, by omega, by omega, fun m => hfst m⟩
  intro x hx hxc
  rw [hsz] at hxc
  apply s4 x _ hxc
  -- x ≥ a + 84 in the class, so x ≥ a + 84 + g
  by_contra hlt
  have h1 := hxc.1
  have h2 : (2 : Int) ^ k ∣ (a + 84 + g) - x := by rw [← mod_eq_iff]; omega
  have := Int.le_of_dvd (by omega) h2
  omega

/-- What `balloc_before` computes: `C` is the exact client address. -/
theorem before_spec {e : Env} (he : EnvOK e) {al : Nat} (hal : al ≤ 30) {a n : Int} {dt : Nat}
    (ha0 : 0 ≤ a) (ha1 : a ≤ 4611686018427387904) (ha8 : a % 8 = 0) (hn0 : 0 ≤ n)
    (hn1 : n * e.sz dt < 4611686018428000000) :
    ∃ C, (ballocBefore e al a dt n).1 = U C ∧
    C + n * e.sz dt + 4 ≤ a ∧
    InC (e.sz dt) (e.base dt) (2 ^ al) C ∧
    (∀ x, x + n * e.sz dt + 4 ≤ a → InC (e.sz dt) (e.base dt) (2 ^ al) x → x ≤ C) ∧
    a - (ballocBefore e al a dt n).2 ≤ C - 84 ∧
    C - 84 < a - (ballocBefore e al a dt n).2 + 8 ∧
    (a - (ballocBefore e al a dt n).2) % 8 = 0 ∧ 0 ≤ (ballocBefore e al a dt n).2 := by
  obtain ⟨k, hk, hsz⟩ := he dt
  obtain ⟨hs1, hs2⟩ := pow_bd16 hk
  obtain ⟨hp1, hp2⟩ := pow_bd hal
  have hL0 : 0 ≤ n * e.sz dt := mul_nonneg hn0 (by rw [hsz]; omega)
  have hL : U (n * e.sz dt) = n * e.sz dt := U_id hL0 (by omega)
  obtain ⟨g, hg⟩ : ∃ g, g = U (a - guardL - n * e.sz dt - e.base dt) % e.sz dt := ⟨_, rfl⟩
  have hg' : g = (a - 4 - n * e.sz dt - e.base dt) % e.sz dt := by
    rw [hg, hsz, U_mod (pow_dvd_w (by omega))]
    simp only [guardL]
  have hg0 : 0 ≤ g := by rw [hg']; exact Int.emod_nonneg _ (by rw [hsz]; omega)
  have hg1 : g < 2 ^ k := by
    rw [hg', ← hsz]; exact Int.emod_lt_of_pos _ (by rw [hsz]; omega)
  have hcm : (a - g - 4 - n * e.sz dt) % (2 : Int) ^ k = e.base dt % 2 ^ k := by
    rw [mod_eq_iff, hg', hsz]
    have h0 : (2 : Int) ^ k ∣ (a - 4 - n * 2 ^ k - e.base dt) - (a - 4 - n * 2 ^ k - e.base dt) % 2 ^ k :=
      Int.dvd_self_sub_emod
    have h2 : a - (a - 4 - n * 2 ^ k - e.base dt) % 2 ^ k - 4 - n * 2 ^ k - e.base dt
        = (a - 4 - n * 2 ^ k - e.base dt) - (a - 4 - n * 2 ^ k - e.base dt) % 2 ^ k := by ring
    rw [h2]; exact h0
  obtain ⟨C, s0, s1, s2, s3, s4⟩ := shiftDown_spec (al := al) (C := a - g - 4 - n * e.sz dt) hal
    (by omega) (by omega) rfl hcm hk
  have hfst : (ballocBefore e al a dt n).1 = U C := by
    simp only [ballocBefore]
    rw [hL, ← hg]
    rw [← s0, hsz]
    rfl
  have hsnd : (ballocBefore e al a dt n).2 = U (a - U C + guardL + U (U C - guardL - adL) % alignL + adL) := by
    rw [← hfst]; rfl
  have h8 : U (U C - guardL - adL) % alignL = (C - 84) % 8 := by
    simp only [alignL, guardL, adL]
    rw [U_mod (by norm_num)]
    unfold U; omega
  rw [h8] at hsnd
  have hsnd2 : (ballocBefore e al a dt n).2 = a - C + 4 + (C - 84) % 8 + 80 := by
    rw [hsnd]
    simp only [guardL, adL]
    unfold U
    have hb : 0 ≤ a - C + 4 + (C - 84) % 8 + 80 ∧ a - C + 4 + (C - 84) % 8 + 80 < 18446744073709551616 := by
      constructor <;> omega
    omega
  rw [hsnd2]
  refine ⟨C, hfst, by omega, by rw [hsz]; exact s3, ?_, by omega, by omega, by omega, by omega⟩
  intro x hx hxc
  rw [hsz] at hxc
  apply s4 x _ hxc
  by_contra hlt
  have h1 := hxc.1
  have h2 : (2 : Int) ^ k ∣ x - (a - g - 4 - n * e.sz dt) := by rw [← mod_eq_iff]; omega
  have := Int.le_of_dvd (by omega) h2
  omega

end GA.MA
