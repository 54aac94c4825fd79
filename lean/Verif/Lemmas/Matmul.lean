import Verif.Model.Matmul
import Verif.Spec.Matmul
import Mathlib.Data.List.Perm.Basic
import Mathlib.Data.List.Nodup
import Mathlib.Algebra.BigOperators.Ring.List
import Mathlib.Tactic.Linarith
import Mathlib.Tactic.Ring

/-! # Lemmas: matrix multiplication -/

namespace GA.Matmul
open GA.Model GA.Spec

/-! ## chunks -/

theorem mem_starts {lo hi c x : Int} (hc : 0 < c) : x ∈ starts lo hi c ↔ ∃ t : Nat, x = lo + t * c ∧ x ≤ hi := by
  unfold starts
  rw [List.mem_map]
  constructor
  · rintro ⟨t, ht, rfl⟩
    refine ⟨t, rfl, ?_⟩
    rw [List.mem_range] at ht
    have h1 : (t : Int) + 1 ≤ (hi - lo + c) / c := by omega
    have h2 := (Int.le_ediv_iff_mul_le hc).1 h1
    nlinarith
  · rintro ⟨t, rfl, h⟩
    refine ⟨t, ?_, rfl⟩
    rw [List.mem_range]
    have : (t : Int) + 1 ≤ (hi - lo + c) / c := (Int.le_ediv_iff_mul_le hc).2 (by nlinarith)
    omega

theorem mem_starts1 {lo hi x : Int} : x ∈ starts lo hi 1 ↔ lo ≤ x ∧ x ≤ hi := by
  rw [mem_starts (by omega)]
  constructor
  · rintro ⟨t, rfl, h⟩; omega
  · rintro ⟨h1, h2⟩; exact ⟨(x - lo).toNat, by omega, h2⟩

theorem starts_nodup {lo hi c : Int} (hc : 0 < c) : (starts lo hi c).Nodup := by
  unfold starts
  refine List.Nodup.map ?_ List.nodup_range
  intro a b h
  have : (a : Int) * c = b * c := by simpa using h
  have := Int.eq_of_mul_eq_mul_right (by omega) this
  omega

/-- the chunk that contains `x` -/
def home (lo c x : Int) : Int := lo + (x - lo) / c * c

theorem home_mem {lo hi c x : Int} (hc : 0 < c) (h1 : lo ≤ x) (h2 : x ≤ hi) : home lo c x ∈ starts lo hi c := by
  rw [mem_starts hc]
  have h0 : 0 ≤ (x - lo) / c := Int.ediv_nonneg (by omega) (by omega)
  refine ⟨((x - lo) / c).toNat, ?_, ?_⟩
  · unfold home; rw [Int.toNat_of_nonneg h0]
  · unfold home
    have := Int.ediv_mul_le (x - lo) (by omega : c ≠ 0)
    omega

theorem home_iff {lo hi c x s : Int} (hc : 0 < c) (h1 : lo ≤ x) (h2 : x ≤ hi) (hs : s ∈ starts lo hi c) :
    (s ≤ x ∧ x ≤ chunkEnd hi s c) ↔ s = home lo c x := by
  obtain ⟨t, rfl, ht⟩ := (mem_starts hc).1 hs
  unfold chunkEnd home
  have e1 := Int.ediv_mul_le (x - lo) (by omega : c ≠ 0)
  have e2 := Int.lt_ediv_add_one_mul_self (x - lo) hc
  generalize (x - lo) / c = q at *
  constructor
  · rintro ⟨a1, a2⟩
    have a3 : x ≤ lo + t * c + c - 1 := by omega
    have : (t : Int) = q := by
      by_contra hne
      rcases lt_or_gt_of_ne hne with h | h
      · have : ((t : Int) + 1) * c ≤ q * c := Int.mul_le_mul_of_nonneg_right (by omega) (by omega)
        nlinarith
      · have : (q + 1) * c ≤ (t : Int) * c := Int.mul_le_mul_of_nonneg_right (by omega) (by omega)
        nlinarith
    rw [this]
  · intro h
    have e : (t : Int) * c = q * c := by omega
    rw [e]
    have : (q + 1) * c = q * c + c := by ring
    omega

theorem starts_perm {lo hi c : Int} (hc : 0 < c) :
    ((starts lo hi c).flatMap fun s => starts s (chunkEnd hi s c) 1).Perm (starts lo hi 1) := by
  refine (List.perm_ext_iff_of_nodup ?_ (starts_nodup (by omega))).2 ?_
  · rw [List.nodup_flatMap]
    refine ⟨fun s _ => starts_nodup (by omega), ?_⟩
    have := starts_nodup (lo := lo) (hi := hi) hc
    refine List.Pairwise.imp_of_mem ?_ this
    intro a b ha hb hne x hxa hxb
    apply hne
    rw [mem_starts1] at hxa hxb
    have la : lo ≤ a := by
      obtain ⟨t, rfl, _⟩ := (mem_starts hc).1 ha
      have := mul_nonneg (Int.natCast_nonneg t) hc.le
      omega
    have hx2 : x ≤ hi := le_trans hxa.2 (min_le_left _ _)
    rw [(home_iff hc (by omega) hx2 ha).1 hxa, (home_iff hc (by omega) hx2 hb).1 hxb]
  · intro x
    rw [List.mem_flatMap, mem_starts1]
    constructor
    · rintro ⟨s, hs, hx⟩
      rw [mem_starts1] at hx
      obtain ⟨t, rfl, _⟩ := (mem_starts hc).1 hs
      have := mul_nonneg (Int.natCast_nonneg t) hc.le
      have := le_trans hx.2 (min_le_left _ _)
      omega
    · rintro ⟨h1, h2⟩
      refine ⟨home lo c x, home_mem hc h1 h2, ?_⟩
      rw [mem_starts1]
      exact (home_iff hc h1 h2 (home_mem hc h1 h2)).2 rfl

/-- chunks of a loop lie inside the range -/
theorem chunk_bounds {lo hi c s : Int} (hc : 0 < c) (hs : s ∈ starts lo hi c) :
    lo ≤ s ∧ s ≤ chunkEnd hi s c ∧ chunkEnd hi s c ≤ hi := by
  obtain ⟨t, rfl, h⟩ := (mem_starts hc).1 hs
  have := mul_nonneg (Int.natCast_nonneg t) hc.le
  unfold chunkEnd
  omega

section
variable {V : Type}

/-! ## buffers -/

/-- `a` with leading dimension `ld` holds the chunk `r0..r1 x c0..c1` of `op(X)` -/
def IsChunk (A : Arr V) (tr : Bool) (xilo xjlo r0 r1 c0 c1 : Int) (a : Int → V) (ld : Int) : Prop :=
  ∀ r c, r0 ≤ r → r ≤ r1 → c0 ≤ c → c ≤ c1 →
    (if tr then a ((c - c0) + ld * (r - r0)) else a ((r - r0) + ld * (c - c0))) = opEntry tr A.f xilo xjlo r c

/-- the rows `r0..r1` and columns `c0..c1` of `op(X)` lie inside the array -/
def Inside (A : Arr V) (tr : Bool) (xilo xjlo r0 r1 c0 c1 : Int) : Prop :=
  1 ≤ xilo + r0 ∧ 1 ≤ xjlo + c0 ∧ if tr then xjlo + c1 ≤ A.d0 ∧ xilo + r1 ≤ A.d1 else xilo + r1 ≤ A.d0 ∧ xjlo + c1 ≤ A.d1

theorem getBuf_ok {A : Arr V} {lo0 hi0 lo1 hi1 : Int} {old : Int → V} (h0 : 1 ≤ lo0) (h1 : hi0 ≤ A.d0) (h2 : 1 ≤ lo1)
    (h3 : hi1 ≤ A.d1) : ∃ a, getBuf A lo0 hi0 lo1 hi1 (hi0 - lo0 + 1) old = some a ∧
      ∀ x y, lo0 ≤ x → x ≤ hi0 → lo1 ≤ y → y ≤ hi1 → a ((x - lo0) + (hi0 - lo0 + 1) * (y - lo1)) = A.f x y := by
  unfold getBuf
  rw [if_neg (by omega)]
  refine ⟨_, rfl, ?_⟩
  intro x y hx1 hx2 hy1 hy2
  have e1 : ((x - lo0) + (hi0 - lo0 + 1) * (y - lo1)) % (hi0 - lo0 + 1) = x - lo0 := by
    rw [Int.add_mul_emod_self_left, Int.emod_eq_of_lt (by omega) (by omega)]
  have e2 : ((x - lo0) + (hi0 - lo0 + 1) * (y - lo1)) / (hi0 - lo0 + 1) = y - lo1 := by
    rw [Int.add_mul_ediv_left _ _ (by omega), Int.ediv_eq_zero_of_lt (by omega) (by omega), zero_add]
  rw [e1, e2, if_pos]
  · congr 1 <;> omega
  · refine ⟨?_, by omega, by omega⟩
    have : 0 ≤ (hi0 - lo0 + 1) * (y - lo1) := mul_nonneg (by omega) (by omega)
    omega

theorem getChunk_ok {A : Arr V} {tr : Bool} {xilo xjlo r0 r1 c0 c1 : Int} (old : Int → V)
    (h : Inside A tr xilo xjlo r0 r1 c0 c1) :
    ∃ a ld, getChunk A tr xilo xjlo r0 r1 c0 c1 old = some (a, ld) ∧ IsChunk A tr xilo xjlo r0 r1 c0 c1 a ld := by
  obtain ⟨h1, h2, h3⟩ := h
  unfold getChunk
  cases tr with
  | true =>
    simp only [if_true] at h3 ⊢
    obtain ⟨a, e, ha⟩ := getBuf_ok (old := old) (A := A) (lo0 := xjlo + c0) (hi0 := xjlo + c1) (lo1 := xilo + r0) (hi1 := xilo + r1)
      h2 h3.1 h1 h3.2
    have e' : xjlo + c1 - (xjlo + c0) + 1 = c1 - c0 + 1 := by ring
    rw [e'] at e ha
    refine ⟨a, _, by rw [e]; rfl, ?_⟩
    intro r c q1 q2 q3 q4
    have := ha (xjlo + c) (xilo + r) (by omega) (by omega) (by omega) (by omega)
    simp only [opEntry, if_true]
    rw [← this]
    congr 1
    ring
  | false =>
    simp only [Bool.false_eq_true, if_false] at h3 ⊢
    obtain ⟨a, e, ha⟩ := getBuf_ok (old := old) (A := A) (lo0 := xilo + r0) (hi0 := xilo + r1) (lo1 := xjlo + c0) (hi1 := xjlo + c1)
      h1 h3.1 h2 h3.2
    have e' : xilo + r1 - (xilo + r0) + 1 = r1 - r0 + 1 := by ring
    rw [e'] at e ha
    refine ⟨a, _, by rw [e]; rfl, ?_⟩
    intro r c q1 q2 q3 q4
    have := ha (xilo + r) (xjlo + c) (by omega) (by omega) (by omega) (by omega)
    simp only [opEntry, Bool.false_eq_true, if_false]
    rw [← this]
    congr 1
    ring

/-! ## one task -/

section
variable [Semiring V]

/-- contribution of the inner subscripts `klo..khi` to the entry `i`, `j` of the product -/
def taskVal (c : Call V) (A B : Arr V) (klo khi i j : Int) : V :=
  c.alpha * ((starts klo khi 1).map fun l => opEntry c.ta A.f c.ailo c.ajlo i l * opEntry c.tb B.f c.bilo c.bjlo l j).sum

/-- the stores or accumulates of one task -/
def taskActs (c : Call V) (A B : Arr V) (put : Bool) (ilo ihi jlo jhi klo khi : Int) : List (CAct V) :=
  (starts (c.cjlo + jlo) (c.cjlo + jhi) 1).flatMap fun y => (starts (c.cilo + ilo) (c.cilo + ihi) 1).map fun x =>
    ⟨put, x, y, taskVal c A B klo khi (x - c.cilo) (y - c.cjlo)⟩

theorem gemm_val {c : Call V} {A B : Arr V} {ilo ihi jlo jhi klo khi adim bdim : Int} {a b : Int → V}
    (ha : IsChunk A c.ta c.ailo c.ajlo ilo ihi klo khi a adim) (hb : IsChunk B c.tb c.bilo c.bjlo klo khi jlo jhi b bdim)
    {i j : Int} (h1 : ilo ≤ i) (h2 : i ≤ ihi) (h3 : jlo ≤ j) (h4 : j ≤ jhi) :
    gemm c.ta c.tb (khi - klo + 1) c.alpha a adim b bdim (ihi - ilo + 1) ((i - ilo) + (ihi - ilo + 1) * (j - jlo)) =
      taskVal c A B klo khi i j := by
  unfold gemm taskVal
  have e1 : ((i - ilo) + (ihi - ilo + 1) * (j - jlo)) % (ihi - ilo + 1) = i - ilo := by
    rw [Int.add_mul_emod_self_left, Int.emod_eq_of_lt (by omega) (by omega)]
  have e2 : ((i - ilo) + (ihi - ilo + 1) * (j - jlo)) / (ihi - ilo + 1) = j - jlo := by
    rw [Int.add_mul_ediv_left _ _ (by omega), Int.ediv_eq_zero_of_lt (by omega) (by omega), zero_add]
  rw [e1, e2]
  congr 2
  unfold starts
  rw [List.map_map]
  have e3 : ((khi - klo + 1) / 1).toNat = (khi - klo + 1).toNat := by rw [Int.ediv_one]
  rw [e3]
  refine List.map_congr_left ?_
  intro l hl
  rw [List.mem_range] at hl
  have qa := ha i (klo + l) h1 h2 (by omega) (by omega)
  have qb := hb (klo + l) j (by omega) (by omega) h3 h4
  have e4 : klo + (l : Int) - klo = l := by ring
  rw [e4] at qa qb
  simp only [Function.comp, mul_one]
  rw [← qa, ← qb]

theorem emit_ok {c : Call V} {A B : Arr V} {ilo ihi jlo jhi klo khi adim bdim d0 d1 : Int} {a b : Int → V} (put : Bool)
    (ha : IsChunk A c.ta c.ailo c.ajlo ilo ihi klo khi a adim) (hb : IsChunk B c.tb c.bilo c.bjlo klo khi jlo jhi b bdim)
    (h : 1 ≤ c.cilo + ilo ∧ c.cilo + ihi ≤ d0 ∧ 1 ≤ c.cjlo + jlo ∧ c.cjlo + jhi ≤ d1) :
    emit put d0 d1 (c.cilo + ilo) (c.cilo + ihi) (c.cjlo + jlo) (c.cjlo + jhi)
      (gemm c.ta c.tb (khi - klo + 1) c.alpha a adim b bdim (ihi - ilo + 1)) (ihi - ilo + 1) =
      some (taskActs c A B put ilo ihi jlo jhi klo khi) := by
  unfold emit taskActs
  rw [if_neg (by omega)]
  congr 1
  refine List.flatMap_congr ?_
  intro y hy
  refine List.map_congr_left ?_
  intro x hx
  rw [mem_starts1] at hx hy
  congr 1
  rw [← gemm_val (adim := adim) (bdim := bdim) (a := a) (b := b) (ilo := ilo) (ihi := ihi) (jlo := jlo) (jhi := jhi) ha hb
    (by omega) (by omega) (by omega) (by omega)]
  congr 1
  congr 1
  · ring
  · congr 1; ring

/-! ## effect on one element -/

/-- the action is on the element `x`, `y` -/
def onEl (x y : Int) (a : CAct V) : Bool := decide (a.i = x ∧ a.j = y)

/-- effect of an action on a value -/
def appV (v : V) (a : CAct V) : V := if a.put then a.v else v + a.v

theorem foldl_app (s : List (CAct V)) (C : Mat V) (x y : Int) :
    (s.foldl app C) x y = (s.filter (onEl x y)).foldl appV (C x y) := by
  induction s generalizing C with
  | nil => rfl
  | cons a s ih =>
    rw [List.foldl_cons, ih, List.filter_cons]
    by_cases h : a.i = x ∧ a.j = y
    · have : onEl x y a = true := by simp [onEl, h]
      rw [if_pos this, List.foldl_cons]
      congr 1
      unfold app appV
      rw [if_pos ⟨h.1.symm, h.2.symm⟩]
    · have : ¬ onEl x y a = true := by simpa [onEl] using h
      rw [if_neg this]
      congr 1
      unfold app
      rw [if_neg (fun q => h ⟨q.1.symm, q.2.symm⟩)]

theorem flatMap_one {α β : Type} [DecidableEq α] {l : List α} (hl : l.Nodup) (g : α → List β) (a : α)
    (h : ∀ b ∈ l, b ≠ a → g b = []) : l.flatMap g = if a ∈ l then g a else [] := by
  induction l with
  | nil => simp
  | cons b l ih =>
    rw [List.nodup_cons] at hl
    have ih := ih hl.2 fun b hb => h b (List.mem_cons_of_mem _ hb)
    rw [List.flatMap_cons, ih]
    by_cases hb : b = a
    · subst hb
      rw [if_neg hl.1, if_pos (List.mem_cons_self ..), List.append_nil]
    · rw [h b (List.mem_cons_self ..) hb, List.nil_append]
      simp [Ne.symm hb]

theorem taskActs_at (c : Call V) (A B : Arr V) (put : Bool) (ilo ihi jlo jhi klo khi i j : Int) :
    (taskActs c A B put ilo ihi jlo jhi klo khi).filter (onEl (c.cilo + i) (c.cjlo + j)) =
      if (ilo ≤ i ∧ i ≤ ihi) ∧ jlo ≤ j ∧ j ≤ jhi then [⟨put, c.cilo + i, c.cjlo + j, taskVal c A B klo khi i j⟩] else [] := by
  unfold taskActs
  rw [List.filter_flatMap, flatMap_one (starts_nodup (by omega)) _ (c.cjlo + j)]
  · rw [List.filter_map]
    have hx : ∀ x, ((starts (c.cilo + ilo) (c.cilo + ihi) 1).filter fun x' => decide (x' = x)) =
        if x ∈ starts (c.cilo + ilo) (c.cilo + ihi) 1 then [x] else [] := by
      intro x
      have := starts_nodup (lo := c.cilo + ilo) (hi := c.cilo + ihi) (c := 1) (by omega)
      generalize starts (c.cilo + ilo) (c.cilo + ihi) 1 = l at *
      induction l with
      | nil => rfl
      | cons b l ih =>
        rw [List.nodup_cons] at this
        rw [List.filter_cons, ih this.2]
        by_cases hb : b = x
        · subst hb; simp [this.1]
        · simp [hb, Ne.symm hb]
    have e : (onEl (c.cilo + i) (c.cjlo + j) ∘ fun x =>
        (⟨put, x, c.cjlo + j, taskVal c A B klo khi (x - c.cilo) (c.cjlo + j - c.cjlo)⟩ : CAct V)) =
        fun x' => decide (x' = c.cilo + i) := by
      funext x'
      simp [onEl]
    rw [e, hx]
    simp only [mem_starts1]
    by_cases h1 : ilo ≤ i ∧ i ≤ ihi
    · rw [if_pos (by omega : c.cilo + ilo ≤ c.cilo + i ∧ c.cilo + i ≤ c.cilo + ihi)]
      by_cases h2 : jlo ≤ j ∧ j ≤ jhi
      · rw [if_pos (by omega), if_pos ⟨h1, h2⟩]
        simp
      · rw [if_neg (by omega), if_neg (fun q => h2 q.2)]
    · rw [if_neg (by omega : ¬ (c.cilo + ilo ≤ c.cilo + i ∧ c.cilo + i ≤ c.cilo + ihi)),
        if_neg (fun q : (ilo ≤ i ∧ i ≤ ihi) ∧ jlo ≤ j ∧ j ≤ jhi => h1 q.1)]
      split <;> simp
  · intro y _ hy
    rw [List.filter_eq_nil_iff]
    intro a ha
    obtain ⟨x, _, rfl⟩ := List.mem_map.1 ha
    simp [onEl, hy]

/-! ## sums over the inner subscript -/

theorem sum_chunks {c : Call V} {A B : Arr V} {kend K i j : Int} (hK : 0 < K) :
    ((starts 0 kend K).map fun k => taskVal c A B k (chunkEnd kend k K) i j).sum = taskVal c A B 0 kend i j := by
  unfold taskVal
  rw [List.sum_map_mul_left]
  congr 1
  have := ((starts_perm (lo := 0) (hi := kend) hK).map fun l =>
    opEntry c.ta A.f c.ailo c.ajlo i l * opEntry c.tb B.f c.bilo c.bjlo l j).sum_eq
  rw [← this, List.map_flatMap]
  generalize starts 0 kend K = l
  induction l with
  | nil => rfl
  | cons x l ih => rw [List.map_cons, List.sum_cons, ih, List.flatMap_cons, List.sum_append]

theorem taskVal_full (c : Call V) (A B : Arr V) (k : Int) (i j : Int) :
    taskVal c A B 0 (k - 1) i j = c.alpha * ((List.range k.toNat).map fun (l : Nat) =>
      opEntry c.ta A.f c.ailo c.ajlo i l * opEntry c.tb B.f c.bilo c.bjlo l j).sum := by
  unfold taskVal starts
  rw [List.map_map]
  have : ((k - 1 - 0 + 1) / 1).toNat = k.toNat := by rw [Int.ediv_one]; congr 1; ring
  rw [this]
  congr 2
  refine List.map_congr_left ?_
  intro l _
  simp [Function.comp]

end
end

end GA.Matmul
