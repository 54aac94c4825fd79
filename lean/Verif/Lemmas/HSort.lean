import Verif.Model.HSort
import Mathlib.Logic.Equiv.Basic
import Mathlib.Data.List.Perm.Basic
import Mathlib.Data.List.Nodup
import Mathlib.Tactic.Common

/-! # Lemmas: correctness of the heap sort, generic in the swap function -/

namespace GA
open Model

section
variable {S τ : Type} {key : S → Nat → Int} {sw : S → Nat → Nat → S} {view : S → Nat → τ}
  {N : Nat}

/-- `sw` exchanges the tuples `view s a`, `view s b` when both positions are in `1..N`. -/
structure SwapLaw (I : S → Prop) (key : S → Nat → Int) (sw : S → Nat → Nat → S)
    (view : S → Nat → τ) (kf : τ → Int) (N : Nat) : Prop where
  keyEq : ∀ s p, I s → 1 ≤ p → p ≤ N → key s p = kf (view s p)
  inv : ∀ s a b, I s → 1 ≤ a → a ≤ N → 1 ≤ b → b ≤ N → I (sw s a b)
  swap : ∀ s a b, I s → 1 ≤ a → a ≤ N → 1 ≤ b → b ≤ N → a ≠ b → ∀ x, 1 ≤ x → x ≤ N →
    view (sw s a b) x = if x = a then view s b else if x = b then view s a else view s x

/-- `s'` is `s` with positions `1..hi` permuted. -/
def PermTo (view : S → Nat → τ) (N hi : Nat) (s s' : S) : Prop :=
  ∃ σ : Equiv.Perm Nat, (∀ x, x < 1 ∨ hi < x → σ x = x) ∧
    ∀ x, 1 ≤ x → x ≤ N → view s' x = view s (σ x)

theorem PermTo.refl (hi : Nat) (s : S) : PermTo view N hi s s :=
  ⟨Equiv.refl _, fun _ _ => rfl, fun _ _ _ => rfl⟩

theorem PermTo.range {hi : Nat} {σ : Equiv.Perm Nat} (h : ∀ x, x < 1 ∨ hi < x → σ x = x) {x : Nat}
    (h1 : 1 ≤ x) (h2 : x ≤ hi) : 1 ≤ σ x ∧ σ x ≤ hi := by
  by_contra hc
  have e := h (σ x) (by omega)
  have := σ.injective e
  omega

theorem PermTo.trans {hi : Nat} (hN : hi ≤ N) {a b c : S} (h1 : PermTo view N hi a b)
    (h2 : PermTo view N hi b c) : PermTo view N hi a c := by
  obtain ⟨σ, s1, s2⟩ := h1
  obtain ⟨π, p1, p2⟩ := h2
  refine ⟨π.trans σ, ?_, ?_⟩
  · intro x hx
    simp only [Equiv.trans_apply, p1 x hx, s1 x hx]
  · intro x hx hx'
    rw [p2 x hx hx']
    simp only [Equiv.trans_apply]
    by_cases hh : x ≤ hi
    · have := PermTo.range p1 hx hh
      exact s2 _ this.1 (by omega)
    · rw [p1 x (by omega)]
      exact s2 x hx hx'

theorem PermTo.mono {hi hi' : Nat} (h : hi ≤ hi') {a b : S} (h1 : PermTo view N hi a b) :
    PermTo view N hi' a b := by
  obtain ⟨σ, s1, s2⟩ := h1
  exact ⟨σ, fun x hx => s1 x (by omega), s2⟩

theorem PermTo.swap {I : S → Prop} {kf : τ → Int} (L : SwapLaw I key sw view kf N) {hi : Nat}
    {s : S} (hs : I s) {a b : Nat} (ha : 1 ≤ a) (ha' : a ≤ hi) (hb : 1 ≤ b) (hb' : b ≤ hi)
    (hN : hi ≤ N) (hab : a ≠ b) : PermTo view N hi s (sw s a b) := by
  refine ⟨Equiv.swap a b, ?_, ?_⟩
  · intro x hx
    exact Equiv.swap_apply_of_ne_of_ne (by omega) (by omega)
  · intro x hx hx'
    rw [L.swap s a b hs ha (by omega) hb (by omega) hab x hx hx']
    by_cases h1 : x = a
    · subst h1; simp [Equiv.swap_apply_left]
    · rw [if_neg h1]
      by_cases h2 : x = b
      · subst h2; simp [Equiv.swap_apply_right]
      · rw [if_neg h2, Equiv.swap_apply_of_ne_of_ne h1 h2]

/-- heap order for all parents from `l` on -/
def HeapFrom (K : Nat → Int) (l hi : Nat) : Prop := ∀ c, 2 ≤ c → l ≤ c / 2 → c ≤ hi → K c ≤ K (c / 2)

theorem sift_spec {I : S → Prop} {kf : τ → Int} (L : SwapLaw I key sw view kf N) {hi l : Nat}
    (hN : hi ≤ N) (hl : 1 ≤ l) (f p : Nat) (s : S) (hs : I s) (hp : l ≤ p) (hphi : p ≤ hi)
    (hf : hi < p + f)
    (h1 : ∀ c, 2 ≤ c → l ≤ c / 2 → c ≤ hi → c / 2 ≠ p → key s c ≤ key s (c / 2))
    (h2 : ∀ c, 2 ≤ c → c / 2 = p → c ≤ hi → l ≤ p / 2 → key s c ≤ key s (p / 2)) :
    let s' := siftLoop key sw hi f p p s
    I s' ∧ HeapFrom (key s') l hi ∧ PermTo view N hi s s' := by
  induction f generalizing p s with
  | zero => omega
  | succ f ih =>
    simp only [siftLoop]
    by_cases hq : p + p ≤ hi
    · rw [if_pos hq]
      generalize hr : (decide (p + p ≠ hi) && decide (key s (p + p + 1) > key s (p + p))) = right
      have hq' : ∃ q, (if right = true then p + p + 1 else p + p) = q ∧ q / 2 = p ∧ q ≤ hi ∧ 2 ≤ q ∧
          ∀ c, 2 ≤ c → c / 2 = p → c ≤ hi → key s c ≤ key s q := by
        cases right with
        | true =>
          simp only [Bool.and_eq_true, decide_eq_true_eq] at hr
          refine ⟨p + p + 1, by simp, by omega, by omega, by omega, ?_⟩
          intro c hc hcp hch
          have : c = p + p ∨ c = p + p + 1 := by omega
          rcases this with rfl | rfl <;> omega
        | false =>
          refine ⟨p + p, by simp, by omega, by omega, by omega, ?_⟩
          intro c hc hcp hch
          have : c = p + p ∨ c = p + p + 1 := by omega
          rcases this with rfl | rfl
          · omega
          · simp only [Bool.and_eq_false_iff, decide_eq_false_iff_not] at hr
            omega
      have hg : (if right = true then p + p + 1 else p + p) =
          (if right = true then p + p + 1 else p + p) := rfl
      obtain ⟨q, e, hqp, hqh, hq2, hmax⟩ := hq'
      rw [e]
      by_cases hge : key s p ≥ key s q
      · rw [if_pos hge]
        refine ⟨hs, ?_, PermTo.refl _ _⟩
        intro c hc hcl hch
        by_cases hcp : c / 2 = p
        · rw [hcp]
          exact Int.le_trans (hmax c hc hcp hch) hge
        · exact h1 c hc hcl hch hcp
      · rw [if_neg hge]
        have hpq : p ≠ q := by omega
        have hsw := L.swap s p q hs (by omega) (by omega) (by omega) (by omega) hpq
        have hI := L.inv s p q hs (by omega) (by omega) (by omega) (by omega)
        have hk : ∀ x, 1 ≤ x → x ≤ N →
            key (sw s p q) x = if x = p then key s q else if x = q then key s p else key s x := by
          intro x hx hx'
          rw [L.keyEq _ x hI hx hx', hsw x hx hx']
          by_cases e1 : x = p
          · rw [if_pos e1, if_pos e1, L.keyEq s q hs (by omega) (by omega)]
          · rw [if_neg e1, if_neg e1]
            by_cases e2 : x = q
            · rw [if_pos e2, if_pos e2, L.keyEq s p hs (by omega) (by omega)]
            · rw [if_neg e2, if_neg e2, L.keyEq s x hs hx hx']
        obtain ⟨r1, r2, r3⟩ := ih q (sw s p q) hI (by omega) hqh (by omega) (by
            intro c hc hcl hch hcq
            rw [hk c (by omega) (by omega), hk (c / 2) (by omega) (by omega)]
            by_cases e1 : c = p
            · -- the moved-up key against the parent of p
              rw [if_pos e1, if_neg (by omega), if_neg (by omega)]
              subst e1
              exact h2 q hq2 hqp hqh hcl
            · rw [if_neg e1]
              by_cases e2 : c = q
              · rw [if_pos e2, e2, hqp, if_pos rfl]; omega
              · rw [if_neg e2]
                by_cases e3 : c / 2 = p
                · rw [if_pos e3]; exact hmax c hc e3 hch
                · rw [if_neg e3, if_neg hcq]; exact h1 c hc hcl hch e3) (by
            intro c hc hcq hch _
            rw [hqp, hk c (by omega) (by omega), hk p (by omega) (by omega), if_pos rfl,
              if_neg (by omega), if_neg (by omega)]
            have := h1 c hc (by omega) hch (by omega)
            rwa [hcq] at this)
        exact ⟨r1, r2, (PermTo.swap L hs (by omega) hphi (by omega) hqh hN hpq).trans hN r3⟩
    · rw [if_neg hq]
      refine ⟨hs, ?_, PermTo.refl _ _⟩
      intro c hc hcl hch
      exact h1 c hc hcl hch (by omega)

theorem build_spec {I : S → Prop} {kf : τ → Int} (L : SwapLaw I key sw view kf N) {hi : Nat}
    (hN : hi ≤ N) (gap : Nat) (s : S) (hs : I s) (hgap : 1 ≤ gap) (hgh : gap ≤ hi)
    (h : HeapFrom (key s) (gap + 1) hi) :
    let s' := buildLoop key sw hi gap s
    I s' ∧ HeapFrom (key s') 2 hi ∧ PermTo view N hi s s' := by
  induction gap generalizing s with
  | zero => omega
  | succ gap ih =>
    cases gap with
    | zero => exact ⟨hs, h, PermTo.refl _ _⟩
    | succ gap =>
      simp only [buildLoop]
      obtain ⟨r1, r2, r3⟩ := sift_spec L hN (l := gap + 2) (by omega) hi (gap + 2) s hs (by omega) hgh
        (by omega) (by
          intro c hc hcl hch hcp
          exact h c hc (by omega) hch) (by intro c hc hcp hch hl; omega)
      obtain ⟨t1, t2, t3⟩ := ih _ r1 (by omega) (by omega) r2
      exact ⟨t1, t2, r3.trans hN t3⟩

theorem heap_root {K : Nat → Int} {hi : Nat} (h : HeapFrom K 1 hi) (c : Nat) (hc : 1 ≤ c)
    (hch : c ≤ hi) : K c ≤ K 1 := by
  induction c using Nat.strongRecOn with
  | _ c ih =>
    by_cases e : c = 1
    · subst e; exact Int.le_refl _
    · exact Int.le_trans (h c (by omega) (by omega) hch) (ih (c / 2) (by omega) (by omega) (by omega))

theorem extract_spec {I : S → Prop} {kf : τ → Int} (L : SwapLaw I key sw view kf N) (hi : Nat)
    (s : S) (hs : I s) (hN : hi ≤ N) (h1 : 1 ≤ hi) (h : HeapFrom (key s) 2 hi)
    (hsorted : ∀ a b, hi < a → a ≤ b → b ≤ N → key s a ≤ key s b)
    (hle : ∀ a b, 1 ≤ a → a ≤ hi → hi < b → b ≤ N → key s a ≤ key s b) :
    let s' := extractLoop key sw hi s
    I s' ∧ (∀ a b, 1 ≤ a → a ≤ b → b ≤ N → key s' a ≤ key s' b) ∧ PermTo view N hi s s' := by
  induction hi generalizing s with
  | zero => omega
  | succ hi ih =>
    cases hi with
    | zero =>
      refine ⟨hs, ?_, PermTo.refl _ _⟩
      intro a b ha hab hb
      simp only [extractLoop]
      by_cases e : a = 1
      · by_cases e' : b = 1
        · subst e e'; exact Int.le_refl _
        · exact hle a b ha (by omega) (by omega) hb
      · exact hsorted a b (by omega) hab hb
    | succ hi =>
      simp only [extractLoop]
      obtain ⟨r1, r2, r3⟩ := sift_spec L hN (l := 1) (by omega) (hi + 2) 1 s hs (by omega) (by omega)
        (by omega) (by
          intro c hc hcl hch hcp
          exact h c hc (by omega) hch) (by intro c hc hcp hch hl; omega)
      revert r1 r2 r3
      generalize siftLoop key sw (hi + 2) (hi + 2) 1 1 s = t
      intro r1 r2 r3
      have hroot := heap_root r2
      have hk' : ∀ x, 1 ≤ x → x ≤ N → ∃ y, 1 ≤ y ∧ y ≤ N ∧ (x ≤ hi + 2 → y ≤ hi + 2) ∧
          (hi + 2 < x → y = x) ∧ key t x = key s y := by
        intro x hx hx'
        obtain ⟨σ, s1, s2⟩ := r3
        by_cases hxh : x ≤ hi + 2
        · have := PermTo.range s1 hx hxh
          exact ⟨σ x, this.1, by omega, fun _ => this.2, by omega, by
            rw [L.keyEq t x r1 hx hx', L.keyEq s _ hs this.1 (by omega), s2 x hx hx']⟩
        · exact ⟨x, hx, hx', by omega, fun _ => rfl, by
            rw [L.keyEq t x r1 hx hx', L.keyEq s x hs hx hx', s2 x hx hx', s1 x (by omega)]⟩
      have hI := L.inv t 1 (hi + 2) r1 (by omega) (by omega) (by omega) hN
      have hk : ∀ x, 1 ≤ x → x ≤ N → key (sw t 1 (hi + 2)) x =
          if x = 1 then key t (hi + 2) else if x = hi + 2 then key t 1 else key t x := by
        intro x hx hx'
        rw [L.keyEq _ x hI hx hx', L.swap t 1 (hi + 2) r1 (by omega) (by omega) (by omega) hN
          (by omega) x hx hx']
        by_cases e1 : x = 1
        · rw [if_pos e1, if_pos e1, L.keyEq t _ r1 (by omega) (by omega)]
        · rw [if_neg e1, if_neg e1]
          by_cases e2 : x = hi + 2
          · rw [if_pos e2, if_pos e2, L.keyEq t _ r1 (by omega) (by omega)]
          · rw [if_neg e2, if_neg e2, L.keyEq t x r1 hx hx']
      obtain ⟨q1, q2, q3⟩ := ih (sw t 1 (hi + 2)) hI (by omega) (by omega) (by
          intro c hc hcl hch
          rw [hk c (by omega) (by omega), hk (c / 2) (by omega) (by omega), if_neg (by omega),
            if_neg (by omega), if_neg (by omega), if_neg (by omega)]
          exact r2 c hc (by omega) (by omega)) (by
          intro a b ha hab hb
          rw [hk a (by omega) (by omega), hk b (by omega) (by omega), if_neg (by omega : ¬ a = 1),
            if_neg (by omega : ¬ b = 1)]
          by_cases ea : a = hi + 2
          · rw [if_pos ea]
            by_cases eb : b = hi + 2
            · rw [if_pos eb]; exact Int.le_refl _
            · rw [if_neg eb]
              obtain ⟨y, y1, y2, y3, -, y5⟩ := hk' 1 (by omega) (by omega)
              obtain ⟨z, z1, z2, -, z4, z5⟩ := hk' b (by omega) hb
              rw [y5, z5, z4 (by omega)]
              exact hle y b y1 (y3 (by omega)) (by omega) hb
          · rw [if_neg ea, if_neg (by omega)]
            obtain ⟨y, y1, y2, -, y4, y5⟩ := hk' a (by omega) (by omega)
            obtain ⟨z, z1, z2, -, z4, z5⟩ := hk' b (by omega) hb
            rw [y5, z5, y4 (by omega), z4 (by omega)]
            exact hsorted a b (by omega) hab hb) (by
          intro a b ha hah hb hbN
          rw [hk a ha (by omega), hk b (by omega) (by omega), if_neg (by omega : ¬ b = 1)]
          have ha' : (if a = 1 then key t (hi + 2) else if a = hi + 2 then key t 1 else key t a) ≤
              key t 1 := by
            by_cases e : a = 1
            · rw [if_pos e]; exact hroot _ (by omega) (by omega)
            · rw [if_neg e, if_neg (by omega)]; exact hroot _ (by omega) (by omega)
          by_cases eb : b = hi + 2
          · rw [if_pos eb]; exact ha'
          · rw [if_neg eb]
            refine Int.le_trans ha' ?_
            obtain ⟨y, y1, y2, y3, -, y5⟩ := hk' 1 (by omega) (by omega)
            obtain ⟨z, z1, z2, -, z4, z5⟩ := hk' b (by omega) hbN
            rw [y5, z5, z4 (by omega)]
            exact hle y b y1 (y3 (by omega)) (by omega) hbN)
      exact ⟨q1, q2, (r3.trans hN (PermTo.swap L r1 (by omega) (by omega) (by omega)
        (Nat.le_refl _) hN (by omega))).trans hN (q3.mono (by omega))⟩

theorem indexSort_spec {I : S → Prop} {kf : τ → Int} (L : SwapLaw I key sw view kf N) (s : S)
    (hs : I s) :
    let s' := indexSort key sw N s
    I s' ∧ (∀ a b, 1 ≤ a → a ≤ b → b ≤ N → key s' a ≤ key s' b) ∧ PermTo view N N s s' := by
  unfold indexSort
  by_cases h : N < 2
  · simp only [if_pos h]
    refine ⟨hs, ?_, PermTo.refl _ _⟩
    intro a b ha hab hb
    have : a = b := by omega
    subst this; exact Int.le_refl _
  · simp only [if_neg h]
    have e : (if N % 2 = 1 then N / 2 + N / 2 + 1 else N / 2 + N / 2) = N := by
      split <;> omega
    rw [e]
    obtain ⟨r1, r2, r3⟩ := build_spec L (Nat.le_refl N) (N / 2) s hs (by omega) (by omega) (by
      intro c hc hcl hch; omega)
    obtain ⟨t1, t2, t3⟩ := extract_spec L N _ r1 (Nat.le_refl N) (by omega) r2
      (by intro a b; omega) (by intro a b; omega)
    exact ⟨t1, t2, r3.trans (Nat.le_refl N) t3⟩

end

/-! ## arrays -/

theorem hswapAt_length {α} [Inhabited α] (l : List α) (a b : Nat) :
    (hswapAt l a b).length = l.length := by simp [hswapAt]

theorem hswapAt_getD {α} [Inhabited α] (l : List α) {a b : Nat} (ha : 1 ≤ a) (ha' : a ≤ l.length)
    (hb : 1 ≤ b) (hb' : b ≤ l.length) (hab : a ≠ b) (x : Nat) (hx : 1 ≤ x) :
    (hswapAt l a b).getD (x - 1) default =
      if x = a then l.getD (b - 1) default else if x = b then l.getD (a - 1) default
      else l.getD (x - 1) default := by
  unfold hswapAt
  simp only [List.getD_eq_getElem?_getD, List.getElem?_set, List.length_set]
  by_cases h1 : x = a
  · subst h1
    rw [if_neg (by omega), if_pos rfl, if_pos (by omega), if_pos rfl]
    simp
  · rw [if_neg h1]
    by_cases h2 : x = b
    · subst h2
      rw [if_pos rfl, if_pos (by omega), if_pos rfl]
      simp
    · rw [if_neg h2, if_neg (by omega), if_neg (by omega)]

/-- a permutation of positions gives a permutation of the list of tuples -/
theorem perm_of_permTo {S τ : Type} {view : S → Nat → τ} {N : Nat} {s s' : S}
    (h : PermTo view N N s s') :
    ((List.range N).map fun k => view s' (k + 1)).Perm ((List.range N).map fun k => view s (k + 1)) := by
  obtain ⟨σ, h1, h2⟩ := h
  have e : ((List.range N).map fun k => view s' (k + 1)) =
      ((List.range N).map fun k => σ (k + 1)).map (view s) := by
    rw [List.map_map]
    apply List.map_congr_left
    intro k hk
    rw [List.mem_range] at hk
    simp only [Function.comp]
    exact h2 _ (by omega) (by omega)
  have e' : ((List.range N).map fun k => view s (k + 1)) =
      ((List.range N).map fun k => k + 1).map (view s) := by rw [List.map_map]; rfl
  rw [e, e']
  apply List.Perm.map
  apply (List.perm_ext_iff_of_nodup _ _).2
  · intro a
    simp only [List.mem_map, List.mem_range]
    constructor
    · rintro ⟨k, hk, rfl⟩
      have := PermTo.range h1 (x := k + 1) (by omega) (by omega)
      exact ⟨σ (k + 1) - 1, by omega, by omega⟩
    · rintro ⟨k, hk, rfl⟩
      have h1' : ∀ x, x < 1 ∨ N < x → σ.symm x = x := by
        intro x hx
        rw [Equiv.symm_apply_eq]
        exact (h1 x hx).symm
      have := PermTo.range h1' (x := k + 1) (by omega) (by omega)
      refine ⟨σ.symm (k + 1) - 1, by omega, ?_⟩
      rw [show σ.symm (k + 1) - 1 + 1 = σ.symm (k + 1) by omega, Equiv.apply_symm_apply]
  · refine List.Nodup.map ?_ List.nodup_range
    intro a b e
    have := σ.injective e
    omega
  · refine List.Nodup.map ?_ List.nodup_range
    intro a b e
    simp only at e
    omega

end GA
