import Verif.Model.SmpReduce
import Verif.Spec.Gop

/-!
# Reduction through shared memory: the invariant
-/

namespace GA.SmpReduce

open GA.Net (upd)
open GA.Spec.Gop

variable {α : Type}

theorem updEq {γ : Type} (f : Nat → γ) (p : Nat) (v : γ) : upd f p v p = v := by simp [upd]

theorem updNe {γ : Type} (f : Nat → γ) {p q : Nat} (v : γ) (h : q ≠ p) : upd f p v q = f q := by
  simp [upd, h]

theorem put_other (f : Nat → Nat → α) {p q : Nat} (i : Nat) (v : α) (h : q ≠ p) :
    put f p i v q = f q := updNe _ _ h

theorem put_same (f : Nat → Nat → α) (p i k : Nat) (v : α) :
    put f p i v p k = if k = i then v else f p k := by
  unfold put
  rw [updEq]
  by_cases h : k = i
  · subst h; rw [updEq, if_pos rfl]
  · rw [updNe _ _ h, if_neg h]

/-! ### The value of a subtree -/

/-- The numbers `d` of the subtree of `p`, combined. -/
def sub (op : α → α → α) (n : Nat) (d : Nat → α) : Nat → Nat → α
  | 0, p => d p
  | f + 1, p =>
      let a := if 2 * p + 1 < n then op (d p) (sub op n d f (2 * p + 1)) else d p
      if 2 * p + 2 < n then op a (sub op n d f (2 * p + 2)) else a

theorem sub_fuel (op : α → α → α) (n : Nat) (d : Nat → α) : ∀ f g p, n ≤ f + p → n ≤ g + p →
    sub op n d f p = sub op n d g p
  | 0, 0, _, _, _ => rfl
  | 0, g + 1, p, h, _ => by
      simp only [sub]
      rw [if_neg (by omega), if_neg (by omega)]
  | f + 1, 0, p, _, h => by
      simp only [sub]
      rw [if_neg (by omega), if_neg (by omega)]
  | f + 1, g + 1, p, h1, h2 => by
      simp only [sub]
      rw [sub_fuel op n d f g (2 * p + 1) (by omega) (by omega),
        sub_fuel op n d f g (2 * p + 2) (by omega) (by omega)]

theorem sub_leaf (op : α → α → α) {n : Nat} (d : Nat → α) (f : Nat) {p : Nat} (h : n ≤ 2 * p + 1) :
    sub op n d f p = d p := by
  cases f with
  | zero => rfl
  | succ f =>
    simp only [sub]
    rw [if_neg (by omega), if_neg (by omega)]

/-- The last process can be joined to its parent. -/
theorem sub_join (op : α → α → α) (hc : ∀ a b, op a b = op b a)
    (ha : ∀ a b c, op (op a b) c = op a (op b c)) (n : Nat) (d : Nat → α) :
    ∀ f p, p < n → n ≤ f + p → sub op (n + 1) d f p =
      sub op n (upd d ((n - 1) / 2) (op (d ((n - 1) / 2)) (d n))) f p
  | 0, p, hp, hf => absurd hf (by omega)
  | f + 1, p, hp, hf => by
      by_cases h1 : 2 * p + 1 = n
      · have e : (n - 1) / 2 = p := by omega
        simp only [sub]
        rw [if_neg (show ¬ 2 * p + 2 < n + 1 by omega), if_pos (show 2 * p + 1 < n + 1 by omega),
          if_neg (show ¬ 2 * p + 2 < n by omega), if_neg (show ¬ 2 * p + 1 < n by omega), e, updEq,
          sub_leaf op d f (by omega), h1]
      · by_cases h2 : 2 * p + 2 = n
        · have e : (n - 1) / 2 = p := by omega
          have ih := sub_join op hc ha n d f (2 * p + 1) (by omega) (by omega)
          simp only [sub]
          rw [if_pos (show 2 * p + 2 < n + 1 by omega), if_pos (show 2 * p + 1 < n + 1 by omega),
            if_neg (show ¬ 2 * p + 2 < n by omega), if_pos (show 2 * p + 1 < n by omega), ih,
            sub_leaf op d f (show n + 1 ≤ 2 * (2 * p + 2) + 1 by omega), e, updEq, h2, ha,
            hc _ (d n), ← ha]
        · have e : (n - 1) / 2 ≠ p := by omega
          simp only [sub]
          rw [updNe _ _ (fun x => e x.symm)]
          by_cases h3 : 2 * p + 1 < n
          · rw [if_pos (show 2 * p + 1 < n + 1 by omega), if_pos h3,
              sub_join op hc ha n d f (2 * p + 1) (by omega) (by omega)]
            by_cases h4 : 2 * p + 2 < n
            · rw [if_pos (show 2 * p + 2 < n + 1 by omega), if_pos h4,
                sub_join op hc ha n d f (2 * p + 2) (by omega) (by omega)]
            · rw [if_neg (show ¬ 2 * p + 2 < n + 1 by omega), if_neg h4]
          · rw [if_neg (show ¬ 2 * p + 1 < n + 1 by omega), if_neg h3,
              if_neg (show ¬ 2 * p + 2 < n + 1 by omega), if_neg (show ¬ 2 * p + 2 < n by omega)]

theorem combine_upd (op : α → α → α) (hc : ∀ a b, op a b = op b a)
    (ha : ∀ a b c, op (op a b) c = op a (op b c)) (d : Nat → α) (v : α) (q : Nat) :
    ∀ n, (q ≤ n → combine op (upd d q (op (d q) v)) n = op (combine op d n) v) ∧
      (n < q → combine op (upd d q (op (d q) v)) n = combine op d n)
  | 0 => by
      refine ⟨fun h => ?_, fun h => ?_⟩
      · have : q = 0 := by omega
        subst this
        rw [combine, combine, updEq]
      · rw [combine, combine, updNe _ _ (by omega)]
  | n + 1 => by
      obtain ⟨h1, h2⟩ := combine_upd op hc ha d v q n
      refine ⟨fun h => ?_, fun h => ?_⟩
      · rw [combine, combine]
        by_cases e : q = n + 1
        · subst e
          rw [h2 (by omega), updEq, ha]
        · rw [h1 (by omega), updNe _ _ (fun x => e x.symm), ha, hc v, ← ha]
      · rw [combine, combine, h2 (by omega), updNe _ _ (by omega)]

/-- The tree combines the numbers of all processes. -/
theorem sub_root (op : α → α → α) (hc : ∀ a b, op a b = op b a)
    (ha : ∀ a b c, op (op a b) c = op a (op b c)) : ∀ (n : Nat) (d : Nat → α),
    sub op (n + 1) d (n + 1) 0 = combine op d n
  | 0, d => sub_leaf op d _ (by omega)
  | n + 1, d => by
      rw [sub_join op hc ha (n + 1) d (n + 2) 0 (by omega) (by omega),
        sub_fuel op (n + 1) _ (n + 2) (n + 1) 0 (by omega) (by omega), sub_root op hc ha n,
        (combine_upd op hc ha d (d (n + 1)) ((n + 1 - 1) / 2) n).1 (by omega), combine]

/-! ### The arrays after some turns -/

/-- What a turn must do. -/
def eff (n : Nat) (rd : Round α) (m : Nat → Nat → α) : Nat → Nat → α := fun p k =>
  if p = 0 ∧ rd.off ≤ k ∧ k < rd.off + rd.len then sub rd.op n (fun q => m q k) n 0 else m p k

/-- The arrays after `r` turns. -/
def after (n : Nat) (R : List (Round α)) (x : Nat → Nat → α) (r : Nat) : Nat → Nat → α :=
  (R.take r).foldl (fun m rd => eff n rd m) x

theorem after_succ (n : Nat) {R : List (Round α)} (x : Nat → Nat → α) {r : Nat} {rd : Round α}
    (h : R[r]? = some rd) : after n R x (r + 1) = eff n rd (after n R x r) := by
  unfold after
  rw [List.take_add_one, h]
  simp

theorem foldl_eff_other (n : Nat) : ∀ (l : List (Round α)) (x : Nat → Nat → α) (p : Nat), p ≠ 0 →
    l.foldl (fun m rd => eff n rd m) x p = x p
  | [], _, _, _ => rfl
  | rd :: l, x, p, h => by
      rw [List.foldl_cons, foldl_eff_other n l _ p h]
      funext k
      unfold eff
      rw [if_neg (fun e => h e.1)]

theorem after_other (n : Nat) (R : List (Round α)) (x : Nat → Nat → α) (r : Nat) {p : Nat}
    (h : p ≠ 0) : after n R x r p = x p := foldl_eff_other n _ x p h

/-- The value of the subtree of `p` for element `k` of the turn. -/
def tree (n : Nat) (rd : Round α) (m : Nat → Nat → α) (p k : Nat) : α :=
  sub rd.op n (fun q => m q (rd.off + k)) n p

/-- What `p` has when it still needs `nl`, `nr`. -/
def part (n : Nat) (rd : Round α) (m : Nat → Nat → α) (p : Nat) (nl nr : Bool) (k : Nat) : α :=
  let a := if has n p false && !nl then rd.op (m p (rd.off + k)) (tree n rd m (child p false) k)
    else m p (rd.off + k)
  if has n p true && !nr then rd.op a (tree n rd m (child p true) k) else a

theorem part_none (n : Nat) (rd : Round α) (m : Nat → Nat → α) (p k : Nat) :
    part n rd m p (has n p false) (has n p true) k = m p (rd.off + k) := by
  unfold part
  simp

theorem part_all {n : Nat} (rd : Round α) (m : Nat → Nat → α) {p : Nat} (hp : p < n) (k : Nat) :
    part n rd m p false false k = tree n rd m p k := by
  have h : tree n rd m p k = sub rd.op n (fun q => m q (rd.off + k)) (n + 1) p :=
    sub_fuel _ _ _ _ _ _ (by omega) (by omega)
  rw [h]
  simp only [part, tree, sub, has, child, Bool.not_false, Bool.and_true, decide_eq_true_eq,
    Bool.false_eq_true, if_false, if_true]

theorem part_take {n : Nat} (rd : Round α) (hc : ∀ a b, rd.op a b = rd.op b a)
    (ha : ∀ a b c, rd.op (rd.op a b) c = rd.op a (rd.op b c)) (m : Nat → Nat → α) {p : Nat}
    {c nl nr : Bool} (h : has n p c = true) (hn : (if c then nr else nl) = false) (k : Nat) :
    part n rd m p nl nr k =
      rd.op (part n rd m p (nl || !c) (nr || c) k) (tree n rd m (child p c) k) := by
  cases c with
  | true =>
    have hn' : nr = false := hn
    subst hn'
    unfold part
    simp [h]
  | false =>
    have hn' : nl = false := hn
    subst hn'
    unfold part
    simp only [h, Bool.not_false, Bool.and_self, if_true, Bool.or_true, Bool.not_true,
      Bool.and_false, Bool.false_eq_true, if_false, Bool.or_false]
    by_cases hr : (has n p true && !nr) = true
    · rw [if_pos hr, if_pos hr, ha, hc (tree n rd m (child p false) k), ← ha]
    · rw [if_neg hr, if_neg hr]

/-! ### The invariant -/

/-- The process has taken the numbers of this child in this turn. -/
def cleared : Pc → Bool → Bool
  | .wait, _ => false
  | .copy _, _ => false
  | .look nl nr _, c => if c then !nr else !nl
  | .comb c' _ nl nr _, c => if c' = c then false else if c then !nr else !nl
  | .clear c' nl nr, c => if c' = c then false else if c then !nr else !nl
  | .full, _ => true

/-- The process has the numbers `val`: the root in its array, the others in
their buffers (those that are `known`). -/
def Holds (n : Nat) (rd : Round α) (m : Nat → Nat → α) (s : State α) (p : Nat) (val : Nat → α)
    (known : Nat → Prop) : Prop :=
  (p = 0 → ∀ k, s.x 0 k =
    if rd.off ≤ k ∧ k < rd.off + rd.len then val (k - rd.off) else m 0 k) ∧
  (p ≠ 0 → s.x p = m p ∧ ∀ k, k < rd.len → known k → s.buf p k = val k)

/-- What holds for one process in the turn `rd`. -/
def OwnAt (n : Nat) (rd : Round α) (m : Nat → Nat → α) (s : State α) (p : Nat) : Pc → Prop
  | .wait => s.x p = m p
  | .copy i => s.flag p = false ∧ has n p false = false ∧ has n p true = false ∧ p ≠ 0 ∧
      i ≤ rd.len ∧ Holds n rd m s p (fun k => m p (rd.off + k)) (fun k => k < i)
  | .look nl nr first => s.flag p = false ∧ has n p false = true ∧
      (nl = true → has n p false = true) ∧ (nr = true → has n p true = true) ∧
      (first = true → nl = has n p false ∧ nr = has n p true) ∧
      Holds n rd m s p (part n rd m p nl nr) (fun _ => first = false)
  | .comb c i nl nr first => s.flag p = false ∧ s.flag (child p c) = true ∧ has n p false = true ∧
      has n p c = true ∧ (nl = true → has n p false = true) ∧ (nr = true → has n p true = true) ∧
      (if c then nr else nl) = false ∧ i ≤ rd.len ∧
      (first = true → (nl || !c) = has n p false ∧ (nr || c) = has n p true) ∧
      Holds n rd m s p
        (fun k => if k < i then part n rd m p nl nr k else part n rd m p (nl || !c) (nr || c) k)
        (fun k => k < i ∨ first = false)
  | .clear c nl nr => s.flag p = false ∧ s.flag (child p c) = true ∧ has n p false = true ∧
      has n p c = true ∧ (nl = true → has n p false = true) ∧ (nr = true → has n p true = true) ∧
      (if c then nr else nl) = false ∧ Holds n rd m s p (part n rd m p nl nr) (fun _ => True)
  | .full => s.flag p = false ∧ Holds n rd m s p (tree n rd m p) (fun _ => True)

/-- What holds for one process. -/
def Own (n : Nat) (R : List (Round α)) (x0 : Nat → Nat → α) (s : State α) (p : Nat) : Prop :=
  match R[(s.loc p).rnd]? with
  | none => (s.loc p).pc = .wait ∧ s.x p = after n R x0 (s.loc p).rnd p
  | some rd => OwnAt n rd (after n R x0 (s.loc p).rnd) s p (s.loc p).pc

/-- The number of times that `p` has taken the numbers of its child. -/
def taken (l : Loc) (c : Bool) : Nat := l.rnd + (cleared l.pc c).toNat

/-- The invariant. -/
structure Inv (n : Nat) (R : List (Round α)) (x0 : Nat → Nat → α) (s : State α) : Prop where
  flag0 : s.flag 0 = false
  le : ∀ p, p < n → (s.loc p).rnd ≤ R.length
  own : ∀ p, p < n → Own n R x0 s p
  out : ∀ p, n ≤ p → s.x p = x0 p
  link : ∀ p c, p < n → has n p c = true →
    (s.loc (child p c)).rnd = taken (s.loc p) c + (s.flag (child p c)).toNat
  full : ∀ p c, p < n → has n p c = true → s.flag (child p c) = true →
    ∀ rd, R[taken (s.loc p) c]? = some rd → ∀ k, k < rd.len →
      s.buf (child p c) k = tree n rd (after n R x0 (taken (s.loc p) c)) (child p c) k

theorem inv_start (n : Nat) (R : List (Round α)) (buf x : Nat → Nat → α) :
    Inv n R x (start buf x) where
  flag0 := rfl
  le := fun _ _ => Nat.zero_le _
  own := fun p _ => by
    unfold Own
    dsimp only [start]
    cases h : R[0]? with
    | none => exact ⟨rfl, rfl⟩
    | some rd => rfl
  out := fun _ _ => rfl
  link := fun p c _ _ => rfl
  full := fun p c _ _ h => absurd h (by simp [start])

theorem child_inj {p q : Nat} {c d : Bool} (h : child p c = child q d) : p = q ∧ c = d := by
  unfold child at h
  cases c <;> cases d <;> simp at h <;> first | (exact ⟨by omega, rfl⟩) | omega

theorem child_ne (p : Nat) (c : Bool) : child p c ≠ p := by unfold child; split <;> omega

theorem child_ne_zero (p : Nat) (c : Bool) : child p c ≠ 0 := by unfold child; split <;> omega

theorem child_lt {n p : Nat} {c : Bool} (h : has n p c = true) : child p c < n := by
  simpa [has] using h

theorem parent {p n : Nat} (h : p ≠ 0) (hn : p < n) :
    ∃ q c, q < n ∧ has n q c = true ∧ child q c = p := by
  by_cases e : p % 2 = 0
  · exact ⟨(p - 1) / 2, true, by omega, by simp [has, child]; omega, by simp [child]; omega⟩
  · exact ⟨(p - 1) / 2, false, by omega, by simp [has, child]; omega, by simp [child]; omega⟩

theorem Holds.congr {n : Nat} {rd : Round α} {m : Nat → Nat → α} {s s' : State α} {p : Nat}
    {val : Nat → α} {known : Nat → Prop} (h : Holds n rd m s p val known) (hx : s'.x p = s.x p)
    (hb : s'.buf p = s.buf p) : Holds n rd m s' p val known := by
  refine ⟨fun e => ?_, fun e => ?_⟩
  · subst e; rw [hx]; exact h.1 rfl
  · rw [hx, hb]; exact h.2 e

/-- What holds for a process stays when others move. -/
theorem Own.congr {n : Nat} {R : List (Round α)} {x0 : Nat → Nat → α} {s s' : State α} {p : Nat}
    (h : Own n R x0 s p) (hl : s'.loc p = s.loc p) (hx : s'.x p = s.x p)
    (hb : s'.buf p = s.buf p) (hf : s.flag p = false → s'.flag p = false)
    (hc : ∀ c, s.flag (child p c) = true → s'.flag (child p c) = true) : Own n R x0 s' p := by
  unfold Own at h ⊢
  rw [hl]
  cases hr : R[(s.loc p).rnd]? with
  | none => rw [hr] at h; dsimp only at h ⊢; rw [hx]; exact h
  | some rd =>
    rw [hr] at h
    dsimp only at h ⊢
    cases hp : (s.loc p).pc with
    | wait => rw [hp] at h; unfold OwnAt at h ⊢; rw [hx]; exact h
    | copy i =>
      rw [hp] at h
      obtain ⟨a1, a2, a3, a4, a5, a6⟩ := h
      exact ⟨hf a1, a2, a3, a4, a5, a6.congr hx hb⟩
    | look nl nr first =>
      rw [hp] at h
      obtain ⟨a1, a2, a3, a4, a5, a6⟩ := h
      exact ⟨hf a1, a2, a3, a4, a5, a6.congr hx hb⟩
    | comb c i nl nr first =>
      rw [hp] at h
      obtain ⟨a1, a2, a3, a4, a5, a6, a7, a8, a9, a10⟩ := h
      exact ⟨hf a1, hc c a2, a3, a4, a5, a6, a7, a8, a9, a10.congr hx hb⟩
    | clear c nl nr =>
      rw [hp] at h
      obtain ⟨a1, a2, a3, a4, a5, a6, a7, a8⟩ := h
      exact ⟨hf a1, hc c a2, a3, a4, a5, a6, a7, a8.congr hx hb⟩
    | full =>
      rw [hp] at h
      obtain ⟨a1, a2⟩ := h
      exact ⟨hf a1, a2.congr hx hb⟩

/-- A step within a turn that changes no flag. -/
theorem inv_inner {n : Nat} {R : List (Round α)} {x0 : Nat → Nat → α} {s s' : State α} {p : Nat}
    (h : Inv n R x0 s) (hp : p < n) {rd : Round α} (hr : R[(s.loc p).rnd]? = some rd) {pc : Pc}
    (hl : s'.loc = upd s.loc p ⟨(s.loc p).rnd, pc⟩) (hf : s'.flag = s.flag)
    (hx : ∀ q, q ≠ p → s'.x q = s.x q) (hb : ∀ q, q ≠ p → s'.buf q = s.buf q)
    (hbp : s'.buf p = s.buf p ∨ s.flag p = false)
    (hcl : ∀ c, has n p c = true → cleared pc c = cleared (s.loc p).pc c)
    (hown : OwnAt n rd (after n R x0 (s.loc p).rnd) s' p pc) : Inv n R x0 s' := by
  have hrnd : ∀ q, (s'.loc q).rnd = (s.loc q).rnd := fun q => by
    rw [hl]
    by_cases e : q = p
    · subst e; rw [updEq]
    · rw [updNe _ _ e]
  have htk : ∀ q c, has n q c = true → taken (s'.loc q) c = taken (s.loc q) c := fun q c hq => by
    unfold taken
    rw [hrnd, hl]
    by_cases e : q = p
    · subst e; rw [updEq, hcl c hq]
    · rw [updNe _ _ e]
  refine ⟨by rw [hf]; exact h.flag0, fun q hq => by rw [hrnd]; exact h.le q hq, fun q hq => ?_,
    fun q hq => by rw [hx q (by omega)]; exact h.out q hq, fun q c hq hh => ?_,
    fun q c hq hh hfl => ?_⟩
  · by_cases e : q = p
    · subst e
      unfold Own
      rw [hl, updEq]
      dsimp only
      rw [hr]
      exact hown
    · exact (h.own q hq).congr (by rw [hl, updNe _ _ e]) (hx q e) (hb q e) (by rw [hf]; exact id)
        (by rw [hf]; exact fun _ => id)
  · rw [hrnd, htk q c hh, hf]; exact h.link q c hq hh
  · rw [hf] at hfl
    rw [htk q c hh]
    have hbc : s'.buf (child q c) = s.buf (child q c) := by
      by_cases e : child q c = p
      · rcases hbp with hbp | hbp
        · rw [e]; exact hbp
        · rw [e, hbp] at hfl; exact absurd hfl (by simp)
      · exact hb _ e
    rw [hbc]
    exact h.full q c hq hh hfl

theorem leafless {n p : Nat} (h : has n p true = true) : has n p false = true := by
  simp only [has, child, decide_eq_true_eq, if_true, Bool.false_eq_true, if_false] at h ⊢
  omega

theorem inv_step {n : Nat} {R : List (Round α)}
    (hop : ∀ rd ∈ R, (∀ a b, rd.op a b = rd.op b a) ∧
      ∀ a b c, rd.op (rd.op a b) c = rd.op a (rd.op b c))
    (hn : R ≠ [] → 2 ≤ n)
    {x0 : Nat → Nat → α} {s s' : State α} {p : Nat} {side : Bool}
    (h : Inv n R x0 s) (hs : step n R p side s = some s') : Inv n R x0 s' := by
  have hp : p < n := by
    by_cases hp : p < n
    · exact hp
    · rw [step, if_neg hp] at hs; exact absurd hs (by simp)
  rw [step, if_pos hp] at hs
  have ho := h.own p hp
  unfold Own at ho
  cases hr : R[(s.loc p).rnd]? with
  | none => rw [hr] at hs; exact absurd hs (by simp)
  | some rd =>
    rw [hr] at hs ho
    dsimp only at hs ho
    obtain ⟨hc, ha⟩ := hop rd (List.mem_of_getElem? hr)
    have hn2 : 2 ≤ n := hn (fun e => by rw [e] at hr; exact absurd hr (by simp))
    generalize hm : after n R x0 (s.loc p).rnd = m at ho
    cases hpc : (s.loc p).pc with
    | wait =>
      rw [hpc] at hs ho
      dsimp only at hs
      have hxm : s.x p = m p := ho
      cases hf : s.flag p with
      | true => rw [hf, if_pos rfl] at hs; exact absurd hs (by simp)
      | false =>
        rw [hf, if_neg (by simp)] at hs
        split at hs
        · rename_i hleaf
          simp only [Bool.and_eq_true, Bool.not_eq_true'] at hleaf
          obtain rfl := Option.some.inj hs
          have hp0 : p ≠ 0 := fun e => by
            subst e
            have := hleaf.1
            simp [has, child] at this
            omega
          refine inv_inner h hp hr (pc := .copy 0) rfl rfl (fun _ _ => rfl) (fun _ _ => rfl)
            (Or.inl rfl) (fun c hh => by rw [hpc]; rfl) ?_
          refine ⟨hf, hleaf.1, hleaf.2, hp0, Nat.zero_le _, fun e => absurd e hp0,
            fun _ => ⟨by rw [hm]; exact hxm, fun k _ hk => absurd hk (by omega)⟩⟩
        · rename_i hleaf
          have hl1 : has n p false = true := by
            cases e : has n p false with
            | true => rfl
            | false =>
              cases e2 : has n p true with
              | true => rw [leafless e2] at e; exact absurd e (by simp)
              | false => rw [e, e2] at hleaf; exact absurd rfl hleaf
          obtain rfl := Option.some.inj hs
          refine inv_inner h hp hr (pc := .look (has n p false) (has n p true) true) rfl rfl
            (fun _ _ => rfl) (fun _ _ => rfl) (Or.inl rfl)
            (fun c hh => by rw [hpc]; cases c <;> simp [cleared, hh]) ?_
          refine ⟨hf, hl1, id, id, fun _ => ⟨rfl, rfl⟩, fun e => ?_, fun e => ⟨?_, ?_⟩⟩
          · intro k
            subst e
            dsimp only
            rw [hm, hxm, part_none]
            split
            · rename_i hk; rw [show rd.off + (k - rd.off) = k by omega]
            · rfl
          · dsimp only; rw [hm, hxm]
          · intro k _ hk; exact absurd hk (by simp)
    | copy i =>
      rw [hpc] at hs ho
      dsimp only at hs
      obtain ⟨a1, a2, a3, a4, a5, -, a6⟩ := ho
      obtain ⟨a6, a7⟩ := a6 a4
      split at hs
      · rename_i hi
        obtain rfl := Option.some.inj hs
        refine inv_inner h hp hr (pc := .copy (i + 1)) rfl rfl (fun _ _ => rfl)
          (fun q hq => put_other _ _ _ hq) (Or.inr a1) (fun c hh => by rw [hpc]; rfl) ?_
        refine ⟨a1, a2, a3, a4, by omega, fun e => absurd e a4, fun _ => ⟨by rw [hm]; exact a6, ?_⟩⟩
        intro k hk hki
        dsimp only
        rw [put_same, hm]
        split
        · rename_i e; rw [e, a6]
        · exact a7 k hk (by omega)
      · rename_i hi
        obtain rfl := Option.some.inj hs
        refine inv_inner h hp hr (pc := .full) rfl rfl (fun _ _ => rfl) (fun _ _ => rfl)
          (Or.inl rfl) (fun c hh => by cases c <;> simp_all) ?_
        refine ⟨a1, fun e => absurd e a4, fun _ => ⟨by rw [hm]; exact a6, fun k hk _ => ?_⟩⟩
        dsimp only
        rw [a7 k hk (by omega), hm, tree, sub_leaf]
        simpa [has, child] using a2
    | look nl nr first =>
      rw [hpc] at hs ho
      dsimp only at hs
      obtain ⟨a1, a2, a3, a4, a5, a6⟩ := ho
      split at hs
      · rename_i hnn
        simp only [Bool.and_eq_true, Bool.not_eq_true'] at hnn
        obtain ⟨rfl, rfl⟩ := hnn
        obtain rfl := Option.some.inj hs
        have hfst : first = false := by
          cases first with
          | false => rfl
          | true => have := (a5 rfl).1; rw [a2] at this; exact absurd this (by simp)
        have hpt : part n rd m p false false = tree n rd m p :=
          funext fun k => part_all rd m hp k
        rw [hpt] at a6
        refine inv_inner h hp hr (pc := .full) rfl rfl (fun _ _ => rfl) (fun _ _ => rfl)
          (Or.inl rfl) (fun c hh => by rw [hpc]; cases c <;> rfl) ?_
        rw [hm]
        exact ⟨a1, a6.1, fun e => ⟨(a6.2 e).1, fun k hk _ => (a6.2 e).2 k hk hfst⟩⟩
      · by_cases hsd : ((if side then nr else nl) && s.flag (child p side)) = true
        · rw [if_pos hsd] at hs
          simp only [Bool.and_eq_true] at hsd
          obtain ⟨hsd, hfl⟩ := hsd
          obtain rfl := Option.some.inj hs
          have e1 : ((nl && side) || !side) = nl := by cases side <;> simp_all
          have e2 : ((nr && !side) || side) = nr := by cases side <;> simp_all
          refine inv_inner h hp hr (pc := .comb side 0 (nl && side) (nr && !side) first) rfl rfl
            (fun _ _ => rfl) (fun _ _ => rfl) (Or.inl rfl)
            (fun c hh => by rw [hpc]; cases c <;> cases side <;> simp_all [cleared]) ?_
          rw [hm]
          refine ⟨a1, hfl, a2, ?_, fun e => a3 (by simp_all), fun e => a4 (by simp_all), ?_,
            Nat.zero_le _, ?_, ?_, ?_⟩
          · cases side with
            | true => exact a4 hsd
            | false => exact a3 hsd
          · cases side <;> simp
          · rw [e1, e2]; exact a5
          · intro e k
            simp only [Nat.not_lt_zero, if_false, e1, e2]
            exact a6.1 e k
          · intro e
            refine ⟨(a6.2 e).1, fun k hk hkn => ?_⟩
            simp only [Nat.not_lt_zero, if_false, e1, e2]
            exact (a6.2 e).2 k hk (by simpa using hkn)
        · rw [if_neg hsd] at hs; exact absurd hs (by simp)
    | comb c i nl nr first =>
      rw [hpc] at hs ho
      dsimp only at hs
      obtain ⟨a1, a2, a3, a4, a5, a6, a7, a8, a9, a10⟩ := ho
      split at hs
      · rename_i hi
        have hb : s.buf (child p c) i = tree n rd m (child p c) i := by
          have htk : taken (s.loc p) c = (s.loc p).rnd := by
            simp [taken, hpc, cleared]
          have := h.full p c hp a4 a2 rd (by rw [htk]; exact hr) i hi
          rw [htk, hm] at this
          exact this
        have hpt := part_take rd hc ha m a4 a7 i
        split at hs
        · rename_i hp0
          obtain rfl := Option.some.inj hs
          refine inv_inner h hp hr (pc := .comb c (i + 1) nl nr first) rfl rfl
            (fun q hq => put_other _ _ _ hq) (fun _ _ => rfl) (Or.inl rfl)
            (fun d hh => by rw [hpc]; rfl) ?_
          rw [hm]
          refine ⟨a1, a2, a3, a4, a5, a6, a7, by omega, a9, fun e k => ?_, fun e => absurd hp0 e⟩
          dsimp only
          subst hp0
          have hx : ∀ k, s.x 0 k = if rd.off ≤ k ∧ k < rd.off + rd.len then
              (if k - rd.off < i then part n rd m 0 nl nr (k - rd.off)
                else part n rd m 0 (nl || !c) (nr || c) (k - rd.off)) else m 0 k := a10.1 rfl
          have hxi := hx (rd.off + i)
          rw [if_pos (by omega), show rd.off + i - rd.off = i by omega,
            if_neg (by omega)] at hxi
          rw [put_same, hxi, hb, ← hpt]
          by_cases e : k = rd.off + i
          · rw [if_pos e, if_pos (by omega), if_pos (by omega), show k - rd.off = i by omega]
          · rw [if_neg e, hx k]
            by_cases hin : rd.off ≤ k ∧ k < rd.off + rd.len
            · rw [if_pos hin, if_pos hin]
              by_cases hk : k - rd.off < i
              · rw [if_pos hk, if_pos (by omega)]
              · rw [if_neg hk, if_neg (by omega)]
            · rw [if_neg hin, if_neg hin]
        · rename_i hp0
          obtain ⟨b1, b2⟩ := a10.2 hp0
          dsimp only at b2
          have go : ∀ v, v = part n rd m p nl nr i → ∀ s'', s'' = { s with buf := put s.buf p i v, loc := upd s.loc p ⟨(s.loc p).rnd, .comb c (i + 1) nl nr first⟩ } → Inv n R x0 s'' := by
            intro v hv s'' hs''
            subst hs''
            refine inv_inner h hp hr (pc := .comb c (i + 1) nl nr first) rfl rfl
              (fun _ _ => rfl) (fun q hq => put_other _ _ _ hq) (Or.inr a1)
              (fun d hh => by rw [hpc]; rfl) ?_
            rw [hm]
            refine ⟨a1, a2, a3, a4, a5, a6, a7, by omega, a9, fun e => absurd e hp0,
              fun _ => ⟨b1, fun k hk hkn => ?_⟩⟩
            dsimp only
            rw [put_same]
            by_cases e : k = i
            · rw [if_pos e, if_pos (by omega), hv, e]
            · rw [if_neg e, b2 k hk (hkn.imp (fun _ => by omega) id)]
              by_cases hki : k < i
              · rw [if_pos hki, if_pos (by omega)]
              · rw [if_neg hki, if_neg (by omega)]
          split at hs
          · rename_i hfst
            obtain rfl := Option.some.inj hs
            refine go _ ?_ _ rfl
            obtain ⟨c1, c2⟩ := a9 hfst
            rw [hb, b1, hpt, c1, c2, part_none, hc]
          · rename_i hfst
            obtain rfl := Option.some.inj hs
            refine go _ ?_ _ rfl
            have := b2 i hi (Or.inr (by simpa using hfst))
            rw [if_neg (by omega)] at this
            rw [this, hb, hpt]
      · rename_i hi
        obtain rfl := Option.some.inj hs
        refine inv_inner h hp hr (pc := .clear c nl nr) rfl rfl (fun _ _ => rfl) (fun _ _ => rfl)
          (Or.inl rfl) (fun d hh => by rw [hpc]; rfl) ?_
        rw [hm]
        refine ⟨a1, a2, a3, a4, a5, a6, a7, fun e k => ?_, fun e => ⟨(a10.2 e).1, fun k hk _ => ?_⟩⟩
        · have hx := a10.1 e k
          dsimp only at hx ⊢
          rw [hx]
          by_cases hin : rd.off ≤ k ∧ k < rd.off + rd.len
          · rw [if_pos hin, if_pos hin, if_pos (by omega)]
          · rw [if_neg hin, if_neg hin]
        · have := (a10.2 e).2 k hk (Or.inl (by omega))
          dsimp only at this
          rw [if_pos (by omega)] at this
          exact this
    | clear c nl nr =>
      rw [hpc] at hs ho
      dsimp only at hs
      obtain ⟨a1, a2, a3, a4, a5, a6, a7, a8⟩ := ho
      obtain rfl := Option.some.inj hs
      have hl : ∀ q, q ≠ p → upd s.loc p ⟨(s.loc p).rnd, .look nl nr false⟩ q = s.loc q :=
        fun q hq => updNe _ _ hq
      have hrnd : ∀ q, (upd s.loc p ⟨(s.loc p).rnd, .look nl nr false⟩ q).rnd = (s.loc q).rnd :=
        fun q => by
          by_cases e : q = p
          · subst e; rw [updEq]
          · rw [hl q e]
      have hcc : cleared (.look nl nr false) c = true := by
        cases c with
        | true => have : nr = false := a7; subst this; rfl
        | false => have : nl = false := a7; subst this; rfl
      have htk : ∀ q d, (q = p → d ≠ c) →
          taken (upd s.loc p ⟨(s.loc p).rnd, .look nl nr false⟩ q) d = taken (s.loc q) d := by
        intro q d hd
        unfold taken
        rw [hrnd]
        by_cases e : q = p
        · subst e
          rw [updEq, hpc]
          have hd' := hd rfl
          cases c <;> cases d <;> first | rfl | exact absurd rfl hd'
        · rw [hl q e]
      refine ⟨?_, fun q hq => by dsimp only; rw [hrnd]; exact h.le q hq, fun q hq => ?_,
        fun q hq => h.out q hq, fun q d hq hh => ?_, fun q d hq hh hfl => ?_⟩
      · dsimp only
        rw [updNe _ _ (fun e => child_ne_zero p c e.symm)]; exact h.flag0
      · by_cases e : q = p
        · subst e
          unfold Own
          dsimp only
          rw [updEq]
          dsimp only
          rw [hr, hm]
          refine ⟨?_, a3, a5, a6, fun e => absurd e (by simp), a8.1,
            fun e => ⟨(a8.2 e).1, fun k hk _ => (a8.2 e).2 k hk trivial⟩⟩
          dsimp only
          rw [updNe _ _ (fun e => child_ne q c e.symm)]; exact a1
        · refine (h.own q hq).congr (hl q e) rfl rfl (fun hf => ?_) (fun d hf => ?_)
          · dsimp only
            by_cases e2 : q = child p c
            · rw [e2, updEq]
            · rw [updNe _ _ e2]; exact hf
          · dsimp only
            rw [updNe _ _ (fun e3 => e (child_inj e3).1)]; exact hf
      · dsimp only
        rw [hrnd]
        by_cases e : q = p ∧ d = c
        · obtain ⟨rfl, rfl⟩ := e
          have hlk := h.link q d hq hh
          rw [a2] at hlk
          rw [updEq, updEq, hlk]
          unfold taken
          rw [hcc, hpc]
          cases d <;> rfl
        · rw [htk q d (fun e1 e2 => e ⟨e1, e2⟩),
            updNe _ _ (fun e3 => e (child_inj e3))]
          exact h.link q d hq hh
      · dsimp only at hfl ⊢
        by_cases e : q = p ∧ d = c
        · obtain ⟨rfl, rfl⟩ := e
          rw [updEq] at hfl; exact absurd hfl (by simp)
        · rw [updNe _ _ (fun e3 => e (child_inj e3))] at hfl
          rw [htk q d (fun e1 e2 => e ⟨e1, e2⟩)]
          exact h.full q d hq hh hfl
    | full =>
      rw [hpc] at hs ho
      dsimp only at hs
      obtain ⟨a1, a2⟩ := ho
      obtain rfl := Option.some.inj hs
      have hl : ∀ q, q ≠ p → upd s.loc p ⟨(s.loc p).rnd + 1, .wait⟩ q = s.loc q :=
        fun q hq => updNe _ _ hq
      have hlen : (s.loc p).rnd < R.length := by
        by_cases e : (s.loc p).rnd < R.length
        · exact e
        · rw [List.getElem?_eq_none (by omega)] at hr; exact absurd hr (by simp)
      have htk : ∀ q d, taken (upd s.loc p ⟨(s.loc p).rnd + 1, .wait⟩ q) d = taken (s.loc q) d := by
        intro q d
        unfold taken
        by_cases e : q = p
        · subst e; rw [updEq, hpc]; simp [cleared]
        · rw [hl q e]
      have hfne : ∀ q, q ≠ p → (if p = 0 then s.flag else upd s.flag p true) q = s.flag q := by
        intro q hq
        split
        · rfl
        · exact updNe _ _ hq
      refine ⟨?_, fun q hq => ?_, fun q hq => ?_, fun q hq => h.out q hq, fun q d hq hh => ?_,
        fun q d hq hh hfl => ?_⟩
      · dsimp only
        split
        · exact h.flag0
        · rename_i e; rw [updNe _ _ (fun e' => e e'.symm)]; exact h.flag0
      · dsimp only
        by_cases e : q = p
        · subst e; rw [updEq]; dsimp only; omega
        · rw [hl q e]; exact h.le q hq
      · by_cases e : q = p
        · subst e
          have hx : s.x q = after n R x0 ((s.loc q).rnd + 1) q := by
            rw [after_succ n x0 hr, hm]
            by_cases e : q = 0
            · funext k
              have := a2.1 e k
              rw [e, this]
              unfold eff
              by_cases hin : rd.off ≤ k ∧ k < rd.off + rd.len
              · rw [if_pos hin, if_pos ⟨rfl, hin⟩]
                unfold tree
                rw [show rd.off + (k - rd.off) = k by omega, e]
              · rw [if_neg hin, if_neg (fun hh => hin hh.2)]
            · rw [(a2.2 e).1]
              funext k
              unfold eff
              rw [if_neg (fun hh => e hh.1)]
          unfold Own
          dsimp only
          rw [updEq]
          dsimp only
          cases R[(s.loc q).rnd + 1]? with
          | none => exact ⟨rfl, hx⟩
          | some rd' => exact hx
        · refine (h.own q hq).congr (hl q e) rfl rfl (fun hf => ?_) (fun d hf => ?_)
          · dsimp only; rw [hfne q e]; exact hf
          · dsimp only
            by_cases e2 : child q d = p
            · rw [e2] at hf; rw [a1] at hf; exact absurd hf (by simp)
            · rw [hfne _ e2]; exact hf
      · dsimp only
        rw [htk]
        by_cases e : child q d = p
        · have hp0 : p ≠ 0 := fun e0 => child_ne_zero q d (by rw [e, e0])
          have hlk := h.link q d hq hh
          rw [e, a1] at hlk
          rw [e, updEq, if_neg hp0, updEq]
          simp at hlk ⊢
          omega
        · rw [hl _ e, hfne _ e]; exact h.link q d hq hh
      · dsimp only at hfl ⊢
        rw [htk]
        by_cases e : child q d = p
        · have hp0 : p ≠ 0 := fun e0 => child_ne_zero q d (by rw [e, e0])
          have hlk := h.link q d hq hh
          rw [e, a1] at hlk
          have hte : taken (s.loc q) d = (s.loc p).rnd := by simp at hlk; omega
          intro rd' hr' k hk
          rw [hte, hr] at hr'
          obtain rfl := Option.some.inj hr'
          rw [e, hte, hm]
          exact (a2.2 hp0).2 k hk trivial
        · rw [hfne _ e] at hfl
          exact h.full q d hq hh hfl

/-! ### Deadlocks -/

theorem exists_min (f : Nat → Nat) : ∀ n, 0 < n → ∃ p, p < n ∧ ∀ q, q < n → f p ≤ f q
  | 0, h => absurd h (by omega)
  | 1, _ => ⟨0, by omega, fun q hq => by rw [show q = 0 by omega]; exact Nat.le_refl _⟩
  | n + 2, _ => by
      obtain ⟨p, hp, hmin⟩ := exists_min f (n + 1) (by omega)
      by_cases h : f p ≤ f (n + 1)
      · refine ⟨p, by omega, fun q hq => ?_⟩
        by_cases e : q = n + 1
        · subst e; exact h
        · exact hmin q (by omega)
      · refine ⟨n + 1, by omega, fun q hq => ?_⟩
        by_cases e : q = n + 1
        · subst e; exact Nat.le_refl _
        · have := hmin q (by omega); omega

/-- When nobody can move all have finished. -/
theorem inv_stuck {n : Nat} {R : List (Round α)} {x0 : Nat → Nat → α} {s : State α}
    (h : Inv n R x0 s) (hst : ∀ p side, step n R p side s = none) : Done n R s := by
  by_cases hn : n = 0
  · intro p hp; omega
  obtain ⟨p, hp, hmin⟩ := exists_min (fun p => (s.loc p).rnd * (n + 1) + (n - p)) n (by omega)
  have hrmin : ∀ q, q < n → (s.loc p).rnd ≤ (s.loc q).rnd := by
    intro q hq
    have h1 := hmin q hq
    by_cases e : (s.loc p).rnd ≤ (s.loc q).rnd
    · exact e
    · have h2 : ((s.loc q).rnd + 1) * (n + 1) ≤ (s.loc p).rnd * (n + 1) :=
        Nat.mul_le_mul (by omega) (Nat.le_refl _)
      rw [Nat.add_mul, Nat.one_mul] at h2
      omega
  have hdeep : ∀ q, q < n → p < q → (s.loc p).rnd ≠ (s.loc q).rnd := by
    intro q hq hlt e
    have h1 := hmin q hq
    rw [e] at h1
    omega
  by_cases hend : (s.loc p).rnd = R.length
  · intro q hq
    have h1 := hrmin q hq
    have h2 := h.le q hq
    omega
  · exfalso
    have hlt : (s.loc p).rnd < R.length := by have := h.le p hp; omega
    have hr : R[(s.loc p).rnd]? = some R[(s.loc p).rnd] := List.getElem?_eq_getElem hlt
    generalize R[(s.loc p).rnd] = rd at hr
    have hst1 := hst p false
    have hst2 := hst p true
    rw [step, if_pos hp, hr] at hst1 hst2
    dsimp only at hst1 hst2
    cases hpc : (s.loc p).pc with
    | wait =>
      rw [hpc] at hst1
      dsimp only at hst1
      cases hf : s.flag p with
      | false =>
        rw [hf, if_neg (by simp)] at hst1
        split at hst1 <;> exact absurd hst1 (by simp)
      | true =>
        have hp0 : p ≠ 0 := fun e => by rw [e, h.flag0] at hf; exact absurd hf (by simp)
        obtain ⟨q, c, hq, hh, hqc⟩ := parent hp0 hp
        have hlk := h.link q c hq hh
        rw [hqc, hf] at hlk
        have h1 := hrmin q hq
        simp [taken] at hlk
        omega
    | copy i =>
      rw [hpc] at hst1
      dsimp only at hst1
      split at hst1 <;> exact absurd hst1 (by simp)
    | look nl nr first =>
      rw [hpc] at hst1 hst2
      dsimp only at hst1 hst2
      have ho := h.own p hp
      unfold Own at ho
      rw [hr, hpc] at ho
      obtain ⟨-, -, a3, a4, -⟩ := ho
      have key : ∀ c, (if c then nr else nl) = true → s.flag (child p c) = true := by
        intro c hc
        have hh : has n p c = true := by
          cases c with
          | true => exact a4 hc
          | false => exact a3 hc
        have hlk := h.link p c hp hh
        have hcl : cleared (s.loc p).pc c = false := by
          rw [hpc]
          cases c with
          | true => have : nr = true := hc; subst this; rfl
          | false => have : nl = true := hc; subst this; rfl
        cases hf : s.flag (child p c) with
        | true => rfl
        | false =>
          rw [hf] at hlk
          simp [taken, hcl] at hlk
          have hgt : p < child p c := by unfold child; split <;> omega
          exact absurd hlk.symm (hdeep _ (child_lt hh) hgt)
      split at hst1
      · exact absurd hst1 (by simp)
      · rename_i hnn
        rw [if_neg hnn] at hst2
        cases hl : nl with
        | true =>
          rw [key false hl, hl] at hst1
          exact absurd hst1 (by simp)
        | false =>
          cases hrr : nr with
          | true =>
            rw [key true hrr, hrr] at hst2
            exact absurd hst2 (by simp)
          | false => rw [hl, hrr] at hnn; exact hnn rfl
    | comb c i nl nr first =>
      rw [hpc] at hst1
      dsimp only at hst1
      split at hst1
      · split at hst1
        · exact absurd hst1 (by simp)
        · split at hst1 <;> exact absurd hst1 (by simp)
      · exact absurd hst1 (by simp)
    | clear c nl nr => rw [hpc] at hst1; exact absurd hst1 (by simp)
    | full => rw [hpc] at hst1; exact absurd hst1 (by simp)

/-! ### Every step brings the end nearer -/

/-- Steps of the turns from `r` on. -/
def rest (R : List (Round α)) (r : Nat) : Nat :=
  ((R.drop r).map fun rd => 2 * (rd.len + 3) + 3).sum

theorem rest_succ {R : List (Round α)} {r : Nat} {rd : Round α} (h : R[r]? = some rd) :
    rest R r = 2 * (rd.len + 3) + 3 + rest R (r + 1) := by
  unfold rest
  obtain ⟨hlt, he⟩ := List.getElem?_eq_some_iff.1 h
  rw [List.drop_eq_getElem_cons hlt, List.map_cons, List.sum_cons, he]

theorem rest_none {R : List (Round α)} {r : Nat} (h : R[r]? = none) : rest R r = 0 := by
  unfold rest
  rw [List.drop_eq_nil_of_le (List.getElem?_eq_none_iff.1 h)]
  rfl

/-- Steps that are left in the turn. -/
def pcWork (len : Nat) : Pc → Nat
  | .wait => 2 * (len + 3) + 3
  | .copy i => len - i + 2
  | .look nl nr _ => nl.toNat * (len + 3) + nr.toNat * (len + 3) + 2
  | .comb _ i nl nr _ => len - i + 2 + (nl.toNat * (len + 3) + nr.toNat * (len + 3) + 2)
  | .clear _ nl nr => 1 + (nl.toNat * (len + 3) + nr.toNat * (len + 3) + 2)
  | .full => 1

/-- Steps that are left for a process. -/
def work (R : List (Round α)) (l : Loc) : Nat :=
  match R[l.rnd]? with
  | none => 0
  | some rd => pcWork rd.len l.pc + rest R (l.rnd + 1)

theorem work_wait (R : List (Round α)) (r : Nat) : work R ⟨r, .wait⟩ = rest R r := by
  unfold work
  dsimp only
  cases h : R[r]? with
  | none => rw [rest_none h]
  | some rd => rw [rest_succ h]; rfl

theorem step_work {n : Nat} {R : List (Round α)} {s s' : State α} {p : Nat} {side : Bool}
    (hs : step n R p side s = some s') :
    p < n ∧ work R (s'.loc p) < work R (s.loc p) ∧ ∀ q, q ≠ p → s'.loc q = s.loc q := by
  have hp : p < n := by
    by_cases hp : p < n
    · exact hp
    · rw [step, if_neg hp] at hs; exact absurd hs (by simp)
  refine ⟨hp, ?_⟩
  rw [step, if_pos hp] at hs
  cases hr : R[(s.loc p).rnd]? with
  | none => rw [hr] at hs; exact absurd hs (by simp)
  | some rd =>
    rw [hr] at hs
    dsimp only at hs
    have hw : work R (s.loc p) = pcWork rd.len (s.loc p).pc + rest R ((s.loc p).rnd + 1) := by
      unfold work; rw [hr]
    have inner : ∀ pc, pcWork rd.len pc < pcWork rd.len (s.loc p).pc →
        s'.loc = upd s.loc p ⟨(s.loc p).rnd, pc⟩ →
        work R (s'.loc p) < work R (s.loc p) ∧ ∀ q, q ≠ p → s'.loc q = s.loc q := by
      intro pc h1 h2
      refine ⟨?_, fun q hq => by rw [h2, updNe _ _ hq]⟩
      rw [h2, updEq, hw]
      unfold work
      dsimp only
      rw [hr]
      dsimp only
      omega
    cases hpc : (s.loc p).pc with
    | wait =>
      rw [hpc] at hs inner
      dsimp only at hs
      split at hs
      · exact absurd hs (by simp)
      · split at hs
        · obtain rfl := Option.some.inj hs
          exact inner (.copy 0) (by simp only [pcWork]; omega) rfl
        · obtain rfl := Option.some.inj hs
          refine inner (.look (has n p false) (has n p true) true) ?_ rfl
          cases has n p false <;> cases has n p true <;> simp [pcWork] <;> omega
    | copy i =>
      rw [hpc] at hs inner
      dsimp only at hs
      split at hs
      · obtain rfl := Option.some.inj hs
        exact inner (.copy (i + 1)) (by simp only [pcWork]; omega) rfl
      · obtain rfl := Option.some.inj hs
        exact inner .full (by simp only [pcWork]; omega) rfl
    | look nl nr first =>
      rw [hpc] at hs inner
      dsimp only at hs
      split at hs
      · obtain rfl := Option.some.inj hs
        exact inner .full (by simp only [pcWork]; omega) rfl
      · by_cases hsd : ((if side then nr else nl) && s.flag (child p side)) = true
        · rw [if_pos hsd] at hs
          obtain rfl := Option.some.inj hs
          refine inner (.comb side 0 (nl && side) (nr && !side) first) ?_ rfl
          simp only [Bool.and_eq_true] at hsd
          cases side <;> cases nl <;> cases nr <;> simp_all [pcWork] <;> omega
        · rw [if_neg hsd] at hs; exact absurd hs (by simp)
    | comb c i nl nr first =>
      rw [hpc] at hs inner
      dsimp only at hs
      split at hs
      · have := inner (.comb c (i + 1) nl nr first) (by simp only [pcWork]; omega)
        split at hs
        · obtain rfl := Option.some.inj hs
          exact this rfl
        · split at hs
          · obtain rfl := Option.some.inj hs
            exact this rfl
          · obtain rfl := Option.some.inj hs
            exact this rfl
      · obtain rfl := Option.some.inj hs
        exact inner (.clear c nl nr) (by simp only [pcWork]; omega) rfl
    | clear c nl nr =>
      rw [hpc] at hs inner
      dsimp only at hs
      obtain rfl := Option.some.inj hs
      exact inner (.look nl nr false) (by simp only [pcWork]; omega) rfl
    | full =>
      rw [hpc] at hs hw
      dsimp only at hs
      obtain rfl := Option.some.inj hs
      refine ⟨?_, fun q hq => updNe _ _ hq⟩
      dsimp only
      rw [updEq, work_wait, hw]
      simp only [pcWork]
      omega

/-- `f 0 + ... + f (n - 1)`. -/
def totalN (f : Nat → Nat) : Nat → Nat
  | 0 => 0
  | n + 1 => totalN f n + f n

theorem totalN_congr {f g : Nat → Nat} : ∀ n, (∀ q, q < n → g q = f q) → totalN g n = totalN f n
  | 0, _ => rfl
  | n + 1, h => by rw [totalN, totalN, totalN_congr n fun q hq => h q (by omega), h n (by omega)]

theorem totalN_lt {f g : Nat → Nat} {p : Nat} (hg : ∀ q, q ≠ p → g q = f q)
    (hp : g p < f p) : ∀ n, p < n → totalN g n < totalN f n
  | 0, h => absurd h (by omega)
  | n + 1, h => by
      rw [totalN, totalN]
      by_cases e : p = n
      · subst e
        rw [totalN_congr p fun q hq => hg q (by omega)]
        omega
      · have := totalN_lt hg hp n (by omega)
        rw [hg n (fun x => e x.symm)]
        omega

/-- Every step makes the work that is left less. -/
theorem step_total {n : Nat} {R : List (Round α)} {s s' : State α} {p : Nat} {side : Bool}
    (hs : step n R p side s = some s') :
    totalN (fun q => work R (s'.loc q)) n < totalN (fun q => work R (s.loc q)) n := by
  obtain ⟨hp, h1, h2⟩ := step_work hs
  exact totalN_lt (p := p) (fun q hq => by rw [h2 q hq]) h1 n hp

theorem exec_append (n : Nat) (R : List (Round α)) : ∀ (l m : List (Nat × Bool)) (s : State α),
    exec n R (l ++ m) s = exec n R m (exec n R l s)
  | [], _, _ => rfl
  | p :: l, m, s => by rw [List.cons_append, exec, exec, exec_append n R l m]

theorem inv_exec {n : Nat} {R : List (Round α)}
    (hop : ∀ rd ∈ R, (∀ a b, rd.op a b = rd.op b a) ∧
      ∀ a b c, rd.op (rd.op a b) c = rd.op a (rd.op b c))
    (hn : R ≠ [] → 2 ≤ n) {x0 : Nat → Nat → α} :
    ∀ (l : List (Nat × Bool)) {s : State α}, Inv n R x0 s → Inv n R x0 (exec n R l s)
  | [], _, h => h
  | p :: l, s, h => by
      rw [exec]
      cases hs : step n R p.1 p.2 s with
      | none => exact inv_exec hop hn l h
      | some s' => exact inv_exec hop hn l (inv_step hop hn h hs)

theorem finish {n : Nat} {R : List (Round α)}
    (hop : ∀ rd ∈ R, (∀ a b, rd.op a b = rd.op b a) ∧
      ∀ a b c, rd.op (rd.op a b) c = rd.op a (rd.op b c))
    (hn : R ≠ [] → 2 ≤ n) {x0 : Nat → Nat → α} :
    ∀ (w : Nat) (s : State α), totalN (fun q => work R (s.loc q)) n ≤ w → Inv n R x0 s →
    ∃ l, Done n R (exec n R l s) := by
  intro w
  induction w with
  | zero =>
    intro s hw h
    refine ⟨[], inv_stuck h fun p side => ?_⟩
    cases hs : step n R p side s with
    | none => exact hs
    | some s' => have := step_total hs; omega
  | succ w ih =>
    intro s hw h
    by_cases hex : ∃ p side s', step n R p side s = some s'
    · obtain ⟨p, side, s', hs⟩ := hex
      have := step_total hs
      obtain ⟨l, hl⟩ := ih s' (by omega) (inv_step hop hn h hs)
      exact ⟨(p, side) :: l, by rw [exec, hs]; exact hl⟩
    · refine ⟨[], inv_stuck h fun p side => ?_⟩
      cases hs : step n R p side s with
      | none => exact hs
      | some s' => exact absurd ⟨p, side, s', hs⟩ hex

end GA.SmpReduce
