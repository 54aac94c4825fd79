import Verif.Model.MemLock

/-!
# Locks on areas of memory: the invariant
-/

namespace GA.MemLock

open GA.Net (upd)

theorem updEq {γ : Type} (f : Nat → γ) (p : Nat) (v : γ) : upd f p v p = v := by simp [upd]

theorem updNe {γ : Type} (f : Nat → γ) {p q : Nat} (v : γ) (h : q ≠ p) : upd f p v q = f q := by
  simp [upd, h]

/-- The area `a` contains the area `t` and more on both sides. -/
def Contains (a t : Area) : Prop := a.start < t.start ∧ t.stop < a.stop

theorem conflicts_false {a t : Area} (ha : a.start ≤ a.stop) (h : conflicts a t = false)
    (hc : ¬ Contains a t) : a.stop < t.start ∨ t.stop < a.start := by
  unfold conflicts at h
  unfold Contains at hc
  simp only [Bool.or_eq_false_iff, Bool.and_eq_false_iff, decide_eq_false_iff_not] at h
  omega

/-- What the loop over the table finds. -/
theorem inspect_spec {a : Area} : ∀ (l : List (Option Area)) (k0 : Nat) (av : Option Nat)
    (k : Nat), inspect a l k0 av = (false, some k) →
    (∀ (j : Nat) t, l[j]? = some (some t) → conflicts a t = false) ∧
    (av = some k ∨ (k0 ≤ k ∧ l[k - k0]? = some none))
  | [], k0, av, k, h => by
      simp only [inspect, Prod.mk.injEq, true_and] at h
      exact ⟨fun j t h => absurd h (by simp), Or.inl h⟩
  | none :: l, k0, av, k, h => by
      rw [inspect] at h
      obtain ⟨h1, h2⟩ := inspect_spec l (k0 + 1) (some k0) k h
      refine ⟨fun j t hj => ?_, Or.inr ?_⟩
      · cases j with
        | zero => exact absurd hj (by simp)
        | succ j => exact h1 j t (by simpa using hj)
      · rcases h2 with h2 | ⟨h2, h3⟩
        · have : k0 = k := by simpa using h2
          subst this
          exact ⟨Nat.le_refl _, by simp⟩
        · refine ⟨by omega, ?_⟩
          rw [show k - k0 = k - (k0 + 1) + 1 by omega, List.getElem?_cons_succ]
          exact h3
  | some t :: l, k0, av, k, h => by
      rw [inspect] at h
      cases hc : conflicts a t with
      | true => rw [hc, if_pos rfl] at h; exact absurd h (by simp)
      | false =>
        rw [hc, if_neg (by simp)] at h
        obtain ⟨h1, h2⟩ := inspect_spec l (k0 + 1) av k h
        refine ⟨fun j t' hj => ?_, ?_⟩
        · cases j with
          | zero =>
            have : t = t' := by simpa using hj
            rw [← this]; exact hc
          | succ j => exact h1 j t' (by simpa using hj)
        · rcases h2 with h2 | ⟨h2, h3⟩
          · exact Or.inl h2
          · refine Or.inr ⟨by omega, ?_⟩
            rw [show k - k0 = k - (k0 + 1) + 1 by omega, List.getElem?_cons_succ]
            exact h3

/-- The process is between taking and freeing the lock. -/
def inNative : Pc → Prop
  | .read _ | .giveUp | .write _ | .leave _ => True
  | _ => False

/-- The slot that the process holds. -/
def slotOf : Pc → Option Nat
  | .leave k | .load k _ | .store k _ _ => some k
  | _ => none

/-- The elements of the current accumulate that are still to be added. -/
def restOf (op : Op) : Pc → List (Nat × Int)
  | .load _ l | .store _ l _ => l
  | _ => op.cells

/-- What a list of elements adds to address `a`. -/
def cellSum (a : Nat) : List (Nat × Int) → Int
  | [] => 0
  | c :: l => (if c.1 = a then c.2 else 0) + cellSum a l

/-- What a list of accumulates adds to address `a`. -/
def opSum (a : Nat) : List Op → Int
  | [] => 0
  | op :: l => cellSum a op.cells + opSum a l

/-- What a process has still to add to address `a`. -/
def remaining (a : Nat) (l : Loc) : Int :=
  match l.ops with
  | [] => 0
  | op :: more => cellSum a (restOf op l.pc) + opSum a more

/-- `f 0 + ... + f (n - 1)`. -/
def total (f : Nat → Int) : Nat → Int
  | 0 => 0
  | n + 1 => total f n + f n

theorem total_congr {f g : Nat → Int} : ∀ n, (∀ q, q < n → g q = f q) → total g n = total f n
  | 0, _ => rfl
  | n + 1, h => by rw [total, total, total_congr n fun q hq => h q (by omega), h n (by omega)]

theorem total_change {f g : Nat → Int} {p : Nat} {d : Int} (hg : ∀ q, q ≠ p → g q = f q)
    (hp : g p = f p + d) : ∀ n, p < n → total g n = total f n + d
  | 0, h => absurd h (by omega)
  | n + 1, h => by
      rw [total, total]
      by_cases e : p = n
      · subst e
        rw [total_congr p fun q hq => hg q (by omega), hp]
        omega
      · rw [total_change hg hp n (by omega), hg n (fun x => e x.symm)]
        omega

/-- What the programs have to satisfy: the elements lie in the locked range,
and no area contains an area of another process on both sides. -/
structure Ok (n : Nat) (prog : Nat → List Op) : Prop where
  cells : ∀ p, p < n → ∀ op ∈ prog p, op.lo ≤ op.hi ∧ ∀ c ∈ op.cells, op.lo ≤ c.1 ∧ c.1 ≤ op.hi
  apart : ∀ p q, p < n → q < n → p ≠ q → ∀ a ∈ prog p, ∀ b ∈ prog q,
    ¬ Contains (area a.lo a.hi) (area b.lo b.hi)

/-- Two areas have no address in common. -/
def Apart (a b : Area) : Prop := a.stop < b.start ∨ b.stop < a.start

/-- What holds for one process. -/
def Good (s : State) (prog : List Op) (l : Loc) : Prop :=
  (∀ op ∈ l.ops, op ∈ prog) ∧
  match l.ops with
  | [] => l.pc = .enter
  | op :: _ =>
    (∀ k, slotOf l.pc = some k → k < slots ∧ s.table k = some (area op.lo op.hi)) ∧
    (∀ c ∈ restOf op l.pc, c ∈ op.cells) ∧
    match l.pc with
    | .read got => got.length ≤ slots ∧
        ∀ j t, j < got.length → s.table j = some t → got[j]? = some (some t)
    | .write k => k < slots ∧ s.table k = none ∧
        ∀ j t, j < slots → s.table j = some t → conflicts (area op.lo op.hi) t = false
    | .store _ l tmp => ∃ c l', l = c :: l' ∧ tmp = s.mem c.1
    | _ => True

/-- The invariant. -/
structure Inv (n : Nat) (prog : Nat → List Op) (m0 : Nat → Int) (s : State) : Prop where
  native : ∀ p, p < n → inNative (s.loc p).pc → s.lock = some p
  holder : ∀ p, s.lock = some p → p < n ∧ inNative (s.loc p).pc
  good : ∀ p, p < n → Good s (prog p) (s.loc p)
  slot : ∀ p q, p < n → q < n → p ≠ q → ∀ k, slotOf (s.loc p).pc = some k →
    slotOf (s.loc q).pc ≠ some k
  used : ∀ k t, s.table k = some t → ∃ p, p < n ∧ slotOf (s.loc p).pc = some k
  excl : ∀ p q, p < n → q < n → p ≠ q → ∀ j k a b, slotOf (s.loc p).pc = some j →
    slotOf (s.loc q).pc = some k → s.table j = some a → s.table k = some b → Apart a b
  sum : ∀ a, s.mem a + total (fun p => remaining a (s.loc p)) n =
    m0 a + total (fun p => opSum a (prog p)) n

theorem align_le (x : Nat) : align x ≤ x := by unfold align; omega

theorem le_align (x : Nat) : x ≤ 63 + align x := by unfold align; omega

theorem align_mono {x y : Nat} (h : x ≤ y) : align x ≤ align y := by unfold align; omega

theorem inv_start {n : Nat} {prog : Nat → List Op} (m0 : Nat → Int) :
    Inv n prog m0 (start m0 prog) where
  native := fun p _ h => absurd h (by simp [start, inNative])
  holder := fun p h => absurd h (by simp [start])
  good := fun p _ => by
    refine ⟨fun op h => h, ?_⟩
    cases h : (prog p) with
    | nil => simp only [start, h]
    | cons op l =>
      simp only [start, h]
      exact ⟨fun k hk => absurd hk (by simp [slotOf]), fun c hc => hc, trivial⟩
  slot := fun p q _ _ _ k h => absurd h (by simp [start, slotOf])
  used := fun k t h => absurd h (by simp [start])
  excl := fun p q _ _ _ j k a b h => absurd h (by simp [start, slotOf])
  sum := fun a => by
    congr 1
    refine total_congr n fun q _ => ?_
    simp only [start, remaining]
    cases h : prog q with
    | nil => simp [opSum]
    | cons op l => simp [opSum, restOf]

/-- `Good` of another process when the table and the memory change. -/
theorem Good.other {s s' : State} {prog : List Op} {l : Loc} (h : Good s prog l)
    (ht : ∀ k, slotOf l.pc = some k → s'.table k = s.table k)
    (hr : ∀ got, l.pc = .read got → ∀ j t, s'.table j = some t → s.table j = some t)
    (hw : ∀ k, l.pc = .write k → ∀ j t, s'.table j = some t → s.table j = some t)
    (hm : ∀ op more k c l' tmp, l.ops = op :: more → l.pc = .store k (c :: l') tmp →
      s'.mem c.1 = s.mem c.1) : Good s' prog l := by
  obtain ⟨h1, h2⟩ := h
  refine ⟨h1, ?_⟩
  cases ho : l.ops with
  | nil => rw [ho] at h2; exact h2
  | cons op more =>
    rw [ho] at h2
    dsimp only at h2 ⊢
    obtain ⟨g1, g2, g3⟩ := h2
    refine ⟨fun k hk => by rw [ht k hk]; exact g1 k hk, g2, ?_⟩
    cases hp : l.pc with
    | read got =>
      rw [hp] at g3
      exact ⟨g3.1, fun j t hj hjt => g3.2 j t hj (hr got hp j t hjt)⟩
    | write k =>
      rw [hp] at g3
      refine ⟨g3.1, ?_, fun j t hj hjt => g3.2.2 j t hj (hw k hp j t hjt)⟩
      cases hk : s'.table k with
      | none => rfl
      | some t => have e := g3.2.1; rw [hw k hp k t hk] at e; exact absurd e (by simp)
    | store k l' tmp =>
      rw [hp] at g3
      obtain ⟨c, l'', e1, e2⟩ := g3
      subst e1
      exact ⟨c, l'', rfl, by rw [hm op more k c l'' tmp ho hp]; exact e2⟩
    | enter => trivial
    | giveUp => trivial
    | leave k => trivial
    | load k l' => trivial

/-- A step that changes neither table nor memory. -/
theorem inv_quiet {n : Nat} {prog : Nat → List Op} {m0 : Nat → Int} {s : State}
    (h : Inv n prog m0 s) {p : Nat} (hp : p < n) {l : Loc} {lk : Option Nat}
    (hslot : slotOf l.pc = slotOf (s.loc p).pc)
    (hn1 : ∀ q, q < n → q ≠ p → inNative (s.loc q).pc → lk = some q)
    (hn2 : inNative l.pc → lk = some p)
    (hn3 : ∀ q, lk = some q → (q = p ∧ inNative l.pc) ∨ (q ≠ p ∧ s.lock = some q))
    (hg : Good s (prog p) l)
    (hrem : ∀ a, remaining a l = remaining a (s.loc p)) :
    Inv n prog m0 { s with lock := lk, loc := upd s.loc p l } := by
  have hl : ∀ q, q ≠ p → upd s.loc p l q = s.loc q := fun q hq => updNe _ _ hq
  have hs : ∀ q, slotOf (upd s.loc p l q).pc = slotOf (s.loc q).pc := fun q => by
    by_cases e : q = p
    · subst e; rw [updEq, hslot]
    · rw [hl q e]
  refine ⟨fun q hq hi => ?_, fun q hq => ?_, fun q hq => ?_, fun q r hq hr hne k h1 => ?_,
    fun k t hk => ?_, fun q r hq hr hne j k a b h1 h2 => ?_, fun a => ?_⟩
  · by_cases e : q = p
    · subst e; dsimp only at hi ⊢; rw [updEq] at hi; exact hn2 hi
    · dsimp only at hi ⊢; rw [hl q e] at hi; exact hn1 q hq e hi
  · rcases hn3 q hq with ⟨rfl, h1⟩ | ⟨h1, h2⟩
    · exact ⟨hp, by dsimp only; rw [updEq]; exact h1⟩
    · dsimp only; rw [hl q h1]; exact h.holder q h2
  · by_cases e : q = p
    · subst e; dsimp only; rw [updEq]; exact hg
    · dsimp only; rw [hl q e]; exact h.good q hq
  · dsimp only at h1 ⊢
    rw [hs] at h1 ⊢; exact h.slot q r hq hr hne k h1
  · obtain ⟨q, hq, h1⟩ := h.used k t hk
    exact ⟨q, hq, by dsimp only; rw [hs]; exact h1⟩
  · dsimp only at h1 h2 ⊢
    rw [hs] at h1 h2; exact h.excl q r hq hr hne j k a b h1 h2
  · dsimp only
    rw [← h.sum a]
    congr 1
    refine total_congr n fun q _ => ?_
    by_cases e : q = p
    · subst e; rw [updEq, hrem]
    · rw [hl q e]

/-- Addresses of held elements lie in the area. -/
theorem held_in {n : Nat} {prog : Nat → List Op} (ok : Ok n prog) {p : Nat} (hp : p < n)
    {op : Op} (ho : op ∈ prog p) {c : Nat × Int} (hc : c ∈ op.cells) :
    (area op.lo op.hi).start ≤ c.1 ∧ c.1 ≤ (area op.lo op.hi).stop := by
  have h := (ok.cells p hp op ho).2 c hc
  have h1 := align_le op.lo
  have h2 := le_align op.hi
  have h3 : 63 + align op.hi = (area op.lo op.hi).stop := rfl
  have h4 : align op.lo = (area op.lo op.hi).start := rfl
  omega

theorem inv_step {n : Nat} {prog : Nat → List Op} {m0 : Nat → Int} (ok : Ok n prog)
    {s s' : State} {p : Nat} (h : Inv n prog m0 s) (hs : step n p s = some s') :
    Inv n prog m0 s' := by
  have hp : p < n := by
    by_cases hp : p < n
    · exact hp
    · rw [step, if_neg hp] at hs; exact absurd hs (by simp)
  rw [step, if_pos hp] at hs
  have hg := h.good p hp
  obtain ⟨hsub, hg⟩ := hg
  cases ho : (s.loc p).ops with
  | nil => rw [ho] at hs; exact absurd hs (by simp)
  | cons op more =>
    rw [ho] at hs hsub hg
    dsimp only at hs hg
    obtain ⟨g1, g2, g3⟩ := hg
    have hrem : ∀ a, remaining a (s.loc p) = cellSum a (restOf op (s.loc p).pc) + opSum a more :=
      fun a => by unfold remaining; rw [ho]
    have nat : inNative (s.loc p).pc → s.lock = some p := h.native p hp
    have natOther : inNative (s.loc p).pc → ∀ q, q < n → q ≠ p → ¬ inNative (s.loc q).pc :=
      fun hi q hq hne hq' => by
        have e1 := h.native p hp hi
        rw [h.native q hq hq'] at e1
        exact hne (Option.some.inj e1)
    cases hpc : (s.loc p).pc with
    | enter =>
      rw [hpc] at hs
      dsimp only at hs
      split at hs
      · rename_i hlk
        obtain rfl := Option.some.inj hs
        refine inv_quiet h hp (l := ⟨op :: more, .read []⟩) (by rw [hpc]; rfl) ?_ (fun _ => rfl) ?_
          ⟨hsub, fun k hk => absurd hk (by simp [slotOf]), fun c hc => hc,
            Nat.zero_le _, fun j t hj => absurd hj (by simp)⟩
          (fun a => by rw [hrem, hpc]; rfl)
        · intro q hq _ hi
          rw [h.native q hq hi] at hlk; exact absurd hlk (by simp)
        · intro q hq
          exact Or.inl ⟨(Option.some.inj hq).symm, trivial⟩
      · exact absurd hs (by simp)
    | read got =>
      rw [hpc] at hs g3 nat natOther
      dsimp only at hs g3
      have hlk := nat trivial
      have quiet : ∀ pc, slotOf pc = none → inNative pc → restOf op pc = op.cells →
          Good s (prog p) ⟨op :: more, pc⟩ → Inv n prog m0 (go s p (op :: more) pc) := by
        intro pc e1 e2 e3 e4
        refine inv_quiet h hp (l := ⟨op :: more, pc⟩) (lk := s.lock) (by rw [hpc]; exact e1)
          ?_ (fun _ => hlk) ?_ e4 (fun a => by rw [hrem, hpc]; simp only [remaining, e3]; rfl)
        · intro q hq hne hi; exact h.native q hq hi
        · intro q hq
          by_cases e : q = p
          · exact Or.inl ⟨e, e2⟩
          · exact Or.inr ⟨e, hq⟩
      split at hs
      · rename_i hlen
        obtain rfl := Option.some.inj hs
        refine quiet _ rfl trivial rfl ⟨hsub, fun k hk => absurd hk (by simp [slotOf]),
          fun c hc => hc, ?_, ?_⟩
        · simp only [List.length_append, List.length_singleton]; omega
        · intro j t hj hjt
          simp only [List.length_append, List.length_singleton] at hj
          by_cases e : j = got.length
          · subst e
            simp [hjt]
          · rw [List.getElem?_append_left (by omega)]
            exact g3.2 j t (by omega) hjt
      · rename_i hlen
        have hl8 : got.length = slots := by omega
        split at hs
        · rename_i k hin
          obtain rfl := Option.some.inj hs
          obtain ⟨i1, i2⟩ := inspect_spec got 0 none k hin
          rcases i2 with i2 | ⟨-, i2⟩
          · exact absurd i2 (by simp)
          rw [Nat.sub_zero] at i2
          have hk : k < got.length := by
            by_cases hk : k < got.length
            · exact hk
            · rw [List.getElem?_eq_none (by omega)] at i2; exact absurd i2 (by simp)
          refine quiet _ rfl trivial rfl ⟨hsub, fun k hk => absurd hk (by simp [slotOf]),
            fun c hc => hc, by omega, ?_, ?_⟩
          · cases ht : s.table k with
            | none => rfl
            | some t =>
              have := g3.2 k t hk ht
              rw [i2] at this; exact absurd this (by simp)
          · intro j t hj hjt
            exact i1 j t (g3.2 j t (by omega) hjt)
        · obtain rfl := Option.some.inj hs
          exact quiet _ rfl trivial rfl ⟨hsub, fun k hk => absurd hk (by simp [slotOf]),
            fun c hc => hc, trivial⟩
    | giveUp =>
      rw [hpc] at hs nat natOther
      dsimp only at hs
      obtain rfl := Option.some.inj hs
      refine inv_quiet h hp (l := ⟨op :: more, .enter⟩) (by rw [hpc]; rfl) ?_
        (fun hi => absurd hi (by simp [inNative])) (fun q hq => absurd hq (by simp))
        ⟨hsub, fun k hk => absurd hk (by simp [slotOf]), fun c hc => hc, trivial⟩
        (fun a => by rw [hrem, hpc]; rfl)
      intro q hq hne hi; exact absurd hi (natOther trivial q hq hne)
    | leave k =>
      rw [hpc] at hs nat natOther g1
      dsimp only at hs
      obtain rfl := Option.some.inj hs
      refine inv_quiet h hp (l := ⟨op :: more, .load k op.cells⟩) (by rw [hpc]; rfl) ?_
        (fun hi => absurd hi (by simp [inNative])) (fun q hq => absurd hq (by simp))
        ⟨hsub, g1, fun c hc => hc, trivial⟩ (fun a => by rw [hrem, hpc]; rfl)
      intro q hq hne hi; exact absurd hi (natOther trivial q hq hne)
    | write k =>
      rw [hpc] at hs nat natOther g3
      dsimp only at hs g3
      obtain ⟨hk8, hkn, hcf⟩ := g3
      obtain rfl := Option.some.inj hs
      have hlk := nat trivial
      have hl : ∀ q, q ≠ p → upd s.loc p ⟨op :: more, .leave k⟩ q = s.loc q :=
        fun q hq => updNe _ _ hq
      have hkq : ∀ q, q < n → slotOf (s.loc q).pc = some k → False := by
        intro q hq hsk
        obtain ⟨-, gq⟩ := h.good q hq
        cases hoq : (s.loc q).ops with
        | nil => rw [hoq] at gq; dsimp only at gq; rw [gq] at hsk; exact absurd hsk (by simp [slotOf])
        | cons o m =>
          rw [hoq] at gq; dsimp only at gq
          rw [(gq.1 k hsk).2] at hkn; exact absurd hkn (by simp)
      -- the other holders are apart
      have hap : ∀ q, q < n → q ≠ p → ∀ j b, slotOf (s.loc q).pc = some j → s.table j = some b →
          Apart (area op.lo op.hi) b := by
        intro q hq hne j b hj hb
        obtain ⟨gs, gq⟩ := h.good q hq
        cases hoq : (s.loc q).ops with
        | nil => rw [hoq] at gq; dsimp only at gq; rw [gq] at hj; exact absurd hj (by simp [slotOf])
        | cons o m =>
          rw [hoq] at gq gs; dsimp only at gq
          obtain ⟨j8, jt⟩ := gq.1 j hj
          rw [jt] at hb
          obtain rfl := Option.some.inj hb
          refine conflicts_false ?_ (hcf j _ j8 jt) (ok.apart p q hp hq (fun e => hne e.symm) op
            (hsub op (by simp)) o (gs o (by simp)))
          show align op.lo ≤ 63 + align op.hi
          have := align_mono (ok.cells p hp op (hsub op (by simp))).1
          omega
      refine ⟨fun q hq hi => ?_, fun q hq => ?_, fun q hq => ?_, fun q r hq hr hne j h1 h2 => ?_,
        fun j t hj => ?_, fun q r hq hr hne i j a b h1 h2 h3 h4 => ?_, fun a => ?_⟩
      · by_cases e : q = p
        · subst e; exact hlk
        · dsimp only [go] at hi; rw [hl q e] at hi; exact absurd hi (natOther trivial q hq e)
      · change s.lock = some q at hq
        rw [hlk] at hq
        obtain rfl := Option.some.inj hq
        exact ⟨hp, by dsimp only [go]; rw [updEq]; trivial⟩
      · by_cases e : q = p
        · subst e
          dsimp only [go]; rw [updEq]
          refine ⟨hsub, fun j hj => ?_, fun c hc => hc, trivial⟩
          have : k = j := by simpa [slotOf] using hj
          subst this
          exact ⟨hk8, updEq _ _ _⟩
        · dsimp only [go]; rw [hl q e]
          have hnq := natOther trivial q hq e
          refine (h.good q hq).other (fun j hj => ?_) (fun got hg => ?_) (fun j hj => ?_)
            (fun _ _ _ _ _ _ _ _ => rfl)
          · exact updNe _ _ (fun e' => by subst e'; exact hkq q hq hj)
          · rw [hg] at hnq; exact absurd trivial hnq
          · rw [hj] at hnq; exact absurd trivial hnq
      · dsimp only [go] at h1 h2
        by_cases e : q = p
        · subst e
          rw [updEq] at h1
          rw [hl r (fun e => hne e.symm)] at h2
          have : k = j := by simpa [slotOf] using h1
          subst this
          exact hkq r hr h2
        · rw [hl q e] at h1
          by_cases e2 : r = p
          · subst e2
            rw [updEq] at h2
            have : k = j := by simpa [slotOf] using h2
            subst this
            exact hkq q hq h1
          · rw [hl r e2] at h2; exact h.slot q r hq hr hne j h1 h2
      · dsimp only [go] at hj ⊢
        by_cases e : j = k
        · subst e; exact ⟨p, hp, by rw [updEq]; rfl⟩
        · rw [updNe _ _ e] at hj
          obtain ⟨q, hq, hqs⟩ := h.used j t hj
          refine ⟨q, hq, ?_⟩
          rw [hl q (fun e' => by subst e'; rw [hpc] at hqs; exact absurd hqs (by simp [slotOf]))]
          exact hqs
      · dsimp only [go] at h1 h2 h3 h4
        by_cases e : q = p
        · subst e
          rw [updEq] at h1
          rw [hl r (fun e => hne e.symm)] at h2
          have : k = i := by simpa [slotOf] using h1
          subst this
          rw [updEq] at h3
          obtain rfl := Option.some.inj h3
          rw [updNe _ _ (fun e => by subst e; exact hkq r hr h2)] at h4
          exact hap r hr (fun e => hne e.symm) j b h2 h4
        · rw [hl q e] at h1
          rw [updNe _ _ (fun e => by subst e; exact hkq q hq h1)] at h3
          by_cases e2 : r = p
          · subst e2
            rw [updEq] at h2
            have : k = j := by simpa [slotOf] using h2
            subst this
            rw [updEq] at h4
            obtain rfl := Option.some.inj h4
            exact (hap q hq e i a h1 h3).symm
          · rw [hl r e2] at h2
            rw [updNe _ _ (fun e => by subst e; exact hkq r hr h2)] at h4
            exact h.excl q r hq hr hne i j a b h1 h2 h3 h4
      · dsimp only [go]
        rw [← h.sum a]
        congr 1
        refine total_congr n fun q _ => ?_
        by_cases e : q = p
        · subst e; rw [updEq, hrem, hpc]; rfl
        · rw [hl q e]
    | load k l =>
      rw [hpc] at hs g1 g2 hrem
      obtain ⟨hk8, hkt⟩ := g1 k rfl
      cases l with
      | cons c l =>
        dsimp only at hs
        obtain rfl := Option.some.inj hs
        refine inv_quiet h hp (l := ⟨op :: more, .store k (c :: l) (s.mem c.1)⟩) (lk := s.lock)
          (by rw [hpc]; rfl) (fun q hq _ hi => h.native q hq hi)
          (fun hi => absurd hi (by simp [inNative])) ?_
          ⟨hsub, g1, g2, c, l, rfl, rfl⟩ (fun a => by rw [hrem]; rfl)
        intro q hq
        refine Or.inr ⟨fun e => ?_, hq⟩
        subst e
        have := (h.holder q hq).2
        rw [hpc] at this; exact this
      | nil =>
        dsimp only at hs
        obtain rfl := Option.some.inj hs
        have hl : ∀ q, q ≠ p → upd s.loc p ⟨more, .enter⟩ q = s.loc q := fun q hq => updNe _ _ hq
        have hpk : ∀ q, q < n → q ≠ p → slotOf (s.loc q).pc ≠ some k := fun q hq hne =>
          h.slot p q hp hq (fun e => hne e.symm) k (by rw [hpc]; rfl)
        have hmon : ∀ j t, upd s.table k none j = some t → s.table j = some t := by
          intro j t hj
          by_cases e : j = k
          · subst e; rw [updEq] at hj; exact absurd hj (by simp)
          · rw [updNe _ _ e] at hj; exact hj
        refine ⟨fun q hq hi => ?_, fun q hq => ?_, fun q hq => ?_,
          fun q r hq hr hne j h1 h2 => ?_, fun j t hj => ?_,
          fun q r hq hr hne i j a b h1 h2 h3 h4 => ?_, fun a => ?_⟩
        · dsimp only [go] at hi
          by_cases e : q = p
          · subst e; rw [updEq] at hi; exact absurd hi (by simp [inNative])
          · rw [hl q e] at hi; exact h.native q hq hi
        · change s.lock = some q at hq
          have h1 := h.holder q hq
          have hne : q ≠ p := fun e => by subst e; rw [hpc] at h1; exact h1.2
          exact ⟨h1.1, by dsimp only [go]; rw [hl q hne]; exact h1.2⟩
        · dsimp only [go]
          by_cases e : q = p
          · subst e
            rw [updEq]
            refine ⟨fun o ho' => hsub o (by simp [ho']), ?_⟩
            cases more with
            | nil => rfl
            | cons o m =>
              exact ⟨fun k hk => absurd hk (by simp [slotOf]), fun c hc => hc, trivial⟩
          · rw [hl q e]
            exact (h.good q hq).other (fun j hj => updNe _ _ (fun e' => by
              subst e'; exact hpk q hq e hj)) (fun _ _ => hmon) (fun _ _ => hmon)
              (fun _ _ _ _ _ _ _ _ => rfl)
        · dsimp only [go] at h1 h2
          by_cases e : q = p
          · subst e; rw [updEq] at h1; exact absurd h1 (by simp [slotOf])
          · by_cases e2 : r = p
            · subst e2; rw [updEq] at h2; exact absurd h2 (by simp [slotOf])
            · rw [hl q e] at h1
              rw [hl r e2] at h2; exact h.slot q r hq hr hne j h1 h2
        · dsimp only [go] at hj ⊢
          obtain ⟨q, hq, hqs⟩ := h.used j t (hmon j t hj)
          refine ⟨q, hq, ?_⟩
          rw [hl q (fun e' => ?_)]
          · exact hqs
          · subst e'
            rw [hpc] at hqs
            have : k = j := by simpa [slotOf] using hqs
            subst this
            rw [updEq] at hj; exact absurd hj (by simp)
        · dsimp only [go] at h1 h2 h3 h4
          by_cases e : q = p
          · subst e; rw [updEq] at h1; exact absurd h1 (by simp [slotOf])
          · by_cases e2 : r = p
            · subst e2; rw [updEq] at h2; exact absurd h2 (by simp [slotOf])
            · rw [hl q e] at h1
              rw [hl r e2] at h2
              exact h.excl q r hq hr hne i j a b h1 h2 (hmon _ _ h3) (hmon _ _ h4)
        · dsimp only [go]
          rw [← h.sum a]
          congr 1
          refine total_congr n fun q _ => ?_
          by_cases e : q = p
          · subst e
            rw [updEq, hrem]
            cases more with
            | nil => simp [remaining, restOf, cellSum, opSum]
            | cons o m => simp [remaining, restOf, cellSum, opSum]
          · rw [hl q e]
    | store k l tmp =>
      rw [hpc] at hs g1 g2 g3 hrem
      dsimp only at hs g3
      obtain ⟨c, l', e1, e2⟩ := g3
      subst e1
      dsimp only at hs
      obtain rfl := Option.some.inj hs
      obtain ⟨hk8, hkt⟩ := g1 k rfl
      have hin := held_in ok hp (hsub op (by simp)) (g2 c (by simp [restOf]))
      have hl : ∀ q, q ≠ p → upd s.loc p ⟨op :: more, .load k l'⟩ q = s.loc q :=
        fun q hq => updNe _ _ hq
      have hsl : ∀ q, slotOf (upd s.loc p ⟨op :: more, .load k l'⟩ q).pc =
          slotOf (s.loc q).pc := fun q => by
        by_cases e : q = p
        · subst e; rw [updEq, hpc]; rfl
        · rw [hl q e]
      refine ⟨fun q hq hi => ?_, fun q hq => ?_, fun q hq => ?_,
        fun q r hq hr hne j h1 => ?_, fun j t hj => ?_,
        fun q r hq hr hne i j a b h1 h2 h3 h4 => ?_, fun a => ?_⟩
      · dsimp only [go] at hi
        by_cases e : q = p
        · subst e; rw [updEq] at hi; exact absurd hi (by simp [inNative])
        · rw [hl q e] at hi; exact h.native q hq hi
      · change s.lock = some q at hq
        have h1 := h.holder q hq
        have hne : q ≠ p := fun e => by subst e; rw [hpc] at h1; exact h1.2
        exact ⟨h1.1, by dsimp only [go]; rw [hl q hne]; exact h1.2⟩
      · dsimp only [go]
        by_cases e : q = p
        · subst e
          rw [updEq]
          exact ⟨hsub, g1, fun d hd => g2 d (by simp only [restOf, List.mem_cons] at hd ⊢; exact Or.inr hd),
            trivial⟩
        · rw [hl q e]
          refine (h.good q hq).other (fun _ _ => rfl) (fun _ _ _ _ h => h) (fun _ _ _ _ h => h)
            (fun o m k' c' l'' tmp' hoq hpq => ?_)
          obtain ⟨gs, gq⟩ := h.good q hq
          rw [hoq, hpq] at gq
          rw [hoq] at gs
          obtain ⟨-, hkt'⟩ := gq.1 k' rfl
          have hin' := held_in ok hq (gs o (by simp)) (gq.2.1 c' (by simp [restOf]))
          have hex := h.excl p q hp hq (fun e' => e e'.symm) k k' _ _ (by rw [hpc]; rfl)
            (by rw [hpq]; rfl) hkt hkt'
          refine updNe _ _ fun e3 => ?_
          unfold Apart at hex
          omega
      · dsimp only [go] at h1 ⊢
        rw [hsl] at h1 ⊢; exact h.slot q r hq hr hne j h1
      · dsimp only [go] at hj ⊢
        obtain ⟨q, hq, hqs⟩ := h.used j t hj
        exact ⟨q, hq, by rw [hsl]; exact hqs⟩
      · dsimp only [go] at h1 h2 h3 h4
        rw [hsl] at h1 h2
        exact h.excl q r hq hr hne i j a b h1 h2 h3 h4
      · dsimp only [go]
        have hch := total_change (p := p) (f := fun q => remaining a (s.loc q))
          (g := fun q => remaining a (upd s.loc p ⟨op :: more, .load k l'⟩ q))
          (d := - (if c.1 = a then c.2 else 0))
          (fun q hq => by rw [hl q hq])
          (by rw [updEq, hrem]; simp only [remaining, restOf, cellSum]; omega) n hp
        rw [hch, ← h.sum a]
        by_cases ea : c.1 = a
        · rw [ea, updEq, if_pos rfl, e2, ea]; omega
        · rw [updNe _ _ (fun e => ea e.symm), if_neg ea]; omega

/-- A process that is inside an accumulate can always move. -/
theorem can_move {n : Nat} {prog : Nat → List Op} {m0 : Nat → Int}
    {s : State} (h : Inv n prog m0 s) {q : Nat} (hq : q < n) (hne : (s.loc q).pc ≠ .enter) :
    step n q s ≠ none := by
  intro hst
  obtain ⟨-, gq⟩ := h.good q hq
  cases hoq : (s.loc q).ops with
  | nil => rw [hoq] at gq; exact hne gq
  | cons o m =>
    rw [hoq] at gq
    rw [step, if_pos hq, hoq] at hst
    dsimp only at hst gq
    cases hpc : (s.loc q).pc with
    | enter => exact hne hpc
    | read got =>
      rw [hpc] at hst
      dsimp only at hst
      split at hst
      · exact absurd hst (by simp)
      · split at hst <;> exact absurd hst (by simp)
    | giveUp => rw [hpc] at hst; exact absurd hst (by simp)
    | write k => rw [hpc] at hst; exact absurd hst (by simp)
    | leave k => rw [hpc] at hst; exact absurd hst (by simp)
    | load k l => rw [hpc] at hst; cases l <;> exact absurd hst (by simp)
    | store k l tmp =>
      rw [hpc] at hst gq
      obtain ⟨c, l', e, -⟩ := gq.2.2
      subst e
      exact absurd hst (by simp)

/-- When nobody can move all have finished. -/
theorem inv_stuck {n : Nat} {prog : Nat → List Op} {m0 : Nat → Int}
    {s : State} (h : Inv n prog m0 s) (hs : ∀ p, step n p s = none) : Done n s := by
  intro p hp
  cases ho : (s.loc p).ops with
  | nil => rfl
  | cons op more =>
    exfalso
    by_cases hpe : (s.loc p).pc = .enter
    · cases hlk : s.lock with
      | none =>
        have hst := hs p
        rw [step, if_pos hp, ho] at hst
        dsimp only at hst
        rw [hpe] at hst
        dsimp only at hst
        rw [if_pos hlk] at hst
        exact absurd hst (by simp)
      | some q =>
        obtain ⟨hq, hi⟩ := h.holder q hlk
        exact can_move h hq (fun e => by rw [e] at hi; exact hi) (hs q)
    · exact can_move h hp hpe (hs p)

/-! ### Every execution can be brought to the end -/

theorem exec_append (n : Nat) : ∀ (l m : List Nat) (s : State),
    exec n (l ++ m) s = exec n m (exec n l s)
  | [], _, _ => rfl
  | p :: l, m, s => by rw [List.cons_append, exec, exec, exec_append n l m]

theorem inv_exec {n : Nat} {prog : Nat → List Op} {m0 : Nat → Int} (ok : Ok n prog) :
    ∀ (l : List Nat) {s : State}, Inv n prog m0 s → Inv n prog m0 (exec n l s)
  | [], _, h => h
  | p :: l, s, h => by
      rw [exec]
      cases hs : step n p s with
      | none => exact inv_exec ok l h
      | some s' => exact inv_exec ok l (inv_step ok h hs)

/-- Steps for a list of accumulates. -/
def opsWork : List Op → Nat
  | [] => 0
  | op :: l => 2 * op.cells.length + 20 + opsWork l

/-- Steps that a process still has to do, as long as it need not repeat. -/
def work (l : Loc) : Nat :=
  match l.ops with
  | [] => 0
  | op :: more => opsWork more +
    match l.pc with
    | .enter => 2 * op.cells.length + 20
    | .read got => 2 * op.cells.length + 22 + (slots - got.length)
    | .giveUp => 2 * op.cells.length + 21
    | .write _ => 2 * op.cells.length + 3
    | .leave _ => 2 * op.cells.length + 2
    | .load _ l => 2 * l.length + 1
    | .store _ l _ => 2 * l.length

/-- `f 0 + ... + f (n - 1)`. -/
def totalN (f : Nat → Nat) : Nat → Nat
  | 0 => 0
  | n + 1 => totalN f n + f n

theorem totalN_congr {f g : Nat → Nat} : ∀ n, (∀ q, q < n → g q = f q) → totalN g n = totalN f n
  | 0, _ => rfl
  | n + 1, h => by rw [totalN, totalN, totalN_congr n fun q hq => h q (by omega), h n (by omega)]

theorem totalN_lt {f g : Nat → Nat} {p : Nat} (hg : ∀ q, q ≠ p → g q = f q)
    (hp : g p < f p) : ∀ n, p < n → totalN g n < totalN f n
  | 0, h => absurd h (by omega)
  | n + 1, h => by
      rw [totalN, totalN]
      by_cases e : p = n
      · subst e
        rw [totalN_congr p fun q hq => hg q (by omega)]
        omega
      · have := totalN_lt hg hp n (by omega)
        rw [hg n (fun x => e x.symm)]
        omega

/-- A step of a process that is inside an accumulate brings it nearer to the
end, and does not change where the others are. -/
theorem step_work {n : Nat} {s s' : State} {p : Nat} (hs : step n p s = some s')
    (hne : (s.loc p).pc ≠ .enter) :
    p < n ∧ work (s'.loc p) < work (s.loc p) ∧ ∀ q, q ≠ p → s'.loc q = s.loc q := by
  have hp : p < n := by
    by_cases hp : p < n
    · exact hp
    · rw [step, if_neg hp] at hs; exact absurd hs (by simp)
  refine ⟨hp, ?_⟩
  rw [step, if_pos hp] at hs
  cases ho : (s.loc p).ops with
  | nil => rw [ho] at hs; exact absurd hs (by simp)
  | cons op more =>
    have hw : work (s.loc p) = opsWork more + work ⟨[op], (s.loc p).pc⟩ := by
      simp only [work, ho, opsWork]; omega
    rw [ho] at hs
    dsimp only at hs
    cases hpc : (s.loc p).pc with
    | enter => exact absurd hpc hne
    | read got =>
      rw [hpc] at hs hw
      dsimp only at hs
      split at hs
      · obtain rfl := Option.some.inj hs
        refine ⟨?_, fun q hq => updNe _ _ hq⟩
        dsimp only [go]
        rw [updEq, hw]
        simp only [work, List.length_append, List.length_singleton, opsWork]
        omega
      · split at hs
        · obtain rfl := Option.some.inj hs
          refine ⟨?_, fun q hq => updNe _ _ hq⟩
          dsimp only [go]
          rw [updEq, hw]
          simp only [work, opsWork]
          omega
        · obtain rfl := Option.some.inj hs
          refine ⟨?_, fun q hq => updNe _ _ hq⟩
          dsimp only [go]
          rw [updEq, hw]
          simp only [work, opsWork]
          omega
    | giveUp =>
      rw [hpc] at hs hw
      obtain rfl := Option.some.inj hs
      refine ⟨?_, fun q hq => updNe _ _ hq⟩
      dsimp only [go]
      rw [updEq, hw]
      simp only [work, opsWork]
      omega
    | write k =>
      rw [hpc] at hs hw
      obtain rfl := Option.some.inj hs
      refine ⟨?_, fun q hq => updNe _ _ hq⟩
      dsimp only [go]
      rw [updEq, hw]
      simp only [work, opsWork]
      omega
    | leave k =>
      rw [hpc] at hs hw
      obtain rfl := Option.some.inj hs
      refine ⟨?_, fun q hq => updNe _ _ hq⟩
      dsimp only [go]
      rw [updEq, hw]
      simp only [work, opsWork]
      omega
    | load k l =>
      rw [hpc] at hs hw
      cases l with
      | nil =>
        obtain rfl := Option.some.inj hs
        refine ⟨?_, fun q hq => updNe _ _ hq⟩
        dsimp only [go]
        rw [updEq, hw]
        cases more with
        | nil => simp [work, opsWork]
        | cons o m => simp only [work, opsWork, List.length_nil]; omega
      | cons c l =>
        obtain rfl := Option.some.inj hs
        refine ⟨?_, fun q hq => updNe _ _ hq⟩
        dsimp only [go]
        rw [updEq, hw]
        simp only [work, opsWork]
        omega
    | store k l tmp =>
      rw [hpc] at hs hw
      cases l with
      | nil => exact absurd hs (by simp)
      | cons c l =>
        obtain rfl := Option.some.inj hs
        refine ⟨?_, fun q hq => updNe _ _ hq⟩
        dsimp only [go]
        rw [updEq, hw]
        simp only [work, opsWork, List.length_cons]
        omega

theorem updUpd {γ : Type} (f : Nat → γ) (p : Nat) (v w : γ) :
    upd (upd f p v) p w = upd f p w := by
  funext q
  by_cases e : q = p
  · subst e; rw [updEq, updEq]
  · rw [updNe _ _ e, updNe _ _ e, updNe _ _ e]

/-- Copying an empty table. -/
theorem read_empty {n p : Nat} (hp : p < n) {s : State} (ht : ∀ k, s.table k = none)
    (op : Op) (more : List Op) : ∀ m, m ≤ slots →
    exec n (List.replicate m p) (go s p (op :: more) (.read [])) =
      go s p (op :: more) (.read (List.replicate m none))
  | 0, _ => rfl
  | m + 1, h => by
      rw [List.replicate_succ', exec_append, read_empty hp ht op more m (by omega)]
      have hst : step n p (go s p (op :: more) (.read (List.replicate m none))) =
          some (go s p (op :: more) (.read (List.replicate (m + 1) none))) := by
        rw [step, if_pos hp]
        dsimp only [go]
        rw [updEq]
        dsimp only
        rw [List.length_replicate, if_pos (by omega), ht, updUpd, List.replicate_succ']
      rw [exec, exec, hst]
      rfl

/-- The first process that comes when nobody is inside gets its area. -/
theorem enter_empty {n p : Nat} (hp : p < n) {s : State} (ht : ∀ k, s.table k = none)
    (hlk : s.lock = none) {op : Op} {more : List Op} (ho : (s.loc p).ops = op :: more)
    (hpc : (s.loc p).pc = .enter) :
    ∃ l, exec n l s = { go s p (op :: more) (.write 7) with lock := some p } := by
  refine ⟨p :: (List.replicate slots p ++ [p]), ?_⟩
  have h1 : step n p s = some (go { s with lock := some p } p (op :: more) (.read [])) := by
    rw [step, if_pos hp, ho]
    dsimp only
    rw [hpc]
    dsimp only
    rw [if_pos hlk]
    rfl
  rw [exec, h1, Option.getD_some, exec_append,
    read_empty (s := { s with lock := some p }) hp ht op more slots (Nat.le_refl _)]
  have h2 : step n p (go { s with lock := some p } p (op :: more)
      (.read (List.replicate slots none))) =
      some { go s p (op :: more) (.write 7) with lock := some p } := by
    rw [step, if_pos hp]
    dsimp only [go]
    rw [updEq]
    dsimp only
    rw [List.length_replicate, if_neg (by omega),
      show inspect (area op.lo op.hi) (List.replicate slots none) 0 none = (false, some 7) from rfl]
    dsimp only
    rw [updUpd]
  rw [exec, exec, h2]
  rfl

/-- From every state of the invariant there is a way to the end. -/
theorem finish {n : Nat} {prog : Nat → List Op} {m0 : Nat → Int} (ok : Ok n prog) :
    ∀ (w : Nat) (s : State), totalN (fun p => work (s.loc p)) n ≤ w → Inv n prog m0 s →
    ∃ l, Done n (exec n l s) := by
  intro w
  induction w with
  | zero =>
    intro s hw h
    refine ⟨[], fun p hp => ?_⟩
    cases ho : (s.loc p).ops with
    | nil => exact ho
    | cons op more =>
      exfalso
      have hlt : totalN (fun q => work (upd s.loc p ⟨[], .enter⟩ q)) n <
          totalN (fun q => work (s.loc q)) n ∨ (s.loc p).pc ≠ .enter := by
        by_cases hpe : (s.loc p).pc = .enter
        · refine Or.inl (totalN_lt (p := p) (fun q hq => by rw [updNe _ _ hq]) ?_ n hp)
          rw [updEq]
          simp only [work, ho, hpe]
          omega
        · exact Or.inr hpe
      rcases hlt with hlt | hne
      · omega
      · cases hs : step n p s with
        | none => exact can_move h hp hne hs
        | some s' =>
          obtain ⟨-, h1, h2⟩ := step_work hs hne
          have := totalN_lt (p := p) (f := fun q => work (s.loc q)) (g := fun q => work (s'.loc q))
            (fun q hq => by rw [h2 q hq]) h1 n hp
          omega
  | succ w ih =>
    intro s hw h
    by_cases hin : ∃ p, p < n ∧ (s.loc p).pc ≠ .enter
    · obtain ⟨p, hp, hne⟩ := hin
      cases hs : step n p s with
      | none => exact absurd hs (can_move h hp hne)
      | some s' =>
        obtain ⟨-, h1, h2⟩ := step_work hs hne
        have hlt := totalN_lt (p := p) (f := fun q => work (s.loc q))
          (g := fun q => work (s'.loc q)) (fun q hq => by rw [h2 q hq]) h1 n hp
        obtain ⟨l, hl⟩ := ih s' (by omega) (inv_step ok h hs)
        exact ⟨p :: l, by rw [exec, hs]; exact hl⟩
    · have hall : ∀ p, p < n → (s.loc p).pc = .enter := fun p hp => by
        by_cases e : (s.loc p).pc = .enter
        · exact e
        · exact absurd ⟨p, hp, e⟩ hin
      by_cases hd : ∃ p, p < n ∧ (s.loc p).ops ≠ []
      · obtain ⟨p, hp, hop⟩ := hd
        cases ho : (s.loc p).ops with
        | nil => exact absurd ho hop
        | cons op more =>
          have ht : ∀ k, s.table k = none := fun k => by
            cases hk : s.table k with
            | none => rfl
            | some t =>
              obtain ⟨q, hq, hqs⟩ := h.used k t hk
              rw [hall q hq] at hqs; exact absurd hqs (by simp [slotOf])
          have hlk : s.lock = none := by
            cases hl : s.lock with
            | none => rfl
            | some q =>
              have h1 := (h.holder q hl).2
              rw [hall q (h.holder q hl).1] at h1
              exact absurd h1 (by simp [inNative])
          obtain ⟨l, hl⟩ := enter_empty hp ht hlk ho (hall p hp)
          have hinv := inv_exec ok l h
          have hlt : totalN (fun q => work ((exec n l s).loc q)) n <
              totalN (fun q => work (s.loc q)) n := by
            rw [hl]
            refine totalN_lt (p := p) (fun q hq => ?_) ?_ n hp
            · dsimp only [go]; rw [updNe _ _ hq]
            · dsimp only [go]
              rw [updEq]
              simp only [work, ho, hall p hp]
              omega
          obtain ⟨l', hl'⟩ := ih _ (by omega) hinv
          exact ⟨l ++ l', by rw [exec_append]; exact hl'⟩
      · refine ⟨[], fun p hp => ?_⟩
        cases ho : (s.loc p).ops with
        | nil => exact ho
        | cons op more => exact absurd ⟨p, hp, by rw [ho]; simp⟩ hd

end GA.MemLock
