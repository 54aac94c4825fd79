import Verif.Lemmas.ComexPlain
import Mathlib.Algebra.Order.BigOperators.Group.Finset

/-!
# Termination of pending work in the communication layer
-/

namespace GA.Comex

/-- steps left inside a call -/
def ctlWork : Ctl → Nat
  | .idle => 0
  | .fencing _ _ _ => 2
  | .fencingAll _ _ _ => 2
  | _ => 1

/-- pending work between a process and a server -/
def chanWork (s : State) (p m : Nat) : Nat := 2 * (s.chan p m).length + (s.rep p m).length

/-- bound on the number of steps that are possible without new calls -/
def work (c : Cfg) (s : State) : Nat :=
  (∑ p ∈ Finset.range c.size, ∑ m ∈ Finset.range c.size, chanWork s p m) +
    ∑ p ∈ Finset.range c.size, ctlWork (s.ctl p)

theorem work_ctl {c : Cfg} {s s' : State} {p : Nat} (hp : p < c.size) (h1 : s'.chan = s.chan) (h2 : s'.rep = s.rep)
    {k : Ctl} (h3 : s'.ctl = set1 s.ctl p k) (h4 : ctlWork k < ctlWork (s.ctl p)) : work c s' < work c s := by
  unfold work
  have e1 : ∀ p m, chanWork s' p m = chanWork s p m := by intro p m; simp [chanWork, h1, h2]
  simp only [e1]
  refine Nat.add_lt_add_left (Finset.sum_lt_sum ?_ ⟨p, Finset.mem_range.2 hp, ?_⟩) _
  · intro q _
    rw [h3]
    simp only [set1]
    split
    · rename_i e; rw [e]; omega
    · exact le_refl _
  · rw [h3]; simpa [set1] using h4

theorem work_chan {c : Cfg} {s s' : State} {p m : Nat} (hp : p < c.size) (hm : m < c.size) (h1 : s'.ctl = s.ctl)
    (h2 : ∀ q m', ¬ (q = p ∧ m' = m) → chanWork s' q m' = chanWork s q m')
    (h3 : chanWork s' p m < chanWork s p m) : work c s' < work c s := by
  unfold work
  rw [h1]
  have hle : ∀ q m', chanWork s' q m' ≤ chanWork s q m' := by
    intro q m'
    by_cases e : q = p ∧ m' = m
    · rw [e.1, e.2]; omega
    · rw [h2 q m' e]
  refine Nat.add_lt_add_right (Finset.sum_lt_sum ?_ ⟨p, Finset.mem_range.2 hp, ?_⟩) _
  · intro q _
    exact Finset.sum_le_sum fun m' _ => hle q m'
  · exact Finset.sum_lt_sum (fun m' _ => hle p m') ⟨m, Finset.mem_range.2 hm, h3⟩

theorem work_step {c : Cfg} {mem0 : Nat → Nat → Int} {s s' : State} (hc : c.OK) (hI : Inv c mem0 s)
    (hP : Plain c s) {a : Act} (ha : ∀ q op, a ≠ .call q op) (hs : Comex.step c s a = some s') :
    work c s' < work c s := by
  cases a with
  | call p op => exact absurd rfl (ha p op)
  | resume p =>
    simp only [Comex.step, Comex.resume] at hs
    split at hs
    · rename_i m tag k hk
      have hp := hP.ctllt p (by rw [hk]; simp)
      split at hs
      · simp at hs
      · cases k with
        | none =>
          simp only [State.goto, State.log, Option.some.injEq] at hs
          subst hs
          exact work_ctl hp rfl rfl (k := .idle) rfl (by rw [hk]; simp [ctlWork])
        | some op =>
          simp only [State.goto, Option.some.injEq] at hs
          subst hs
          exact work_ctl hp rfl rfl (k := .direct tag op) rfl (by rw [hk]; simp [ctlWork])
    · rename_i ms tag bb hk
      have hp := hP.ctllt p (by rw [hk]; simp)
      split at hs
      · simp at hs
      · rw [clearFlags_eq] at hs
        cases bb
        · simp only [State.goto, State.log, Bool.false_eq_true, if_false, Option.some.injEq] at hs
          subst hs
          exact work_ctl hp rfl rfl (k := .idle) rfl (by rw [hk]; simp [ctlWork])
        · simp only [State.goto, if_true, Option.some.injEq] at hs
          subst hs
          exact work_ctl hp rfl rfl (k := .barrier tag) rfl (by rw [hk]; simp [ctlWork])
    · rename_i m tag hk
      have hp := hP.ctllt p (by rw [hk]; simp)
      split at hs
      · simp at hs
      · simp only [State.goto, Option.some.injEq] at hs
        subst hs
        exact work_ctl hp rfl rfl (k := .idle) rfl (by rw [hk]; simp [ctlWork])
    · rename_i t tag hk
      have hp := hP.ctllt p (by rw [hk]; simp)
      split at hs
      · simp at hs
      · simp only [State.goto, State.log, Option.some.injEq] at hs
        subst hs
        exact work_ctl hp rfl rfl (k := .idle) rfl (by rw [hk]; simp [ctlWork])
    · rename_i tag hk
      have hp := hP.ctllt p (by rw [hk]; simp)
      split at hs
      · simp only [State.goto, State.log, Option.some.injEq] at hs
        subst hs
        exact work_ctl hp rfl rfl (k := .idle) rfl (by rw [hk]; simp [ctlWork])
      · simp at hs
    · simp at hs
  | direct p =>
    simp only [Comex.step, Comex.direct] at hs
    split at hs
    case h_4 => simp at hs
    all_goals
      rename_i hk
      simp only [State.goto, State.log, Option.some.injEq] at hs
      subst hs
      exact work_ctl (hP.ctllt p (by rw [hk]; simp)) rfl rfl (k := .idle) rfl (by rw [hk]; simp [ctlWork])
  | recv p m =>
    simp only [Comex.step, Comex.recv] at hs
    split at hs
    case h_2 => simp at hs
    rename_i sl ps sl0 vals rs hpo hre
    obtain ⟨hp, hm⟩ := hP.replt p m (by rw [hre]; simp)
    have key : ∀ s1 : State, s1.ctl = s.ctl → s1.chan = s.chan → s1.rep = set2 s.rep p m rs →
        work c s1 < work c s := by
      intro s1 e1 e2 e3
      refine work_chan hp hm e1 ?_ ?_
      · intro q m' hne
        simp [chanWork, e2, e3, set2, hne]
      · simp [chanWork, e2, e3, set2, hre]
    cases sl with
    | ack =>
      simp only [Option.some.injEq] at hs
      subst hs
      split <;> exact key _ rfl rfl rfl
    | buf tag len =>
      simp only [Option.some.injEq] at hs
      split at hs <;> (subst hs; exact key _ rfl rfl rfl)
  | serve m p =>
    have herr := (hI.step hc hs).err
    simp only [Comex.step, Comex.serve] at hs
    split at hs
    case isFalse => simp at hs
    split at hs
    case h_1 => simp at hs
    rename_i msg rest hch
    obtain ⟨hp, hm⟩ := hP.chanlt p m (by rw [hch]; simp)
    split at hs
    · simp only [Option.some.injEq] at hs
      subst hs
      simp at herr
    · rename_i d hd
      simp only [Option.some.injEq] at hs
      subst hs
      refine work_chan hp hm rfl ?_ ?_
      · intro q m' hne
        cases hrp : d.reply <;> simp [chanWork, set2, hne, hrp]
      · cases hrp : d.reply <;> simp [chanWork, set2, hch, hrp] <;> omega

theorem work_run {c : Cfg} {mem0 : Nat → Nat → Int} (hc : c.OK) {as : List Act} :
    ∀ {s s' : State}, Inv c mem0 s → Plain c s → (∀ a ∈ as, ∀ q op, a ≠ .call q op) →
      Comex.run c s as = some s' → as.length + work c s' ≤ work c s := by
  induction as with
  | nil => intro s s' _ _ _ hs; simp only [Comex.run, Option.some.injEq] at hs; subst hs; simp
  | cons a as ih =>
    intro s s' hI hP ha hs
    simp only [Comex.run] at hs
    obtain ⟨s1, h1, h2⟩ := Option.bind_eq_some_iff.1 hs
    have hw := work_step hc hI hP (ha a (by simp)) h1
    have := ih (hI.step hc h1) (hP.step hc hI h1) (fun b hb => ha b (by simp [hb])) h2
    simp only [List.length_cons]
    omega

end GA.Comex
