import Verif.Model.Net
import Mathlib.Data.Finset.Fold
import Mathlib.Order.Interval.Finset.Nat

/-!
# Networks of processes: the order of the steps does not matter
-/

namespace GA.Net

variable {β μ : Type} {cap : Nat → Nat → Nat → Option Nat}

theorem upd_same {γ : Type} (f : Nat → γ) (p : Nat) (v : γ) : upd f p v p = v := by simp [upd]

theorem upd_ne {γ : Type} (f : Nat → γ) {p q : Nat} (v : γ) (h : q ≠ p) : upd f p v q = f q := by
  simp [upd, h]

theorem upd_comm {γ : Type} (f : Nat → γ) {p q : Nat} (v w : γ) (h : p ≠ q) :
    upd (upd f p v) q w = upd (upd f q w) p v := by
  funext r
  simp only [upd]
  split <;> split <;> simp_all

theorem updCh_comm (c : Nat → Nat → Nat → List μ) {p q t p' q' t' : Nat} (v w : List μ)
    (h : ¬ (p = p' ∧ q = q' ∧ t = t')) :
    updCh (updCh c p q t v) p' q' t' w = updCh (updCh c p' q' t' w) p q t v := by
  funext a b d
  simp only [updCh]
  split <;> split <;> simp_all

theorem updCh_same (c : Nat → Nat → Nat → List μ) (p q t : Nat) (v : List μ) :
    updCh c p q t v p q t = v := by simp [updCh]

theorem updCh_ne (c : Nat → Nat → Nat → List μ) {p q t p' q' t' : Nat} (v : List μ)
    (h : ¬ (p' = p ∧ q' = q ∧ t' = t)) : updCh c p q t v p' q' t' = c p' q' t' := by
  simp [updCh, h]

theorem updCh_updCh (c : Nat → Nat → Nat → List μ) (p q t : Nat) (v w : List μ) :
    updCh (updCh c p q t v) p q t w = updCh c p q t w := by
  funext a b d
  simp only [updCh]
  split <;> simp_all

theorem updCh_self (c : Nat → Nat → Nat → List μ) (p q t : Nat) :
    updCh c p q t (c p q t) = c := by
  funext a b d
  simp only [updCh]
  split <;> simp_all

theorem room_mono {c : Option Nat} {m n : Nat} (h : room c n = true) (hm : m ≤ n) :
    room c m = true := by
  cases c with
  | none => rfl
  | some c => simp only [room, decide_eq_true_eq] at h ⊢; omega

/-- Steps of two different processes commute. -/
theorem diamond {p q : Nat} (hpq : p ≠ q) {s a b : Net β μ}
    (ha : step cap p s = some a) (hb : step cap q s = some b) :
    ∃ t, step cap q a = some t ∧ step cap p b = some t := by
  have hqp : q ≠ p := fun h => hpq h.symm
  cases hp : s.prog p with
  | nil => simp [step, hp] at ha
  | cons x xs =>
  cases hq : s.prog q with
  | nil => simp [step, hq] at hb
  | cons y ys =>
  cases x with
  | post d t f =>
    have ha' : a = { s with prog := upd s.prog p xs, ch := updCh s.ch p d t (s.ch p d t ++ [f (s.buf p)]) } := by
      simpa [step, hp] using ha.symm
    subst ha'
    cases y with
    | post d' t' f' =>
      have hb' : b = { s with prog := upd s.prog q ys, ch := updCh s.ch q d' t' (s.ch q d' t' ++ [f' (s.buf q)]) } := by
        simpa [step, hq] using hb.symm
      subst hb'
      refine ⟨_, by simp only [step, upd_ne _ _ hqp, hq]; rfl, ?_⟩
      simp only [step, upd_ne _ _ hpq, hp]
      rw [updCh_ne _ _ (by omega), updCh_ne _ _ (by omega), upd_comm _ _ _ hqp,
        updCh_comm _ _ _ (by omega)]
    | wait d' t' =>
      have hr : room (cap q d' t') (s.ch q d' t').length = true := by
        by_contra hr
        simp [step, hq, hr] at hb
      have hb' : b = { s with prog := upd s.prog q ys } := by
        simpa [step, hq, hr] using hb.symm
      subst hb'
      refine ⟨_, by simp only [step, upd_ne _ _ hqp, hq]; rw [updCh_ne _ _ (by omega), if_pos hr], ?_⟩
      simp only [step, upd_ne _ _ hpq, hp]
      rw [upd_comm _ _ _ hqp]
    | recv r t' g =>
      cases hm : s.ch r q t' with
      | nil => simp [step, hq, hm] at hb
      | cons m ms =>
      have hb' : b = { prog := upd s.prog q ys, buf := upd s.buf q (g (s.buf q) m), ch := updCh s.ch r q t' ms } := by
        simpa [step, hq, hm] using hb.symm
      subst hb'
      by_cases hc : p = r ∧ d = q ∧ t = t'
      · obtain ⟨h1, h2, h3⟩ := hc
        subst h1; subst h2; subst h3
        refine ⟨_, by simp only [step, upd_ne _ _ hqp, hq, updCh_same, hm, List.cons_append]; rfl, ?_⟩
        simp only [step, upd_ne _ _ hpq, hp]
        simp only [updCh_same, updCh_updCh]
        rw [upd_comm _ _ _ hqp]
      · refine ⟨_, by simp only [step, upd_ne _ _ hqp, hq]; rw [updCh_ne _ _ (by omega), hm], ?_⟩
        simp only [step, upd_ne _ _ hpq, hp]
        rw [updCh_ne _ _ (by omega), upd_comm _ _ _ hqp, updCh_comm _ _ _ (by omega)]
  | wait d t =>
    have hr : room (cap p d t) (s.ch p d t).length = true := by
      by_contra hr
      simp [step, hp, hr] at ha
    have ha' : a = { s with prog := upd s.prog p xs } := by
      simpa [step, hp, hr] using ha.symm
    subst ha'
    cases y with
    | post d' t' f' =>
      have hb' : b = { s with prog := upd s.prog q ys, ch := updCh s.ch q d' t' (s.ch q d' t' ++ [f' (s.buf q)]) } := by
        simpa [step, hq] using hb.symm
      subst hb'
      refine ⟨_, by simp only [step, upd_ne _ _ hqp, hq]; rfl, ?_⟩
      simp only [step, upd_ne _ _ hpq, hp]
      rw [updCh_ne _ _ (by omega), if_pos hr, upd_comm _ _ _ hqp]
    | wait d' t' =>
      have hr' : room (cap q d' t') (s.ch q d' t').length = true := by
        by_contra hr
        simp [step, hq, hr] at hb
      have hb' : b = { s with prog := upd s.prog q ys } := by
        simpa [step, hq, hr'] using hb.symm
      subst hb'
      refine ⟨_, by simp only [step, upd_ne _ _ hqp, hq]; rw [if_pos hr'], ?_⟩
      simp only [step, upd_ne _ _ hpq, hp]
      rw [if_pos hr, upd_comm _ _ _ hqp]
    | recv r t' g =>
      cases hm : s.ch r q t' with
      | nil => simp [step, hq, hm] at hb
      | cons m ms =>
      have hb' : b = { prog := upd s.prog q ys, buf := upd s.buf q (g (s.buf q) m), ch := updCh s.ch r q t' ms } := by
        simpa [step, hq, hm] using hb.symm
      subst hb'
      refine ⟨_, by simp only [step, upd_ne _ _ hqp, hq, hm]; rfl, ?_⟩
      have hr2 : room (cap p d t) (updCh s.ch r q t' ms p d t).length = true := by
        apply room_mono hr
        by_cases hc : p = r ∧ d = q ∧ t = t'
        · obtain ⟨h1, h2, h3⟩ := hc
          subst h1; subst h2; subst h3
          rw [updCh_same, hm]
          simp
        · rw [updCh_ne _ _ (by omega)]
      simp only [step, upd_ne _ _ hpq, hp]
      rw [if_pos hr2, upd_comm _ _ _ hqp]
  | recv r t g =>
    cases hm : s.ch r p t with
    | nil => simp [step, hp, hm] at ha
    | cons m ms =>
    have ha' : a = { prog := upd s.prog p xs, buf := upd s.buf p (g (s.buf p) m), ch := updCh s.ch r p t ms } := by
      simpa [step, hp, hm] using ha.symm
    subst ha'
    cases y with
    | post d' t' f' =>
      have hb' : b = { s with prog := upd s.prog q ys, ch := updCh s.ch q d' t' (s.ch q d' t' ++ [f' (s.buf q)]) } := by
        simpa [step, hq] using hb.symm
      subst hb'
      by_cases hc : q = r ∧ d' = p ∧ t' = t
      · obtain ⟨h1, h2, h3⟩ := hc
        subst h1; subst h2; subst h3
        refine ⟨_, by simp only [step, upd_ne _ _ hqp, hq]; rfl, ?_⟩
        simp only [step, upd_ne _ _ hpq, hp, updCh_same, hm, List.cons_append]
        simp only [updCh_updCh]
        rw [upd_comm _ _ _ hqp]
      · refine ⟨_, by simp only [step, upd_ne _ _ hqp, hq]; rfl, ?_⟩
        simp only [step, upd_ne _ _ hpq, hp]
        rw [updCh_ne _ _ (by omega), hm]
        dsimp only
        rw [updCh_ne _ _ (by omega), upd_comm _ _ _ hqp, updCh_comm _ _ _ (by omega)]
    | wait d' t' =>
      have hr' : room (cap q d' t') (s.ch q d' t').length = true := by
        by_contra hr
        simp [step, hq, hr] at hb
      have hb' : b = { s with prog := upd s.prog q ys } := by
        simpa [step, hq, hr'] using hb.symm
      subst hb'
      have hr2 : room (cap q d' t') (updCh s.ch r p t ms q d' t').length = true := by
        apply room_mono hr'
        by_cases hc : q = r ∧ d' = p ∧ t' = t
        · obtain ⟨h1, h2, h3⟩ := hc
          subst h1; subst h2; subst h3
          rw [updCh_same, hm]
          simp
        · rw [updCh_ne _ _ (by omega)]
      refine ⟨_, by simp only [step, upd_ne _ _ hqp, hq]; rw [if_pos hr2], ?_⟩
      simp only [step, upd_ne _ _ hpq, hp, hm]
      rw [upd_comm _ _ _ hqp]
    | recv r' t' g' =>
      cases hm' : s.ch r' q t' with
      | nil => simp [step, hq, hm'] at hb
      | cons m' ms' =>
      have hb' : b = { prog := upd s.prog q ys, buf := upd s.buf q (g' (s.buf q) m'), ch := updCh s.ch r' q t' ms' } := by
        simpa [step, hq, hm'] using hb.symm
      subst hb'
      refine ⟨_, by simp only [step, upd_ne _ _ hqp, hq]; rw [updCh_ne _ _ (by omega), hm'], ?_⟩
      simp only [step, upd_ne _ _ hpq, hp]
      rw [updCh_ne _ _ (by omega), hm]
      dsimp only
      rw [upd_comm _ _ _ hqp, upd_comm _ _ _ hqp, updCh_comm _ _ _ (by omega)]

/-- A run in which every turn is used. -/
def run (cap : Nat → Nat → Nat → Option Nat) : List Nat → Net β μ → Option (Net β μ)
  | [], s => some s
  | p :: l, s => (step cap p s).bind (run cap l)

theorem run_append (l l' : List Nat) (s : Net β μ) :
    run cap (l ++ l') s = (run cap l s).bind (run cap l') := by
  induction l generalizing s with
  | nil => rfl
  | cons p l ih =>
    simp only [List.cons_append, run]
    cases step cap p s with
    | none => rfl
    | some a => simp [ih]

theorem done_step {s : Net β μ} (h : Done s) (p : Nat) : step cap p s = none := by
  simp [step, h p]

/-- One step off the way does not matter. -/
theorem run_step {t : Net β μ} (ht : Done t) : ∀ (l : List Nat) (s : Net β μ),
    run cap l s = some t → ∀ p s', step cap p s = some s' →
    ∃ l', run cap l' s' = some t ∧ l'.length + 1 = l.length
  | [], s, h, p, s', hp => by
      have hs : s = t := by simpa [run] using h
      rw [hs, done_step ht] at hp
      exact absurd hp (by simp)
  | q :: l, s, h, p, s', hp => by
      cases hq : step cap q s with
      | none => simp [run, hq] at h
      | some a =>
      have h' : run cap l a = some t := by simpa [run, hq] using h
      by_cases hpq : p = q
      · subst hpq
        rw [hq] at hp
        cases hp
        exact ⟨l, h', by simp⟩
      · obtain ⟨u, hu1, hu2⟩ := diamond hpq hp hq
        obtain ⟨l', hl', hlen⟩ := run_step ht l a h' p u hu2
        exact ⟨q :: l', by simp [run, hu1, hl'], by simp [hlen]⟩

/-- When one run ends with all processes done, every state that can be reached
leads to the same end. -/
theorem exec_end {t : Net β μ} (ht : Done t) : ∀ (sched l : List Nat) (s : Net β μ),
    run cap l s = some t → ∃ l', run cap l' (exec cap sched s) = some t
  | [], l, s, h => ⟨l, h⟩
  | p :: sched, l, s, h => by
      cases hp : step cap p s with
      | none => simpa [exec, hp] using exec_end ht sched l s h
      | some s' =>
        obtain ⟨l', hl', -⟩ := run_step ht l s h p s' hp
        simpa [exec, hp] using exec_end ht sched l' s' hl'

theorem exec_of_run : ∀ (l : List Nat) (s t : Net β μ), run cap l s = some t → exec cap l s = t
  | [], s, t, h => by simpa [run, exec] using h
  | p :: l, s, t, h => by
      cases hp : step cap p s with
      | none => simp [run, hp] at h
      | some a =>
        have h' : run cap l a = some t := by simpa [run, hp] using h
        simpa [exec, hp] using exec_of_run l a t h'

theorem exec_append : ∀ (l l' : List Nat) (s : Net β μ),
    exec cap (l ++ l') s = exec cap l' (exec cap l s)
  | [], l', s => rfl
  | p :: l, l', s => by simp [exec, exec_append l l']

theorem run_done {s t : Net β μ} (hs : Done s) : ∀ {l : List Nat}, run cap l s = some t → s = t
  | [], h => by simpa [run] using h
  | p :: l, h => by simp [run, done_step hs] at h

/-- Some run leads from `s` to `t`. -/
def Runs (cap : Nat → Nat → Nat → Option Nat) (s t : Net β μ) : Prop :=
  ∃ l, run cap l s = some t

theorem Runs.refl (s : Net β μ) : Runs cap s s := ⟨[], rfl⟩

theorem Runs.trans {s t u : Net β μ} (h : Runs cap s t) (h' : Runs cap t u) : Runs cap s u := by
  obtain ⟨l, hl⟩ := h
  obtain ⟨l', hl'⟩ := h'
  exact ⟨l ++ l', by simp [run_append, hl, hl']⟩

theorem Runs.step {p : Nat} {s t : Net β μ} (h : step cap p s = some t) : Runs cap s t :=
  ⟨[p], by simp [run, h]⟩

/-- What every schedule does when one run ends. -/
theorem every_schedule {s t : Net β μ} (ht : Done t) (h : Runs cap s t) (sched : List Nat) :
    (∃ more, exec cap (sched ++ more) s = t) ∧
    (Done (exec cap sched s) → exec cap sched s = t) ∧
    ((∀ p, step cap p (exec cap sched s) = none) → Done (exec cap sched s)) := by
  obtain ⟨l, hl⟩ := h
  obtain ⟨l', hl'⟩ := exec_end ht sched l s hl
  refine ⟨⟨l', by rw [exec_append, exec_of_run _ _ _ hl']⟩, fun hd => run_done hd hl', ?_⟩
  intro hs
  cases l' with
  | nil =>
    have : exec cap sched s = t := by simpa [run] using hl'
    rw [this]
    exact ht
  | cons p l' => simp [run, hs p] at hl'

/-- One message from `p` to `q`, from the beginning of the send to its end. -/
theorem xfer {s : Net β μ} {p q t : Nat} (hpq : p ≠ q) {f : β → μ} {g : β → μ → β}
    {P Q : List (Act β μ)} (hp : s.prog p = .post q t f :: .wait q t :: P)
    (hq : s.prog q = .recv p t g :: Q) (hc : s.ch p q t = []) :
    ∃ s', Runs cap s s' ∧ s'.prog p = P ∧ s'.prog q = Q ∧
      (∀ r, r ≠ p → r ≠ q → s'.prog r = s.prog r) ∧ s'.buf q = g (s.buf q) (f (s.buf p)) ∧
      (∀ r, r ≠ q → s'.buf r = s.buf r) ∧ s'.ch = s.ch := by
  have hqp : q ≠ p := fun h => hpq h.symm
  let s1 : Net β μ := { s with prog := upd s.prog p (.wait q t :: P), ch := updCh s.ch p q t [f (s.buf p)] }
  let s2 : Net β μ := { prog := upd s1.prog q Q, buf := upd s1.buf q (g (s1.buf q) (f (s.buf p))), ch := updCh s1.ch p q t [] }
  let s3 : Net β μ := { s2 with prog := upd s2.prog p P }
  have h1 : step cap p s = some s1 := by simp [step, hp, hc, s1]
  have h2 : step cap q s1 = some s2 := by
    have e1 : s1.prog q = .recv p t g :: Q := by simp only [s1]; rw [upd_ne _ _ hqp, hq]
    have e2 : s1.ch p q t = [f (s.buf p)] := by simp only [s1]; rw [updCh_same]
    simp only [step, e1, e2]
    rfl
  have h3 : step cap p s2 = some s3 := by
    have e1 : s2.prog p = .wait q t :: P := by
      simp only [s2, s1]
      rw [upd_ne _ _ hpq, upd_same]
    have e2 : s2.ch p q t = [] := by simp only [s2]; rw [updCh_same]
    simp only [step, e1, e2]
    rw [if_pos (by cases cap p q t <;> simp [room])]
  refine ⟨s3, (Runs.step h1).trans ((Runs.step h2).trans (Runs.step h3)), ?_, ?_, ?_, ?_, ?_, ?_⟩
  · simp only [s3]; rw [upd_same]
  · simp only [s3, s2]; rw [upd_ne _ _ hqp, upd_same]
  · intro r h1 h2
    simp only [s3, s2, s1]
    rw [upd_ne _ _ h1, upd_ne _ _ h2, upd_ne _ _ h1]
  · simp only [s3, s2]; rw [upd_same]
  · intro r h1
    simp only [s3, s2, s1]
    rw [upd_ne _ _ h1]
  · simp only [s3, s2, s1]
    rw [updCh_updCh, ← hc, updCh_self]

end GA.Net
