import Verif.Lemmas.MsgLockVis
import Verif.Lemmas.TwoSidedEnd

/-! # Lemmas on the mutexes over two-sided MPI: no deadlock, all calls return -/

namespace GA.MsgLock

open GA.Spec.LockUse
open GA.TwoSided (sumN sumN_add sumN_congr sumN_zero sumN_one sumN_set sumN_two sumN_le)

/-! ## the work that is left -/

def off (n : Nat) : Ph → Nat
  | .run => 0
  | .lockw => 5
  | .bar => n + 2
  | .barD => n + 2
  | .dloop => n + 4

def work (n : Nat) (P : List Call) (l : Loc) : Nat := (n + 8) * (P.length - l.pc) - off n l.ph

def wt : Msg → Nat
  | .lockReq _ _ => 3
  | _ => 1

def mw (c : List Msg) : Nat := (c.map wt).sum

theorem mw_append (c d : List Msg) : mw (c ++ d) = mw c + mw d := by simp [mw]

def total (n : Nat) (prog : Nat → List Call) (s : State) : Nat :=
  sumN (fun p => work n (prog p) (s.loc p)) n + 2 * sumN (fun p => (s.loc p).lq.length) n +
    sumN (fun a => sumN (fun b => mw (s.chan a b)) n) n

theorem sumN_const (c n : Nat) : sumN (fun _ => c) n = n * c := by
  induction n with
  | zero => simp [sumN]
  | succ n ih => simp only [sumN, ih]; rw [Nat.succ_mul]

theorem sum_one_le (n q : Nat) (m : Msg) : sumN (fun b => mw (one q m b)) n ≤ wt m := by
  have h : ∀ b, b < n → mw (one q m b) = if b = q then wt m else 0 := by
    intro b _
    unfold one; split <;> simp [mw]
  rw [sumN_congr h]
  by_cases e : q < n
  · rw [sumN_one e]; exact Nat.le_refl _
  · rw [sumN_zero]
    · omega
    · intro x hx; rw [if_neg (by omega)]

theorem sum_nil (n : Nat) : sumN (fun _ => mw []) n = 0 := sumN_zero fun _ _ => rfl

theorem own_work {n K me : Nat} {P : List Call} {l l' : Loc} {f : Nat → List Msg}
    (ho : Own n me P l l' f) (hlen : 3 ≤ P.length) (hP : Pos K P l) :
    work n P l' + sumN (fun b => mw (f b)) n < work n P l := by
  have step1 : ∀ k, k < P.length → (n + 8) * (P.length - (k + 1)) + (n + 8) = (n + 8) * (P.length - k) := by
    intro k hk
    rw [← Nat.mul_succ]; congr 1; omega
  unfold Pos at hP
  unfold work
  cases ho with
  | create K' hph hp =>
    have h1 := step1 _ (some_lt hp)
    simp only [sum_nil, hph, off]; omega
  | lock x hph hp =>
    have h1 := step1 _ (some_lt hp)
    have h2 := sum_one_le n x.1 (.lockReq x.2 l.pc)
    simp only [wt] at h2
    simp only [hph, off]; omega
  | unlock x hph hp =>
    have h1 := step1 _ (some_lt hp)
    have h2 := sum_one_le n x.1 (.unlock x.2)
    simp only [wt] at h2
    simp only [hph, off]; omega
  | updS hph hp =>
    have h1 := step1 _ (some_lt hp)
    simp only [sum_nil, hph, off]; omega
  | upd q hph hp hq =>
    have h1 := step1 _ (some_lt hp)
    have h2 := sum_one_le n q (.upd l.pc)
    simp only [wt] at h2
    simp only [hph, off]; omega
  | sync hph hp =>
    have h1 := step1 _ (some_lt hp)
    have h2 : sumN (fun _ => mw [Msg.mark]) n = n := by
      rw [show (fun _ : Nat => mw [Msg.mark]) = fun _ => 1 from rfl, sumN_const]; omega
    simp only [hph, off, h2]; omega
  | destroy hph hp =>
    have h1 := step1 _ (some_lt hp)
    have h2 : sumN (fun _ => mw [Msg.mark]) n = n := by
      rw [show (fun _ : Nat => mw [Msg.mark]) = fun _ => 1 from rfl, sumN_const]; omega
    simp only [hph, off, h2]; omega
  | lockw hph hn =>
    simp only [hph] at hP
    have h1 := step1 l.pc (by omega)
    simp only [sum_nil, hph, off]; omega
  | bar hph hm =>
    simp only [hph] at hP
    have h1 := step1 l.pc (by omega)
    simp only [sum_nil, hph, off]; omega
  | barD hph hm =>
    simp only [hph] at hP
    have h1 := step1 l.pc (by omega)
    simp only [sum_nil, hph, off]; omega
  | dloop hph hq hm =>
    simp only [hph] at hP
    have h1 := step1 l.pc (by omega)
    simp only [sum_nil, hph, off]; omega

theorem sum_send {n p : Nat} (hp : p < n) (c : Nat → Nat → List Msg) (f : Nat → List Msg) :
    sumN (fun a => sumN (fun b => mw (send c p f a b)) n) n =
      sumN (fun a => sumN (fun b => mw (c a b)) n) n + sumN (fun b => mw (f b)) n := by
  have h : ∀ a, a < n → sumN (fun b => mw (send c p f a b)) n =
      sumN (fun b => mw (c a b)) n + if a = p then sumN (fun b => mw (f b)) n else 0 := by
    intro a _
    by_cases e : a = p
    · subst e
      rw [if_pos rfl, ← sumN_add]
      refine sumN_congr fun b _ => ?_
      rw [send_eq, mw_append]
    · rw [if_neg e, Nat.add_zero]
      refine sumN_congr fun b _ => ?_
      rw [send_ne _ _ _ e]
  rw [sumN_congr h, sumN_add, sumN_one hp]

theorem sum_pop {n p q : Nat} (hp : p < n) (hq : q < n) (c : Nat → Nat → List Msg) {m : Msg} {rest : List Msg}
    (h : c q p = m :: rest) :
    sumN (fun a => sumN (fun b => mw (pop c q p a b)) n) n + wt m = sumN (fun a => sumN (fun b => mw (c a b)) n) n := by
  have h1 : ∀ a, a < n → sumN (fun b => mw (pop c q p a b)) n + sumN (fun b => if a = q ∧ b = p then wt m else 0) n =
      sumN (fun b => mw (c a b)) n := by
    intro a _
    rw [← sumN_add]
    refine sumN_congr fun b _ => ?_
    by_cases e : a = q ∧ b = p
    · rw [if_pos e, e.1, e.2, pop_eq _ _ _ h, h]
      simp [mw]; omega
    · rw [if_neg e, pop_ne _ e, Nat.add_zero]
  have h2 := sumN_congr h1
  rw [sumN_add, sumN_two hq hp] at h2
  exact h2

theorem sum_grants (n : Nat) : ∀ (g : List Ent), (∀ e ∈ g, e.1 < n) →
    sumN (fun b => mw ((g.filter fun e => e.1 == b).map fun e => .lockResp e.2.1 e.2.2)) n = g.length
  | [], _ => sumN_zero fun _ _ => rfl
  | e :: g, h => by
      have ih := sum_grants n g fun x hx => h x (List.mem_cons_of_mem _ hx)
      have h1 : ∀ b, b < n → mw (((e :: g).filter fun e => e.1 == b).map fun e => Msg.lockResp e.2.1 e.2.2) =
          mw ((g.filter fun e => e.1 == b).map fun e => Msg.lockResp e.2.1 e.2.2) + if b = e.1 then 1 else 0 := by
        intro b _
        by_cases eb : e.1 = b
        · rw [List.filter_cons, if_pos (by simp [eb]), if_pos eb.symm]
          simp [mw, wt]; omega
        · rw [List.filter_cons, if_neg (by simp [eb]), if_neg (fun x => eb x.symm)]
          rfl
      rw [sumN_congr h1, sumN_add, ih, sumN_one (h e (by simp))]
      rfl

theorem total_step {n K : Nat} {prog : Nat → List Call} {s s' : State} (hs : ∀ p, p < n → Shape n K (prog p))
    (h : AI n K prog s) (st : Step n prog s s') : total n prog s' < total n prog s := by
  cases st with
  | own p l f hp ho =>
    have h1 := own_work ho (hs p hp).len (h.bi.pos p hp)
    have h2 := sumN_set (f := fun x => work n (prog x) (set1 s.loc p l x)) (g := fun x => work n (prog x) (s.loc x)) hp
      (fun x hx => by rw [set1_ne _ _ hx])
    simp only [set1_same] at h2
    have h3 : ∀ x, x < n → (set1 s.loc p l x).lq.length = (s.loc x).lq.length := by
      intro x _
      by_cases e : x = p
      · subst e; rw [set1_same, (own_arr ho).2.2.1]
      · rw [set1_ne _ _ e]
    unfold total
    dsimp only
    rw [sum_send hp, sumN_congr h3]
    omega
  | recv p q m rest hp hq hpc hm =>
    have h1 : ∀ x, x < n → work n (prog x) (set1 s.loc p (MsgLock.recv q m (s.loc p)) x) = work n (prog x) (s.loc x) := by
      intro x _
      by_cases e : x = p
      · subst e
        rw [set1_same]
        have := recv_same q m (s.loc x)
        unfold work; rw [this.1, this.2.1]
      · rw [set1_ne _ _ e]
    have h2 := sumN_set (f := fun x => (set1 s.loc p (MsgLock.recv q m (s.loc p)) x).lq.length)
      (g := fun x => (s.loc x).lq.length) hp (fun x hx => by rw [set1_ne _ _ hx])
    simp only [set1_same] at h2
    have h3 : 2 * (MsgLock.recv q m (s.loc p)).lq.length + 1 ≤ 2 * (s.loc p).lq.length + wt m := by
      cases m <;> simp [MsgLock.recv, wt]; omega
    have h4 := sum_pop hp hq s.chan hm
    unfold total
    dsimp only
    rw [sumN_congr h1]
    omega
  | pass p hp hpc hx =>
    have hok := fun e he => (entries_ok hs h.bi h.ti hp hpc e he).1
    have h1 : ∀ x, x < n → work n (prog x) (set1 s.loc p (passLoc (s.loc p)) x) = work n (prog x) (s.loc x) := by
      intro x _
      by_cases e : x = p
      · subst e; rw [set1_same]; rfl
      · rw [set1_ne _ _ e]
    have h2 := sumN_set (f := fun x => (set1 s.loc p (passLoc (s.loc p)) x).lq.length)
      (g := fun x => (s.loc x).lq.length) hp (fun x hx => by rw [set1_ne _ _ hx])
    simp only [set1_same] at h2
    have h3 := pass_len (num := (s.loc p).num) (s.loc p).lq (s.loc p).mtx
    have h4 : 0 < (MsgLock.pass (s.loc p).num (s.loc p).lq (s.loc p).mtx).2.2.1.length := by
      rcases hx with hx | hx
      · exact List.length_pos_iff.2 hx
      · rw [pass_ok hok] at hx; cases hx
    have h5 := sum_grants n (MsgLock.pass (s.loc p).num (s.loc p).lq (s.loc p).mtx).2.2.1
      (fun e he => h.ti.rngq p hp e (pass_sub (.inr he)))
    have h6 : (passLoc (s.loc p)).lq = (MsgLock.pass (s.loc p).num (s.loc p).lq (s.loc p).mtx).2.1 := rfl
    unfold total
    dsimp only
    rw [sum_send hp, sumN_congr h1]
    rw [h6] at h2
    have h7 : sumN (fun b => mw (passOut (s.loc p) b)) n =
      (MsgLock.pass (s.loc p).num (s.loc p).lq (s.loc p).mtx).2.2.1.length := h5
    omega

/-! ## no deadlock -/

/-- programs in which mutexes are taken in increasing order -/
def Incr (ord : Mutex → Nat) (P : List Call) : Prop :=
  ∀ k x, P[k]? = some (.lock x) → ∀ y, holding (P.take k) y = true → ord y < ord x

/-- how a process can wait -/
theorem own_none {n K me : Nat} {P : List Call} (hs : Shape n K P) {l : Loc} (hP : Pos K P l)
    (h : own n me P l = none) :
    l.pc = P.length ∧ l.ph = .run ∨
    (∃ x, l.ph = .lockw ∧ P[l.pc]? = some (.lock x) ∧ l.notify = true) ∨
    ((l.ph = .bar ∨ l.ph = .barD) ∧ ∃ q, q < n ∧ l.marks q < l.arr) ∨
    (l.ph = .dloop ∧ ¬ (l.lq = [] ∧ ∀ m, l.mtx m = none)) := by
  have hl := hs.len
  unfold Pos at hP
  unfold own at h
  cases hph : l.ph with
  | run =>
    simp only [hph] at h hP
    left
    cases hc : P[l.pc]? with
    | none =>
      have : P.length ≤ l.pc := by simpa using hc
      exact ⟨by omega, rfl⟩
    | some c =>
      rw [hc] at h
      exfalso
      cases c <;> simp at h
      split at h <;> cases h
  | lockw =>
    simp only [hph] at h hP
    right; left
    obtain ⟨⟨x, hx⟩, -⟩ := hP.1
    refine ⟨x, rfl, hx, ?_⟩
    cases hn : l.notify
    · simp [hn] at h
    · rfl
  | bar =>
    simp only [hph] at h
    right; right; left
    refine ⟨.inl rfl, ?_⟩
    split at h
    · cases h
    · rename_i e
      simpa using e
  | barD =>
    simp only [hph] at h
    right; right; left
    refine ⟨.inr rfl, ?_⟩
    split at h
    · cases h
    · rename_i e
      simpa using e
  | dloop =>
    simp only [hph] at h
    right; right; right
    refine ⟨rfl, ?_⟩
    rintro ⟨h1, h2⟩
    rw [h1] at h
    simp [h2] at h

theorem stuck_done {n K : Nat} {prog : Nat → List Call} {s : State} (hs : ∀ p, p < n → Shape n K (prog p))
    {ord : Mutex → Nat} (hord : ∀ p, p < n → Incr ord (prog p)) (h : AI n K prog s)
    (hst : ∀ p t, p < n → step n prog p t s = none) : Done n prog s := by
  have hown : ∀ p, p < n → own n p (prog p) (s.loc p) = none := by
    intro p hp
    have := hst p .own hp
    unfold step at this
    rw [if_neg (by omega)] at this
    dsimp only at this
    cases ho : own n p (prog p) (s.loc p) with
    | none => rfl
    | some v => rw [ho] at this; cases this
  have hemp : ∀ p q, p < n → q < n → (s.loc p).pc < (prog p).length → s.chan q p = [] := by
    intro p q hp hq hpc
    have := hst p (.recv q) hp
    unfold step at this
    rw [if_neg (by omega)] at this
    dsimp only at this
    rw [if_neg (by omega)] at this
    cases hc : s.chan q p with
    | nil => rfl
    | cons m rest => rw [hc] at this; cases this
  have hpass : ∀ p, p < n → (s.loc p).pc < (prog p).length →
      (pass (s.loc p).num (s.loc p).lq (s.loc p).mtx).2.2.1 = [] := by
    intro p hp hpc
    have := hst p .pass hp
    unfold step at this
    rw [if_neg (by omega)] at this
    dsimp only at this
    rw [if_neg (by omega)] at this
    split at this
    · rename_i e
      simp at e
      exact e.1
    · cases this
  -- how processes wait
  have hw := fun p hp => own_none (hs p hp) (h.bi.pos p hp) (hown p hp)
  -- a process that waits for a mutex waits for a process that waits for a greater one
  have hlock : ∀ d B, (∀ p x, p < n → (prog p)[(s.loc p).pc]? = some (.lock x) → ord x < B) →
      ∀ p x, p < n → (s.loc p).ph = .lockw → (prog p)[(s.loc p).pc]? = some (.lock x) → (s.loc p).notify = true →
      B ≤ ord x + d → False := by
    intro d B hB
    induction d with
    | zero =>
      intro p x hp _ hx _ hd
      have := hB p x hp hx
      omega
    | succ d ih =>
      intro p x hp hph hx hn hd
      have hl := lock_at (hs p hp) hx
      have hx1 : x.1 < n := hl.2.2.1
      -- the home of the mutex has not finished
      have hhome : (s.loc x.1).pc < (prog x.1).length := by
        apply Classical.byContradiction
        intro hc
        have hP := (h.bi.pos x.1 hx1).1
        have hlen := (hs x.1 hx1).len
        have h1 : (s.loc x.1).pc = (prog x.1).length := by
          cases hph' : (s.loc x.1).ph <;> simp only [hph'] at hP <;> omega
        have h2 := h.bi.g2 x.1 p hx1 hp (.inr h1)
        have h3 := h.bi.mks p x.1 hp hx1
        have h4 := (h.bi.pos p hp).1
        simp only [hph] at h4
        omega
      have hk : kind (prog p) (s.loc p) (x.1, x.2) = .wait := by
        unfold kind; rw [if_pos ⟨hph, hx⟩, hn]; rfl
      have h1 := h.ti.tok p x.1 x.2 hp hx1
      unfold TokS at h1
      rw [hk, hemp x.1 p hx1 hp hhome, hemp p x.1 hp hx1 (by omega)] at h1
      have hq : (p, x.2, (s.loc p).pc) ∈ (s.loc x.1).lq := by
        have : (p, x.2, (s.loc p).pc) ∈ (s.loc x.1).lq.filter fun e => e.1 == p && e.2.1 == x.2 := by
          simp only [List.filter_nil] at h1
          generalize isOwner (s.loc x.1) x.2 p = o at h1
          generalize ((s.loc x.1).lq.filter fun e => e.1 == p && e.2.1 == x.2) = qq at h1 ⊢
          cases h1 with
          | queued => simp
        exact (List.mem_filter.1 this).1
      -- so the mutex is owned
      have hok := fun e he => (entries_ok hs h.bi h.ti hx1 hhome e he).1
      have hsp := pass_spec x.2 (num := (s.loc x.1).num) (t := (s.loc x.1).mtx) hok
      rw [hpass x.1 hx1 hhome] at hsp
      cases hmt : (s.loc x.1).mtx x.2 with
      | none =>
        cases hL : (s.loc x.1).lq.filter fun e => e.2.1 == x.2 with
        | nil =>
          have : (p, x.2, (s.loc p).pc) ∈ (s.loc x.1).lq.filter fun e => e.2.1 == x.2 := by simp [hq]
          rw [hL] at this; cases this
        | cons e L =>
          simp only [hmt, hL] at hsp
          have := hsp.2.2
          simp at this
      | some p' =>
        have hp' := (h.ti.rngm x.1 hx1 x.2 p' hmt).1
        have h2 := h.ti.tok p' x.1 x.2 hp' hx1
        unfold TokS at h2
        rw [isOwner_eq hmt, hemp x.1 p' hx1 hp' hhome] at h2
        simp only [decide_true, List.filter_nil] at h2
        have hkd : kind (prog p') (s.loc p') (x.1, x.2) = .hold ∨ (kind (prog p') (s.loc p') (x.1, x.2) = .wait ∧
            (s.chan x.1 p').filter (isResp x.2) ≠ []) := by
          generalize ((s.loc x.1).lq.filter fun e => e.1 == p' && e.2.1 == x.2) = qq at h2
          generalize (s.chan x.1 p').filter (isResp x.2) = r at h2 ⊢
          generalize kind (prog p') (s.loc p') (x.1, x.2) = kd at h2 ⊢
          cases h2 with
          | hold => exact .inl rfl
          | granted => exact .inr ⟨rfl, by simp⟩
        have hhold : (s.loc p').pc < (prog p').length →
            (s.loc p').ph = .lockw ∧ (prog p')[(s.loc p').pc]? = some (.lock x) ∧ (s.loc p').notify = false ∨
            holding ((prog p').take (s.loc p').pc) x = true := by
          intro hpc
          rcases hkd with hkd | ⟨hkd, hne⟩
          · unfold kind at hkd
            split at hkd
            · rename_i e
              left
              refine ⟨e.1, e.2, ?_⟩
              cases hn' : (s.loc p').notify
              · rfl
              · simp [hn'] at hkd
            · split at hkd
              · rename_i e2; exact .inr e2
              · cases hkd
          · exfalso
            rw [hemp p' x.1 hp' hx1 hpc] at hne
            exact hne rfl
        have hlen' := (hs p' hp').len
        have hP' := (h.bi.pos p' hp').1
        have hfin : ∀ k, (prog p').length ≤ k + 1 → holding ((prog p').take k) x = false := by
          intro k hk'
          have h5 := (hs p' hp').fin x
          by_cases e : k = (prog p').length - 1
          · rw [e]; exact h5
          · have hc : (prog p')[(prog p').length - 1]? = some (prog p')[(prog p').length - 1] :=
              List.getElem?_eq_getElem (by omega)
            have h6 := holding_succ hc x
            rw [show (prog p').length - 1 + 1 = (prog p').length by omega] at h6
            rw [List.take_of_length_le (by omega)] at h6 ⊢
            rw [h6]
            rcases (hs p' hp').at' _ _ hc with ⟨h7, _⟩ | ⟨h7, _⟩ | ⟨_, h7, _⟩ | ⟨_, h7⟩
            · omega
            · omega
            · omega
            · rw [h7]; simpa using h5
        have hpc' : (s.loc p').pc < (prog p').length := by
          apply Classical.byContradiction
          intro hc
          have hne : ¬ ((s.loc p').ph = .lockw ∧ (prog p')[(s.loc p').pc]? = some (.lock (x.1, x.2))) := by
            rintro ⟨_, e⟩; have := some_lt e; omega
          rw [kind_ne hne, show (x.1, x.2) = x from rfl, hfin _ (by omega)] at hkd
          simp at hkd
        rcases hhold hpc' with ⟨e1, e2, e3⟩ | hhold
        · -- it could go on
          rcases hw p' hp' with ⟨h3, _⟩ | ⟨y, _, _, h3⟩ | ⟨h3, _⟩ | ⟨h3, _⟩
          · omega
          · rw [e3] at h3; cases h3
          · rw [e1] at h3; simp at h3
          · rw [e1] at h3; cases h3
        · rcases hw p' hp' with ⟨h3, _⟩ | ⟨y, h3, h4, h5⟩ | ⟨h3, q, hq', _⟩ | ⟨h3, _⟩
          · omega
          · have h6 := hord p' hp' _ y h4 x hhold
            exact ih p' y hp' h3 h4 h5 (by omega)
          · rcases h3 with h3 | h3
            · simp only [h3] at hP'
              rw [hold_early (hs p' hp') (by omega)] at hhold; cases hhold
            · simp only [h3] at hP'
              rw [hfin _ (by omega)] at hhold; cases hhold
          · simp only [h3] at hP'
            rw [hfin _ (by omega)] at hhold; cases hhold
  -- a bound for the mutexes waited for
  have hB : ∀ m, ∃ B, ∀ p x, p < m → (prog p)[(s.loc p).pc]? = some (.lock x) → ord x < B := by
    intro m
    induction m with
    | zero => exact ⟨0, fun p x hp => by omega⟩
    | succ m ih =>
      obtain ⟨B, hB⟩ := ih
      cases hc : (prog m)[(s.loc m).pc]? with
      | none =>
        refine ⟨B, fun p x hp hx => ?_⟩
        by_cases e : p = m
        · rw [e, hc] at hx; cases hx
        · exact hB p x (by omega) hx
      | some c =>
        refine ⟨B + (match c with | .lock x => ord x + 1 | _ => 0), fun p x hp hx => ?_⟩
        by_cases e : p = m
        · rw [e, hc] at hx
          cases hx
          dsimp only; omega
        · have := hB p x (by omega) hx
          omega
  obtain ⟨B, hB⟩ := hB n
  have nolock : ∀ p x, p < n → (s.loc p).ph = .lockw → (prog p)[(s.loc p).pc]? = some (.lock x) →
      (s.loc p).notify = true → False :=
    fun p x hp h1 h2 h3 => hlock B B hB p x hp h1 h2 h3 (by omega)
  -- all processes have reached the first barrier
  have ha1 : ∀ p, p < n → 1 ≤ (s.loc p).arr := by
    intro p hp
    have hP := (h.bi.pos p hp).1
    have hlen := (hs p hp).len
    rcases hw p hp with ⟨h3, h4⟩ | ⟨y, h3, h4, h5⟩ | ⟨h3, _⟩ | ⟨h3, _⟩
    · simp only [h4] at hP; omega
    · exact (nolock p y hp h3 h4 h5).elim
    · rcases h3 with h3 | h3 <;> simp only [h3] at hP <;> omega
    · simp only [h3] at hP; omega
  have ha2 : ∀ p, p < n → (s.loc p).arr = 2 := by
    intro p hp
    have hP := (h.bi.pos p hp).1
    have hlen := (hs p hp).len
    rcases hw p hp with ⟨h3, h4⟩ | ⟨y, h3, h4, h5⟩ | ⟨h3, q, hq, h4⟩ | ⟨h3, _⟩
    · simp only [h4] at hP; omega
    · exact (nolock p y hp h3 h4 h5).elim
    · rcases h3 with h3 | h3
      · exfalso
        simp only [h3] at hP
        have h5 := h.bi.mks q p hq hp
        rw [hemp p q hp hq (by omega)] at h5
        have := ha1 q hq
        simp at h5
        omega
      · simp only [h3] at hP; omega
    · simp only [h3] at hP; omega
  intro p hp
  have hP := (h.bi.pos p hp).1
  have hlen := (hs p hp).len
  rcases hw p hp with h3 | ⟨y, h3, h4, h5⟩ | ⟨h3, q, hq, h4⟩ | ⟨h3, h4⟩
  · exact h3
  · exact (nolock p y hp h3 h4 h5).elim
  · exfalso
    have h6 : (s.loc p).pc < (prog p).length := by
      rcases h3 with h3 | h3 <;> simp only [h3] at hP <;> omega
    have h5 := h.bi.mks q p hq hp
    rw [hemp p q hp hq h6] at h5
    have := ha2 q hq
    have := ha2 p hp
    simp at h5
    omega
  · exact absurd (destroy_free hs h hp (.inl h3)) h4

/-! ## fair schedules -/

def runTo (n : Nat) (prog : Nat → List Call) (σ : Nat → Nat × Turn) (s : State) (t : Nat) : State :=
  exec n prog ((List.range t).map σ) s

theorem exec_append (n : Nat) (prog : Nat → List Call) : ∀ (a b : List (Nat × Turn)) (s : State),
    exec n prog (a ++ b) s = exec n prog b (exec n prog a s)
  | [], _, _ => rfl
  | t :: a, b, s => by simp only [List.cons_append, exec]; exact exec_append n prog a b _

theorem runTo_succ (n : Nat) (prog : Nat → List Call) (σ : Nat → Nat × Turn) (s : State) (t : Nat) :
    runTo n prog σ s (t + 1) = (step n prog (σ t).1 (σ t).2 (runTo n prog σ s t)).getD (runTo n prog σ s t) := by
  unfold runTo
  rw [List.range_succ, List.map_append, exec_append]
  rfl

theorem fair_done {n K : Nat} {prog : Nat → List Call} {σ : Nat → Nat × Turn} {s : State}
    (hs : ∀ p, p < n → Shape n K (prog p)) {ord : Mutex → Nat} (hord : ∀ p, p < n → Incr ord (prog p))
    (hi : ∀ t, AI n K prog (runTo n prog σ s t))
    (hfair : ∀ p t, p < n → (∀ q, t = Turn.recv q → q < n) → ∀ i, ∃ j, i ≤ j ∧ σ j = (p, t)) :
    ∀ w t, total n prog (runTo n prog σ s t) = w → ∃ t', t ≤ t' ∧ Done n prog (runTo n prog σ s t') := by
  intro w
  induction w using Nat.strongRecOn with
  | ind w ih =>
    intro t hw
    have h := hi t
    by_cases hst : ∀ p u, p < n → step n prog p u (runTo n prog σ s t) = none
    · exact ⟨t, Nat.le_refl _, stuck_done hs hord h hst⟩
    · have : ∃ p u, p < n ∧ step n prog p u (runTo n prog σ s t) ≠ none := by
        apply Classical.byContradiction
        intro hc
        exact hst fun p u hp => Classical.byContradiction fun x => hc ⟨p, u, hp, x⟩
      obtain ⟨p, u, hp, hstep⟩ := this
      have hu : ∀ q, u = Turn.recv q → q < n := by
        rintro q rfl
        apply Classical.byContradiction
        intro hc
        apply hstep
        unfold step
        rw [if_neg (by omega)]
        dsimp only
        rw [if_pos (.inl (by omega))]
      obtain ⟨t', ht', hσ⟩ := hfair p u hp hu t
      have key : ∀ d u', t' = u' + d → runTo n prog σ s u' = runTo n prog σ s t →
          ∃ v, u' ≤ v ∧ total n prog (runTo n prog σ s v) < w := by
        intro d
        induction d with
        | zero =>
          intro u' hu' he
          refine ⟨u' + 1, by omega, ?_⟩
          rw [runTo_succ, he]
          have hu'' : σ u' = (p, u) := by rw [← hσ, hu']; rfl
          rw [hu'']
          cases hs' : step n prog p u (runTo n prog σ s t) with
          | none => exact absurd hs' hstep
          | some s' =>
            have := total_step hs h (step_cases hs')
            simp only [Option.getD_some]
            omega
        | succ d ihd =>
          intro u' hu' he
          have hsu := runTo_succ n prog σ s u'
          rw [he] at hsu
          cases hs' : step n prog (σ u').1 (σ u').2 (runTo n prog σ s t) with
          | none =>
            rw [hs', Option.getD_none] at hsu
            obtain ⟨v, hv1, hv2⟩ := ihd (u' + 1) (by omega) hsu
            exact ⟨v, by omega, hv2⟩
          | some s' =>
            rw [hs', Option.getD_some] at hsu
            have := total_step hs h (step_cases hs')
            exact ⟨u' + 1, by omega, by rw [hsu]; omega⟩
      obtain ⟨v, hv1, hv2⟩ := key (t' - t) t (by omega) rfl
      obtain ⟨t'', h1, h2⟩ := ih _ hv2 v rfl
      exact ⟨t'', by omega, h2⟩

theorem incr_program {K : Nat} {ord : Mutex → Nat} {body : List Call} (h : Ordered ord body) :
    Incr ord (program K body) := by
  intro k x hk y hy
  match k with
  | 0 => simp [program] at hk
  | 1 => simp [program] at hk
  | k + 2 =>
    simp only [program, List.getElem?_cons_succ] at hk
    by_cases e : k < body.length
    · rw [List.getElem?_append_left e] at hk
      refine h k x hk y ?_
      simp only [program, List.take_succ_cons] at hy
      rw [holding_two, List.take_append_of_le_length (by omega)] at hy
      exact hy
    · rw [List.getElem?_append_right (by omega)] at hk
      exfalso
      cases hz : k - body.length with
      | zero => rw [hz] at hk; simp at hk
      | succ z => rw [hz] at hk; simp at hk

end GA.MsgLock
