import Verif.Lemmas.TwoSidedInv

/-! # Lemmas on the port over two-sided MPI: memory, answers and fences -/

namespace GA.TwoSided

open GA.Spec.Rma

variable {M R : Type}

/-- the calls in a log -/
def calls (log : List (Nat × Option Nat)) : List (Nat × Nat) :=
  log.filterMap fun x => x.2.map fun k => (x.1, k)

theorem calls_append (x y : List (Nat × Option Nat)) : calls (x ++ y) = calls x ++ calls y := by
  simp [calls]

/-- call `k` of `p` was carried out at a moment of the log and `v` is what it found -/
def Answered (prog : Nat → List (Op M R)) (x : M) (log : List (Nat × Option Nat)) (p k : Nat)
    (v : R) : Prop :=
  ∃ a b, calls log = a ++ (p, k) :: b ∧ result prog (memory prog x a) (p, k) = some v

theorem Answered.mono {prog : Nat → List (Op M R)} {x : M} {log : List (Nat × Option Nat)}
    {p k : Nat} {v : R} (h : Answered prog x log p k v) (t : List (Nat × Option Nat)) :
    Answered prog x (log ++ t) p k v := by
  obtain ⟨a, b, h1, h2⟩ := h
  exact ⟨a, b ++ calls t, by rw [calls_append, h1]; simp, h2⟩

/-- a message of `p` to `q` is what a call of `p` sent or the answer to a call of `q` -/
def MsgOk (prog : Nat → List (Op M R)) (x : M) (log : List (Nat × Option Nat)) (p q : Nat) :
    Msg M R → Prop
  | .upd k f => (prog p)[k]? = some (.upd q f)
  | .get k r => (prog p)[k]? = some (.get q r)
  | .rmw k f r => (prog p)[k]? = some (.rmw q f r)
  | .getResp k v => (prog q)[k]?.bind Op.target = some p ∧ Answered prog x log q k v
  | .rmwResp k v => (prog q)[k]?.bind Op.target = some p ∧ Answered prog x log q k v
  | _ => True

theorem MsgOk.mono {prog : Nat → List (Op M R)} {x : M} {log : List (Nat × Option Nat)}
    {p q : Nat} {m : Msg M R} (h : MsgOk prog x log p q m) (t : List (Nat × Option Nat)) :
    MsgOk prog x (log ++ t) p q m := by
  cases m <;> try exact h
  · exact ⟨h.1, h.2.mono t⟩
  · exact ⟨h.1, h.2.mono t⟩

theorem memory_append (prog : Nat → List (Op M R)) (x : M) (a b : List (Nat × Nat)) :
    memory prog x (a ++ b) = memory prog (memory prog x a) b := by simp [memory]

theorem own_mem {n me : Nat} {prog : Nat → List (Op M R)} {l l' : Loc M R}
    {o : Option (Nat × Msg M R)} (h : Own n me (prog me) l l' o) {x : M}
    (hm : l.mem = memory prog x (calls l.log)) :
    l'.mem = memory prog x (calls l'.log) ∧ (∃ t, l'.log = l.log ++ t) ∧
    (∀ q m, o = some (q, m) → ∀ lg, MsgOk prog x lg me q m) ∧
    (∀ k v, l'.rep k = some v → l.rep k = some v ∨
      ((prog me)[k]?.bind Op.target = some me ∧ Answered prog x l'.log me k v)) := by
  cases h with
  | updSelf f h1 h2 =>
    refine ⟨?_, ⟨_, rfl⟩, by simp, fun k v hk => .inl hk⟩
    simp only [calls_append, memory_append]
    rw [← hm]
    simp [calls, memory, effect, h2]
  | getSelf r h1 h2 =>
    refine ⟨?_, ⟨_, rfl⟩, by simp, fun k v hk => ?_⟩
    · simp only [calls_append, memory_append]
      rw [← hm]
      simp [calls, memory, effect, h2]
    · simp only [set1] at hk
      split at hk
      · rename_i e
        right
        subst e
        refine ⟨by rw [h2]; rfl, calls l.log, [], by rw [calls_append]; rfl, ?_⟩
        rw [← hm, ← hk]
        simp [result, h2]
      · exact .inl hk
  | updRem q f h1 h2 h3 => exact ⟨hm, ⟨[], by simp⟩, by rintro _ _ ⟨⟩ lg; exact h2, fun k v hk => .inl hk⟩
  | getRem q f h1 h2 h3 => exact ⟨hm, ⟨[], by simp⟩, by rintro _ _ ⟨⟩ lg; exact h2, fun k v hk => .inl hk⟩
  | rmw q f r h1 h2 => exact ⟨hm, ⟨[], by simp⟩, by rintro _ _ ⟨⟩ lg; exact h2, fun k v hk => .inl hk⟩
  | fence q h1 h2 h3 => exact ⟨hm, ⟨[], by simp⟩, by rintro _ _ ⟨⟩ lg; exact trivial, fun k v hk => .inl hk⟩
  | fallSend q h1 h2 h3 => exact ⟨hm, ⟨[], by simp⟩, by rintro _ _ ⟨⟩ lg; exact trivial, fun k v hk => .inl hk⟩
  | bsend q h1 h2 h3 => exact ⟨hm, ⟨[], by simp⟩, by rintro _ _ ⟨⟩ lg; exact trivial, fun k v hk => .inl hk⟩
  | brespYes k q r h1 h2 h3 => exact ⟨hm, ⟨[], by simp⟩, by rintro _ _ ⟨⟩ lg; exact trivial, fun k v hk => .inl hk⟩
  | _ => exact ⟨hm, ⟨[], by simp⟩, by simp, fun k v hk => .inl hk⟩

/-! ## calls that have returned -/

/-- what is known of the answers -/
structure LA (prog : List (Op M R)) (l : Loc M R) : Prop where
  get : ∀ k q r, k < l.pc → prog[k]? = some (.get q r) → l.rep k = none → k ∈ l.gq
  wait : ∀ j k q r, j < l.pc → prog[j]? = some .wait → k < j → prog[k]? = some (.get q r) →
    l.rep k ≠ none
  rmw : ∀ k q f r, k < l.pc → prog[k]? = some (.rmw q f r) → l.rep k ≠ none
  cur : l.ph = .rmw → l.notify = false → l.rep l.pc ≠ none

theorem own_LA {n me : Nat} {prog : List (Op M R)} {l l' : Loc M R}
    {o : Option (Nat × Msg M R)} (h : Own n me prog l l' o) (hi : LI n me prog l)
    (ha : LA prog l) : LA prog l' := by
  have hph := hi.phase
  -- a call that is neither get nor wait nor read-modify-write
  have hnext : ∀ l1 : Loc M R, l1.pc = l.pc + 1 → l1.rep = l.rep → l1.gq = l.gq → l1.ph = .run →
      (∀ q r, prog[l.pc]? ≠ some (.get q r)) → (prog[l.pc]? = some .wait → l.gq = []) →
      (∀ q f r, prog[l.pc]? = some (.rmw q f r) → l.rep l.pc ≠ none) → LA prog l1 := by
    intro l1 h1 h2 h3 h4 h5 h6 h7
    refine ⟨fun k q r hk hp hr => ?_, fun j k q r hj hw hk hp => ?_, fun k q f r hk hp => ?_, fun h => ?_⟩
    · rw [h2] at hr
      rw [h3]
      by_cases e : k = l.pc
      · exact absurd (e ▸ hp) (h5 q r)
      · exact ha.get k q r (by omega) hp hr
    · rw [h2]
      by_cases e : j = l.pc
      · subst e
        intro hr
        have := ha.get k q r (by omega) hp hr
        rw [h6 hw] at this
        exact absurd this (by simp)
      · exact ha.wait j k q r (by omega) hw hk hp
    · rw [h2]
      by_cases e : k = l.pc
      · exact e ▸ h7 q f r (e ▸ hp)
      · exact ha.rmw k q f r (by omega) hp
    · rw [h4] at h; exact absurd h (by simp)
  have hstay : ∀ l1 : Loc M R, l1.pc = l.pc → l1.rep = l.rep → l1.gq = l.gq →
      (l1.ph = .rmw → l1.notify = false → l1.rep l1.pc ≠ none) → LA prog l1 := by
    intro l1 h1 h2 h3 h4
    exact ⟨by rw [h1, h2, h3]; exact ha.get, by rw [h1, h2]; exact ha.wait, by rw [h1, h2]; exact ha.rmw, h4⟩
  cases h with
  | updSelf f h1 h2 => exact hnext _ rfl rfl rfl h1 (by simp [h2]) (by simp [h2]) (by simp [h2])
  | updRem q f h1 h2 h3 => exact hnext _ rfl rfl rfl h1 (by simp [h2]) (by simp [h2]) (by simp [h2])
  | getSelf r h1 h2 =>
    refine ⟨fun k q r hk hp hr => ?_, fun j k q r hj hw hk hp => ?_, fun k q f r hk hp => ?_, fun h => ?_⟩
    · simp only [set1] at hr
      split at hr
      · exact absurd hr (by simp)
      · rename_i e; dsimp only at hk; exact ha.get k q r (by omega) hp hr
    · simp only [set1]
      split
      · simp
      · have : j ≠ l.pc := by rintro rfl; rw [h2] at hw; exact absurd hw (by simp)
        dsimp only at hj; exact ha.wait j k q r (by omega) hw hk hp
    · simp only [set1]
      split
      · simp
      · dsimp only at hk; exact ha.rmw k q f r (by omega) hp
    · dsimp only at h; rw [h1] at h; exact absurd h (by simp)
  | getRem q f h1 h2 h3 =>
    refine ⟨fun k q r hk hp hr => ?_, fun j k q r hj hw hk hp => ?_, fun k q f r hk hp => ?_, fun h => ?_⟩
    · dsimp only at hk hr ⊢
      by_cases e : k = l.pc
      · simp [e]
      · exact List.mem_append_left _ (ha.get k q r (by omega) hp hr)
    · dsimp only at hj
      have : j ≠ l.pc := by rintro rfl; rw [h2] at hw; exact absurd hw (by simp)
      exact ha.wait j k q r (by omega) hw hk hp
    · dsimp only at hk
      have : k ≠ l.pc := by rintro rfl; rw [h2] at hp; exact absurd hp (by simp)
      exact ha.rmw k q f r (by omega) hp
    · dsimp only at h; rw [h1] at h; exact absurd h (by simp)
  | rmw q f r h1 h2 => exact hstay _ rfl rfl rfl (by simp)
  | wait h1 h2 h3 => exact hnext _ rfl rfl rfl h1 (by simp [h2]) (fun _ => h3) (by simp [h2])
  | fenceSkip q h1 h2 h3 => exact hnext _ rfl rfl rfl h1 (by simp [h2]) (by simp [h2]) (by simp [h2])
  | fallSkip h1 h2 h3 => exact hnext _ rfl rfl rfl h1 (by simp [h2]) (by simp [h2]) (by simp [h2])
  | rmwEnd h1 h2 =>
    rw [h1] at hph
    obtain ⟨q, f, r, hp⟩ := hph
    exact hnext _ rfl rfl rfl rfl (by simp [hp]) (by simp [hp]) (fun _ _ _ _ => ha.cur h1 h2)
  | fenceEnd q h1 h2 =>
    rw [h1] at hph
    exact hnext _ rfl rfl rfl rfl (by simp [hph.2]) (by simp [hph.2]) (by simp [hph.2])
  | fallwEnd h1 h2 =>
    rw [h1] at hph
    dsimp only at hph
    exact hnext _ rfl rfl rfl rfl (by simp [hph]) (by simp [hph]) (by simp [hph])
  | bwaitEnd h1 h2 =>
    rw [h1] at hph
    exact hnext _ rfl rfl rfl rfl (by simp [hph.1]) (by simp [hph.1]) (by simp [hph.1])
  | fence q h1 => exact hstay _ rfl rfl rfl (by simp)
  | fall0 h1 => exact hstay _ rfl rfl rfl (by simp)
  | barrier h1 => exact hstay _ rfl rfl rfl (by simp)
  | fallSend i h1 => exact hstay _ rfl rfl rfl (by simp)
  | fallNext i h1 => exact hstay _ rfl rfl rfl (by simp)
  | fallEnd i h1 => exact hstay _ rfl rfl rfl (by simp)
  | bself i h1 => exact hstay _ rfl rfl rfl (by simp)
  | bsend i h1 => exact hstay _ rfl rfl rfl (by simp)
  | bsendEnd i h1 => exact hstay _ rfl rfl rfl (by simp)
  | bcoll h1 => exact hstay _ rfl rfl rfl (by simp)
  | brespYes k q r h1 => exact hstay _ rfl rfl rfl (by simp [h1])
  | brespKeep k q r h1 => exact hstay _ rfl rfl rfl (by simp)
  | brespEnd k h1 => exact hstay _ rfl rfl rfl (by simp)
  | brespAgain k h1 => exact hstay _ rfl rfl rfl (by simp)

theorem recv_LA {src : Nat} {m : Msg M R} {prog : List (Op M R)} {l : Loc M R}
    (hk : ∀ k v, m = .rmwResp k v → k = l.pc) (ha : LA prog l) : LA prog (recv src m l).1 := by
  have hset : ∀ (k : Nat) (v : R) j, set1 l.rep k (some v) j = none → l.rep j = none ∧ j ≠ k := by
    intro k v j h
    simp only [set1] at h
    split at h
    · exact absurd h (by simp)
    · rename_i e; exact ⟨h, e⟩
  cases m with
  | getResp k v =>
    refine ⟨fun j q r hj hp hr => ?_, fun j i q r hj hw hi hp hr => ?_, fun j q f r hj hp hr => ?_, fun h1 h2 hr => ?_⟩
    · obtain ⟨h1, h2⟩ := hset k v j hr
      have := ha.get j q r hj hp h1
      simp [recv, this, h2]
    · exact ha.wait j i q r hj hw hi hp (hset k v i hr).1
    · exact ha.rmw j q f r hj hp (hset k v j hr).1
    · exact ha.cur h1 h2 (hset k v _ hr).1
  | rmwResp k v =>
    refine ⟨fun j q r hj hp hr => ?_, fun j i q r hj hw hi hp hr => ?_, fun j q f r hj hp hr => ?_, fun h1 h2 hr => ?_⟩
    · obtain ⟨h1, h2⟩ := hset k v j hr
      exact ha.get j q r hj hp h1
    · exact ha.wait j i q r hj hw hi hp (hset k v i hr).1
    · exact ha.rmw j q f r hj hp (hset k v j hr).1
    · exact (hset k v _ hr).2 (hk k v rfl).symm
  | _ => exact ⟨ha.get, ha.wait, ha.rmw, ha.cur⟩

/-! ## the invariant on memory and answers -/

structure MI (n : Nat) (prog : Nat → List (Op M R)) (mem : Nat → M) (s : State M R) : Prop where
  memo : ∀ p, p < n → (s.loc p).mem = memory prog (mem p) (calls (s.loc p).log)
  msg : ∀ p q, p < n → q < n → ∀ m ∈ s.chan p q, MsgOk prog (mem p) (s.loc p).log p q m
  rep : ∀ p k v, p < n → (s.loc p).rep k = some v → ∃ q, q < n ∧
    (prog p)[k]?.bind Op.target = some q ∧ Answered prog (mem q) (s.loc q).log p k v
  la : ∀ p, p < n → LA (prog p) (s.loc p)
  cur : ∀ p q, p < n → q < n → (∀ k f r, .rmw k f r ∈ s.chan p q → k = (s.loc p).pc) ∧
    (∀ k v, .rmwResp k v ∈ s.chan q p → k = (s.loc p).pc)

/-- a call whose number changes waits for no read-modify-write -/
theorem own_pc {n me : Nat} {prog : List (Op M R)} {l l' : Loc M R}
    {o : Option (Nat × Msg M R)} (h : Own n me prog l l' o) :
    (l'.pc = l.pc ∨ (l'.pc = l.pc + 1 ∧ ∀ b, rwt prog l b = 0)) ∧
    (∀ q k f r, o = some (q, .rmw k f r) → k = l.pc ∧ l'.pc = l.pc) ∧
    (∀ q k v, o ≠ some (q, .rmwResp k v)) := by
  cases h with
  | rmwEnd h1 h2 => exact ⟨.inr ⟨rfl, fun b => by simp [rwt, h1, h2]⟩, by simp, by simp⟩
  | rmw q f r h1 h2 => refine ⟨.inl rfl, ?_, by simp⟩; rintro _ _ _ _ ⟨⟩; exact ⟨rfl, rfl⟩
  | updSelf f h1 h2 => exact ⟨.inr ⟨rfl, fun b => by simp [rwt, h1]⟩, by simp, by simp⟩
  | updRem q f h1 h2 h3 => exact ⟨.inr ⟨rfl, fun b => by simp [rwt, h1]⟩, by simp, by simp⟩
  | getSelf r h1 h2 => exact ⟨.inr ⟨rfl, fun b => by simp [rwt, h1]⟩, by simp, by simp⟩
  | getRem q f h1 h2 h3 => exact ⟨.inr ⟨rfl, fun b => by simp [rwt, h1]⟩, by simp, by simp⟩
  | wait h1 h2 h3 => exact ⟨.inr ⟨rfl, fun b => by simp [rwt, h1]⟩, by simp, by simp⟩
  | fenceSkip q h1 h2 h3 => exact ⟨.inr ⟨rfl, fun b => by simp [rwt, h1]⟩, by simp, by simp⟩
  | fallSkip h1 h2 h3 => exact ⟨.inr ⟨rfl, fun b => by simp [rwt, h1]⟩, by simp, by simp⟩
  | fenceEnd q h1 h2 => exact ⟨.inr ⟨rfl, fun b => by simp [rwt, h1]⟩, by simp, by simp⟩
  | fallwEnd h1 h2 => exact ⟨.inr ⟨rfl, fun b => by simp [rwt, h1]⟩, by simp, by simp⟩
  | bwaitEnd h1 h2 => exact ⟨.inr ⟨rfl, fun b => by simp [rwt, h1]⟩, by simp, by simp⟩
  | _ => exact ⟨.inl rfl, by simp, by simp⟩

theorem mem_sent {o : Option (Nat × Msg M R)} {b : Nat} {m : Msg M R} (h : m ∈ sent o b) :
    o = some (b, m) := by
  unfold sent at h
  split at h
  · exact absurd h (by simp)
  · split at h
    · rename_i e; rw [List.mem_singleton.1 h, e]
    · exact absurd h (by simp)

theorem recv_mem {n p q : Nat} {prog : Nat → List (Op M R)} {l : Loc M R} {m : Msg M R} {x y : M}
    {lg : List (Nat × Option Nat)} (hq : q < n)
    (hm : l.mem = memory prog x (calls l.log)) (ho : MsgOk prog y lg q p m) :
    (recv q m l).1.mem = memory prog x (calls (recv q m l).1.log) ∧
    (∀ a, (recv q m l).2 = some a → MsgOk prog x (recv q m l).1.log p q a) ∧
    (∀ k v, (recv q m l).1.rep k = some v → l.rep k = some v ∨
      ((prog p)[k]?.bind Op.target = some q ∧ Answered prog y lg p k v)) := by
  have hlog : ∀ k : Nat, calls (l.log ++ [(q, some k)]) = calls l.log ++ [(q, k)] := by
    intro k; rw [calls_append]; rfl
  cases m with
  | upd k f =>
    refine ⟨?_, by simp [recv], fun k v h => .inl h⟩
    simp only [recv]
    rw [hlog, memory_append, ← hm]
    have ho : (prog q)[k]? = some (.upd p f) := ho
    simp [memory, effect, ho]
  | get k r =>
    have ho : (prog q)[k]? = some (.get p r) := ho
    refine ⟨?_, ?_, fun k v h => .inl h⟩
    · simp only [recv]
      rw [hlog, memory_append, ← hm]
      simp [memory, effect, ho]
    · rintro a ⟨⟩
      refine ⟨by rw [ho]; rfl, calls l.log, [], hlog k, ?_⟩
      rw [← hm]
      simp [result, ho]
  | rmw k f r =>
    have ho : (prog q)[k]? = some (.rmw p f r) := ho
    refine ⟨?_, ?_, fun k v h => .inl h⟩
    · simp only [recv]
      rw [hlog, memory_append, ← hm]
      simp [memory, effect, ho]
    · rintro a ⟨⟩
      refine ⟨by rw [ho]; rfl, calls l.log, [], hlog k, ?_⟩
      rw [← hm]
      simp [result, ho]
  | getResp k v =>
    refine ⟨hm, by simp [recv], fun j w h => ?_⟩
    simp only [recv, set1] at h
    split at h
    · rename_i e
      subst e
      rw [← Option.some.inj h]
      exact .inr ho
    · exact .inl h
  | rmwResp k v =>
    refine ⟨hm, by simp [recv], fun j w h => ?_⟩
    simp only [recv, set1] at h
    split at h
    · rename_i e
      subst e
      rw [← Option.some.inj h]
      exact .inr ho
    · exact .inl h
  | freq => refine ⟨hm, ?_, fun k v h => .inl h⟩; rintro a ⟨⟩; exact trivial
  | fresp => exact ⟨hm, by simp [recv], fun k v h => .inl h⟩
  | breq =>
    refine ⟨?_, by simp [recv], fun k v h => .inl h⟩
    simp only [recv]
    rw [calls_append]
    simpa [calls] using hm
  | bresp => exact ⟨hm, by simp [recv], fun k v h => .inl h⟩

theorem MI.step {n : Nat} {prog : Nat → List (Op M R)} {mem : Nat → M} {s s' : State M R}
    (hg : GI n prog s) (h : MI n prog mem s) (hs : Step n prog s s') : MI n prog mem s' := by
  cases hs with
  | own p l o c hp ho hc =>
    obtain ⟨h1, ⟨t, ht⟩, h3, h4⟩ := own_mem ho (h.memo p hp)
    have hmono : ∀ a : Nat, ∃ t, (set1 s.loc p l a).log = (s.loc a).log ++ t := by
      intro a
      by_cases e : a = p
      · subst e; rw [set1_same]; exact ⟨t, ht⟩
      · rw [set1_ne _ _ e]; exact ⟨[], by simp⟩
    obtain ⟨h5, h6, h7⟩ := own_pc ho
    have hno : ∀ b, b < n → rwt (prog p) (s.loc p) b = 0 →
        (∀ k f r, .rmw k f r ∉ s.chan p b) ∧ (∀ k v, .rmwResp k v ∉ s.chan b p) := by
      intro b hb hz
      have := hg.rw p b hp hb
      rw [hz] at this
      have e1 : (s.chan p b).countP isRmw = 0 := by omega
      have e2 : (s.chan b p).countP isRmwResp = 0 := by omega
      rw [List.countP_eq_zero] at e1 e2
      exact ⟨fun k f r hm => e1 _ hm rfl, fun k v hm => e2 _ hm rfl⟩
    refine ⟨fun a ha => ?_, fun a b ha hb m hm => ?_, fun a k v ha hr => ?_, fun a ha => ?_, fun a b ha hb => ⟨fun k f r hm => ?_, fun k v hm => ?_⟩⟩
    · dsimp only
      by_cases e : a = p
      · subst e; rw [set1_same]; exact h1
      · rw [set1_ne _ _ e]; exact h.memo a ha
    · dsimp only at hm ⊢
      rw [hc] at hm
      obtain ⟨t', ht'⟩ := hmono a
      split at hm
      · rename_i e
        rcases List.mem_append.1 hm with hm | hm
        · rw [ht']; exact (h.msg a b ha hb m hm).mono t'
        · subst e; exact h3 b m (mem_sent hm) _
      · rw [ht']; exact (h.msg a b ha hb m hm).mono t'
    · dsimp only at hr ⊢
      have old : (s.loc a).rep k = some v → ∃ q, q < n ∧ (prog a)[k]?.bind Op.target = some q ∧
          Answered prog (mem q) (set1 s.loc p l q).log a k v := by
        intro hr
        obtain ⟨q, hq, hx, hy⟩ := h.rep a k v ha hr
        obtain ⟨t', ht'⟩ := hmono q
        exact ⟨q, hq, hx, by rw [ht']; exact hy.mono t'⟩
      by_cases e : a = p
      · subst e
        rw [set1_same] at hr
        rcases h4 k v hr with h | h
        · exact old h
        · exact ⟨a, ha, h.1, by rw [set1_same]; exact h.2⟩
      · rw [set1_ne _ _ e] at hr; exact old hr
    · dsimp only
      by_cases e : a = p
      · subst e; rw [set1_same]; exact own_LA ho (hg.li a ha) (h.la a ha)
      · rw [set1_ne _ _ e]; exact h.la a ha
    · dsimp only at hm ⊢
      rw [hc] at hm
      by_cases e : a = p
      · subst e
        rw [set1_same]
        rw [if_pos rfl] at hm
        rcases List.mem_append.1 hm with hm | hm
        · rcases h5 with h5 | h5
          · rw [h5]; exact (h.cur a b ha hb).1 k f r hm
          · exact absurd hm ((hno b hb (h5.2 b)).1 k f r)
        · have := h6 b k f r (mem_sent hm)
          omega
      · rw [if_neg e] at hm
        rw [set1_ne _ _ e]
        exact (h.cur a b ha hb).1 k f r hm
    · dsimp only at hm ⊢
      rw [hc] at hm
      have hm' : .rmwResp k v ∈ s.chan b a := by
        split at hm
        · rcases List.mem_append.1 hm with hm | hm
          · exact hm
          · exact absurd (mem_sent hm) (h7 _ _ _)
        · exact hm
      by_cases e : a = p
      · subst e
        rw [set1_same]
        rcases h5 with h5 | h5
        · rw [h5]; exact (h.cur a b ha hb).2 k v hm'
        · exact absurd hm' ((hno b hb (h5.2 b)).2 k v)
      · rw [set1_ne _ _ e]
        exact (h.cur a b ha hb).2 k v hm'
  | recv p q m rest c hp hq hpc hm hc =>
    have hmem : m ∈ s.chan q p := by rw [hm]; simp
    have hok := h.msg q p hq hp m hmem
    obtain ⟨h1, h2, h3⟩ := recv_mem hq (h.memo p hp) hok
    obtain ⟨hlog, _⟩ := recv_log (src := q) (m := m) (s.loc p)
    have hmono : ∀ a : Nat, ∃ t, (set1 s.loc p (TwoSided.recv q m (s.loc p)).1 a).log = (s.loc a).log ++ t := by
      intro a
      by_cases e : a = p
      · subst e; rw [set1_same]; exact ⟨_, hlog⟩
      · rw [set1_ne _ _ e]; exact ⟨[], by simp⟩
    have hin : ∀ a b x, x ∈ c a b → x ∈ s.chan a b ∨ (a = p ∧ b = q ∧ (TwoSided.recv q m (s.loc p)).2 = some x) := by
      intro a b x hx
      rw [hc] at hx
      rcases List.mem_append.1 hx with hy | hy
      · left
        clear hx
        split at hy
        · rename_i e; rw [e.1, e.2, hm]; exact List.mem_cons_of_mem _ hy
        · exact hy
      · right
        clear hx
        split at hy
        · rename_i e; exact ⟨e.1, e.2, by simpa using hy⟩
        · exact absurd hy (by simp)
    have hpc' : (TwoSided.recv q m (s.loc p)).1.pc = (s.loc p).pc := by cases m <;> rfl
    have hpcs : ∀ a, (set1 s.loc p (TwoSided.recv q m (s.loc p)).1 a).pc = (s.loc a).pc := by
      intro a
      by_cases e : a = p
      · subst e; rw [set1_same]; exact hpc'
      · rw [set1_ne _ _ e]
    refine ⟨fun a ha => ?_, fun a b ha hb x hx => ?_, fun a k v ha hr => ?_, fun a ha => ?_, fun a b ha hb => ⟨fun k f r hx => ?_, fun k v hx => ?_⟩⟩
    · dsimp only
      by_cases e : a = p
      · subst e; rw [set1_same]; exact h1
      · rw [set1_ne _ _ e]; exact h.memo a ha
    · dsimp only at hx ⊢
      obtain ⟨t', ht'⟩ := hmono a
      rcases hin a b x hx with hy | ⟨e1, e2, hy⟩
      · rw [ht']; exact (h.msg a b ha hb x hy).mono t'
      · subst e1; subst e2; rw [set1_same]; exact h2 x hy
    · dsimp only at hr ⊢
      have old : (s.loc a).rep k = some v → ∃ q', q' < n ∧ (prog a)[k]?.bind Op.target = some q' ∧
          Answered prog (mem q') (set1 s.loc p (TwoSided.recv q m (s.loc p)).1 q').log a k v := by
        intro hr
        obtain ⟨q', hq, hx, hy⟩ := h.rep a k v ha hr
        obtain ⟨t', ht'⟩ := hmono q'
        exact ⟨q', hq, hx, by rw [ht']; exact hy.mono t'⟩
      by_cases e : a = p
      · subst e
        rw [set1_same] at hr
        rcases h3 k v hr with h | h
        · exact old h
        · obtain ⟨t', ht'⟩ := hmono q
          exact ⟨q, hq, h.1, by rw [ht']; exact h.2.mono t'⟩
      · rw [set1_ne _ _ e] at hr; exact old hr
    · dsimp only
      by_cases e : a = p
      · subst e
        rw [set1_same]
        refine recv_LA (fun k v hk => ?_) (h.la a ha)
        exact (h.cur a q ha hq).2 k v (hk ▸ hmem)
      · rw [set1_ne _ _ e]; exact h.la a ha
    · dsimp only at hx ⊢
      rw [hpcs]
      rcases hin a b _ hx with hy | ⟨e1, e2, hy⟩
      · exact (h.cur a b ha hb).1 k f r hy
      · cases m <;> simp [TwoSided.recv] at hy
    · dsimp only at hx ⊢
      rw [hpcs]
      rcases hin b a _ hx with hy | ⟨e1, e2, hy⟩
      · exact (h.cur a b ha hb).2 k v hy
      · subst e1; subst e2
        cases m <;> simp [TwoSided.recv] at hy
        rw [← hy.1]
        exact (h.cur a b ha hb).1 _ _ _ hmem

end GA.TwoSided
