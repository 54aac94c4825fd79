import Verif.Lemmas.TwoSided

/-! # Lemmas on the port over two-sided MPI: invariants -/

namespace GA.TwoSided

open GA.Spec.Rma

variable {M R : Type}

/-- every call is for a process that exists -/
def Valid (n : Nat) (prog : Nat → List (Op M R)) : Prop :=
  ∀ p, p < n → ∀ op ∈ prog p, ∀ q, op.other = some q → q < n

/-- The cases of `step`. -/
inductive Step (n : Nat) (prog : Nat → List (Op M R)) (s : State M R) : State M R → Prop
  | own (p : Nat) (l : Loc M R) (o : Option (Nat × Msg M R)) (c : Nat → Nat → List (Msg M R)) :
      p < n → Own n p (prog p) (s.loc p) l o →
      (∀ a b, c a b = if a = p then s.chan a b ++ sent o b else s.chan a b) →
      Step n prog s ⟨set1 s.loc p l, c⟩
  | recv (p q : Nat) (m : Msg M R) (rest : List (Msg M R)) (c : Nat → Nat → List (Msg M R)) :
      p < n → q < n → (s.loc p).pc < (prog p).length → s.chan q p = m :: rest →
      (∀ a b, c a b = (if a = q ∧ b = p then rest else s.chan a b) ++
        (if a = p ∧ b = q then (recv q m (s.loc p)).2.toList else [])) →
      Step n prog s ⟨set1 s.loc p (recv q m (s.loc p)).1, c⟩

theorem step_cases {n : Nat} {prog : Nat → List (Op M R)} {p : Nat} {t : Turn} {s s' : State M R}
    (h : step n prog p t s = some s') : Step n prog s s' := by
  unfold step at h
  split at h
  · exact absurd h (by simp)
  · rename_i hp
    split at h
    · split at h
      · exact absurd h (by simp)
      · rename_i l he
        cases h
        refine .own p l none s.chan (by omega) (own_cases he) fun a b => ?_
        simp [sent]
      · rename_i l q m he
        cases h
        refine .own p l (some (q, m)) _ (by omega) (own_cases he) fun a b => ?_
        simp only [push, sent]
        by_cases e1 : a = p
        · by_cases e2 : q = b
          · simp [e1, e2]
          · have : ¬ b = q := fun x => e2 x.symm
            simp [e1, e2, this]
        · simp [e1]
    · rename_i q
      split at h
      · exact absurd h (by simp)
      · rename_i hc
        split at h
        · exact absurd h (by simp)
        · rename_i m rest hm
          split at h
          · rename_i l he
            cases h
            have e1 : l = (recv q m (s.loc p)).1 := by rw [he]
            subst e1
            refine .recv p q m rest _ (by omega) (by omega) (by omega) hm fun a b => ?_
            rw [he]
            simp only [pop]
            split
            · rename_i e; rw [e.1, e.2, hm]; simp
            · simp
          · rename_i l x he
            cases h
            have e1 : l = (recv q m (s.loc p)).1 := by rw [he]
            subst e1
            refine .recv p q m rest _ (by omega) (by omega) (by omega) hm fun a b => ?_
            rw [he]
            simp only [pop, push, Option.toList_some]
            have ht : ∀ a b, (if a = q ∧ b = p then (s.chan a b).tail else s.chan a b) = if a = q ∧ b = p then rest else s.chan a b := by
              intro a b
              split
              · rename_i e; rw [e.1, e.2, hm]; rfl
              · rfl
            rw [ht]
            split <;> simp

theorem set1_same {β : Type} (f : Nat → β) (i : Nat) (v : β) : set1 f i v i = v := by simp [set1]

theorem set1_ne {β : Type} (f : Nat → β) {i j : Nat} (v : β) (h : j ≠ i) : set1 f i v j = f j := by
  simp [set1, h]

/-! ## rmw requests, messages to oneself -/

def isRmw : Msg M R → Bool
  | .rmw .. => true
  | _ => false

def isRmwResp : Msg M R → Bool
  | .rmwResp .. => true
  | _ => false

/-- does a process wait for the answer of `b` to a read-modify-write? -/
def rwt (prog : List (Op M R)) (l : Loc M R) (b : Nat) : Nat :=
  match l.ph with
  | .rmw => if l.notify = true ∧ (prog[l.pc]?.bind Op.target) = some b then 1 else 0
  | _ => 0

theorem own_rwt {n me : Nat} {prog : List (Op M R)} {l l' : Loc M R}
    {o : Option (Nat × Msg M R)} (h : Own n me prog l l' o) (b : Nat) :
    rwt prog l' b = rwt prog l b + (sent o b).countP isRmw ∧ (sent o b).countP isRmwResp = 0 := by
  cases h with
  | rmw q f r h1 h2 =>
    by_cases e : q = b <;> simp [rwt, h1, h2, sent, e, Op.target, isRmw, isRmwResp]
  | rmwEnd h1 h2 => simp [rwt, h1, h2, sent]
  | updRem q f h1 h2 h3 => by_cases e : q = b <;> simp [rwt, h1, sent, e, isRmw, isRmwResp]
  | getRem q f h1 h2 h3 => by_cases e : q = b <;> simp [rwt, h1, sent, e, isRmw, isRmwResp]
  | fence q h1 h2 h3 h4 => by_cases e : q = b <;> simp [rwt, h1, sent, e, isRmw, isRmwResp]
  | fallSend q h1 h2 h3 h4 => by_cases e : q = b <;> simp [rwt, h1, sent, e, isRmw, isRmwResp]
  | bsend i h1 h2 h3 => by_cases e : (me + i) % n = b <;> simp [rwt, h1, sent, e, isRmw, isRmwResp]
  | brespYes k q r h1 h2 h3 => by_cases e : q = b <;> simp [rwt, h1, sent, e, isRmw, isRmwResp]
  | updSelf f h1 h2 => simp [rwt, h1, sent]
  | getSelf f h1 h2 => simp [rwt, h1, sent]
  | wait h1 => simp [rwt, h1, sent]
  | fenceSkip q h1 => simp [rwt, h1, sent]
  | fallSkip h1 => simp [rwt, h1, sent]
  | fall0 h1 => simp [rwt, h1, sent]
  | barrier h1 => simp [rwt, h1, sent]
  | fenceEnd q h1 => simp [rwt, h1, sent]
  | fallNext i h1 => simp [rwt, h1, sent]
  | fallEnd i h1 => simp [rwt, h1, sent]
  | fallwEnd h1 => simp [rwt, h1, sent]
  | bself i h1 => simp [rwt, h1, sent]
  | bsendEnd i h1 => simp [rwt, h1, sent]
  | bcoll h1 => simp [rwt, h1, sent]
  | brespKeep k q r h1 => simp [rwt, h1, sent]
  | brespEnd k h1 => simp [rwt, h1, sent]
  | brespAgain k h1 => simp [rwt, h1, sent]
  | bwaitEnd h1 => simp [rwt, h1, sent]

theorem rwt_le (prog : List (Op M R)) (l : Loc M R) (b : Nat) : rwt prog l b ≤ 1 := by
  unfold rwt; split
  · split <;> omega
  · omega

theorem rwt_unique (prog : List (Op M R)) (l : Loc M R) {q b : Nat} (h : 0 < rwt prog l q)
    (hb : b ≠ q) : rwt prog l b = 0 := by
  unfold rwt at *
  split
  · rename_i e
    rw [e] at h
    dsimp only at h
    split at h
    · rename_i h2
      rw [if_neg]
      rintro ⟨_, h3⟩
      rw [h2.2] at h3
      exact hb (Option.some.inj h3).symm
    · omega
  · rfl

theorem recv_rwt {src : Nat} {m : Msg M R} {prog : List (Op M R)} (l : Loc M R) :
    (recv src m l).2.toList.countP isRmw = 0 ∧
    (recv src m l).2.toList.countP isRmwResp = (if isRmw m then 1 else 0) ∧
    ∀ b, rwt prog (recv src m l).1 b = if isRmwResp m = true then 0 else rwt prog l b := by
  refine ⟨?_, ?_, fun b => ?_⟩
  · cases m <;> simp [recv, isRmw]
  · cases m <;> simp [recv, isRmw, isRmwResp]
  · cases m <;> simp only [isRmwResp, Bool.false_eq_true, if_false, if_true] <;> try rfl
    cases hph : l.ph <;> simp [rwt, recv, hph]

/-- what is sent goes to processes that exist; to oneself only read-modify-writes -/
theorem own_sent {n me : Nat} {prog : List (Op M R)} {l l' : Loc M R} {q : Nat} {m : Msg M R}
    (h : Own n me prog l l' (some (q, m))) (hme : me < n) (hi : LI n me prog l)
    (hv : ∀ op ∈ prog, ∀ q, op.other = some q → q < n) : q < n ∧ (q = me → isRmw m = true) := by
  cases h with
  | rmw q f r h1 h2 => exact ⟨hv _ (List.mem_of_getElem? h2) _ rfl, fun _ => rfl⟩
  | updRem q f h1 h2 h3 => exact ⟨hv _ (List.mem_of_getElem? h2) _ rfl, fun e => absurd e h3⟩
  | getRem q f h1 h2 h3 => exact ⟨hv _ (List.mem_of_getElem? h2) _ rfl, fun e => absurd e h3⟩
  | fence q h1 h2 h3 h4 => exact ⟨hv _ (List.mem_of_getElem? h2) _ rfl, fun e => absurd e h3⟩
  | fallSend q h1 h2 h3 h4 => exact ⟨h2, fun e => absurd e h3⟩
  | bsend i h1 h2 h3 => exact ⟨Nat.mod_lt _ (by omega), fun e => absurd e h3⟩
  | brespYes k q r h1 h2 h3 =>
    have : q ∈ queue l := by simp [queue, h1, h2]
    exact ⟨(hi.que q this).1, fun e => absurd e (hi.que q this).2⟩

/-! ## the order of the requests -/

def item : Msg M R → Option (Option Nat)
  | .upd k _ => some (some k)
  | .get k _ => some (some k)
  | .rmw k _ _ => some (some k)
  | .breq => some none
  | _ => none

/-- what call `k` sends to `q` -/
def callItem (me : Nat) (prog : List (Op M R)) (q k : Nat) : Option (Option Nat) :=
  match prog[k]? with
  | some (.upd q' _) => if q' = q then some (some k) else none
  | some (.get q' _) => if q' = q then some (some k) else none
  | some (.rmw q' _ _) => if q' = q then some (some k) else none
  | some .barrier => if q = me then none else some none
  | _ => none

/-- what the current call has sent to `q` -/
def extra (n me : Nat) (prog : List (Op M R)) (l : Loc M R) (q : Nat) : List (Option Nat) :=
  match l.ph with
  | .rmw => (callItem me prog q l.pc).toList
  | _ => if q ≠ me ∧ sentTo n me l q = true then [none] else []

/-- what was sent to `q` -/
def iss (n me : Nat) (prog : List (Op M R)) (l : Loc M R) (q : Nat) : List (Option Nat) :=
  (List.range l.pc).filterMap (callItem me prog q) ++ extra n me prog l q

theorem iss_recv {n me src : Nat} {m : Msg M R} {prog : List (Op M R)} (l : Loc M R) (q : Nat) :
    iss n me prog (recv src m l).1 q = iss n me prog l q := by cases m <;> rfl

theorem own_iss {n me : Nat} {prog : List (Op M R)} {l l' : Loc M R}
    {o : Option (Nat × Msg M R)} (h : Own n me prog l l' o) (hme : me < n) (hi : LI n me prog l) :
    ∃ A : List (Option Nat), l'.log = l.log ++ A.map (fun x => (me, x)) ∧
      (A ≠ [] → l.ph = .run ∧ o = none) ∧
      ∀ q, q < n → iss n me prog l' q = iss n me prog l q ++ (sent o q).filterMap item ++
        if q = me then A else [] := by
  have hph := hi.phase
  cases h with
  | updSelf f h1 h2 =>
    refine ⟨[some l.pc], rfl, fun _ => ⟨h1, rfl⟩, fun q hq => ?_⟩
    by_cases e : q = me
    · simp [iss, extra, sentTo, h1, List.range_succ, callItem, h2, sent, e]
    · have e' : ¬ me = q := fun x => e x.symm
      simp [iss, extra, sentTo, h1, List.range_succ, callItem, h2, sent, e, e']
  | getSelf f h1 h2 =>
    refine ⟨[some l.pc], rfl, fun _ => ⟨h1, rfl⟩, fun q hq => ?_⟩
    by_cases e : q = me
    · simp [iss, extra, sentTo, h1, List.range_succ, callItem, h2, sent, e]
    · have e' : ¬ me = q := fun x => e x.symm
      simp [iss, extra, sentTo, h1, List.range_succ, callItem, h2, sent, e, e']
  | updRem q' f h1 h2 h3 =>
    refine ⟨[], by simp, by simp, fun q hq => ?_⟩
    by_cases e : q' = q <;> simp [iss, extra, sentTo, h1, List.range_succ, callItem, h2, sent, e, item]
  | getRem q' f h1 h2 h3 =>
    refine ⟨[], by simp, by simp, fun q hq => ?_⟩
    by_cases e : q' = q <;> simp [iss, extra, sentTo, h1, List.range_succ, callItem, h2, sent, e, item]
  | rmw q' f r h1 h2 =>
    refine ⟨[], by simp, by simp, fun q hq => ?_⟩
    by_cases e : q' = q <;> simp [iss, extra, sentTo, h1, callItem, h2, sent, e, item]
  | wait h1 h2 =>
    refine ⟨[], by simp, by simp, fun q hq => ?_⟩
    simp [iss, extra, sentTo, h1, List.range_succ, callItem, h2, sent]
  | fenceSkip q' h1 h2 =>
    refine ⟨[], by simp, by simp, fun q hq => ?_⟩
    simp [iss, extra, sentTo, h1, List.range_succ, callItem, h2, sent]
  | fence q' h1 h2 =>
    refine ⟨[], by simp, by simp, fun q hq => ?_⟩
    by_cases e : q' = q <;> simp [iss, extra, sentTo, h1, sent, e, item]
  | fallSkip h1 h2 =>
    refine ⟨[], by simp, by simp, fun q hq => ?_⟩
    simp [iss, extra, sentTo, h1, List.range_succ, callItem, h2, sent]
  | fall0 h1 =>
    refine ⟨[], by simp, by simp, fun q hq => ?_⟩
    simp [iss, extra, sentTo, h1, sent]
  | barrier h1 =>
    refine ⟨[], by simp, by simp, fun q hq => ?_⟩
    simp [iss, extra, sentTo, h1, sent]
  | rmwEnd h1 h2 =>
    refine ⟨[], by simp, by simp, fun q hq => ?_⟩
    cases hci : callItem me prog q l.pc <;> simp [iss, extra, sentTo, h1, sent, List.range_succ, List.filterMap_cons, hci]
  | fenceEnd q' h1 h2 =>
    rw [h1] at hph
    refine ⟨[], by simp, by simp, fun q hq => ?_⟩
    simp [iss, extra, sentTo, h1, sent, List.range_succ, callItem, hph.2]
  | fallSend i h1 h2 =>
    refine ⟨[], by simp, by simp, fun q hq => ?_⟩
    by_cases e : i = q <;> simp [iss, extra, sentTo, h1, sent, e, item]
  | fallNext i h1 h2 =>
    refine ⟨[], by simp, by simp, fun q hq => ?_⟩
    simp [iss, extra, sentTo, h1, sent]
  | fallEnd i h1 h2 =>
    refine ⟨[], by simp, by simp, fun q hq => ?_⟩
    simp [iss, extra, sentTo, h1, sent]
  | fallwEnd h1 h2 =>
    rw [h1] at hph
    refine ⟨[], by simp, by simp, fun q hq => ?_⟩
    simp [iss, extra, sentTo, h1, sent, List.range_succ, callItem, hph]
  | bself i h1 h2 h3 =>
    refine ⟨[], by simp, by simp, fun q hq => ?_⟩
    have hr := (ring_eq hme h2 hme).1 h3
    have h0 := ((ring_pos hme hme).1).2 rfl
    by_cases e : q = me
    · simp [iss, extra, h1, sent, e]
    · have hne : ¬ (q + n - me) % n = 0 := fun x => e ((ring_pos hme hq).1.1 x)
      have : (decide ((q + n - me) % n < i + 1)) = decide ((q + n - me) % n < i) := by
        rw [decide_eq_decide]; omega
      simp [iss, extra, sentTo, h1, sent, this]
  | bsend i h1 h2 h3 =>
    refine ⟨[], by simp, by simp, fun q hq => ?_⟩
    have hr := ring_eq hme h2 hq
    by_cases e : (me + i) % n = q
    · have h4 := hr.1 e
      have e' : q ≠ me := by rw [← e]; exact h3
      simp [iss, extra, sentTo, h1, sent, h4, e, item, e']
    · have : ¬ (q + n - me) % n = i := fun x => e (hr.2 x)
      have : (decide ((q + n - me) % n < i + 1)) = decide ((q + n - me) % n < i) := by
        rw [decide_eq_decide]; omega
      simp [iss, extra, sentTo, h1, sent, this, e]
  | bsendEnd i h1 h2 =>
    refine ⟨[], by simp, by simp, fun q hq => ?_⟩
    have := (ring_pos hme hq).2
    have : decide ((q + n - me) % n < i) = true := by simp; omega
    simp [iss, extra, sentTo, h1, sent, this]
  | bcoll h1 h2 =>
    refine ⟨[], by simp, by simp, fun q hq => ?_⟩
    simp [iss, extra, sentTo, h1, sent]
  | brespYes kept q' rest h1 h2 h3 =>
    refine ⟨[], by simp, by simp, fun q hq => ?_⟩
    by_cases e : q' = q <;> simp [iss, extra, sentTo, h1, sent, e, item]
  | brespKeep kept q' rest h1 h2 h3 =>
    refine ⟨[], by simp, by simp, fun q hq => ?_⟩
    simp [iss, extra, sentTo, h1, sent]
  | brespEnd kept h1 h2 h3 =>
    refine ⟨[], by simp, by simp, fun q hq => ?_⟩
    simp [iss, extra, sentTo, h1, sent]
  | brespAgain kept h1 h2 h3 =>
    refine ⟨[], by simp, by simp, fun q hq => ?_⟩
    simp [iss, extra, sentTo, h1, sent]
  | bwaitEnd h1 h2 =>
    rw [h1] at hph
    refine ⟨[], by simp, by simp, fun q hq => ?_⟩
    by_cases e : q = me <;> simp [iss, extra, sentTo, h1, sent, List.range_succ, callItem, hph.1, e]

/-- the requests of `a` in a log -/
def fromLog (log : List (Nat × Option Nat)) (a : Nat) : List (Option Nat) :=
  log.filterMap fun x => if x.1 = a then some x.2 else none

theorem fromLog_append (x y : List (Nat × Option Nat)) (a : Nat) :
    fromLog (x ++ y) a = fromLog x a ++ fromLog y a := by simp [fromLog]

theorem fromLog_me (A : List (Option Nat)) (me : Nat) :
    fromLog (A.map fun x => (me, x)) me = A := by
  induction A with
  | nil => rfl
  | cons x A ih => simp only [fromLog] at ih; simp [fromLog, ih]

theorem fromLog_other (A : List (Option Nat)) {me a : Nat} (h : a ≠ me) :
    fromLog (A.map fun x => (me, x)) a = [] := by
  have h' : ¬ me = a := fun x => h x.symm
  simp [fromLog, h']

theorem recv_log {src : Nat} {m : Msg M R} (l : Loc M R) :
    (recv src m l).1.log = l.log ++ (item m).toList.map (fun x => (src, x)) ∧
    (recv src m l).2.toList.filterMap item = [] ∧
    (recv src m l).2.toList.countP isBreq = 0 ∧ (recv src m l).2.toList.countP isBresp = 0 := by
  cases m <;> simp [recv, item, isBreq, isBresp]

/-! ## the invariant on requests -/

structure GI (n : Nat) (prog : Nat → List (Op M R)) (s : State M R) : Prop where
  li : ∀ p, p < n → LI n p (prog p) (s.loc p)
  bS : ∀ p q, p < n → q < n → p ≠ q →
    cS n p (prog p) (s.loc p) q = (s.chan p q).countP isBreq + cL (s.loc q) p
  bR : ∀ p q, p < n → q < n → p ≠ q →
    cR (prog q) (s.loc q) p = (s.chan q p).countP isBresp + cT (prog p) (s.loc p) q
  self : ∀ p, p < n → ∀ m ∈ s.chan p p, isRmw m = true ∨ isRmwResp m = true
  rw : ∀ p q, p < n → q < n →
    (s.chan p q).countP isRmw + (s.chan q p).countP isRmwResp = rwt (prog p) (s.loc p) q
  fifo : ∀ p q, p < n → q < n →
    fromLog (s.loc q).log p ++ (s.chan p q).filterMap item = iss n p (prog p) (s.loc p) q

theorem GI.bresp {n : Nat} {prog : Nat → List (Op M R)} {s : State M R} (h : GI n prog s)
    {p q : Nat} (hp : p < n) (hq : q < n) {m : Msg M R} (hm : m ∈ s.chan q p)
    (hb : isBreq m = true ∨ isBresp m = true) : q ≠ p ∧ (isBresp m = true → inBar (s.loc p) = true) := by
  have hne : q ≠ p := by
    rintro rfl
    have := h.self q hq m hm
    cases m <;> simp [isBreq, isBresp, isRmw, isRmwResp] at *
  refine ⟨hne, fun hr => ?_⟩
  have h1 := h.bR p q hp hq (fun x => hne x.symm)
  have h2 := h.bS p q hp hq (fun x => hne x.symm)
  have h3 := (h.li q hq).logc p hp (fun x => hne x.symm)
  have h4 : 0 < (s.chan q p).countP isBresp := List.countP_pos_iff.2 ⟨m, hm, hr⟩
  cases hin : inBar (s.loc p)
  · exfalso
    have h5 : sentTo n p (s.loc p) q = false := by
      unfold inBar at hin
      unfold sentTo
      split at hin <;> simp_all
    simp only [cT, hin, cS, h5] at h1 h2
    simp at h1 h2
    omega
  · rfl

theorem GI.step {n : Nat} {prog : Nat → List (Op M R)} {s s' : State M R} (hv : Valid n prog)
    (h : GI n prog s) (hs : Step n prog s s') : GI n prog s' := by
  cases hs with
  | own p l o c hp ho hc =>
    have hli := h.li p hp
    have hcnt := own_counts ho hp hli
    obtain ⟨A, hA, hA', hiss⟩ := own_iss ho hp hli
    refine ⟨?_, ?_, ?_, ?_, ?_, ?_⟩
    · intro a ha
      by_cases e : a = p
      · subst e; dsimp only; rw [set1_same]; exact own_LI ho hp hli
      · dsimp only; rw [set1_ne _ _ e]; exact h.li a ha
    · intro a b ha hb hab
      dsimp only
      rw [hc]
      by_cases e : a = p
      · subst e
        rw [set1_same, set1_ne _ _ (fun x => hab x.symm), if_pos rfl, List.countP_append]
        have h1 := (hcnt b hb (fun x => hab x.symm)).1
        have h2 := h.bS a b ha hb hab
        omega
      · rw [set1_ne _ _ e, if_neg e]
        by_cases e2 : b = p
        · subst e2
          rw [set1_same, (hcnt a ha e).2.2.2.2]
          exact h.bS a b ha hb hab
        · rw [set1_ne _ _ e2]; exact h.bS a b ha hb hab
    · intro a b ha hb hab
      dsimp only
      rw [hc]
      by_cases e : b = p
      · subst e
        rw [set1_same, set1_ne _ _ hab, if_pos rfl, List.countP_append]
        have h1 := (hcnt a ha hab).2.1
        have h2 := h.bR a b ha hb hab
        omega
      · rw [set1_ne _ _ e, if_neg e]
        by_cases e2 : a = p
        · subst e2
          rw [set1_same, (hcnt b hb (fun x => hab x.symm)).2.2.2.1]
          exact h.bR a b ha hb hab
        · rw [set1_ne _ _ e2]; exact h.bR a b ha hb hab
    · intro a ha m hm
      dsimp only at hm
      rw [hc] at hm
      split at hm
      · rename_i e
        subst e
        rcases List.mem_append.1 hm with hm | hm
        · exact h.self a ha m hm
        · match o, ho, hm with
          | some (q, m'), ho, hm =>
            simp only [sent] at hm
            split at hm
            · rename_i e
              rw [List.mem_singleton.1 hm]
              exact .inl ((own_sent ho hp hli (hv a hp)).2 e)
            · exact absurd hm (by simp)
          | none, ho, hm => exact absurd hm (by simp [sent])
      · exact h.self a ha m hm
    · intro a b ha hb
      have h0 := own_rwt ho
      have h2 := h.rw a b ha hb
      dsimp only
      rw [hc, hc]
      by_cases e : a = p
      · subst e
        rw [set1_same, if_pos rfl, List.countP_append, (h0 b).1]
        by_cases e2 : b = a
        · subst e2
          rw [if_pos rfl, List.countP_append, (h0 b).2]
          omega
        · rw [if_neg e2]; omega
      · rw [set1_ne _ _ e, if_neg e]
        by_cases e2 : b = p
        · subst e2
          rw [if_pos rfl, List.countP_append, (h0 a).2]
          omega
        · rw [if_neg e2]; exact h2
    · intro a b ha hb
      have h2 := h.fifo a b ha hb
      dsimp only
      rw [hc]
      by_cases e : a = p
      · subst e
        rw [set1_same, if_pos rfl, List.filterMap_append, hiss b hb, ← h2]
        by_cases e2 : b = a
        · subst e2
          rw [set1_same, hA, fromLog_append, fromLog_me, if_pos rfl]
          by_cases e3 : A = []
          · simp [e3]
          · obtain ⟨h3, h4⟩ := hA' e3
            have h5 : s.chan b b = [] := by
              have h6 := h.rw b b ha hb
              simp only [rwt, h3] at h6
              have h7 := h.self b hb
              cases hch : s.chan b b with
              | nil => rfl
              | cons m r =>
                rw [hch] at h6 h7
                have := h7 m (by simp)
                simp only [List.countP_cons] at h6
                rcases this with h8 | h8 <;> simp [h8] at h6
            simp [h5, h4, sent]
        · rw [set1_ne _ _ e2, if_neg e2]; simp
      · rw [set1_ne _ _ e, if_neg e, ← h2]
        by_cases e2 : b = p
        · subst e2
          rw [set1_same, hA, fromLog_append, fromLog_other A e, List.append_nil]
        · rw [set1_ne _ _ e2]
  | recv p q m rest c hp hq hpc hm hc =>
    have hli := h.li p hp
    have hmem : m ∈ s.chan q p := by rw [hm]; simp
    have hb2 : isBresp m = true → inBar (s.loc p) = true := fun x => (h.bresp hp hq hmem (.inr x)).2 x
    have hb1 : isBreq m = true ∨ isBresp m = true → q ≠ p := fun x => (h.bresp hp hq hmem x).1
    obtain ⟨hlog, hans, hab1, hab2⟩ := recv_log (src := q) (m := m) (s.loc p)
    have hcnt := recv_counts (src := q) (m := m) (prog := prog p) (me := p) (s.loc p) hb2 n
    refine ⟨?_, ?_, ?_, ?_, ?_, ?_⟩
    · intro a ha
      by_cases e : a = p
      · subst e; dsimp only; rw [set1_same]; exact recv_LI hb1 hq hb2 hli
      · dsimp only; rw [set1_ne _ _ e]; exact h.li a ha
    · intro a b ha hb hab
      have h2 := h.bS a b ha hb hab
      dsimp only
      have h3 : (c a b).countP isBreq = (if a = q ∧ b = p then rest else s.chan a b).countP isBreq := by
        have hz : (if a = p ∧ b = q then (TwoSided.recv q m (s.loc p)).2.toList else []).countP isBreq = 0 := by
          split
          · exact hab1
          · rfl
        rw [hc, List.countP_append, hz, Nat.add_zero]
      rw [h3]
      by_cases e : a = p
      · subst e
        rw [set1_same, set1_ne _ _ (fun x => hab x.symm), if_neg (fun x => hab x.2.symm), (hcnt b (fun x => hab x.symm)).1]
        exact h2
      · rw [set1_ne _ _ e]
        by_cases e2 : b = p
        · subst e2
          rw [set1_same, (hcnt a e).2.2.2.2]
          by_cases e3 : a = q
          · subst e3
            rw [if_pos ⟨rfl, rfl⟩]
            rw [hm, List.countP_cons] at h2
            simp only [true_and]
            omega
          · have e4 : ¬ q = a := fun x => e3 x.symm
            rw [if_neg (fun x => e3 x.1), if_neg (fun x => e4 x.1)]
            exact h2
        · rw [set1_ne _ _ e2, if_neg (fun x => e2 x.2)]
          exact h2
    · intro a b ha hb hab
      have h2 := h.bR a b ha hb hab
      dsimp only
      have h3 : (c b a).countP isBresp = (if b = q ∧ a = p then rest else s.chan b a).countP isBresp := by
        have hz : (if b = p ∧ a = q then (TwoSided.recv q m (s.loc p)).2.toList else []).countP isBresp = 0 := by
          split
          · exact hab2
          · rfl
        rw [hc, List.countP_append, hz, Nat.add_zero]
      rw [h3]
      by_cases e : b = p
      · subst e
        rw [set1_same, set1_ne _ _ hab, if_neg (fun x => hab x.2), (hcnt a hab).2.1]
        exact h2
      · rw [set1_ne _ _ e]
        by_cases e2 : a = p
        · subst e2
          rw [set1_same, (hcnt b e).2.2.2.1]
          by_cases e3 : b = q
          · subst e3
            rw [if_pos ⟨rfl, rfl⟩]
            rw [hm, List.countP_cons] at h2
            simp only [true_and]
            omega
          · have e4 : ¬ q = b := fun x => e3 x.symm
            rw [if_neg (fun x => e3 x.1), if_neg (fun x => e4 x.1)]
            exact h2
        · rw [set1_ne _ _ e2, if_neg (fun x => e2 x.2)]
          exact h2
    · intro a ha x hx
      dsimp only at hx
      rw [hc] at hx
      rcases List.mem_append.1 hx with hy | hy
      · by_cases e : a = q ∧ a = p
        · rw [if_pos e] at hy
          have : a = q := e.1
          subst this
          have : a = p := e.2
          subst this
          exact h.self a ha x (by rw [hm]; exact List.mem_cons_of_mem _ hy)
        · rw [if_neg e] at hy
          exact h.self a ha x hy
      · clear hc
        split at hy
        · rename_i e
          have h4 : a = q := e.2
          have h5 : a = p := e.1
          subst h4; subst h5
          have := h.self a ha m hmem
          cases m <;> simp [isRmw, isRmwResp] at this <;> simp [recv] at hy
          rw [hy]; exact .inr rfl
        · exact absurd hy (by simp)
    · intro a b ha hb
      have h2 := h.rw a b ha hb
      dsimp only
      obtain ⟨hr1, hr2, hr3⟩ := recv_rwt (src := q) (m := m) (prog := prog p) (s.loc p)
      have hqp := h.rw p q hp hq
      have h3 : (c a b).countP isRmw = (if a = q ∧ b = p then rest else s.chan a b).countP isRmw := by
        have hz : (if a = p ∧ b = q then (TwoSided.recv q m (s.loc p)).2.toList else []).countP isRmw = 0 := by
          split
          · exact hr1
          · rfl
        rw [hc, List.countP_append, hz, Nat.add_zero]
      have h4 : (c b a).countP isRmwResp = (if b = q ∧ a = p then rest else s.chan b a).countP isRmwResp +
          (if b = p ∧ a = q then (if isRmw m then 1 else 0) else 0) := by
        have hz : (if b = p ∧ a = q then (TwoSided.recv q m (s.loc p)).2.toList else []).countP isRmwResp = if b = p ∧ a = q then (if isRmw m then 1 else 0) else 0 := by
          split
          · exact hr2
          · rfl
        rw [hc, List.countP_append, hz]
      have h5 : rwt (prog a) (set1 s.loc p (TwoSided.recv q m (s.loc p)).1 a) b =
          if a = p ∧ isRmwResp m = true then 0 else rwt (prog a) (s.loc a) b := by
        by_cases e : a = p
        · subst e; rw [set1_same, hr3]; simp
        · rw [set1_ne _ _ e, if_neg (fun x => e x.1)]
      rw [h3, h4, h5]
      have hrm : ∀ _ : Nat, (rest.countP isRmw + if isRmw m = true then 1 else 0) = (s.chan q p).countP isRmw ∧
          (rest.countP isRmwResp + if isRmwResp m = true then 1 else 0) = (s.chan q p).countP isRmwResp := by
        intro _; rw [hm, List.countP_cons, List.countP_cons]; exact ⟨rfl, rfl⟩
      have hrm1 := (hrm 0).1
      have hrm2 := (hrm 0).2
      have hu := rwt_le (prog p) (s.loc p) q
      have hu2 := rwt_unique (prog p) (s.loc p) (q := q) (b := b)
      by_cases e1 : a = q ∧ b = p
      · obtain ⟨ea, eb⟩ := e1
        subst ea; subst eb
        simp only [and_self, if_true]
        by_cases e2 : b = a
        · subst e2
          simp only [and_self, if_true, true_and]
          by_cases em : isRmwResp m = true
          · rw [if_pos em] at hrm2 ⊢; omega
          · rw [if_neg em] at hrm2 ⊢; omega
        · have e3 : ¬ a = b := fun x => e2 x.symm
          simp only [e2, e3, false_and, if_false]
          omega
      · rw [if_neg e1, if_neg (c := b = p ∧ a = q) (fun x => e1 ⟨x.2, x.1⟩)]
        by_cases e2 : b = q ∧ a = p
        · obtain ⟨ea, eb⟩ := e2
          subst ea; subst eb
          simp only [and_self, if_true, true_and]
          by_cases em : isRmwResp m = true
          · rw [if_pos em] at hrm2 ⊢; omega
          · rw [if_neg em] at hrm2 ⊢; omega
        · rw [if_neg e2]
          by_cases e3 : a = p ∧ isRmwResp m = true
          · rw [if_pos e3]
            obtain ⟨ea, em⟩ := e3
            subst ea
            rw [em, if_pos rfl] at hrm2
            have := hu2 (by omega) (fun x => e2 ⟨x, rfl⟩)
            omega
          · rw [if_neg e3]; omega
    · intro a b ha hb
      have h2 := h.fifo a b ha hb
      dsimp only
      have h3 : (c a b).filterMap item = (if a = q ∧ b = p then rest else s.chan a b).filterMap item := by
        have hz : (if a = p ∧ b = q then (TwoSided.recv q m (s.loc p)).2.toList else []).filterMap item = [] := by
          split
          · exact hans
          · rfl
        rw [hc, List.filterMap_append, hz, List.append_nil]
      have h4 : iss n a (prog a) (set1 s.loc p (TwoSided.recv q m (s.loc p)).1 a) b = iss n a (prog a) (s.loc a) b := by
        by_cases e : a = p
        · subst e; rw [set1_same, iss_recv]
        · rw [set1_ne _ _ e]
      rw [h3, h4, ← h2]
      by_cases e2 : b = p
      · subst e2
        rw [set1_same, hlog, fromLog_append]
        by_cases e3 : a = q
        · subst e3
          rw [if_pos ⟨rfl, rfl⟩, hm, fromLog_me]
          cases hi : item m <;> simp [List.filterMap_cons, hi]
        · rw [if_neg (fun x => e3 x.1), fromLog_other _ e3, List.append_nil]
      · rw [set1_ne _ _ e2, if_neg (fun x => e2 x.2)]

end GA.TwoSided
