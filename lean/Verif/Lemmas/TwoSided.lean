import Verif.Model.TwoSided

/-! # Lemmas on the port over two-sided MPI: the local steps -/

namespace GA.TwoSided

open GA.Spec.Rma

variable {M R : Type}

/-- The cases of `own`. -/
inductive Own (n me : Nat) (prog : List (Op M R)) : Loc M R → Loc M R → Option (Nat × Msg M R) → Prop
  | updSelf (l : Loc M R) (f) : l.ph = .run → prog[l.pc]? = some (.upd me f) →
      Own n me prog l { l with mem := f l.mem, log := l.log ++ [(me, some l.pc)], pc := l.pc + 1 } none
  | updRem (l : Loc M R) (q f) : l.ph = .run → prog[l.pc]? = some (.upd q f) → q ≠ me →
      Own n me prog l { l with flag := set1 l.flag q true, pc := l.pc + 1 } (some (q, .upd l.pc f))
  | getSelf (l : Loc M R) (r) : l.ph = .run → prog[l.pc]? = some (.get me r) →
      Own n me prog l { l with rep := set1 l.rep l.pc (some (r l.mem)), log := l.log ++ [(me, some l.pc)], pc := l.pc + 1 } none
  | getRem (l : Loc M R) (q r) : l.ph = .run → prog[l.pc]? = some (.get q r) → q ≠ me →
      Own n me prog l { l with gq := l.gq ++ [l.pc], pc := l.pc + 1 } (some (q, .get l.pc r))
  | rmw (l : Loc M R) (q f r) : l.ph = .run → prog[l.pc]? = some (.rmw q f r) →
      Own n me prog l { l with notify := true, ph := .rmw } (some (q, .rmw l.pc f r))
  | wait (l : Loc M R) : l.ph = .run → prog[l.pc]? = some .wait → l.gq = [] →
      Own n me prog l { l with pc := l.pc + 1 } none
  | fenceSkip (l : Loc M R) (q) : l.ph = .run → prog[l.pc]? = some (.fence q) →
      (q = me ∨ l.flag q = false) → Own n me prog l { l with pc := l.pc + 1 } none
  | fence (l : Loc M R) (q) : l.ph = .run → prog[l.pc]? = some (.fence q) →
      q ≠ me → l.flag q = true →
      Own n me prog l { l with cnt := 1, ph := .fence q } (some (q, .freq))
  | fallSkip (l : Loc M R) : l.ph = .run → prog[l.pc]? = some .fenceAll → countN l.flag n = 0 →
      Own n me prog l { l with pc := l.pc + 1 } none
  | fall0 (l : Loc M R) : l.ph = .run → prog[l.pc]? = some .fenceAll →
      Own n me prog l { l with cnt := countN l.flag n, ph := .fall 0 } none
  | barrier (l : Loc M R) : l.ph = .run → prog[l.pc]? = some .barrier →
      Own n me prog l { l with reqm := fun _ => false, resm := fun _ => 0, ph := .bsend 0 } none
  | rmwEnd (l : Loc M R) : l.ph = .rmw → l.notify = false →
      Own n me prog l { l with ph := .run, pc := l.pc + 1 } none
  | fenceEnd (l : Loc M R) (q) : l.ph = .fence q → l.cnt = 0 →
      Own n me prog l { l with flag := set1 l.flag q false, ph := .run, pc := l.pc + 1 } none
  | fallSend (l : Loc M R) (i) : l.ph = .fall i → i < n → i ≠ me → l.flag i = true →
      Own n me prog l { l with ph := .fall (i + 1) } (some (i, .freq))
  | fallNext (l : Loc M R) (i) : l.ph = .fall i → i < n → (i = me ∨ l.flag i = false) →
      Own n me prog l { l with ph := .fall (i + 1) } none
  | fallEnd (l : Loc M R) (i) : l.ph = .fall i → n ≤ i →
      Own n me prog l { l with ph := .fallw } none
  | fallwEnd (l : Loc M R) : l.ph = .fallw → l.cnt = 0 →
      Own n me prog l { l with flag := fun _ => false, ph := .run, pc := l.pc + 1 } none
  | bself (l : Loc M R) (i) : l.ph = .bsend i → i < n → (me + i) % n = me →
      Own n me prog l { l with reqm := set1 l.reqm me true, ph := .bsend (i + 1) } none
  | bsend (l : Loc M R) (i) : l.ph = .bsend i → i < n → (me + i) % n ≠ me →
      Own n me prog l { l with ph := .bsend (i + 1) } (some ((me + i) % n, .breq))
  | bsendEnd (l : Loc M R) (i) : l.ph = .bsend i → n ≤ i →
      Own n me prog l { l with ph := .bcoll } none
  | bcoll (l : Loc M R) : l.ph = .bcoll →
      countN (fun q => l.reqm q || l.bq.contains q) n = n →
      Own n me prog l { l with reqm := set1 (fun q => l.reqm q || l.bq.contains q) me false, resm := set1 l.resm me 1, ph := .bresp [] } none
  | brespYes (l : Loc M R) (kept q rest) : l.ph = .bresp kept → l.bq = q :: rest → l.reqm q = true →
      Own n me prog l { l with reqm := set1 l.reqm q false, bq := rest } (some (q, .bresp))
  | brespKeep (l : Loc M R) (kept q rest) : l.ph = .bresp kept → l.bq = q :: rest →
      l.reqm q = false →
      Own n me prog l { l with bq := rest, ph := .bresp (kept ++ [q]) } none
  | brespEnd (l : Loc M R) (kept) : l.ph = .bresp kept → l.bq = [] → countN l.reqm n = 0 →
      Own n me prog l { l with bq := kept, ph := .bwait } none
  | brespAgain (l : Loc M R) (kept) : l.ph = .bresp kept → l.bq = [] → countN l.reqm n ≠ 0 →
      Own n me prog l { l with bq := kept, ph := .bresp [] } none
  | bwaitEnd (l : Loc M R) : l.ph = .bwait → countN (fun q => l.resm q == 1) n = n →
      Own n me prog l { l with ph := .run, pc := l.pc + 1 } none

theorem own_cases {n me : Nat} {prog : List (Op M R)} {l l' : Loc M R} {o : Option (Nat × Msg M R)}
    (h : own n me prog l = some (l', o)) : Own n me prog l l' o := by
  unfold own at h
  split at h
  · rename_i hph
    split at h
    · exact absurd h (by simp)
    · rename_i q f hp
      split at h
      · rename_i e; subst e; cases h; exact .updSelf l f hph hp
      · rename_i e; cases h; exact .updRem l q f hph hp e
    · rename_i q r hp
      split at h
      · rename_i e; subst e; cases h; exact .getSelf l r hph hp
      · rename_i e; cases h; exact .getRem l q r hph hp e
    · rename_i q f r hp; cases h; exact .rmw l q f r hph hp
    · rename_i hp
      split at h
      · rename_i e; cases h; exact .wait l hph hp e
      · exact absurd h (by simp)
    · rename_i q hp
      split at h
      · rename_i e; cases h; exact .fenceSkip l q hph hp e
      · rename_i e
        cases h
        refine .fence l q hph hp (fun x => e (.inl x)) ?_
        cases hf : l.flag q
        · exact absurd (.inr hf) e
        · rfl
    · rename_i hp
      split at h
      · rename_i e; cases h; exact .fallSkip l hph hp e
      · cases h; exact .fall0 l hph hp
    · rename_i hp; cases h; exact .barrier l hph hp
  · rename_i hph
    split at h
    · exact absurd h (by simp)
    · rename_i e; cases h; exact .rmwEnd l hph (by simpa using e)
  · rename_i q hph
    split at h
    · exact absurd h (by simp)
    · rename_i e; cases h; exact .fenceEnd l q hph (by omega)
  · rename_i i hph
    split at h
    · rename_i e
      by_cases hc : i ≠ me ∧ l.flag i = true
      · rw [if_pos hc] at h; cases h; exact .fallSend l i hph e hc.1 hc.2
      · rw [if_neg hc] at h; cases h
        refine .fallNext l i hph e ?_
        by_cases h1 : i = me
        · exact .inl h1
        · cases hf : l.flag i
          · exact .inr rfl
          · exact absurd ⟨h1, hf⟩ hc
    · rename_i e; cases h; exact .fallEnd l i hph (by omega)
  · rename_i hph
    split at h
    · exact absurd h (by simp)
    · rename_i e; cases h; exact .fallwEnd l hph (by omega)
  · rename_i i hph
    split at h
    · rename_i e
      split at h
      · rename_i e2; cases h; exact .bself l i hph e e2
      · rename_i e2; cases h; exact .bsend l i hph e e2
    · rename_i e; cases h; exact .bsendEnd l i hph (by omega)
  · rename_i hph
    dsimp only at h
    split at h
    · rename_i e; cases h; exact .bcoll l hph e
    · exact absurd h (by simp)
  · rename_i kept hph
    split at h
    · rename_i q rest hb
      split at h
      · rename_i e; cases h; exact .brespYes l kept q rest hph hb e
      · rename_i e; cases h; exact .brespKeep l kept q rest hph hb (by simpa using e)
    · rename_i hb
      split at h
      · rename_i e; cases h; exact .brespEnd l kept hph hb e
      · rename_i e; cases h; exact .brespAgain l kept hph hb e
  · rename_i hph
    split at h
    · rename_i e; cases h; exact .bwaitEnd l hph e
    · exact absurd h (by simp)

theorem countN_le (b : Nat → Bool) : ∀ n, countN b n ≤ n
  | 0 => Nat.le_refl _
  | n + 1 => by have := countN_le b n; simp only [countN]; split <;> omega

theorem countN_full {b : Nat → Bool} : ∀ {n : Nat}, countN b n = n → ∀ q, q < n → b q = true
  | 0, _, q, hq => absurd hq (by omega)
  | n + 1, h, q, hq => by
      have := countN_le b n
      simp only [countN] at h
      split at h
      · rename_i hb
        by_cases e : q = n
        · rw [e]; exact hb
        · exact countN_full (n := n) (by omega) q (by omega)
      · omega

theorem countN_zero {b : Nat → Bool} : ∀ {n : Nat}, countN b n = 0 → ∀ q, q < n → b q = false
  | 0, _, q, hq => absurd hq (by omega)
  | n + 1, h, q, hq => by
      simp only [countN] at h
      split at h
      · omega
      · rename_i hb
        by_cases e : q = n
        · rw [e]; simpa using hb
        · exact countN_zero (n := n) (by omega) q (by omega)

theorem countN_none {b : Nat → Bool} : ∀ {n : Nat}, (∀ q, q < n → b q = false) → countN b n = 0
  | 0, _ => rfl
  | n + 1, h => by
      simp only [countN]
      rw [countN_none fun q hq => h q (by omega), h n (by omega)]
      rfl

theorem countN_all {b : Nat → Bool} : ∀ {n : Nat}, (∀ q, q < n → b q = true) → countN b n = n
  | 0, _ => rfl
  | n + 1, h => by
      simp only [countN]
      rw [countN_all fun q hq => h q (by omega), h n (by omega)]
      rfl

/-- the ring: the position of `q` seen from `me` -/
theorem ring_eq {n me i q : Nat} (hm : me < n) (hi : i < n) (hq : q < n) :
    (me + i) % n = q ↔ (q + n - me) % n = i := by
  by_cases h1 : me + i < n
  · rw [Nat.mod_eq_of_lt h1]
    by_cases h2 : q < me
    · rw [Nat.mod_eq_of_lt (show q + n - me < n by omega)]; omega
    · have : q + n - me = (q - me) + n := by omega
      rw [this, Nat.add_mod_right, Nat.mod_eq_of_lt (show q - me < n by omega)]; omega
  · have e : me + i = (me + i - n) + n := by omega
    rw [e, Nat.add_mod_right, Nat.mod_eq_of_lt (show me + i - n < n by omega)]
    by_cases h2 : q < me
    · rw [Nat.mod_eq_of_lt (show q + n - me < n by omega)]; omega
    · have : q + n - me = (q - me) + n := by omega
      rw [this, Nat.add_mod_right, Nat.mod_eq_of_lt (show q - me < n by omega)]; omega

theorem ring_pos {n me q : Nat} (hm : me < n) (hq : q < n) :
    ((q + n - me) % n = 0 ↔ q = me) ∧ (q + n - me) % n < n := by
  refine ⟨?_, Nat.mod_lt _ (by omega)⟩
  have := ring_eq (i := 0) hm (by omega) hq
  rw [Nat.add_zero, Nat.mod_eq_of_lt hm] at this
  constructor
  · intro h; exact (this.2 h).symm
  · intro h; exact this.1 h.symm

/-! ## counters -/

theorem bars_succ {prog : List (Op M R)} {m : Nat} {op : Op M R} (h : prog[m]? = some op) :
    bars prog (m + 1) = bars prog m + if op.isBarrier then 1 else 0 := by
  unfold bars
  rw [List.take_succ, h, Option.toList_some, List.filter_append, List.length_append]
  congr 1
  cases hb : op.isBarrier <;> simp [hb]

/-- has the request of the current barrier gone to `q`? -/
def sentTo (n me : Nat) (l : Loc M R) (q : Nat) : Bool :=
  match l.ph with
  | .bsend i => decide ((q + n - me) % n < i)
  | .bcoll => true
  | .bresp _ => true
  | .bwait => true
  | _ => false

/-- has the response of the current barrier gone to `q`? -/
def respTo (l : Loc M R) (q : Nat) : Bool :=
  match l.ph with
  | .bresp _ => !l.reqm q
  | .bwait => true
  | _ => false

def inBar (l : Loc M R) : Bool :=
  match l.ph with
  | .bsend _ => true
  | .bcoll => true
  | .bresp _ => true
  | .bwait => true
  | _ => false

def queue (l : Loc M R) : List Nat :=
  match l.ph with
  | .bresp kept => kept ++ l.bq
  | _ => l.bq

/-- requests sent to `q` -/
def cS (n me : Nat) (prog : List (Op M R)) (l : Loc M R) (q : Nat) : Nat :=
  bars prog l.pc + if sentTo n me l q then 1 else 0

/-- responses sent to `q` -/
def cR (prog : List (Op M R)) (l : Loc M R) (q : Nat) : Nat :=
  bars prog l.pc + if respTo l q then 1 else 0

/-- responses of `q` received -/
def cT (prog : List (Op M R)) (l : Loc M R) (q : Nat) : Nat :=
  bars prog l.pc + if inBar l then l.resm q else 0

/-- requests of `q` in the queue -/
def cQ (l : Loc M R) (q : Nat) : Nat := (queue l).count q

/-- requests of `q` in the log -/
def cL (l : Loc M R) (q : Nat) : Nat := l.log.count (q, none)

/-- what is sent to `q` -/
def sent (o : Option (Nat × Msg M R)) (q : Nat) : List (Msg M R) :=
  match o with
  | none => []
  | some (q', m) => if q' = q then [m] else []

def isBreq : Msg M R → Bool
  | .breq => true
  | _ => false

def isBresp : Msg M R → Bool
  | .bresp => true
  | _ => false

structure LI (n me : Nat) (prog : List (Op M R)) (l : Loc M R) : Prop where
  phase : match l.ph with
    | .run => True
    | .rmw => ∃ q f r, prog[l.pc]? = some (.rmw q f r)
    | .fence q => q ≠ me ∧ prog[l.pc]? = some (.fence q)
    | .fall _ => prog[l.pc]? = some .fenceAll
    | .fallw => prog[l.pc]? = some .fenceAll
    | .bsend i => prog[l.pc]? = some .barrier ∧ i ≤ n ∧ ∀ q, l.reqm q = decide (q = me ∧ 0 < i)
    | .bcoll => prog[l.pc]? = some .barrier ∧ ∀ q, l.reqm q = decide (q = me)
    | .bresp _ => prog[l.pc]? = some .barrier ∧ l.resm me = 1 ∧
        ∀ q, l.reqm q = true → q ≠ me ∧ q ∈ l.bq
    | .bwait => prog[l.pc]? = some .barrier ∧ l.resm me = 1
  que : ∀ x ∈ queue l, x < n ∧ x ≠ me
  logc : ∀ q, q < n → q ≠ me → cL l q = cQ l q + cR prog l q

theorem own_counts {n me : Nat} {prog : List (Op M R)} {l l' : Loc M R}
    {o : Option (Nat × Msg M R)} (h : Own n me prog l l' o) (hme : me < n) (hi : LI n me prog l) :
    ∀ q, q < n → q ≠ me →
      cS n me prog l' q = cS n me prog l q + (sent o q).countP isBreq ∧
      cR prog l' q = cR prog l q + (sent o q).countP isBresp ∧
      cQ l' q + cR prog l' q = cQ l q + cR prog l q ∧
      cT prog l' q = cT prog l q ∧ cL l' q = cL l q := by
  intro q hq hqm
  have hph := hi.phase
  cases h with
  | updSelf f h1 h2 =>
    simp [cS, cR, cQ, cT, cL, sentTo, respTo, queue, inBar, sent, h1, bars_succ h2, Op.isBarrier, List.count_append]
  | updRem q' f h1 h2 h3 =>
    have : ∀ x : Bool, (if q' = q then [Msg.upd (R := R) l.pc f] else []).countP isBreq = 0 ∧ (if q' = q then [Msg.upd (R := R) l.pc f] else []).countP isBresp = 0 := by
      intro x; split <;> simp [isBreq, isBresp]
    simp [cS, cR, cQ, cT, cL, sentTo, respTo, queue, inBar, sent, h1, bars_succ h2, Op.isBarrier, (this true).1, (this true).2]
  | getSelf r h1 h2 =>
    simp [cS, cR, cQ, cT, cL, sentTo, respTo, queue, inBar, sent, h1, bars_succ h2, Op.isBarrier, List.count_append]
  | getRem q' r h1 h2 h3 =>
    simp only [cS, cR, cQ, cT, cL, sentTo, respTo, queue, inBar, sent, h1, bars_succ h2, Op.isBarrier]
    by_cases e : q' = q <;> simp [e, isBreq, isBresp]
  | rmw q' f r h1 h2 =>
    simp only [cS, cR, cQ, cT, cL, sentTo, respTo, queue, inBar, sent, h1]
    by_cases e : q' = q <;> simp [e, isBreq, isBresp]
  | wait h1 h2 h3 =>
    simp [cS, cR, cQ, cT, cL, sentTo, respTo, queue, inBar, sent, h1, bars_succ h2, Op.isBarrier]
  | fenceSkip q' h1 h2 h3 =>
    simp [cS, cR, cQ, cT, cL, sentTo, respTo, queue, inBar, sent, h1, bars_succ h2, Op.isBarrier]
  | fence q' h1 h2 h3 h4 =>
    simp only [cS, cR, cQ, cT, cL, sentTo, respTo, queue, inBar, sent, h1]
    by_cases e : q' = q <;> simp [e, isBreq, isBresp]
  | fallSkip h1 h2 h3 =>
    simp [cS, cR, cQ, cT, cL, sentTo, respTo, queue, inBar, sent, h1, bars_succ h2, Op.isBarrier]
  | fall0 h1 h2 =>
    simp [cS, cR, cQ, cT, cL, sentTo, respTo, queue, inBar, sent, h1]
  | barrier h1 h2 =>
    simp [cS, cR, cQ, cT, cL, sentTo, respTo, queue, inBar, sent, h1]
  | rmwEnd h1 h2 =>
    rw [h1] at hph
    obtain ⟨_, _, _, hp⟩ := hph
    simp [cS, cR, cQ, cT, cL, sentTo, respTo, queue, inBar, sent, h1, bars_succ hp, Op.isBarrier]
  | fenceEnd q' h1 h2 =>
    rw [h1] at hph
    simp [cS, cR, cQ, cT, cL, sentTo, respTo, queue, inBar, sent, h1, bars_succ hph.2, Op.isBarrier]
  | fallSend i h1 h2 h3 h4 =>
    simp only [cS, cR, cQ, cT, cL, sentTo, respTo, queue, inBar, sent, h1]
    by_cases e : i = q <;> simp [e, isBreq, isBresp]
  | fallNext i h1 h2 h3 =>
    simp [cS, cR, cQ, cT, cL, sentTo, respTo, queue, inBar, sent, h1]
  | fallEnd i h1 h2 =>
    simp [cS, cR, cQ, cT, cL, sentTo, respTo, queue, inBar, sent, h1]
  | fallwEnd h1 h2 =>
    rw [h1] at hph
    simp [cS, cR, cQ, cT, cL, sentTo, respTo, queue, inBar, sent, h1, bars_succ hph, Op.isBarrier]
  | bself i h1 h2 h3 =>
    have hr := (ring_eq hme h2 hme).1 h3
    have h0 := ((ring_pos hme hme).1).2 rfl
    have hne : ¬ (q + n - me) % n = 0 := fun x => hqm ((ring_pos hme hq).1.1 x)
    have : (decide ((q + n - me) % n < i + 1)) = decide ((q + n - me) % n < i) := by
      rw [decide_eq_decide]; omega
    simp [cS, cR, cQ, cT, cL, sentTo, respTo, queue, inBar, sent, h1, this]
  | bsend i h1 h2 h3 =>
    have hr := ring_eq hme h2 hq
    simp only [cS, cR, cQ, cT, cL, sentTo, respTo, queue, inBar, sent, h1]
    by_cases e : (me + i) % n = q
    · have := hr.1 e
      simp [e, isBreq, isBresp, this]
    · have : ¬ (q + n - me) % n = i := fun x => e (hr.2 x)
      have : (decide ((q + n - me) % n < i + 1)) = decide ((q + n - me) % n < i) := by
        rw [decide_eq_decide]; omega
      simp [e, this]
  | bsendEnd i h1 h2 =>
    have := (ring_pos hme hq).2
    have : decide ((q + n - me) % n < i) = true := by simp; omega
    simp [cS, cR, cQ, cT, cL, sentTo, respTo, queue, inBar, sent, h1, this]
  | bcoll h1 h2 =>
    have := countN_full h2 q hq
    simp [cS, cR, cQ, cT, cL, sentTo, respTo, queue, inBar, sent, h1, set1, hqm]
    intro hf
    simpa [hf] using this
  | brespYes kept q' rest h1 h2 h3 =>
    simp only [cS, cR, cQ, cT, cL, sentTo, respTo, queue, inBar, sent, h1, h2]
    by_cases e : q' = q
    · subst e
      simp [set1, h3, isBreq, isBresp, List.count_append]
      omega
    · have e' : ¬ q = q' := fun x => e x.symm
      simp [set1, e, e', List.count_append, List.count_cons]
  | brespKeep kept q' rest h1 h2 h3 =>
    simp [cS, cR, cQ, cT, cL, sentTo, respTo, queue, inBar, sent, h1, h2]
  | brespEnd kept h1 h2 h3 =>
    have := countN_zero h3 q hq
    simp [cS, cR, cQ, cT, cL, sentTo, respTo, queue, inBar, sent, h1, h2, this]
  | brespAgain kept h1 h2 h3 =>
    simp [cS, cR, cQ, cT, cL, sentTo, respTo, queue, inBar, sent, h1, h2]
  | bwaitEnd h1 h2 =>
    rw [h1] at hph
    have := countN_full h2 q hq
    have : l.resm q = 1 := by simpa using this
    simp [cS, cR, cQ, cT, cL, sentTo, respTo, queue, inBar, sent, h1, bars_succ hph.1, Op.isBarrier, this]

theorem own_LI {n me : Nat} {prog : List (Op M R)} {l l' : Loc M R}
    {o : Option (Nat × Msg M R)} (h : Own n me prog l l' o) (hme : me < n) (hi : LI n me prog l) :
    LI n me prog l' := by
  have hc := own_counts h hme hi
  have hlog : ∀ q, q < n → q ≠ me → cL l' q = cQ l' q + cR prog l' q := by
    intro q hq hqm
    have h1 := hc q hq hqm
    have h2 := hi.logc q hq hqm
    omega
  have hph := hi.phase
  have hque := hi.que
  refine ⟨?_, ?_, hlog⟩
  · cases h with
    | updSelf f h1 h2 => simp [h1]
    | updRem q' f h1 h2 h3 => simp [h1]
    | getSelf r h1 h2 => simp [h1]
    | getRem q' r h1 h2 h3 => simp [h1]
    | rmw q' f r h1 h2 => exact ⟨q', f, r, h2⟩
    | wait h1 h2 h3 => simp [h1]
    | fenceSkip q' h1 h2 h3 => simp [h1]
    | fence q' h1 h2 h3 h4 => exact ⟨h3, h2⟩
    | fallSkip h1 h2 h3 => simp [h1]
    | fall0 h1 h2 => exact h2
    | barrier h1 h2 => exact ⟨h2, by omega, by simp⟩
    | rmwEnd h1 h2 => trivial
    | fenceEnd q' h1 h2 => trivial
    | fallSend i h1 h2 h3 h4 => rw [h1] at hph; exact hph
    | fallNext i h1 h2 h3 => rw [h1] at hph; exact hph
    | fallEnd i h1 h2 => rw [h1] at hph; exact hph
    | fallwEnd h1 h2 => trivial
    | bself i h1 h2 h3 =>
      rw [h1] at hph
      refine ⟨hph.1, by omega, fun q => ?_⟩
      simp only [set1]
      split
      · rename_i e; simp [e]
      · rename_i e; rw [hph.2.2 q]; simp [e]
    | bsend i h1 h2 h3 =>
      rw [h1] at hph
      refine ⟨hph.1, by omega, fun q => ?_⟩
      have : i ≠ 0 := by
        rintro rfl
        rw [Nat.add_zero, Nat.mod_eq_of_lt hme] at h3
        exact h3 rfl
      dsimp only
      rw [hph.2.2 q, decide_eq_decide]
      omega
    | bsendEnd i h1 h2 =>
      rw [h1] at hph
      refine ⟨hph.1, fun q => ?_⟩
      dsimp only
      rw [hph.2.2 q, decide_eq_decide]
      omega
    | bcoll h1 h2 =>
      rw [h1] at hph
      refine ⟨hph.1, by simp [set1], fun q hq => ?_⟩
      simp only [set1] at hq
      split at hq
      · exact absurd hq (by simp)
      · rename_i e
        rw [hph.2 q] at hq
        exact ⟨e, by simpa [e] using hq⟩
    | brespYes kept q' rest h1 h2 h3 =>
      rw [h1] at hph
      dsimp only
      rw [h1]
      refine ⟨hph.1, hph.2.1, fun q hq => ?_⟩
      simp only [set1] at hq
      split at hq
      · exact absurd hq (by simp)
      · rename_i e
        have := hph.2.2 q hq
        rw [h2] at this
        simpa [e] using this
    | brespKeep kept q' rest h1 h2 h3 =>
      rw [h1] at hph
      refine ⟨hph.1, hph.2.1, fun q hq => ?_⟩
      have := hph.2.2 q hq
      rw [h2] at this
      have e : q ≠ q' := by rintro rfl; dsimp only at hq; rw [h3] at hq; exact absurd hq (by simp)
      simpa [e] using this
    | brespEnd kept h1 h2 h3 => rw [h1] at hph; exact ⟨hph.1, hph.2.1⟩
    | brespAgain kept h1 h2 h3 =>
      rw [h1] at hph
      refine ⟨hph.1, hph.2.1, fun q hq => ?_⟩
      have := hph.2.2 q hq
      rw [h2] at this
      exact absurd this.2 (by simp)
    | bwaitEnd h1 h2 => trivial
  · cases h <;> simp_all [queue] <;> grind

/-- a message that arrives -/
theorem recv_counts {me src : Nat} {m : Msg M R} {prog : List (Op M R)} (l : Loc M R)
    (hb : isBresp m = true → inBar l = true) (n : Nat) :
    ∀ q, q ≠ me →
      cS n me prog (recv src m l).1 q = cS n me prog l q ∧
      cR prog (recv src m l).1 q = cR prog l q ∧
      cQ (recv src m l).1 q = cQ l q + (if src = q ∧ isBreq m then 1 else 0) ∧
      cT prog (recv src m l).1 q = cT prog l q + (if src = q ∧ isBresp m then 1 else 0) ∧
      cL (recv src m l).1 q = cL l q + (if src = q ∧ isBreq m then 1 else 0) := by
  intro q hqm
  cases m with
  | breq =>
    refine ⟨rfl, rfl, ?_, (by simp only [isBreq, isBresp, Bool.false_eq_true, and_false, if_false, Nat.add_zero]; rfl), ?_⟩
    · have : queue (recv src (Msg.breq (M := M) (R := R)) l).1 = queue l ++ [src] := by
        cases hph : l.ph <;> simp [recv, queue, hph]
      simp only [cQ, this]
      by_cases e : src = q <;> simp [isBreq, e, List.count_cons]
    · by_cases e : src = q <;> simp [cL, recv, isBreq, e, List.count_cons]
  | bresp =>
    refine ⟨rfl, rfl, (by simp only [isBreq, isBresp, Bool.false_eq_true, and_false, if_false, Nat.add_zero]; rfl), ?_, (by simp only [isBreq, isBresp, Bool.false_eq_true, and_false, if_false, Nat.add_zero]; rfl)⟩
    have h1 := hb rfl
    have h2 : inBar (recv src (Msg.bresp (M := M) (R := R)) l).1 = true := h1
    simp only [cT, h1, h2, if_true]
    by_cases e : src = q
    · subst e
      simp [recv, isBresp, set1, Nat.add_assoc]
    · have e' : ¬ q = src := fun x => e x.symm
      simp [recv, set1, e, e']
  | upd k f =>
    refine ⟨rfl, rfl, (by simp only [isBreq, isBresp, Bool.false_eq_true, and_false, if_false, Nat.add_zero]; rfl), (by simp only [isBreq, isBresp, Bool.false_eq_true, and_false, if_false, Nat.add_zero]; rfl), ?_⟩
    simp [cL, recv, isBreq, List.count_cons]
  | get k f =>
    refine ⟨rfl, rfl, (by simp only [isBreq, isBresp, Bool.false_eq_true, and_false, if_false, Nat.add_zero]; rfl), (by simp only [isBreq, isBresp, Bool.false_eq_true, and_false, if_false, Nat.add_zero]; rfl), ?_⟩
    simp [cL, recv, isBreq, List.count_cons]
  | rmw k f r =>
    refine ⟨rfl, rfl, (by simp only [isBreq, isBresp, Bool.false_eq_true, and_false, if_false, Nat.add_zero]; rfl), (by simp only [isBreq, isBresp, Bool.false_eq_true, and_false, if_false, Nat.add_zero]; rfl), ?_⟩
    simp [cL, recv, isBreq, List.count_cons]
  | getResp k v => exact ⟨rfl, rfl, (by simp only [isBreq, isBresp, Bool.false_eq_true, and_false, if_false, Nat.add_zero]; rfl), (by simp only [isBreq, isBresp, Bool.false_eq_true, and_false, if_false, Nat.add_zero]; rfl), (by simp only [isBreq, isBresp, Bool.false_eq_true, and_false, if_false, Nat.add_zero]; rfl)⟩
  | rmwResp k v => exact ⟨rfl, rfl, (by simp only [isBreq, isBresp, Bool.false_eq_true, and_false, if_false, Nat.add_zero]; rfl), (by simp only [isBreq, isBresp, Bool.false_eq_true, and_false, if_false, Nat.add_zero]; rfl), (by simp only [isBreq, isBresp, Bool.false_eq_true, and_false, if_false, Nat.add_zero]; rfl)⟩
  | freq => exact ⟨rfl, rfl, (by simp only [isBreq, isBresp, Bool.false_eq_true, and_false, if_false, Nat.add_zero]; rfl), (by simp only [isBreq, isBresp, Bool.false_eq_true, and_false, if_false, Nat.add_zero]; rfl), (by simp only [isBreq, isBresp, Bool.false_eq_true, and_false, if_false, Nat.add_zero]; rfl)⟩
  | fresp => exact ⟨rfl, rfl, (by simp only [isBreq, isBresp, Bool.false_eq_true, and_false, if_false, Nat.add_zero]; rfl), (by simp only [isBreq, isBresp, Bool.false_eq_true, and_false, if_false, Nat.add_zero]; rfl), (by simp only [isBreq, isBresp, Bool.false_eq_true, and_false, if_false, Nat.add_zero]; rfl)⟩

theorem recv_LI {n me src : Nat} {m : Msg M R} {prog : List (Op M R)} {l : Loc M R}
    (hsrc : isBreq m = true ∨ isBresp m = true → src ≠ me) (hs : src < n)
    (hb : isBresp m = true → inBar l = true) (hi : LI n me prog l) :
    LI n me prog (recv src m l).1 := by
  refine ⟨?_, ?_, ?_⟩
  · have := hi.phase
    cases m with
    | breq =>
      cases hph : l.ph <;> simp only [hph] at this <;> simp only [recv, hph] <;> try exact this
      exact ⟨this.1, this.2.1, fun q hq => ⟨(this.2.2 q hq).1, List.mem_append_left _ (this.2.2 q hq).2⟩⟩
    | bresp =>
      have hne := hsrc (.inr rfl)
      have hne' : me ≠ src := fun x => hne x.symm
      cases hph : l.ph <;> simp only [hph] at this <;> simp only [recv, hph, set1, hne', if_false] <;> exact this
    | _ => exact this
  · have := hi.que
    cases m with
    | breq =>
      have hq : queue (recv src (Msg.breq (M := M) (R := R)) l).1 = queue l ++ [src] := by
        cases hph : l.ph <;> simp [recv, queue, hph]
      rw [hq]
      intro x hx
      rcases List.mem_append.1 hx with h | h
      · exact this x h
      · rw [List.mem_singleton.1 h]; exact ⟨hs, hsrc (.inl rfl)⟩
    | _ => exact this
  · intro q hq hqm
    have h1 := recv_counts (prog := prog) l hb n q hqm (src := src)
    have h2 := hi.logc q hq hqm
    omega

end GA.TwoSided
