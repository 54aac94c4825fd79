import Verif.Model.Ghosts
import Verif.Lemmas.Distr

/-!
# Runs of a message plan

A plan of `R` rounds on `n` processes, in every round each process packs, exchanges one message (or
copies) and unpacks. For any schedule the result is the one of the synchronous execution, and no
reachable state is stuck, even if the message layer buffers nothing.
-/

namespace GA.Ghost
open Model

variable {V : Type} [Inhabited V]

/-- a plan with its synchronous execution -/
structure Plan (V : Type) where
  n : Nat
  R : Nat
  blen : Nat → Int
  /-- process, round -/
  msg : Nat → Nat → Msg
  mid : Nat → Nat → List Op
  src : Nat → Nat → Nat
  ss : Nat → Nat → Nat
  rs : Nat → Nat → Nat
  buf : Nat → Nat → List V
  /-- round, process -/
  M : Nat → Nat → Int → V

namespace Plan
variable (P : Plan V)

def ops (p r : Nat) : List Op := (Op.pack :: P.mid p r) ++ [Op.unpack]

def tagg (p r : Nat) (l : List Op) : List Act := l.map fun o => ⟨o, r, P.msg p r⟩

def progFrom (p : Nat) : (k r : Nat) → List Act
  | 0, _ => []
  | k + 1, r => P.tagg p r (P.ops p r) ++ progFrom p k (r + 1)

structure OK : Prop where
  pk : ∀ p r, p < P.n → r < P.R → ∃ c0 cs, (P.msg p r).count = c0 :: cs ∧
    writeStrided (P.M r p) (P.msg p r).sndOff (setstride 1 (P.msg p r).ld) c0 cs = some (P.buf p r) ∧
    readStrided (fun i => (P.buf (P.src p r) r).getD i default) (P.M r p) (P.msg p r).rcvOff
      (setstride 1 (P.msg p r).ld) c0 cs = some (P.M (r + 1) p) ∧
    packedSize c0 cs ≤ (P.buf (P.src p r) r).length ∧
    ((P.buf (P.src p r) r).length : Int) ≤ P.blen p
  len : ∀ p r, p < P.n → r < P.R → (P.msg p r).length = (P.buf p r).length ∧
    ((P.buf p r).length : Int) ≤ P.blen p
  mid : ∀ p r, p < P.n → r < P.R → (P.mid p r = [Op.copy] ∧ P.src p r = p) ∨
    (P.mid p r = [Op.snd, Op.rcv] ∧ P.ss p r < P.rs p r) ∨
    (P.mid p r = [Op.rcv, Op.snd] ∧ P.rs p r < P.ss p r)
  stage : ∀ p r, 1 ≤ P.ss p r ∧ P.ss p r ≤ 3 ∧ 1 ≤ P.rs p r ∧ P.rs p r ≤ 3
  sndM : ∀ p r, p < P.n → r < P.R → P.mid p r ≠ [Op.copy] → ∃ q, q < P.n ∧ q ≠ p ∧
    (P.msg p r).snd = q ∧ P.mid q r ≠ [Op.copy] ∧ P.src q r = p ∧ P.rs q r = P.ss p r
  rcvM : ∀ p r, p < P.n → r < P.R → P.mid p r ≠ [Op.copy] → P.src p r < P.n ∧ P.src p r ≠ p ∧
    (P.msg p r).rcv = P.src p r ∧ P.mid (P.src p r) r ≠ [Op.copy] ∧
    (P.msg (P.src p r) r).snd = p ∧ P.ss (P.src p r) r = P.rs p r

def stageOf (p r : Nat) : Op → Nat
  | .pack => 0
  | .snd => P.ss p r
  | .rcv => P.rs p r
  | .copy => 1
  | .unpack => 4

def stamp (p : Nat) (a : Act) : Nat := 5 * a.tag + P.stageOf p a.tag a.op

/-- the state of process `p` agrees with the synchronous execution -/
def ProcInv (p : Nat) (x : Proc V) : Prop :=
  (∃ r rest, r < P.R ∧ rest ≠ [] ∧ rest <:+ P.ops p r ∧
    x.todo = P.tagg p r rest ++ P.progFrom p (P.R - (r + 1)) (r + 1) ∧ x.mem = P.M r p ∧
    (Op.pack ∉ rest → x.sbuf = P.buf p r) ∧
    (Op.rcv ∉ rest → Op.copy ∉ rest → x.rbuf = P.buf (P.src p r) r)) ∨
  (x.todo = [] ∧ x.mem = P.M P.R p)

variable {P}

theorem mem_progFrom {p k r0 : Nat} {a : Act} : a ∈ P.progFrom p k r0 ↔
    (r0 ≤ a.tag ∧ a.tag < r0 + k) ∧ a.op ∈ P.ops p a.tag ∧ a.msg = P.msg p a.tag := by
  induction k generalizing r0 with
  | zero => simp [progFrom]
  | succ k ih =>
    simp only [progFrom, List.mem_append, tagg, List.mem_map, ih]
    constructor
    · rintro (⟨o, ho, rfl⟩ | ⟨h1, h2⟩)
      · exact ⟨⟨le_refl _, by simp⟩, ho, rfl⟩
      · exact ⟨⟨by omega, by omega⟩, h2⟩
    · rintro ⟨h1, h2, h3⟩
      by_cases h : a.tag = r0
      · left
        refine ⟨a.op, by rw [← h]; exact h2, ?_⟩
        obtain ⟨o, t, m⟩ := a
        simp only at h h3
        subst h h3
        rfl
      · right
        exact ⟨⟨by omega, by omega⟩, h2, h3⟩

/-- stages strictly increase inside a round -/
theorem ops_sorted (hP : P.OK) {p r : Nat} (hp : p < P.n) (hr : r < P.R) :
    (P.ops p r).Pairwise fun a b => P.stageOf p r a < P.stageOf p r b := by
  obtain ⟨h1, h2, h3, h4⟩ := hP.stage p r
  rcases hP.mid p r hp hr with ⟨h, _⟩ | ⟨h, h'⟩ | ⟨h, h'⟩ <;>
    simp [ops, h, stageOf] <;> omega

theorem stage_le (hP : P.OK) (p r : Nat) (o : Op) : P.stageOf p r o ≤ 4 := by
  obtain ⟨h1, h2, h3, h4⟩ := hP.stage p r
  cases o <;> simp [stageOf] <;> omega

/-- decomposition of a non-empty todo list -/
theorem ProcInv.pop (hP : P.OK) {p : Nat} {x : Proc V} (hp : p < P.n) (h : P.ProcInv p x) {o : Op}
    {t : Nat} {m : Msg} {rest : List Act} (ht : x.todo = ⟨o, t, m⟩ :: rest) :
    t < P.R ∧ m = P.msg p t ∧ ∃ l, (o :: l) <:+ P.ops p t ∧
      rest = P.tagg p t l ++ P.progFrom p (P.R - (t + 1)) (t + 1) ∧ x.mem = P.M t p ∧
      (Op.pack ∉ o :: l → x.sbuf = P.buf p t) ∧
      (Op.rcv ∉ o :: l → Op.copy ∉ o :: l → x.rbuf = P.buf (P.src p t) t) ∧
      (l = [] ↔ o = .unpack) ∧ o ∉ l := by
  rcases h with ⟨r, l, hr, hne, hsuf, htodo, hmem, hs, hb⟩ | ⟨h, _⟩
  · cases l with
    | nil => exact absurd rfl hne
    | cons o' l =>
      rw [htodo] at ht
      simp only [tagg, List.map_cons, List.cons_append, List.cons.injEq, Act.mk.injEq] at ht
      obtain ⟨⟨rfl, rfl, rfl⟩, rfl⟩ := ht
      refine ⟨hr, rfl, l, hsuf, rfl, hmem, hs, hb, ?_⟩
      rcases hP.mid p r hp hr with ⟨h, _⟩ | ⟨h, _⟩ | ⟨h, _⟩ <;>
      · simp only [ops, h, List.cons_append, List.nil_append, List.suffix_cons_iff,
          List.cons.injEq, List.suffix_nil, reduceCtorEq, or_false] at hsuf
        rcases hsuf with ⟨rfl, rfl⟩ | ⟨rfl, rfl⟩ | hsuf
        · simp
        · simp
        · rcases hsuf with ⟨rfl, h'⟩ | ⟨rfl, rfl⟩ <;> simp_all
  · rw [h] at ht; cases ht

/-- the next action comes strictly before all other remaining ones -/
theorem ProcInv.first (hP : P.OK) {p : Nat} {x : Proc V} (hp : p < P.n) (h : P.ProcInv p x) {a b : Act}
    {rest : List Act} (ht : x.todo = a :: rest) (hb : b ∈ rest) : P.stamp p a < P.stamp p b := by
  obtain ⟨o, t, m⟩ := a
  obtain ⟨hr, rfl, l, hsuf, rfl, -⟩ := h.pop hP hp ht
  rw [List.mem_append] at hb
  rcases hb with hb | hb
  · simp only [tagg, List.mem_map] at hb
    obtain ⟨o', ho', rfl⟩ := hb
    have := (ops_sorted hP hp hr).sublist hsuf.sublist
    rw [List.pairwise_cons] at this
    have := this.1 o' ho'
    simp only [stamp]; omega
  · rw [mem_progFrom] at hb
    have := stage_le hP p t o
    simp only [stamp]; omega

theorem ProcInv.shape {p : Nat} {x : Proc V} (h : P.ProcInv p x) {a : Act}
    (ha : a ∈ x.todo) : a.tag < P.R ∧ a.op ∈ P.ops p a.tag ∧ a.msg = P.msg p a.tag := by
  rcases h with ⟨r, l, hr, hne, hsuf, htodo, -⟩ | ⟨h, _⟩
  · rw [htodo, List.mem_append] at ha
    rcases ha with ha | ha
    · simp only [tagg, List.mem_map] at ha
      obtain ⟨o, ho, rfl⟩ := ha
      exact ⟨hr, hsuf.subset ho, rfl⟩
    · rw [mem_progFrom] at ha
      exact ⟨by omega, ha.2⟩
  · rw [h] at ha; cases ha

/-- after a step that is not an unpack -/
theorem ProcInv.advance (hP : P.OK) {p : Nat} {x : Proc V} (hp : p < P.n) (h : P.ProcInv p x) {o : Op}
    {t : Nat} {m : Msg} {rest : List Act} (ht : x.todo = ⟨o, t, m⟩ :: rest) (ho : o ≠ .unpack)
    {y : Proc V} (h1 : y.todo = rest) (h2 : y.mem = x.mem)
    (h3 : if o = .pack then y.sbuf = P.buf p t else y.sbuf = x.sbuf)
    (h4 : if o = .rcv ∨ o = .copy then y.rbuf = P.buf (P.src p t) t else y.rbuf = x.rbuf) :
    P.ProcInv p y := by
  obtain ⟨hr, rfl, l, hsuf, rfl, hm, hs, hb, hl, hnl⟩ := h.pop hP hp ht
  refine Or.inl ⟨t, l, hr, fun h => ho (hl.1 h), (List.suffix_cons o l).trans hsuf, h1,
    h2.trans hm, ?_, ?_⟩
  · intro hpk
    by_cases e : o = .pack
    · rw [if_pos e] at h3; exact h3
    · rw [if_neg e] at h3
      rw [h3]; exact hs (by simp [hpk, Ne.symm e])
  · intro hrc hcp
    by_cases e : o = .rcv ∨ o = .copy
    · rw [if_pos e] at h4; exact h4
    · rw [if_neg e] at h4
      rw [h4]
      exact hb (by simp [hrc]; intro h; exact e (Or.inl h.symm))
        (by simp [hcp]; intro h; exact e (Or.inr h.symm))

/-- after an unpack -/
theorem ProcInv.round (hP : P.OK) {p : Nat} {x : Proc V} (hp : p < P.n) (h : P.ProcInv p x)
    {t : Nat} {m : Msg} {rest : List Act} (ht : x.todo = ⟨.unpack, t, m⟩ :: rest)
    {y : Proc V} (h1 : y.todo = rest) (h2 : y.mem = P.M (t + 1) p) : P.ProcInv p y := by
  obtain ⟨hr, rfl, l, hsuf, rfl, hm, hs, hb, hl, hnl⟩ := h.pop hP hp ht
  have : l = [] := hl.2 rfl
  subst this
  simp only [tagg, List.map_nil, List.nil_append] at h1
  by_cases e : t + 1 < P.R
  · left
    obtain ⟨k, hk⟩ : ∃ k, P.R - (t + 1) = k + 1 := ⟨P.R - (t + 1) - 1, by omega⟩
    refine ⟨t + 1, P.ops p (t + 1), e, by simp [ops], List.suffix_refl _, ?_, h2, ?_, ?_⟩
    · rw [h1, hk]
      have : P.R - (t + 1 + 1) = k := by omega
      rw [this]; rfl
    · intro h; simp [ops] at h
    · intro a b
      rcases hP.mid p (t + 1) hp e with ⟨h, _⟩ | ⟨h, _⟩ | ⟨h, _⟩ <;> simp [ops, h] at a b
  · right
    have e1 : P.R - (t + 1) = 0 := by omega
    rw [e1] at h1
    have e2 : t + 1 = P.R := by omega
    rw [e2] at h2
    exact ⟨h1, h2⟩

/-- an action is still to be done -/
def Pend (P : Plan V) (s : Sys V) (p : Nat) (o : Op) (r : Nat) : Prop := ⟨o, r, P.msg p r⟩ ∈ (s.procs p).todo

structure Inv (P : Plan V) (s : Sys V) : Prop where
  proc : ∀ p, p < P.n → P.ProcInv p (s.procs p)
  pkt : ∀ k ∈ s.net, k.src < P.n ∧ k.tag < P.R ∧ k.data = P.buf k.src k.tag ∧ ¬ P.Pend s k.src .snd k.tag
  arr : ∀ p r, p < P.n → r < P.R → P.mid p r ≠ [Op.copy] → P.Pend s p .rcv r →
    ¬ P.Pend s (P.src p r) .snd r → ∃ z, takePacket (P.src p r) p r s.net = some z
  ord : ∀ p r, p < P.n → r < P.R → P.mid p r ≠ [Op.copy] → P.Pend s (P.src p r) .snd r → P.Pend s p .rcv r

end Plan

theorem takePacket_some {a b t : Nat} {net : List (Packet V)} {d : List V} {net' : List (Packet V)}
    (h : takePacket a b t net = some (d, net')) :
    (∃ k ∈ net, k.src = a ∧ k.dst = b ∧ k.tag = t ∧ k.data = d) ∧ (∀ k ∈ net', k ∈ net) ∧
    ∀ a' b' t', (a', b', t') ≠ (a, b, t) → (∃ z, takePacket a' b' t' net = some z) →
      ∃ z, takePacket a' b' t' net' = some z := by
  induction net generalizing net' with
  | nil => simp [takePacket] at h
  | cons k ks ih =>
    unfold takePacket at h
    by_cases hk : k.src = a ∧ k.dst = b ∧ k.tag = t
    · rw [if_pos hk] at h
      simp only [Option.some.injEq, Prod.mk.injEq] at h
      obtain ⟨rfl, rfl⟩ := h
      refine ⟨⟨k, by simp, hk.1, hk.2.1, hk.2.2, rfl⟩, fun j hj => by simp [hj], ?_⟩
      rintro a' b' t' hne ⟨z, hz⟩
      unfold takePacket at hz
      rw [if_neg (by
        rintro ⟨rfl, rfl, rfl⟩
        exact hne (by rw [hk.1, hk.2.1, hk.2.2]))] at hz
      obtain ⟨y, hy, _⟩ := Option.map_eq_some_iff.1 hz
      exact ⟨y, hy⟩
    · rw [if_neg hk] at h
      obtain ⟨⟨d', n'⟩, hy, he⟩ := Option.map_eq_some_iff.1 h
      simp only [Prod.mk.injEq] at he
      obtain ⟨rfl, rfl⟩ := he
      obtain ⟨⟨j, hj, hj'⟩, h2, h3⟩ := ih hy
      refine ⟨⟨j, by simp [hj], hj'⟩, ?_, ?_⟩
      · intro i hi
        rcases List.mem_cons.1 hi with rfl | hi
        · simp
        · simp [h2 i hi]
      · rintro a' b' t' hne ⟨z, hz⟩
        unfold takePacket at hz ⊢
        by_cases hc : k.src = a' ∧ k.dst = b' ∧ k.tag = t'
        · rw [if_pos hc]; exact ⟨_, rfl⟩
        · rw [if_neg hc] at hz ⊢
          obtain ⟨y, hy', _⟩ := Option.map_eq_some_iff.1 hz
          obtain ⟨w, hw⟩ := h3 a' b' t' hne ⟨y, hy'⟩
          exact ⟨_, by rw [hw]; rfl⟩

theorem takePacket_append {a b t : Nat} (net net' : List (Packet V))
    (h : ∃ z, takePacket a b t net = some z) : ∃ z, takePacket a b t (net ++ net') = some z := by
  induction net with
  | nil => obtain ⟨z, hz⟩ := h; simp [takePacket] at hz
  | cons k ks ih =>
    obtain ⟨z, hz⟩ := h
    simp only [List.cons_append]
    unfold takePacket at hz ⊢
    by_cases hk : k.src = a ∧ k.dst = b ∧ k.tag = t
    · rw [if_pos hk]; exact ⟨_, rfl⟩
    · rw [if_neg hk] at hz ⊢
      obtain ⟨y, hy, _⟩ := Option.map_eq_some_iff.1 hz
      obtain ⟨w, hw⟩ := ih ⟨y, hy⟩
      exact ⟨_, by rw [hw]; rfl⟩

theorem takePacket_last {a b t : Nat} (net : List (Packet V)) (d : List V) :
    ∃ z, takePacket a b t (net ++ [⟨a, b, t, d⟩]) = some z := by
  induction net with
  | nil => simp [takePacket]
  | cons k ks ih =>
    simp only [List.cons_append]
    unfold takePacket
    by_cases hk : k.src = a ∧ k.dst = b ∧ k.tag = t
    · rw [if_pos hk]; exact ⟨_, rfl⟩
    · rw [if_neg hk]
      obtain ⟨w, hw⟩ := ih
      exact ⟨_, by rw [hw]; rfl⟩

namespace Plan
variable {P : Plan V}

theorem upd_procs_self (f : Nat → Proc V) (p : Nat) (x : Proc V) : upd f p x p = x := by simp [upd]
theorem upd_procs_ne (f : Nat → Proc V) {p q : Nat} (x : Proc V) (h : q ≠ p) : upd f p x q = f q := by
  simp [upd, h]

/-- what is pending after one process has done its next action -/
theorem pend_pop (hP : P.OK) {s : Sys V} (hs : P.Inv s) {p : Nat} (hp : p < P.n) {o : Op} {t : Nat}
    {m : Msg} {rest : List Act} (ht : (s.procs p).todo = ⟨o, t, m⟩ :: rest) (y : Proc V)
    (hy : y.todo = rest) (net : List (Packet V)) (q : Nat) (o' : Op) (r : Nat) :
    P.Pend ⟨upd s.procs p y, net⟩ q o' r ↔ P.Pend s q o' r ∧ ¬ (q = p ∧ o' = o ∧ r = t) := by
  unfold Pend
  by_cases hq : q = p
  · subst hq
    obtain ⟨hr, rfl, l, hsuf, rfl, -, -, -, -, hnl⟩ := (hs.proc q hp).pop hP hp ht
    simp only [upd_procs_self, hy, ht, List.mem_cons, Act.mk.injEq, true_and]
    constructor
    · intro h
      refine ⟨Or.inr h, ?_⟩
      rintro ⟨rfl, rfl⟩
      rw [List.mem_append] at h
      rcases h with h | h
      · simp only [tagg, List.mem_map, Act.mk.injEq] at h
        obtain ⟨o'', h1, h2, -⟩ := h
        rw [h2] at h1
        exact hnl h1
      · rw [mem_progFrom] at h
        simp only at h
        omega
    · rintro ⟨⟨h1, h2, -⟩ | h, hn⟩
      · exact absurd ⟨h1, h2⟩ hn
      · exact h
  · simp [upd_procs_ne _ _ hq, hq]

theorem inv_step (hP : P.OK) {s s' : Sys V} {b : Bool} (hs : P.Inv s) (h : Step P.n P.blen b s s') :
    P.Inv s' := by
  cases h with
  | pack p t m rest c0 cs bb hp ht hc hb hl =>
    have hpop := fun q o r => pend_pop hP hs hp ht
      ({ s.procs p with todo := rest, sbuf := bb }) rfl s.net q o r
    obtain ⟨hr, rfl, -⟩ := (hs.proc p hp).pop hP hp ht
    obtain ⟨c0', cs', e1, e2, -⟩ := hP.pk p t hp hr
    rw [hc, List.cons.injEq] at e1
    obtain ⟨rfl, rfl⟩ := e1
    rw [((hs.proc p hp).pop hP hp ht).2.2.choose_spec.2.2.1] at hb
    rw [hb, Option.some.injEq] at e2
    constructor
    · intro q hq
      by_cases e : q = p
      · subst e
        simp only [upd_procs_self]
        exact (hs.proc q hq).advance hP hq ht (by simp) rfl rfl (by simp [e2]) (by simp)
      · simp only [upd_procs_ne _ _ e]; exact hs.proc q hq
    · intro k hk
      simp only [hpop]
      simpa using hs.pkt k hk
    · intro q r hq hr' hm h1 h2
      rw [hpop] at h1 h2
      exact hs.arr q r hq hr' hm h1.1 (by simpa using h2)
    · intro q r hq hr' hm h1
      rw [hpop] at h1 ⊢
      exact ⟨hs.ord q r hq hr' hm h1.1, by simp⟩
  | snd p q t m rest hb hp hq ht hm hl =>
    have hpop := fun q' o r => pend_pop hP hs hp ht
      ({ s.procs p with todo := rest }) rfl (s.net ++ [⟨p, q, t, (s.procs p).sbuf⟩]) q' o r
    obtain ⟨hr, rfl, l, hsuf, -, -, hsb, -, -, hnl⟩ := (hs.proc p hp).pop hP hp ht
    have hop : Op.snd ∈ P.ops p t := hsuf.subset (by simp)
    have hncopy : P.mid p t ≠ [Op.copy] := by intro h; simp [ops, h] at hop
    obtain ⟨q', hq', hne, hm', hmid', hsrc, hrs⟩ := hP.sndM p t hp hr hncopy
    have eq' : q' = q := by rw [hm] at hm'; omega
    subst eq'
    have hbuf : (s.procs p).sbuf = P.buf p t := by
      apply hsb
      intro hin
      have := (ops_sorted hP hp hr).sublist hsuf.sublist
      rw [List.pairwise_cons] at this
      rcases List.mem_cons.1 hin with h | h
      · cases h
      · have := this.1 _ h
        have h1 := (hP.stage p t).1
        simp [stageOf] at this
    constructor
    · intro q hq
      by_cases e : q = p
      · subst e
        simp only [upd_procs_self]
        exact (hs.proc q hq).advance hP hq ht (by simp) rfl rfl (by simp) (by simp)
      · simp only [upd_procs_ne _ _ e]; exact hs.proc q hq
    · intro k hk
      simp only [hpop]
      rcases List.mem_append.1 hk with hk | hk
      · obtain ⟨a1, a2, a3, a4⟩ := hs.pkt k hk
        exact ⟨a1, a2, a3, fun h => a4 h.1⟩
      · rw [List.mem_singleton] at hk
        subst hk
        exact ⟨hp, hr, hbuf, fun h => h.2 (by simp)⟩
    · intro q r hq hr' hmm h1 h2
      rw [hpop] at h1 h2
      by_cases e : P.Pend s (P.src q r) .snd r
      · have : P.src q r = p ∧ r = t := by
          by_contra hc
          exact h2 ⟨e, fun h => hc ⟨h.1, h.2.2⟩⟩
        obtain ⟨e1, rfl⟩ := this
        obtain ⟨-, -, -, -, e5, -⟩ := hP.rcvM q r hq hr' hmm
        rw [e1] at e5
        have : q = q' := by rw [hm'] at e5; omega
        subst this
        rw [e1]
        exact takePacket_last _ _
      · exact takePacket_append _ _ (hs.arr q r hq hr' hmm h1.1 e)
    · intro q r hq hr' hm h1
      rw [hpop] at h1 ⊢
      exact ⟨hs.ord q r hq hr' hm h1.1, by simp⟩
  | rcv p q t m rest d net hp ht hm hd hl =>
    have hpop := fun q' o r => pend_pop hP hs hp ht
      ({ s.procs p with todo := rest, rbuf := d }) rfl net q' o r
    obtain ⟨hr, rfl, l, hsuf, -, -, -, -, -, -⟩ := (hs.proc p hp).pop hP hp ht
    have hop : Op.rcv ∈ P.ops p t := hsuf.subset (by simp)
    have hncopy : P.mid p t ≠ [Op.copy] := by intro h; simp [ops, h] at hop
    obtain ⟨b1, b2, b3, b4, b5, b6⟩ := hP.rcvM p t hp hr hncopy
    have eq : P.src p t = q := by rw [hm] at b3; omega
    obtain ⟨⟨k, hk, k1, k2, k3, k4⟩, hsub, hoth⟩ := takePacket_some hd
    obtain ⟨c1, c2, c3, c4⟩ := hs.pkt k hk
    have hdat : d = P.buf (P.src p t) t := by rw [← k4, c3, k1, k3, eq]
    constructor
    · intro q hq
      by_cases e : q = p
      · subst e
        simp only [upd_procs_self]
        exact (hs.proc q hq).advance hP hq ht (by simp) rfl rfl (by simp) (by simp [hdat])
      · simp only [upd_procs_ne _ _ e]; exact hs.proc q hq
    · intro k hk
      simp only [hpop]
      obtain ⟨a1, a2, a3, a4⟩ := hs.pkt k (hsub k hk)
      exact ⟨a1, a2, a3, fun h => a4 h.1⟩
    · intro q' r hq hr' hm h1 h2
      rw [hpop] at h1 h2
      apply hoth
      · intro h
        simp only [Prod.mk.injEq] at h
        exact h1.2 ⟨h.2.1, rfl, h.2.2⟩
      · exact hs.arr q' r hq hr' hm h1.1 (by simpa using h2)
    · intro q' r hq hr' hm h1
      rw [hpop] at h1 ⊢
      refine ⟨hs.ord q' r hq hr' hm h1.1, ?_⟩
      rintro ⟨rfl, -, rfl⟩
      apply c4
      rw [k1, k3, ← eq]; exact h1.1
  | rendezvous p q t m m' rest rest' hp hq hpq ht hm ht' hm' hl hl' =>
    obtain ⟨hr, rfl, l, hsuf, -, -, hsb, -, -, hnl⟩ := (hs.proc p hp).pop hP hp ht
    have hop : Op.snd ∈ P.ops p t := hsuf.subset (by simp)
    have hncopy : P.mid p t ≠ [Op.copy] := by intro h; simp [ops, h] at hop
    obtain ⟨q', hq', hne, hm2, hmid', hsrc, hrs⟩ := hP.sndM p t hp hr hncopy
    have eq' : q' = q := by rw [hm] at hm2; omega
    subst eq'
    have hbuf : (s.procs p).sbuf = P.buf p t := by
      apply hsb
      intro hin
      have := (ops_sorted hP hp hr).sublist hsuf.sublist
      rw [List.pairwise_cons] at this
      rcases List.mem_cons.1 hin with h | h
      · cases h
      · have := this.1 _ h
        have h1 := (hP.stage p t).1
        simp [stageOf] at this
    have hpop1 := fun q o r => pend_pop hP hs hp ht ({ s.procs p with todo := rest }) rfl s.net q o r
    -- second pop, seen from the original state
    have hpop : ∀ q₁ o r, P.Pend ⟨upd (upd s.procs p { s.procs p with todo := rest }) q'
        { s.procs q' with todo := rest', rbuf := (s.procs p).sbuf }, s.net⟩ q₁ o r ↔
        P.Pend s q₁ o r ∧ ¬ (q₁ = p ∧ o = .snd ∧ r = t) ∧ ¬ (q₁ = q' ∧ o = .rcv ∧ r = t) := by
      intro q₁ o r
      have hb := pend_pop hP hs hq ht'
        ({ s.procs q' with todo := rest', rbuf := (s.procs p).sbuf }) rfl s.net q₁ o r
      have ha := hpop1 q₁ o r
      unfold Pend at ha hb ⊢
      by_cases e : q₁ = q'
      · subst e
        simp only [upd_procs_self] at hb ⊢
        rw [hb]
        simp [hne]
      · simp only [upd_procs_ne _ _ e] at ha ⊢
        rw [ha]
        simp [e]
    constructor
    · intro q₁ hq₁
      by_cases e : q₁ = q'
      · subst e
        simp only [upd_procs_self]
        exact (hs.proc q₁ hq₁).advance hP hq₁ ht' (by simp) rfl rfl (by simp) (by simp [hbuf, hsrc])
      · simp only [upd_procs_ne _ _ e]
        by_cases e' : q₁ = p
        · subst e'
          simp only [upd_procs_self]
          exact (hs.proc q₁ hq₁).advance hP hq₁ ht (by simp) rfl rfl (by simp) (by simp)
        · simp only [upd_procs_ne _ _ e']; exact hs.proc q₁ hq₁
    · intro k hk
      simp only [hpop]
      obtain ⟨a1, a2, a3, a4⟩ := hs.pkt k hk
      exact ⟨a1, a2, a3, fun h => a4 h.1⟩
    · intro q₁ r hq₁ hr' hmm h1 h2
      rw [hpop] at h1 h2
      by_cases e : P.Pend s (P.src q₁ r) .snd r
      · exfalso
        have : P.src q₁ r = p ∧ r = t := by
          by_contra hc
          exact h2 ⟨e, fun h => hc ⟨h.1, h.2.2⟩, by simp⟩
        obtain ⟨e1, rfl⟩ := this
        obtain ⟨-, -, -, -, e5, -⟩ := hP.rcvM q₁ r hq₁ hr' hmm
        rw [e1] at e5
        have : q₁ = q' := by rw [hm2] at e5; omega
        exact h1.2.2 ⟨this, rfl, rfl⟩
      · exact hs.arr q₁ r hq₁ hr' hmm h1.1 e
    · intro q₁ r hq₁ hr' hmm h1
      rw [hpop] at h1 ⊢
      refine ⟨hs.ord q₁ r hq₁ hr' hmm h1.1, by simp, ?_⟩
      rintro ⟨rfl, -, rfl⟩
      exact h1.2.1 ⟨hsrc, rfl, rfl⟩
  | copy p t m rest hp ht =>
    have hpop := fun q o r => pend_pop hP hs hp ht
      ({ s.procs p with todo := rest, rbuf := (s.procs p).sbuf }) rfl s.net q o r
    obtain ⟨hr, rfl, l, hsuf, -, -, hsb, -, -, hnl⟩ := (hs.proc p hp).pop hP hp ht
    have hop : Op.copy ∈ P.ops p t := hsuf.subset (by simp)
    have hsrc : P.mid p t = [Op.copy] ∧ P.src p t = p := by
      rcases hP.mid p t hp hr with h | ⟨h, _⟩ | ⟨h, _⟩
      · exact h
      · simp [ops, h] at hop
      · simp [ops, h] at hop
    have hbuf : (s.procs p).sbuf = P.buf p t := by
      apply hsb
      intro hin
      have := (ops_sorted hP hp hr).sublist hsuf.sublist
      rw [List.pairwise_cons] at this
      rcases List.mem_cons.1 hin with h | h
      · cases h
      · have := this.1 _ h
        simp [stageOf] at this
    constructor
    · intro q hq
      by_cases e : q = p
      · subst e
        simp only [upd_procs_self]
        exact (hs.proc q hq).advance hP hq ht (by simp) rfl rfl (by simp) (by simp [hbuf, hsrc.2])
      · simp only [upd_procs_ne _ _ e]; exact hs.proc q hq
    · intro k hk
      simp only [hpop]
      simpa using hs.pkt k hk
    · intro q r hq hr' hm h1 h2
      rw [hpop] at h1 h2
      exact hs.arr q r hq hr' hm h1.1 (by simpa using h2)
    · intro q r hq hr' hm h1
      rw [hpop] at h1 ⊢
      exact ⟨hs.ord q r hq hr' hm h1.1, by simp⟩
  | unpack p t m rest c0 cs mem hp ht hc hl hb =>
    have hpop := fun q o r => pend_pop hP hs hp ht
      ({ s.procs p with todo := rest, mem := mem }) rfl s.net q o r
    obtain ⟨hr, rfl, l, hsuf, -, hmem, -, hrb, hlu, hnl⟩ := (hs.proc p hp).pop hP hp ht
    have hl0 : l = [] := hlu.2 rfl
    subst hl0
    have hrbuf : (s.procs p).rbuf = P.buf (P.src p t) t := hrb (by simp) (by simp)
    obtain ⟨c0', cs', e1, -, e3, -⟩ := hP.pk p t hp hr
    rw [hc, List.cons.injEq] at e1
    obtain ⟨rfl, rfl⟩ := e1
    rw [hmem, hrbuf, e3, Option.some.injEq] at hb
    constructor
    · intro q hq
      by_cases e : q = p
      · subst e
        simp only [upd_procs_self]
        exact (hs.proc q hq).round hP hq ht rfl hb.symm
      · simp only [upd_procs_ne _ _ e]; exact hs.proc q hq
    · intro k hk
      simp only [hpop]
      simpa using hs.pkt k hk
    · intro q r hq hr' hm h1 h2
      rw [hpop] at h1 h2
      exact hs.arr q r hq hr' hm h1.1 (by simpa using h2)
    · intro q r hq hr' hm h1
      rw [hpop] at h1 ⊢
      exact ⟨hs.ord q r hq hr' hm h1.1, by simp⟩

/-- the initial state -/
theorem inv_start (hP : P.OK) {s : Sys V} (hnet : s.net = [])
    (h : ∀ p, p < P.n → (s.procs p).todo = P.progFrom p P.R 0 ∧ (s.procs p).mem = P.M 0 p) :
    P.Inv s := by
  constructor
  · intro p hp
    obtain ⟨h1, h2⟩ := h p hp
    by_cases hR : P.R = 0
    · right; rw [hR] at h1; exact ⟨h1, by rw [h2, hR]⟩
    · left
      obtain ⟨k, hk⟩ : ∃ k, P.R = k + 1 := ⟨P.R - 1, by omega⟩
      refine ⟨0, P.ops p 0, by omega, by simp [ops], List.suffix_refl _, ?_, h2, ?_, ?_⟩
      · rw [h1, hk]; rfl
      · intro h; simp [ops] at h
      · intro a b
        rcases hP.mid p 0 hp (by omega) with ⟨h, _⟩ | ⟨h, _⟩ | ⟨h, _⟩ <;> simp [ops, h] at a b
  · intro k hk; rw [hnet] at hk; cases hk
  · intro p r hp hr hm _ hn
    exfalso
    apply hn
    obtain ⟨a1, a2, a3, a4, -⟩ := hP.rcvM p r hp hr hm
    unfold Pend
    rw [(h _ a1).1, mem_progFrom]
    refine ⟨⟨Nat.zero_le _, by simpa using hr⟩, ?_, rfl⟩
    rcases hP.mid _ r a1 hr with ⟨h, _⟩ | ⟨h, _⟩ | ⟨h, _⟩
    · exact absurd h a4
    · simp [ops, h]
    · simp [ops, h]
  · intro p r hp hr hm _
    unfold Pend
    rw [(h _ hp).1, mem_progFrom]
    refine ⟨⟨Nat.zero_le _, by simpa using hr⟩, ?_, rfl⟩
    rcases hP.mid _ r hp hr with ⟨h, _⟩ | ⟨h, _⟩ | ⟨h, _⟩
    · exact absurd h hm
    · simp [ops, h]
    · simp [ops, h]

theorem inv_reach (hP : P.OK) {s s' : Sys V} (hs : P.Inv s) (h : Reach P.n P.blen s s') : P.Inv s' := by
  induction h with
  | refl => exact hs
  | step _ h ih => exact inv_step hP ih h

/-- in an unfinished state some process can go on, without buffering a send -/
theorem progress (hP : P.OK) {s : Sys V} (hs : P.Inv s) (h : ¬ Finished P.n s) :
    ∃ s', Step P.n P.blen false s s' := by
  -- a process with the smallest next stamp
  have hex : ∃ k p a rest, p < P.n ∧ (s.procs p).todo = a :: rest ∧ P.stamp p a = k := by
    unfold Finished at h
    simp only [not_forall] at h
    obtain ⟨p, hp, hne⟩ := h
    obtain ⟨a, rest, e⟩ := List.exists_cons_of_ne_nil hne
    exact ⟨_, p, a, rest, hp, e, rfl⟩
  classical
  obtain ⟨p, ⟨o, t, m⟩, rest, hp, ht, hk⟩ := Nat.find_spec hex
  have hmin : ∀ q a' rest', q < P.n → (s.procs q).todo = a' :: rest' →
      P.stamp p ⟨o, t, m⟩ ≤ P.stamp q a' := by
    intro q a' rest' hq e
    rw [hk]
    exact Nat.find_min' hex ⟨q, a', rest', hq, e, rfl⟩
  have hpi := hs.proc p hp
  obtain ⟨hr, rfl, l, hsuf, -, hmem, hsb, hrb, hlu, hnl⟩ := hpi.pop hP hp ht
  obtain ⟨c0, cs, e1, e2, e3, e4, e5⟩ := hP.pk p t hp hr
  have hsort := (ops_sorted hP hp hr).sublist hsuf.sublist
  rw [List.pairwise_cons] at hsort
  have hbuf : o ≠ .pack → (s.procs p).sbuf = P.buf p t := by
    intro ho
    apply hsb
    intro hin
    rcases List.mem_cons.1 hin with h | h
    · exact ho h.symm
    · have := hsort.1 _ h
      simp [stageOf] at this
  -- the partner with a pending action of the same stamp is just about to do it
  have hnext : ∀ q o', q < P.n → P.Pend s q o' t → P.stageOf q t o' = P.stageOf p t o →
      ∃ rest', (s.procs q).todo = ⟨o', t, P.msg q t⟩ :: rest' := by
    intro q o' hq hpe hst
    unfold Pend at hpe
    cases htd : (s.procs q).todo with
    | nil => rw [htd] at hpe; cases hpe
    | cons a' rest' =>
      rw [htd] at hpe
      rcases List.mem_cons.1 hpe with h | h
      · exact ⟨rest', by rw [h]⟩
      · have h1 := (hs.proc q hq).first hP hq htd h
        have h2 := hmin q a' rest' hq htd
        simp only [stamp, hst] at h1 h2
        omega
  cases o with
  | pack => exact ⟨_, Step.pack s p t _ rest c0 cs (P.buf p t) hp ht e1 (by rw [hmem]; exact e2) (hP.len p t hp hr).2⟩
  | copy => exact ⟨_, Step.copy s p t _ rest hp ht⟩
  | unpack =>
    have hl0 : l = [] := hlu.2 rfl
    subst hl0
    have hrbuf : (s.procs p).rbuf = P.buf (P.src p t) t := hrb (by simp) (by simp)
    exact ⟨_, Step.unpack s p t _ rest c0 cs (P.M (t + 1) p) hp ht e1 (by rw [hrbuf]; exact e4)
      (by rw [hmem, hrbuf]; exact e3)⟩
  | snd =>
    have hop : Op.snd ∈ P.ops p t := hsuf.subset (by simp)
    have hncopy : P.mid p t ≠ [Op.copy] := by intro h; simp [ops, h] at hop
    obtain ⟨q, hq, hne, hm, hmid, hsrc, hrs⟩ := hP.sndM p t hp hr hncopy
    have hpe : P.Pend s q .rcv t := by
      apply hs.ord q t hq hr hmid
      rw [hsrc]; unfold Pend; rw [ht]; simp
    obtain ⟨rest', ht'⟩ := hnext q .rcv hq hpe (by simp [stageOf, hrs])
    obtain ⟨-, -, hm', -, -, -⟩ := hP.rcvM q t hq hr hmid
    rw [hsrc] at hm'
    obtain ⟨_, _, _, _, _, _, f5⟩ := hP.pk q t hq hr
    rw [hsrc] at f5
    refine ⟨_, Step.rendezvous s p q t _ _ rest rest' hp hq (Ne.symm hne) ht hm ht' hm' ?_ ?_⟩
    · rw [hbuf (by simp)]; exact (hP.len p t hp hr).1
    · rw [hbuf (by simp)]; exact f5
  | rcv =>
    have hop : Op.rcv ∈ P.ops p t := hsuf.subset (by simp)
    have hncopy : P.mid p t ≠ [Op.copy] := by intro h; simp [ops, h] at hop
    obtain ⟨b1, b2, b3, b4, b5, b6⟩ := hP.rcvM p t hp hr hncopy
    by_cases hpe : P.Pend s (P.src p t) .snd t
    · obtain ⟨rest', ht'⟩ := hnext _ .snd b1 hpe (by simp [stageOf, b6])
      have hsb' : (s.procs (P.src p t)).sbuf = P.buf (P.src p t) t := by
        obtain ⟨_, _, l', hsuf', -, -, hsb', -⟩ := (hs.proc _ b1).pop hP b1 ht'
        have hsort' := (ops_sorted hP b1 hr).sublist hsuf'.sublist
        rw [List.pairwise_cons] at hsort'
        apply hsb'
        intro hin
        rcases List.mem_cons.1 hin with h | h
        · cases h
        · have := hsort'.1 _ h
          simp [stageOf] at this
      refine ⟨_, Step.rendezvous s (P.src p t) p t _ _ rest' rest b1 hp b2 ht' b5 ht b3 ?_ ?_⟩
      · rw [hsb']; exact (hP.len _ t b1 hr).1
      · rw [hsb']; exact e5
    · obtain ⟨⟨d, net⟩, hz⟩ := hs.arr p t hp hr hncopy (by unfold Pend; rw [ht]; simp) hpe
      obtain ⟨⟨k, hk, k1, k2, k3, k4⟩, -, -⟩ := takePacket_some hz
      obtain ⟨c1, c2, c3, c4⟩ := hs.pkt k hk
      refine ⟨_, Step.rcv s p (P.src p t) t _ rest d net hp ht b3 hz ?_⟩
      rw [← k4, c3, k1, k3]; exact e5

/-- final memory -/
theorem final {s : Sys V} (hs : P.Inv s) (h : Finished P.n s) {p : Nat} (hp : p < P.n) :
    (s.procs p).mem = P.M P.R p := by
  rcases hs.proc p hp with ⟨r, l, _, hne, _, ht, _⟩ | ⟨_, h2⟩
  · rw [h p hp] at ht
    cases l with
    | nil => exact absurd rfl hne
    | cons => simp [tagg] at ht
  · exact h2

end Plan

/-- number of remaining actions -/
def work (n : Nat) (s : Sys V) : Nat := ((List.range n).map fun p => ((s.procs p).todo).length).sum

private theorem sum_lt {n p : Nat} (hp : p < n) {f g : Nat → Nat} (h1 : f p < g p)
    (h2 : ∀ q, q ≠ p → f q ≤ g q) : ((List.range n).map f).sum < ((List.range n).map g).sum := by
  induction n with
  | zero => omega
  | succ n ih =>
    simp only [List.range_succ, List.map_append, List.sum_append, List.map_cons, List.map_nil,
      List.sum_cons, List.sum_nil]
    by_cases e : p = n
    · subst e
      have : ((List.range p).map f).sum ≤ ((List.range p).map g).sum := by
        clear ih h1
        have : ∀ k ≤ p, ((List.range k).map f).sum ≤ ((List.range k).map g).sum := by
          intro k
          induction k with
          | zero => simp
          | succ k ihk =>
            intro hk
            simp only [List.range_succ, List.map_append, List.sum_append, List.map_cons,
              List.map_nil, List.sum_cons, List.sum_nil]
            have := ihk (by omega)
            have := h2 k (by omega)
            omega
        exact this p (Nat.le_refl p)
      omega
    · have := ih (by omega)
      have := h2 n (Ne.symm e)
      omega

/-- every step of any schedule uses up an action -/
theorem work_step {n : Nat} {blen : Nat → Int} {b : Bool} {s s' : Sys V} (h : Step n blen b s s') :
    work n s' < work n s := by
  cases h with
  | pack p t m rest c0 cs bb hp ht =>
    apply sum_lt hp
    · simp [upd, ht]
    · intro q hq; simp [upd, hq]
  | snd p q t m rest hb hp hq ht =>
    apply sum_lt hp
    · simp [upd, ht]
    · intro q hq; simp [upd, hq]
  | rcv p q t m rest d net hp ht =>
    apply sum_lt hp
    · simp [upd, ht]
    · intro q hq; simp [upd, hq]
  | rendezvous p q t m m' rest rest' hp hq hpq ht hm ht' =>
    apply sum_lt hp
    · simp [upd, ht, hpq]
    · intro q' hq'
      by_cases e : q' = q
      · subst e; simp [upd, ht']
      · simp [upd, e, hq']
  | copy p t m rest hp ht =>
    apply sum_lt hp
    · simp [upd, ht]
    · intro q hq; simp [upd, hq]
  | unpack p t m rest c0 cs mem hp ht =>
    apply sum_lt hp
    · simp [upd, ht]
    · intro q hq; simp [upd, hq]

end GA.Ghost
