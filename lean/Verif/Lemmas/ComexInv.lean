import Verif.Lemmas.Comex
import Mathlib.Data.List.Infix

/-!
# Invariant of the communication layer
-/

namespace GA.Comex

/-! ## Traces -/

theorem calls_append {p : Nat} {a b : List Ev} : calls p (a ++ b) = calls p a ++ calls p b := by
  induction a with
  | nil => rfl
  | cons e a ih =>
    cases e with
    | call q op =>
      simp only [List.cons_append, calls, ih]
      split <;> rfl
    | _ => simp [calls, ih]

theorem applied_append {a b : List Ev} : applied (a ++ b) = applied a ++ applied b := by
  induction a with
  | nil => rfl
  | cons e a ih => cases e <;> simp [applied, ih]

theorem appliedBy_append {p : Nat} {a b : List Ev} :
    appliedBy p (a ++ b) = appliedBy p a ++ appliedBy p b := by
  simp [appliedBy, applied_append]

theorem opsFx_append {n : Nat} {a b : List Op} :
    opsFx n (a ++ b) = opsFx n a ++ opsFx (n + a.length) b := by
  induction a generalizing n with
  | nil => simp [opsFx]
  | cons op a ih =>
    simp only [List.cons_append, opsFx, ih, List.length_cons, List.append_assoc]
    rw [show n + (a.length + 1) = n + 1 + a.length by omega]

theorem cellVal_append {init : Nat → Nat → Int} {a b : List (Nat × Fx)} {r x : Nat} :
    cellVal init (a ++ b) r x = cellVal (cellVal init a) b r x := by
  simp [cellVal]

theorem opsFx_mem {n : Nat} {ops : List Op} {f : Fx} (h : f ∈ opsFx n ops) :
    ∃ i op, ops[i]? = some op ∧ f.tag = n + i ∧ f ∈ opFx (n + i) op := by
  induction ops generalizing n with
  | nil => simp [opsFx] at h
  | cons op ops ih =>
    rcases List.mem_append.1 h with h | h
    · exact ⟨0, op, by simp, (opFx_tag h).1, h⟩
    · obtain ⟨i, op', h1, h2, h3⟩ := ih h
      exact ⟨i + 1, op', by simpa using h1, by omega, by rwa [show n + (i + 1) = n + 1 + i by omega]⟩

theorem issued_mem {p : Nat} {tr : List Ev} {f : Fx} (h : f ∈ issued p tr) :
    ∃ op, (calls p tr)[f.tag]? = some op ∧ f ∈ opFx f.tag op := by
  obtain ⟨i, op, h1, h2, h3⟩ := opsFx_mem h
  have : f.tag = i := by omega
  subst this
  exact ⟨op, h1, by simpa using h3⟩

theorem opsFx_mem_of {n i : Nat} {ops : List Op} {f : Fx} {op : Op} (h1 : ops[i]? = some op)
    (h2 : f ∈ opFx (n + i) op) : f ∈ opsFx n ops := by
  induction ops generalizing n i with
  | nil => simp at h1
  | cons o ops ih =>
    cases i with
    | zero =>
      simp only [List.getElem?_cons_zero, Option.some.injEq] at h1
      subst h1
      exact List.mem_append.2 (.inl (by simpa using h2))
    | succ i =>
      refine List.mem_append.2 (.inr (ih (i := i) (by simpa using h1) ?_))
      rwa [show n + 1 + i = n + (i + 1) by omega]

/-! ## The invariant -/

/-- served by server `m` -/
def onM (c : Cfg) (m : Nat) (f : Fx) : Bool := decide (c.master f.rank = m)

/-- effects still to be done by the process itself -/
def ctlFx : Ctl → List Fx
  | .fencing _ tag (some op) => opFx tag op
  | .direct tag op => opFx tag op
  | _ => []

def FenceLast (ch : List Msg) : Prop := ch = [] ∨ ∃ l t, ch = l ++ [⟨t, .fence⟩]

def RmwLast (tag : Nat) (ch : List Msg) : Prop :=
  ch = [] ∨ ∃ l r a v, ch = l ++ [⟨tag, .fadd r a v⟩] ∨ ch = l ++ [⟨tag, .swap r a v⟩]

/-- nothing is sent after the request a process waits for -/
def TailOK (m : Nat) : Ctl → List Msg → Prop
  | .fencing m' _ _, ch => m' = m → FenceLast ch
  | .fencingAll ms _ _, ch => m ∈ ms → FenceLast ch
  | .rmw m' tag, ch => m' = m → RmwLast tag ch
  | _, _ => True

/-- One process and one server. -/
structure PM (c : Cfg) (m : Nat) (cur : Cur) (ch : List Msg) (rep : List (Slot × List Int))
    (posted : List Slot) (flag : Bool) (ctl : Ctl) (cnt : Nat) (ap is : List Fx) : Prop where
  stream : ∃ F R, runChan c cur ch = some (.idle, F, R) ∧ posted = rep.map Prod.fst ++ R ∧
    ap.filter (onM c m) ++ F ++ (ctlFx ctl).filter (onM c m) = is.filter (onM c m) ∧
    (flag = false → (∀ tag, ctl ≠ .rmw m tag) → F = [])
  tail : TailOK m ctl ch
  sorted : ch.Pairwise (fun x y => x.tag ≤ y.tag)
  lt : ∀ x ∈ ch, x.tag < cnt

/-- the call a process is in -/
def CtlOK (c : Cfg) (p : Nat) (ops : List Op) (flag : Nat → Bool) : Ctl → Prop
  | .idle => True
  | .fencing m tag none => (∃ r, ops[tag]? = some (.fence r) ∧ c.master r = m)
  | .fencing m tag (some op) => ops[tag]? = some op ∧ tag + 1 = ops.length ∧ c.master op.target = m
  | .direct tag op => ops[tag]? = some op ∧ tag + 1 = ops.length ∧
      flag (c.master op.target) = false
  | .fencingAll ms tag bar => ops[tag]? = some (if bar then .barrier else .fenceAll) ∧
      ∀ m, flag m = true → m ∈ ms
  | .rmw m tag => ∃ r a v, ops[tag]? = some (.fadd r a v) ∨ ops[tag]? = some (.swap r a v)
  | .waiting t tag => ops[tag]? = some (.wait t)
  | .barrier tag => ops[tag]? = some .barrier ∧ ∀ m, flag m = false

/-- a posted receive belongs to a call -/
def SlotOK (ops : List Op) : Slot → Prop
  | .ack => True
  | .buf tag len => (∃ r a, ops[tag]? = some (.get r a len)) ∨
      (len = 1 ∧ ∃ r a v, ops[tag]? = some (.fadd r a v) ∨ ops[tag]? = some (.swap r a v))

/-- a message that asks for a reply belongs to a call -/
def MsgOK (c : Cfg) (m : Nat) (ops : List Op) (x : Msg) : Prop :=
  match x.body with
  | .get r a len => ops[x.tag]? = some (.get r a len) ∧ c.master r = m
  | .fadd r a v => ops[x.tag]? = some (.fadd r a v)
  | .swap r a v => ops[x.tag]? = some (.swap r a v)
  | _ => True

/-- call `tag` of `p` has read `vals` -/
def ReadOK (p : Nat) (tr : List Ev) (tag : Nat) (vals : List Int) : Prop :=
  (∃ r a, (calls p tr)[tag]? = some (.get r a vals.length) ∧ .load p tag r a vals ∈ tr) ∨
  (∃ op old fx, (calls p tr)[tag]? = some op ∧ opFx tag op = [fx] ∧ vals = [old] ∧
    ((∃ r a v, op = .fadd r a v) ∨ ∃ r a v, op = .swap r a v) ∧ .rmw p old fx ∈ tr)

/-- a reply has what was read -/
def RepOK (p : Nat) (tr : List Ev) : Slot × List Int → Prop
  | (.ack, vals) => vals = []
  | (.buf tag len, vals) => vals.length = len ∧ ReadOK p tr tag vals

/-- everything process `q` asked for before its `k`-th barrier has happened -/
def BarOK (c : Cfg) (q k : Nat) (tr : List Ev) : Prop :=
  ∀ m, ((opsFx 0 (beforeBar k (calls q tr))).filter (onM c m)).IsPrefix
    ((appliedBy q tr).filter (onM c m))

/-- number of the effect's call is below `t` -/
def before (t : Nat) (f : Fx) : Bool := decide (f.tag < t)

/-- What holds when an event is appended to a trace. -/
def EvOK (c : Cfg) (mem0 : Nat → Nat → Int) (pre : List Ev) : Ev → Prop
  | .load p t r a vals =>
    vals = readMem (cellVal mem0 (applied pre)) r a vals.length ∧
    (calls p pre)[t]? = some (.get r a vals.length) ∧
    ((appliedBy p pre).filter (onM c (c.master r))).filter (before t) =
      ((issued p pre).filter (onM c (c.master r))).filter (before t)
  | .rmw p old fx =>
    old = cellVal mem0 (applied pre) fx.rank fx.addr ∧
    ∃ op, (calls p pre)[fx.tag]? = some op ∧ opFx fx.tag op = [fx] ∧
      ((∃ r a v, op = .fadd r a v) ∨ ∃ r a v, op = .swap r a v)
  | .ret p t vals => ∃ op, (calls p pre)[t]? = some op ∧
    match op with
    | .fence r =>
        (appliedBy p pre).filter (onM c (c.master r)) = (issued p pre).filter (onM c (c.master r))
    | .fenceAll => ∀ m, (appliedBy p pre).filter (onM c m) = (issued p pre).filter (onM c m)
    | .barrier => ∀ q, q < c.size → c.user q = true → bars (calls p pre) ≤ bars (calls q pre) ∧
        BarOK c q (bars (calls p pre)) pre
    | .get r a _ => .load p t r a vals ∈ pre
    | .fadd r a v => ∃ old, vals = [old] ∧ .rmw p old ⟨t, r, a, .add v⟩ ∈ pre
    | .swap r a v => ∃ old, vals = [old] ∧ .rmw p old ⟨t, r, a, .put v⟩ ∈ pre
    | .wait _ => True
    | _ => False
  | _ => True

/-- every event of the trace was fine when it happened -/
def Hist (c : Cfg) (mem0 : Nat → Nat → Int) (tr : List Ev) : Prop :=
  ∀ pre e post, tr = pre ++ e :: post → EvOK c mem0 pre e

theorem Hist.snoc {c : Cfg} {mem0 : Nat → Nat → Int} {tr : List Ev} {e : Ev} (h : Hist c mem0 tr)
    (he : EvOK c mem0 tr e) : Hist c mem0 (tr ++ [e]) := by
  intro pre e' post heq
  rcases List.append_eq_append_iff.1 heq with ⟨a, h1, h2⟩ | ⟨a, h1, h2⟩
  · cases a with
    | nil =>
      simp only [List.nil_append, List.cons.injEq] at h2
      rw [← h2.1, h1]
      simpa using he
    | cons x a => simp at h2
  · cases a with
    | nil =>
      simp only [List.nil_append, List.cons.injEq] at h2
      rw [h2.1]
      simp only [List.append_nil] at h1
      rw [← h1]
      exact he
    | cons x a =>
      simp only [List.cons_append, List.cons.injEq] at h2
      exact h pre e' a (by rw [h1, h2.1])

structure Inv (c : Cfg) (mem0 : Nat → Nat → Int) (s : State) : Prop where
  err : s.err = false
  pm : ∀ p m, PM c m (curOf s m p) (s.chan p m) (s.rep p m) (s.posted p m) (s.flag p m) (s.ctl p)
    (s.cnt p) (appliedBy p s.tr) (issued p s.tr)
  ctl : ∀ p, CtlOK c p (calls p s.tr) (s.flag p) (s.ctl p)
  flag : ∀ p m, s.flag p m = true → m < c.size ∧ c.master m = m
  slot : ∀ p m, ∀ sl ∈ s.posted p m, SlotOK (calls p s.tr) sl
  msg : ∀ p m, ∀ x ∈ s.chan p m, MsgOK c m (calls p s.tr) x
  rep : ∀ p m, ∀ e ∈ s.rep p m, RepOK p s.tr e
  mem : ∀ r a, s.mem r a = cellVal mem0 (applied s.tr) r a
  cnt : ∀ p, s.cnt p = (calls p s.tr).length
  bar : ∀ q k, 1 ≤ k → k ≤ s.bars q → BarOK c q k s.tr
  barn : ∀ q, bars (calls q s.tr) = s.bars q + (match s.ctl q with | .fencingAll _ _ true => 1 | _ => 0)
  hist : Hist c mem0 s.tr

/-- requirements on the configuration: masters exist and serve themselves; messages have room -/
structure Cfg.OK (c : Cfg) : Prop where
  chunk : 0 < c.chunk
  master : ∀ r, r < c.size → c.master r < c.size ∧ c.master (c.master r) = c.master r

end GA.Comex
