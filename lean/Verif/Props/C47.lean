import Verif.Lemmas.Handles

/-! # C47: collective creation succeeds on all processes or on none, with the same handle -/

namespace GA.Handles

/-- A collective call. What an array occupies and the memory limit may differ from process to
process. -/
inductive COp where
  | create
  | allocate (h : Int) (bytes : Nat → Int)
  | duplicate (h : Int)
  | destroy (h : Int)
  | deallocate (h : Int)
  | use (h : Int)
  | setLimit (m : Nat → Int)

/-- the status a process contributes to the reduction in `pnga_allocate` (base.c 2808) and
`pnga_duplicate` (base.c 3821) -/
def localStatus (p : PState) (r : Nat) : COp → Bool
  | .allocate h bytes =>
    match index p h with
    | none => true
    | some i => (allocPre p i (bytes r)).2
  | .duplicate h =>
    match dupPre p h with
    | none => true
    | some x => x.2.2.2
  | _ => true

/-- what process `r` executes, given the result of the reduction -/
def localOp (r : Nat) (all : Bool) : COp → Op
  | .create => .create
  | .allocate h bytes => .allocate h (bytes r) all
  | .duplicate h => .duplicate h all
  | .destroy h => .destroy h
  | .deallocate h => .deallocate h
  | .use h => .use h
  | .setLimit m => .setLimit (m r)

/-- `n` processes execute a collective call: the answers and the new states. The reduction
`pnga_gop(..., "&&")` combines the status of all processes (see C42 for the reduction itself). -/
def cstep (n : Nat) (ps : Nat → PState) (o : COp) : (Nat → Res) × (Nat → PState) :=
  let all := (List.range n).all (fun r => localStatus (ps r) r o)
  (fun r => (step (ps r) (localOp r all o)).1, fun r => (step (ps r) (localOp r all o)).2)

/-- the answers to a sequence of collective calls -/
def crun (n : Nat) (ps : Nat → PState) : List COp → List (Nat → Res)
  | [] => []
  | o :: os => (cstep n ps o).1 :: crun n (cstep n ps o).2 os

/-- either every process imposes a limit or every process removes it -/
def Uniform (n : Nat) : COp → Prop
  | .setLimit m => (∀ r < n, 0 ≤ m r) ∨ (∀ r < n, m r < 0)
  | _ => True

private def shape (s : Slot) : Bool × Bool × Bool := (s.actv, s.actvHandle, s.ptrNull)

private def Same (p q : PState) : Prop :=
  p.slots.map shape = q.slots.map shape ∧ p.limited = q.limited

private theorem same_len {p q : PState} (h : Same p q) : p.slots.length = q.slots.length := by
  have := congrArg List.length h.1
  simpa using this

private theorem same_slot {p q : PState} (h : Same p q) (i : Nat) : shape (p.slot i) = shape (q.slot i) := by
  have h1 : (p.slots.map shape)[i]? = (q.slots.map shape)[i]? := by rw [h.1]
  simp only [List.getElem?_map] at h1
  simp only [PState.slot, List.getD_eq_getElem?_getD]
  cases e1 : p.slots[i]? <;> cases e2 : q.slots[i]? <;> simp_all

private theorem same_index {p q : PState} (h : Same p q) (g : Int) : index p g = index q g := by
  simp [index, same_len h]

private theorem same_free {p q : PState} (h : Same p q) : freeSlot p.slots = freeSlot q.slots := by
  have e : ∀ l : List Slot, freeSlot l = (l.map shape).findIdx? (fun s => !s.2.1) := by
    intro l
    rw [List.findIdx?_map]
    rfl
  rw [e, e, h.1]

private theorem same_setSlot {p q : PState} (h : Same p q) (i : Nat) {f g : Slot → Slot}
    (hfg : ∀ s t, shape s = shape t → shape (f s) = shape (g t)) (tp tq : Int) (lp lq : Int) :
    Same { setSlot p i f with total := tp, limit := lp } { setSlot q i g with total := tq, limit := lq } := by
  refine ⟨?_, h.2⟩
  apply List.ext_getElem?
  intro j
  simp only [setSlot, List.getElem?_map, List.getElem?_modify]
  have h1 : (p.slots.map shape)[j]? = (q.slots.map shape)[j]? := by rw [h.1]
  simp only [List.getElem?_map] at h1
  cases e1 : p.slots[j]? <;> cases e2 : q.slots[j]? <;> simp_all
  by_cases hij : i = j
  · simp [hij]; exact hfg _ _ h1
  · simp [hij, h1]

private theorem shape_eq {s t : Slot} : shape s = shape t ↔
    s.actv = t.actv ∧ s.actvHandle = t.actvHandle ∧ s.ptrNull = t.ptrNull := by
  simp [shape]

private theorem same_destroy {p q : PState} (h : Same p q) (g : Int) :
    (destroy p g).1 = (destroy q g).1 ∧ Same (destroy p g).2 (destroy q g).2 := by
  unfold destroy
  rw [same_index h]
  cases index q g with
  | none => exact ⟨rfl, h⟩
  | some i =>
    have hs := shape_eq.1 (same_slot h i)
    simp only [hs.1, hs.2.2]
    cases ha : (q.slot i).actv with
    | false => exact ⟨rfl, h⟩
    | true =>
      cases hp : (q.slot i).ptrNull with
      | true => exact ⟨rfl, same_setSlot h i (by intro s t e; simp_all [shape]) _ _ _ _⟩
      | false => exact ⟨rfl, same_setSlot h i (by intro s t e; simp_all [shape]) _ _ _ _⟩

private theorem same_deallocate {p q : PState} (h : Same p q) (g : Int) :
    (deallocate p g).1 = (deallocate q g).1 ∧ Same (deallocate p g).2 (deallocate q g).2 := by
  unfold deallocate
  rw [same_index h]
  cases index q g with
  | none => exact ⟨rfl, h⟩
  | some i =>
    have hs := shape_eq.1 (same_slot h i)
    simp only [hs.1, hs.2.2]
    cases ha : (q.slot i).actv with
    | false => exact ⟨rfl, h⟩
    | true =>
      cases hp : (q.slot i).ptrNull with
      | true => exact ⟨rfl, same_setSlot h i (by intro s t e; simp_all [shape]) _ _ _ _⟩
      | false => exact ⟨rfl, same_setSlot h i (by intro s t e; simp_all [shape]) _ _ _ _⟩

private theorem same_post {p q : PState} (h : Same p q) (i : Nat) (n m : Int) (st : Bool) :
    (allocPost p i n st).1 = (allocPost q i m st).1 ∧ Same (allocPost p i n st).2 (allocPost q i m st).2 := by
  unfold allocPost
  cases st with
  | true => exact ⟨rfl, same_setSlot h i (by intro s t e; simp_all [shape]) _ _ _ _⟩
  | false =>
    refine ⟨rfl, ?_⟩
    exact (same_destroy (same_setSlot h i (by intro s t e; simp_all [shape]) _ _ _ _) _).2

/-- the status of the process is part of the reduction -/
private theorem reduce_all {p q : PState} (h : p.limited = q.limited) {a b all : Bool}
    (ha : all = true → a = true) (hb : all = true → b = true) : reduce p a all = reduce q b all := by
  unfold reduce
  rw [h]
  cases all <;> simp_all

private theorem same_step {p q : PState} (h : Same p q) {n : Nat} (o : COp) (r r' : Nat) (all : Bool)
    (hu : Uniform n o) (hr : r < n) (hr' : r' < n)
    (h1 : all = true → localStatus p r o = true) (h2 : all = true → localStatus q r' o = true) :
    (step p (localOp r all o)).1 = (step q (localOp r' all o)).1 ∧
      Same (step p (localOp r all o)).2 (step q (localOp r' all o)).2 := by
  cases o with
  | create =>
    simp only [localOp, step, createHandle, same_free h]
    cases freeSlot q.slots with
    | none => exact ⟨rfl, h⟩
    | some i => exact ⟨rfl, same_setSlot h i (by intro s t e; simp_all [shape]) _ _ _ _⟩
  | allocate g bytes =>
    simp only [localOp, step, allocate, localStatus] at *
    rw [same_index h] at h1 ⊢
    cases e : index q g with
    | none => exact ⟨rfl, h⟩
    | some i =>
      simp only [e] at h1 h2 ⊢
      have hs : Same (allocPre p i (bytes r)).1 (allocPre q i (bytes r')).1 :=
        same_setSlot h i (by intro s t e; simp_all [shape]) _ _ _ _
      rw [reduce_all hs.2 h1 h2]
      obtain ⟨e1, e2⟩ := same_post hs i (bytes r) (bytes r')
        (reduce (allocPre q i (bytes r')).1 (allocPre q i (bytes r')).2 all)
      exact ⟨by rw [e1], e2⟩
  | duplicate g =>
    simp only [localOp, step, duplicate, localStatus] at *
    have hd : (dupPre p g = none ∧ dupPre q g = none) ∨ ∃ i n m p' q' a b,
        dupPre p g = some (i, n, p', a) ∧ dupPre q g = some (i, m, q', b) ∧ Same p' q' := by
      unfold dupPre
      rw [same_index h]
      cases index q g with
      | none => exact .inl ⟨rfl, rfl⟩
      | some j =>
        have hs := same_slot h j
        have hs' := shape_eq.1 hs
        simp only [hs'.1, same_free h]
        by_cases ha : (q.slot j).actv = false
        · simp [ha]
        · simp only [ha, if_false]
          cases freeSlot q.slots with
          | none => exact .inl ⟨rfl, rfl⟩
          | some i =>
            exact .inr ⟨i, _, _, _, _, _, _, rfl, rfl,
              same_setSlot h i (by intro s t e; simp_all [shape]) _ _ _ _⟩
    rcases hd with ⟨a, b⟩ | ⟨i, n, m, p', q', a, b, e1, e2, hs⟩
    · rw [a, b]; exact ⟨rfl, h⟩
    · simp only [e1] at h1
      simp only [e2] at h2
      simp only [e1, e2]
      rw [reduce_all hs.2 h1 h2]
      obtain ⟨e3, e4⟩ := same_post hs i n m (reduce q' b all)
      exact ⟨by rw [e3], e4⟩
  | destroy g => exact same_destroy h g
  | deallocate g => exact same_deallocate h g
  | use g =>
    simp only [localOp, step, use]
    rw [same_index h]
    cases index q g with
    | none => exact ⟨rfl, h⟩
    | some i => simp only [(shape_eq.1 (same_slot h i)).1]; exact ⟨trivial, h⟩
  | setLimit m =>
    simp only [localOp, step, setMemoryLimit, h.2]
    refine ⟨trivial, ?_⟩
    rcases hu with hu | hu
    · have a := hu r hr
      have b := hu r' hr'
      simp only [ge_iff_le, a, b, if_true]
      split
      · exact ⟨h.1, rfl⟩
      · exact ⟨h.1, rfl⟩
    · have a := hu r hr
      have b := hu r' hr'
      simp only [ge_iff_le, if_neg (show ¬ 0 ≤ m r by omega), if_neg (show ¬ 0 ≤ m r' by omega)]
      split
      · exact ⟨h.1, rfl⟩
      · exact ⟨h.1, rfl⟩

private theorem crun_agree (n : Nat) (ps : Nat → PState) (os : List COp)
    (hs : ∀ r < n, ∀ r' < n, Same (ps r) (ps r')) (hu : ∀ o ∈ os, Uniform n o) :
    ∀ a ∈ crun n ps os, ∀ r < n, ∀ r' < n, a r = a r' := by
  induction os generalizing ps with
  | nil => simp [crun]
  | cons o os ih =>
    have key : ∀ r < n, ∀ r' < n, (cstep n ps o).1 r = (cstep n ps o).1 r' ∧
        Same ((cstep n ps o).2 r) ((cstep n ps o).2 r') := by
      intro r hr r' hr'
      unfold cstep
      refine same_step (hs r hr r' hr') o r r' _ (hu o (by simp)) hr hr' ?_ ?_
      · intro h; exact List.all_eq_true.1 h r (List.mem_range.2 hr)
      · intro h; exact List.all_eq_true.1 h r' (List.mem_range.2 hr')
    intro a ha
    simp only [crun, List.mem_cons] at ha
    rcases ha with rfl | ha
    · exact fun r hr r' hr' => (key r hr r' hr').1
    · exact ih _ (fun r hr r' hr' => (key r hr r' hr').2) (fun o ho => hu o (by simp [ho])) a ha

/-- **C47.** Any number of processes make the same sequence of collective calls. Arrays may occupy
different amounts of memory on each of them, and their limits may differ. Then every call has the
same result on all of them: creation succeeds everywhere or nowhere, and all get the same handle. -/
theorem C47_all_or_none (n max : Nat) (m : Nat → Int) (hm : (∀ r < n, 0 ≤ m r) ∨ (∀ r < n, m r < 0))
    (os : List COp) (hu : ∀ o ∈ os, Uniform n o) :
    ∀ a ∈ crun n (fun r => initLtd max (m r)) os, ∀ r < n, ∀ r' < n, a r = a r' := by
  refine crun_agree n _ os (fun r hr r' hr' => ⟨rfl, ?_⟩) hu
  simp only [initLtd]
  rcases hm with h | h
  · have := h r hr; have := h r' hr'
    rw [if_pos (by omega), if_pos (by omega)]
  · have := h r hr; have := h r' hr'
    rw [if_neg (by omega), if_neg (by omega)]

/-- an array that fits on process 0 but not on process 1 is created on neither -/
example : (crun 2 (fun _ => initLtd 4 100) [.create, .allocate (-1000) (fun r => if r = 0 then 50 else 200),
      .use (-1000)]).map (fun a => (a 0, a 1)) =
    [(.handle (-1000), .handle (-1000)), (.bool false, .bool false), (.abort, .abort)] := by decide

end GA.Handles
