import Verif.Model.Comex
import Mathlib.Data.List.Basic
import Mathlib.Tactic.Ring

/-!
# Lemmas about the communication layer
-/

namespace GA.Comex

/-! ## Streams of messages -/

/-- What a channel will do when the server receives all of it. -/
def runChan (c : Cfg) : Cur → List Msg → Option (Cur × List Fx × List Slot)
  | cur, [] => some (cur, [], [])
  | cur, m :: ms =>
    (handle c cur m).bind fun d => (runChan c d.cur ms).map fun x =>
      (x.1, d.fx ++ x.2.1, d.reply.toList ++ x.2.2)

theorem runChan_append {c : Cfg} {cur : Cur} {a b : List Msg} :
    runChan c cur (a ++ b) = (runChan c cur a).bind fun x => (runChan c x.1 b).map fun y =>
      (y.1, x.2.1 ++ y.2.1, x.2.2 ++ y.2.2) := by
  induction a generalizing cur with
  | nil =>
    simp only [List.nil_append, runChan, Option.bind_some]
    cases runChan c cur b <;> rfl
  | cons m a ih =>
    simp only [List.cons_append, runChan]
    cases handle c cur m with
    | none => rfl
    | some d =>
      simp only [Option.bind_some, ih]
      cases runChan c d.cur a with
      | none => rfl
      | some x =>
        simp only [Option.bind_some, Option.map_some]
        cases runChan c x.1 b with
        | none => rfl
        | some y => simp

theorem putFx_append {t r : Nat} {vs ws : List Int} {a : Nat} :
    putFx t r a (vs ++ ws) = putFx t r a vs ++ putFx t r (a + vs.length) ws := by
  induction vs generalizing a with
  | nil => simp [putFx]
  | cons v vs ih =>
    simp only [List.cons_append, putFx, List.length_cons, ih]
    rw [show a + (vs.length + 1) = a + 1 + vs.length by omega]

theorem runChan_put {c : Cfg} (hc : 0 < c.chunk) {t tag r : Nat} {fuel : Nat} {vs : List Int} {a : Nat}
    (h0 : 0 < vs.length) (hf : vs.length ≤ fuel) :
    runChan c (.put t r a vs.length) (dataMsgs c.chunk tag fuel vs) =
      some (.idle, putFx t r a vs, []) := by
  induction fuel generalizing vs a with
  | zero => omega
  | succ n ih =>
    simp only [dataMsgs]
    split
    · rename_i h
      have e1 : (vs.take c.chunk).length = c.chunk := by rw [List.length_take]; omega
      have e2 : (vs.drop c.chunk).length = vs.length - c.chunk := List.length_drop
      simp only [runChan, handle, e1]
      rw [if_pos (by omega), if_neg (by omega)]
      simp only [Option.bind_some]
      rw [← e2, ih (by omega) (by omega)]
      simp only [Option.map_some, Option.toList_none, List.nil_append]
      conv_rhs => rw [← List.take_append_drop c.chunk vs, putFx_append, e1]
    · rename_i h
      simp only [runChan, handle]
      rw [if_pos (by omega), if_pos (by omega)]
      simp

theorem runChan_acc {c : Cfg} (hc : 0 < c.chunk) {t tag r a : Nat} {sc : Int} {fuel : Nat}
    {vs buf : List Int} (h0 : 0 < vs.length) (hf : vs.length ≤ fuel) :
    runChan c (.acc t r a sc vs.length buf) (dataMsgs c.chunk tag fuel vs) =
      some (.idle, accFx t r sc a (buf ++ vs), []) := by
  induction fuel generalizing vs buf with
  | zero => omega
  | succ n ih =>
    simp only [dataMsgs]
    split
    · rename_i h
      have e1 : (vs.take c.chunk).length = c.chunk := by rw [List.length_take]; omega
      have e2 : (vs.drop c.chunk).length = vs.length - c.chunk := List.length_drop
      simp only [runChan, handle, e1]
      rw [if_pos (by omega), if_neg (by omega)]
      simp only [Option.bind_some]
      rw [← e2, ih (by omega) (by omega)]
      simp
    · rename_i h
      simp only [runChan, handle]
      rw [if_pos (by omega), if_pos (by omega)]
      simp

/-- one-sided operations: everything but fences, barriers and waits -/
def Op.oneSided : Op → Bool
  | .put _ _ _ | .acc _ _ _ _ | .get _ _ _ | .fadd _ _ _ | .swap _ _ _ | .unlock _ _ => true
  | _ => false

theorem runChan_msgsOf {c : Cfg} (hc : 0 < c.chunk) {tag : Nat} {op : Op} (hv : op.valid c = true) :
    runChan c .idle (msgsOf c tag op) = some (.idle, opFx tag op, slotsOf tag op) := by
  cases op with
  | put r a vs =>
    simp only [Op.valid, Bool.and_eq_true, Bool.not_eq_true', List.isEmpty_eq_false_iff] at hv
    have : 0 < vs.length := List.length_pos_iff.2 hv.2
    simp only [msgsOf]
    split
    · rename_i h
      simp [runChan, handle, h, opFx, slotsOf]
    · rename_i h
      simp only [runChan, handle]
      rw [if_neg h, if_pos this]
      simp only [Option.bind_some]
      rw [runChan_put hc this le_rfl]
      rfl
  | acc r a sc vs =>
    simp only [Op.valid, Bool.and_eq_true, Bool.not_eq_true', List.isEmpty_eq_false_iff] at hv
    have : 0 < vs.length := List.length_pos_iff.2 hv.2
    simp only [msgsOf]
    split
    · rename_i h
      simp [runChan, handle, h, opFx, slotsOf]
    · rename_i h
      simp only [runChan, handle]
      rw [if_neg h, if_pos this]
      simp only [Option.bind_some]
      rw [runChan_acc hc this le_rfl]
      rfl
  | get r a len => simp [msgsOf, runChan, handle, opFx, slotsOf]
  | fadd r a inc => simp [msgsOf, runChan, handle, opFx, slotsOf]
  | swap r a v => simp [msgsOf, runChan, handle, opFx, slotsOf]
  | unlock r id => simp [msgsOf, runChan, handle, opFx, slotsOf]
  | fence r => simp [msgsOf, runChan, opFx, slotsOf]
  | fenceAll => simp [msgsOf, runChan, opFx, slotsOf]
  | barrier => simp [msgsOf, runChan, opFx, slotsOf]
  | wait t => simp [msgsOf, runChan, opFx, slotsOf]

theorem dataMsgs_tag {chunk tag n : Nat} {vs : List Int} : ∀ m ∈ dataMsgs chunk tag n vs, m.tag = tag := by
  induction n generalizing vs with
  | zero => simp [dataMsgs]
  | succ n ih =>
    simp only [dataMsgs]
    split
    · intro m hm
      rcases List.mem_cons.1 hm with rfl | hm
      · rfl
      · exact ih m hm
    · simp

theorem msgsOf_tag {c : Cfg} {tag : Nat} {op : Op} : ∀ m ∈ msgsOf c tag op, m.tag = tag := by
  cases op with
  | put r a vs =>
    simp only [msgsOf]
    split
    · simp
    · intro m hm
      rcases List.mem_cons.1 hm with rfl | hm
      · rfl
      · exact dataMsgs_tag m hm
  | acc r a sc vs =>
    simp only [msgsOf]
    split
    · simp
    · intro m hm
      rcases List.mem_cons.1 hm with rfl | hm
      · rfl
      · exact dataMsgs_tag m hm
  | _ => simp [msgsOf]

theorem putFx_mem {t r a : Nat} {vs : List Int} {f : Fx} (h : f ∈ putFx t r a vs) :
    f.tag = t ∧ f.rank = r ∧ ∃ i v, vs[i]? = some v ∧ f.addr = a + i ∧ f.upd = .put v := by
  induction vs generalizing a with
  | nil => simp [putFx] at h
  | cons v vs ih =>
    rcases List.mem_cons.1 h with rfl | h
    · exact ⟨rfl, rfl, 0, v, by simp, by simp, rfl⟩
    · obtain ⟨h1, h2, i, w, h3, h4, h5⟩ := ih h
      exact ⟨h1, h2, i + 1, w, by simpa using h3, by omega, h5⟩

theorem accFx_mem {t r a : Nat} {sc : Int} {vs : List Int} {f : Fx} (h : f ∈ accFx t r sc a vs) :
    f.tag = t ∧ f.rank = r ∧ ∃ i v, vs[i]? = some v ∧ f.addr = a + i ∧ f.upd = .add (sc * v) := by
  induction vs generalizing a with
  | nil => simp [accFx] at h
  | cons v vs ih =>
    rcases List.mem_cons.1 h with rfl | h
    · exact ⟨rfl, rfl, 0, v, by simp, by simp, rfl⟩
    · obtain ⟨h1, h2, i, w, h3, h4, h5⟩ := ih h
      exact ⟨h1, h2, i + 1, w, by simpa using h3, by omega, h5⟩

theorem opFx_tag {t : Nat} {op : Op} {f : Fx} (h : f ∈ opFx t op) : f.tag = t ∧ f.rank = op.target := by
  cases op with
  | put r a vs => exact ⟨(putFx_mem h).1, (putFx_mem h).2.1⟩
  | acc r a sc vs => exact ⟨(accFx_mem h).1, (accFx_mem h).2.1⟩
  | _ => simp [opFx] at h <;> (subst h; exact ⟨rfl, rfl⟩)

/-- tag of the current activity -/
def curTag : Cur → Option Nat
  | .idle => none
  | .put t _ _ _ => some t
  | .acc t _ _ _ _ _ => some t

theorem handle_tag {c : Cfg} {cur : Cur} {m : Msg} {d : Done} (h : handle c cur m = some d) {t : Nat}
    (hm : t ≤ m.tag) (hc : ∀ u, curTag cur = some u → t ≤ u) :
    (∀ f ∈ d.fx, t ≤ f.tag) ∧ ∀ u, curTag d.cur = some u → t ≤ u := by
  unfold handle at h
  split at h <;> (try split at h) <;> (try split at h) <;>
    (try simp only [reduceCtorEq, Option.some.injEq] at h) <;> (try subst h) <;> (try contradiction)
  all_goals
    first
    | (refine ⟨?_, ?_⟩
       · intro f hf
         first
         | (have := putFx_mem hf; first | omega | (rw [this.1]; exact hc _ rfl))
         | (have := accFx_mem hf; first | omega | (rw [this.1]; exact hc _ rfl))
         | (simp at hf; subst hf; exact hm)
         | (simp at hf)
       · intro u hu
         first
         | (simp only [curTag, reduceCtorEq] at hu; done)
         | (simp only [curTag, Option.some.injEq] at hu; subst hu; exact hm)
         | (simp only [curTag, Option.some.injEq] at hu; subst hu; exact hc _ rfl)
         | (simp only at hu
            split at hu
            · simp only [curTag, reduceCtorEq] at hu
            · simp only [curTag, Option.some.injEq] at hu; subst hu; exact hc _ rfl))

theorem runChan_tag {c : Cfg} {cur : Cur} {ms : List Msg} {x : Cur × List Fx × List Slot}
    (h : runChan c cur ms = some x) {t : Nat} (hm : ∀ m ∈ ms, t ≤ m.tag)
    (hc : ∀ u, curTag cur = some u → t ≤ u) : ∀ f ∈ x.2.1, t ≤ f.tag := by
  induction ms generalizing cur x with
  | nil => simp only [runChan, Option.some.injEq] at h; subst h; simp
  | cons m ms ih =>
    simp only [runChan] at h
    obtain ⟨d, h1, h2⟩ := Option.bind_eq_some_iff.1 h
    obtain ⟨y, h3, rfl⟩ := Option.map_eq_some_iff.1 h2
    obtain ⟨e1, e2⟩ := handle_tag h1 (hm m (by simp)) hc
    intro f hf
    rcases List.mem_append.1 hf with hf | hf
    · exact e1 f hf
    · exact ih h3 (fun m hm' => hm m (by simp [hm'])) e2 f hf

end GA.Comex
