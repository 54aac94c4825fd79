import Verif.Model.Handles
import Mathlib.Data.List.Basic

/-! # Effects of the handle operations on the abstract handle table -/

namespace GA.Handles

def slotState (s : Slot) : HState :=
  if s.actv then .live s.size else if s.actvHandle then .created else .free

/-- the handle table a process state stands for -/
def abs (p : PState) : Int → HState := fun h =>
  match index p h with
  | none => .free
  | some i => slotState (p.slot i)

/-- live arrays have a handle and memory -/
def Inv (p : PState) : Prop :=
  ∀ i, i < p.slots.length → (p.slot i).actv = true →
    (p.slot i).actvHandle = true ∧ (p.slot i).ptrNull = false

theorem index_eq_some {p : PState} {h : Int} {i : Nat} :
    index p h = some i ↔ i < p.slots.length ∧ h = (i : Int) - 1000 := by
  unfold index
  split
  · simp; omega
  · simp; omega

theorem index_valid {p : PState} {h : Int} (hv : Valid p.slots.length h) :
    ∃ i, i < p.slots.length ∧ h = (i : Int) - 1000 := by
  obtain ⟨h1, h2⟩ := hv
  exact ⟨(h + 1000).toNat, by omega, by omega⟩

theorem valid_index {p : PState} {i : Nat} (hi : i < p.slots.length) :
    Valid p.slots.length ((i : Int) - 1000) := ⟨by omega, by omega⟩

theorem abs_at {p : PState} {i : Nat} (hi : i < p.slots.length) :
    abs p ((i : Int) - 1000) = slotState (p.slot i) := by
  unfold abs; rw [index_eq_some.2 ⟨hi, rfl⟩]

theorem abs_not_valid {p : PState} {h : Int} (hv : ¬ Valid p.slots.length h) : abs p h = .free := by
  unfold abs
  cases e : index p h with
  | none => rfl
  | some i =>
    obtain ⟨a, b⟩ := index_eq_some.1 e
    exact absurd (b ▸ valid_index a) hv

theorem abs_ne_free {p : PState} {h : Int} (hf : abs p h ≠ .free) :
    ∃ i, i < p.slots.length ∧ h = (i : Int) - 1000 := by
  by_cases hv : Valid p.slots.length h
  · exact index_valid hv
  · exact absurd (abs_not_valid hv) hf

@[simp] theorem setSlot_length (p : PState) (i f) : (setSlot p i f).slots.length = p.slots.length := by
  simp [setSlot]

@[simp] theorem setSlot_total (p : PState) (i f) : (setSlot p i f).total = p.total := rfl
@[simp] theorem setSlot_limit (p : PState) (i f) : (setSlot p i f).limit = p.limit := rfl
@[simp] theorem setSlot_limited (p : PState) (i f) : (setSlot p i f).limited = p.limited := rfl

theorem setSlot_getD (p : PState) (i j : Nat) (f) (hi : i < p.slots.length) :
    (setSlot p i f).slot j =
      if j = i then f (p.slot i) else p.slot j := by
  simp only [PState.slot, setSlot, List.getD_eq_getElem?_getD, List.getElem?_modify]
  by_cases e : i = j
  · subst e; simp [List.getElem?_eq_getElem hi]
  · simp [e, Ne.symm e]

theorem abs_setSlot (p : PState) (i : Nat) (f) (hi : i < p.slots.length) :
    abs (setSlot p i f) = upd (abs p) ((i : Int) - 1000) (slotState (f (p.slot i))) := by
  funext h
  by_cases hv : Valid p.slots.length h
  · obtain ⟨j, hj, rfl⟩ := index_valid hv
    rw [abs_at (by simpa using hj), setSlot_getD _ _ _ _ hi]
    unfold upd
    by_cases e : j = i
    · simp [e]
    · rw [if_neg e, if_neg (by omega), abs_at hj]
  · rw [abs_not_valid (by simpa using hv)]
    unfold upd
    rw [if_neg, abs_not_valid hv]
    rintro rfl
    exact hv (valid_index hi)

theorem inv_setSlot {p : PState} {i : Nat} {f} (hi : i < p.slots.length) (h : Inv p)
    (hf : (f (p.slot i)).actv = true →
      (f (p.slot i)).actvHandle = true ∧ (f (p.slot i)).ptrNull = false) :
    Inv (setSlot p i f) := by
  intro j hj
  rw [setSlot_getD _ _ _ _ hi]
  split
  · exact hf
  · exact h j (by simpa using hj)

theorem abs_congr {p q : PState} (h : p.slots = q.slots) : abs p = abs q := by
  funext x; simp [abs, index, PState.slot, h]

theorem slot_congr {p q : PState} (h : p.slots = q.slots) (i : Nat) : p.slot i = q.slot i := by
  simp [PState.slot, h]

theorem inv_congr {p q : PState} (h : p.slots = q.slots) (hp : Inv p) : Inv q := by
  intro i hi
  rw [← slot_congr h]
  exact hp i (by rw [h]; exact hi)

/-! ## bytes -/

theorem sum_range_upd (n : Nat) (g : Nat → Int) (i : Nat) (v : Int) (hi : i < n) :
    ((List.range n).map (fun j => if j = i then v else g j)).sum = ((List.range n).map g).sum - g i + v := by
  induction n with
  | zero => omega
  | succ n ih =>
    simp only [List.range_succ, List.map_append, List.sum_append, List.map_cons, List.map_nil,
      List.sum_cons, List.sum_nil]
    by_cases e : i = n
    · subst e
      have : (List.range i).map (fun j => if j = i then v else g j) = (List.range i).map g := by
        apply List.map_congr_left
        intro a ha
        have := List.mem_range.1 ha
        rw [if_neg (by omega)]
      rw [this]; simp
    · rw [ih (by omega), if_neg (by omega)]; omega

theorem liveBytes_upd {max : Nat} {t : Int → HState} {h : Int} (hv : Valid max h) (s : HState) :
    liveBytes max (upd t h s) = liveBytes max t - (t h).bytes + s.bytes := by
  obtain ⟨h1, h2⟩ := hv
  have := sum_range_upd max (fun i : Nat => (t ((i : Int) - 1000)).bytes) (h + 1000).toNat s.bytes (by omega)
  unfold liveBytes
  have e : (((h + 1000).toNat : Int) - 1000) = h := by omega
  simp only [e] at this
  rw [← this]
  congr 1
  apply List.map_congr_left
  intro a _
  unfold upd
  by_cases hh : (a : Int) - 1000 = h
  · rw [if_pos hh, if_pos (by omega)]
  · rw [if_neg hh, if_neg (by omega)]

theorem foldl_sum (l : List Slot) (a : Int) :
    l.foldl (fun sum s => if s.actv then sum + s.size else sum) a =
      a + (l.map (fun s => (slotState s).bytes)).sum := by
  induction l generalizing a with
  | nil => simp
  | cons s l ih =>
    rw [List.foldl_cons, ih]
    simp only [List.map_cons, List.sum_cons, slotState]
    by_cases h : s.actv = true
    · simp [h, HState.bytes]; omega
    · by_cases h2 : s.actvHandle = true <;> simp [h, h2, HState.bytes]

theorem inquire_eq (p : PState) : inquireMemory p = liveBytes p.slots.length (abs p) := by
  unfold inquireMemory liveBytes
  rw [foldl_sum, Int.zero_add]
  congr 1
  apply List.ext_getElem
  · simp
  · intro i h1 h2
    simp only [List.length_map] at h1
    simp only [List.getElem_map, List.getElem_range]
    rw [abs_at h1]
    simp [PState.slot, List.getD_eq_getElem?_getD, List.getElem?_eq_getElem h1]

/-! ## operations -/

/-- `q` differs from `p` by `d` bytes charged -/
structure Acct (p q : PState) (d : Int) : Prop where
  len : q.slots.length = p.slots.length
  limit : q.limit = p.limit
  limited : q.limited = p.limited
  total : q.total = if p.limited then p.total - d else p.total

theorem freeSlot_some {l : List Slot} {i : Nat} (h : freeSlot l = some i) :
    i < l.length ∧ (l.getD i emptySlot).actvHandle = false := by
  unfold freeSlot at h
  rw [List.findIdx?_eq_some_iff_getElem] at h
  obtain ⟨hi, h1, _⟩ := h
  exact ⟨hi, by simpa [List.getD_eq_getElem?_getD, List.getElem?_eq_getElem hi] using h1⟩

theorem freeSlot_none {l : List Slot} (h : freeSlot l = none) {i : Nat} (hi : i < l.length) :
    (l.getD i emptySlot).actvHandle = true := by
  unfold freeSlot at h
  rw [List.findIdx?_eq_none_iff] at h
  have := h l[i] (List.getElem_mem hi)
  simpa [List.getD_eq_getElem?_getD, List.getElem?_eq_getElem hi] using this

theorem free_of_handle {p : PState} (h : Inv p) {i : Nat} (hi : i < p.slots.length)
    (ha : (p.slot i).actvHandle = false) :
    abs p ((i : Int) - 1000) = .free ∧ (p.slot i).actv = false := by
  have hn : (p.slot i).actv = false := by
    cases e : (p.slot i).actv with
    | false => rfl
    | true => have := (h i hi e).1; simp_all
  rw [abs_at hi]
  exact ⟨by simp [slotState, ha, hn], hn⟩

theorem ne_free_of_handle {p : PState} {i : Nat} (hi : i < p.slots.length)
    (ha : (p.slot i).actvHandle = true) : abs p ((i : Int) - 1000) ≠ .free := by
  rw [abs_at hi]
  unfold slotState
  split
  · simp
  · simp [ha]

theorem live_slot {p : PState} (h : Inv p) {i : Nat} (hi : i < p.slots.length) {n : Int}
    (e : abs p ((i : Int) - 1000) = .live n) :
    (p.slot i).actv = true ∧ (p.slot i).size = n ∧
      (p.slot i).ptrNull = false := by
  rw [abs_at hi] at e
  unfold slotState at e
  split at e
  · rename_i ha
    exact ⟨ha, by simpa using e, (h i hi ha).2⟩
  · split at e <;> simp at e

theorem not_live_slot {p : PState} {i : Nat} (hi : i < p.slots.length)
    (e : ∀ n, abs p ((i : Int) - 1000) ≠ .live n) : (p.slot i).actv = false := by
  cases ea : (p.slot i).actv with
  | false => rfl
  | true =>
    exact absurd (by rw [abs_at hi]; simp only [slotState, ea, if_true]) (e (p.slot i).size)

theorem eff_create {p : PState} (h : Inv p) :
    (∃ q g, createHandle p = (.handle g, q) ∧ Valid p.slots.length g ∧ abs p g = .free ∧
      abs q = upd (abs p) g .created ∧ Inv q ∧ Acct p q 0) ∨
    (createHandle p = (.abort, p) ∧ ∀ g, Valid p.slots.length g → abs p g ≠ .free) := by
  unfold createHandle
  cases e : freeSlot p.slots with
  | none =>
    refine .inr ⟨rfl, fun g hv => ?_⟩
    obtain ⟨i, hi, rfl⟩ := index_valid hv
    exact ne_free_of_handle hi (freeSlot_none e hi)
  | some i =>
    obtain ⟨hi, ha⟩ := freeSlot_some e
    obtain ⟨h1, h2⟩ := free_of_handle h hi ha
    refine .inl ⟨_, _, rfl, valid_index hi, h1, ?_, ?_, ?_⟩
    · rw [abs_setSlot _ _ _ hi]; simp [slotState, h2]
    · exact inv_setSlot hi h (by simp [h2])
    · exact ⟨by simp, rfl, rfl, by simp⟩

theorem eff_destroy {p : PState} (h : Inv p) {g n} (e : abs p g = .live n) :
    ∃ q, destroy p g = (.bool true, q) ∧ abs q = upd (abs p) g .free ∧ Inv q ∧ Acct p q (-n) := by
  obtain ⟨i, hi, rfl⟩ := abs_ne_free (p := p) (h := g) (by rw [e]; simp)
  obtain ⟨a1, a2, a3⟩ := live_slot h hi e
  unfold destroy
  rw [index_eq_some.2 ⟨hi, rfl⟩]
  simp only [a1, a2, a3]
  refine ⟨_, rfl, ?_, ?_, ?_⟩
  · refine (abs_congr (q := setSlot p i (fun s => { s with actv := false, actvHandle := false })) rfl).trans ?_
    rw [
      abs_setSlot _ _ _ hi]
    simp [slotState]
  · exact inv_congr (p := setSlot p i (fun s => { s with actv := false, actvHandle := false })) rfl
      (inv_setSlot hi h (by simp))
  · refine ⟨by simp, rfl, rfl, ?_⟩
    by_cases hl : p.limited = true <;> simp [hl]

theorem eff_destroy_bad {p : PState} {g} (e : ∀ n, abs p g ≠ .live n) :
    destroy p g = (.bool false, p) := by
  unfold destroy
  cases ei : index p g with
  | none => rfl
  | some i =>
    obtain ⟨hi, rfl⟩ := index_eq_some.1 ei
    simp [not_live_slot hi e]

theorem eff_deallocate {p : PState} (h : Inv p) {g n} (e : abs p g = .live n) :
    ∃ q, deallocate p g = (.bool true, q) ∧ abs q = upd (abs p) g .created ∧ Inv q ∧ Acct p q (-n) := by
  obtain ⟨i, hi, rfl⟩ := abs_ne_free (p := p) (h := g) (by rw [e]; simp)
  obtain ⟨a1, a2, a3⟩ := live_slot h hi e
  unfold deallocate
  rw [index_eq_some.2 ⟨hi, rfl⟩]
  simp only [a1, a2, a3]
  refine ⟨_, rfl, ?_, ?_, ?_⟩
  · refine (abs_congr (q := setSlot p i (fun s => { s with actv := false })) rfl).trans ?_
    rw [ abs_setSlot _ _ _ hi]
    simp [slotState, (h i hi a1).1]
  · exact inv_congr (p := setSlot p i (fun s => { s with actv := false })) rfl
      (inv_setSlot hi h (by simp))
  · refine ⟨by simp, rfl, rfl, ?_⟩
    by_cases hl : p.limited = true <;> simp [hl]

theorem eff_deallocate_bad {p : PState} {g} (e : ∀ n, abs p g ≠ .live n) :
    deallocate p g = (.bool false, p) := by
  unfold deallocate
  cases ei : index p g with
  | none => rfl
  | some i =>
    obtain ⟨hi, rfl⟩ := index_eq_some.1 ei
    simp [not_live_slot hi e]

/-- the slot to be filled is charged; what follows the reduction -/
theorem eff_post {p q0 : PState} (h : Inv p) {i : Nat} (hi : i < p.slots.length) (n : Int)
    {f : Slot → Slot} (hs : q0.slots = (setSlot p i f).slots)
    (hl : q0.limit = p.limit) (hld : q0.limited = p.limited)
    (ht : q0.total = if p.limited then p.total - n else p.total)
    (f1 : (f (p.slot i)).actv = true)
    (f2 : (f (p.slot i)).actvHandle = true)
    (f3 : (f (p.slot i)).size = n) (status : Bool) :
    ∃ q, allocPost q0 i n status = (status, q) ∧ Inv q ∧
      abs q = upd (abs p) ((i : Int) - 1000) (if status then .live n else .free) ∧
      Acct p q (if status then n else 0) := by
  have hi0 : i < q0.slots.length := by rw [hs]; simpa using hi
  have g0 : q0.slot i = f (p.slot i) := by
    rw [slot_congr hs, setSlot_getD _ _ _ _ hi, if_pos rfl]
  have len0 : q0.slots.length = p.slots.length := by rw [hs]; simp
  have absq0 : abs q0 = upd (abs p) ((i : Int) - 1000) (.live n) := by
    rw [abs_congr hs, abs_setSlot _ _ _ hi]; simp [slotState, f1, f3]
  have inv0 : ∀ (k : Slot → Slot), ((k (q0.slot i)).actv = true →
      (k (q0.slot i)).actvHandle = true ∧
      (k (q0.slot i)).ptrNull = false) → Inv (setSlot q0 i k) := by
    intro k hk j hj
    rw [setSlot_getD _ _ _ _ hi0]
    split
    · exact hk
    · rename_i hne
      rw [slot_congr hs, setSlot_getD _ _ _ _ hi, if_neg hne]
      exact h j (by simpa [len0] using hj)
  have upd2 : ∀ s s', upd (upd (abs p) ((i : Int) - 1000) s) ((i : Int) - 1000) s' =
      upd (abs p) ((i : Int) - 1000) s' := by
    intro s s'; funext x; simp only [upd]; split <;> rfl
  cases status with
  | true =>
    refine ⟨_, rfl, inv0 _ (by simp [g0, f2]), ?_, ⟨by simpa using len0, by simpa using hl,
      by simpa using hld, by simpa using ht⟩⟩
    rw [abs_setSlot _ _ _ hi0, absq0, upd2]
    simp [slotState, g0, f1, f3]
  | false =>
    obtain ⟨q1, hq1⟩ : ∃ q1 : PState, q1 = { setSlot q0 i (fun s => { s with ptrNull := true }) with
        total := if q0.limited then q0.total + n else q0.total } := ⟨_, rfl⟩
    have s1 : q1.slots = (setSlot q0 i (fun s => { s with ptrNull := true })).slots := by rw [hq1]
    have hi1 : i < q1.slots.length := by rw [s1]; simpa using hi0
    have g1 : q1.slot i = { f (p.slot i) with ptrNull := true } := by
      rw [slot_congr s1, setSlot_getD _ _ _ _ hi0, if_pos rfl, g0]
    have d1 : destroy q1 ((i : Int) - 1000) =
        (.bool true, setSlot q1 i (fun s => { s with actv := false, actvHandle := false })) := by
      unfold destroy
      rw [index_eq_some.2 ⟨hi1, rfl⟩]
      simp [g1, f1]
    refine ⟨setSlot q1 i (fun s => { s with actv := false, actvHandle := false }), ?_, ?_, ?_, ?_⟩
    · rw [← show _ = setSlot q1 i _ from congrArg Prod.snd d1, hq1]; rfl
    · intro j hj
      rw [setSlot_getD _ _ _ _ hi1]
      split
      · simp
      · rename_i hne
        rw [slot_congr s1, setSlot_getD _ _ _ _ hi0, if_neg hne, slot_congr hs,
          setSlot_getD _ _ _ _ hi, if_neg hne]
        exact h j (by simpa [s1, len0] using hj)
    · rw [abs_setSlot _ _ _ hi1, abs_congr s1, abs_setSlot _ _ _ hi0, absq0, upd2, upd2]
      simp [slotState]
    · refine ⟨by simpa [s1] using len0, by simp [hq1, hl], by simp [hq1, hld], ?_⟩
      simp only [setSlot_total, hq1, ht, hld]
      by_cases hl : p.limited = true <;> simp [hl]

theorem eff_allocate {p : PState} (h : Inv p) {g} (e : abs p g = .created) (n : Int) (o : Bool) :
    ∃ q, ∃ ok : Bool, (ok = true ↔ (p.limited = true → n ≤ p.total ∧ o = true)) ∧
      allocate p g n o = (.bool ok, q) ∧ Inv q ∧
      abs q = upd (abs p) g (if ok then .live n else .free) ∧ Acct p q (if ok then n else 0) := by
  obtain ⟨i, hi, rfl⟩ := abs_ne_free (p := p) (h := g) (by rw [e]; simp)
  have ha : (p.slot i).actvHandle = true := by
    rw [abs_at hi] at e
    unfold slotState at e
    split at e
    · simp at e
    · split at e
      · assumption
      · simp at e
  unfold allocate
  rw [index_eq_some.2 ⟨hi, rfl⟩]
  obtain ⟨q, h1, h2, h3, h4⟩ := eff_post h hi n (q0 := (allocPre p i n).1)
    (f := fun s => { s with actv := true, size := n }) rfl rfl rfl rfl rfl
    (by simpa using ha) rfl (reduce (allocPre p i n).1 (allocPre p i n).2 o)
  refine ⟨q, _, ?_, ?_, h2, h3, h4⟩
  · simp only [reduce, allocPre, setSlot_limited, setSlot_total]
    by_cases hl : p.limited = true <;> simp [hl]
  · simp only [h1]

theorem eff_duplicate {p : PState} (h : Inv p) {g n} (e : abs p g = .live n) (o : Bool) :
    (∃ q, ∃ g', ∃ ok : Bool, (ok = true ↔ (p.limited = true → n ≤ p.total ∧ o = true)) ∧
      duplicate p g o = (if ok then .handle g' else .bool false, q) ∧ Inv q ∧
      Valid p.slots.length g' ∧ abs p g' = .free ∧
      abs q = upd (abs p) g' (if ok then .live n else .free) ∧ Acct p q (if ok then n else 0)) ∨
    (duplicate p g o = (.abort, p) ∧ ∀ g, Valid p.slots.length g → abs p g ≠ .free) := by
  obtain ⟨j, hj, rfl⟩ := abs_ne_free (p := p) (h := g) (by rw [e]; simp)
  obtain ⟨a1, a2, a3⟩ := live_slot h hj e
  have hsl : p.slot j = ⟨true, true, n, false⟩ := by
    have := (h j hj a1).1
    cases hh : p.slot j
    simp_all
  unfold duplicate dupPre
  rw [index_eq_some.2 ⟨hj, rfl⟩]
  simp only [hsl, Bool.true_eq_false, if_false]
  cases ef : freeSlot p.slots with
  | none =>
    refine .inr ⟨rfl, fun g hv => ?_⟩
    obtain ⟨i, hi, rfl⟩ := index_valid hv
    exact ne_free_of_handle hi (freeSlot_none ef hi)
  | some i =>
    obtain ⟨hi, ha⟩ := freeSlot_some ef
    obtain ⟨b1, b2⟩ := free_of_handle h hi ha
    refine .inl ?_
    have key := eff_post h hi n
      (q0 := { setSlot p i (fun t => { (⟨true, true, n, false⟩ : Slot) with ptrNull := t.ptrNull }) with
        total := if p.limited then p.total - n else p.total })
      (f := fun t => { (⟨true, true, n, false⟩ : Slot) with ptrNull := t.ptrNull }) rfl rfl rfl rfl
      rfl rfl rfl
    obtain ⟨q, h1, h2, h3, h4⟩ := key (reduce { setSlot p i (fun t => { (⟨true, true, n, false⟩ : Slot) with ptrNull := t.ptrNull }) with
        total := if p.limited then p.total - n else p.total }
        (if p.limited then (if (if p.limited then p.total - n else p.total) ≥ 0 then true else false) else true) o)
    refine ⟨q, (i : Int) - 1000, _, ?_, ?_, h2, valid_index hi, b1, h3, h4⟩
    · simp only [reduce, setSlot_limited]
      by_cases hl : p.limited = true <;> simp [hl]
    · exact congrArg (fun r : Bool × PState =>
        ((if r.1 then Res.handle ((i : Int) - 1000) else Res.bool false : Res), r.2)) h1

theorem eff_duplicate_bad {p : PState} {g} (e : ∀ n, abs p g ≠ .live n) (o : Bool) :
    duplicate p g o = (.abort, p) := by
  unfold duplicate dupPre
  cases ei : index p g with
  | none => rfl
  | some i =>
    obtain ⟨hi, rfl⟩ := index_eq_some.1 ei
    simp [not_live_slot hi e]

theorem eff_use {p : PState} {g n} (e : abs p g = .live n) : use p g = .done := by
  obtain ⟨i, hi, rfl⟩ := abs_ne_free (p := p) (h := g) (by rw [e]; simp)
  unfold use
  rw [index_eq_some.2 ⟨hi, rfl⟩]
  rw [abs_at hi] at e
  unfold slotState at e
  split at e
  · rename_i ha; simp [ha]
  · split at e <;> simp at e

theorem eff_use_bad {p : PState} {g} (e : ∀ n, abs p g ≠ .live n) : use p g = .abort := by
  unfold use
  cases ei : index p g with
  | none => rfl
  | some i =>
    obtain ⟨hi, rfl⟩ := index_eq_some.1 ei
    simp [not_live_slot hi e]

theorem abs_init (p : PState) (max : Nat) (h : p.slots = List.replicate max emptySlot) :
    abs p = fun _ => .free := by
  funext x
  unfold abs
  cases e : index p x with
  | none => rfl
  | some i =>
    have hi := (index_eq_some.1 e).1
    simp only [PState.slot, h, List.getD_eq_getElem?_getD]
    rw [h, List.length_replicate] at hi
    simp [List.getElem?_replicate, hi, slotState, emptySlot]

theorem inv_init (p : PState) (max : Nat) (h : p.slots = List.replicate max emptySlot) : Inv p := by
  intro i hi
  simp only [h, List.length_replicate] at hi
  simp [PState.slot, h, List.getD_eq_getElem?_getD, List.getElem?_replicate, hi, emptySlot]

end GA.Handles
