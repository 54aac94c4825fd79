import Verif.Model.Requests
import Mathlib.Data.List.Nodup
import Mathlib.Algebra.BigOperators.Group.Finset.Basic
import Mathlib.Algebra.BigOperators.Group.Finset.Piecewise

/-! # Request slots: the pending messages of every slot as lists -/

namespace GA.Req

@[simp] theorem set_same {α : Type} [DecidableEq α] {β : Type} (f : α → β) (a : α) (v : β) :
    set f a v a = v := by simp [set]

theorem set_ne {α : Type} [DecidableEq α] {β : Type} (f : α → β) {a b : α} (v : β) (h : b ≠ a) :
    set f a v b = f b := by simp [set, h]

/-- the cells of the list are linked in this order, the last one has no successor -/
def Linked (nx : Nat → Option Nat) : List Nat → Prop
  | [] => True
  | m :: t => nx m = t.head? ∧ Linked nx t

theorem Linked.congr {nx nx' : Nat → Option Nat} {L : List Nat} (h : Linked nx L)
    (e : ∀ m ∈ L, nx' m = nx m) : Linked nx' L := by
  induction L with
  | nil => trivial
  | cons m t ih =>
    exact ⟨by rw [e m (by simp)]; exact h.1, ih h.2 fun x hx => e x (by simp [hx])⟩

theorem Linked.right {nx : Nat → Option Nat} {K R : List Nat} (h : Linked nx (K ++ R)) :
    Linked nx R := by
  induction K with
  | nil => exact h
  | cons a K ih => exact ih h.2

theorem Linked.append {nx : Nat → Option Nat} {L : List Nat} {t m : Nat} (h : Linked nx L)
    (hn : L.Nodup) (ht : L.getLast? = some t) (hm : nx m = none) (hmL : m ∉ L) :
    Linked (set nx t (some m)) (L ++ [m]) := by
  induction L with
  | nil => simp at ht
  | cons a L ih =>
    cases L with
    | nil =>
      simp only [List.getLast?_singleton, Option.some.injEq] at ht
      subst ht
      simp only [List.mem_singleton] at hmL
      simp [Linked, set, hm, hmL]
    | cons c L =>
      rw [List.getLast?_cons_cons] at ht
      have hat : a ≠ t := by
        intro e
        rw [List.nodup_cons] at hn
        exact hn.1 (e ▸ List.mem_of_getLast? ht)
      refine ⟨?_, ih h.2 (List.nodup_cons.1 hn).2 ht (fun hx => hmL (List.mem_cons_of_mem _ hx))⟩
      rw [set_ne _ _ hat, h.1]
      simp

/-- remove one element; `prev` is its predecessor -/
def unlink (nx : Nat → Option Nat) (prev : Option Nat) (m : Nat) : Nat → Option Nat :=
  match prev with
  | some p => set nx p (nx m)
  | none => nx

theorem unlink_ne {nx : Nat → Option Nat} {prev : Option Nat} {m x : Nat}
    (h : ∀ p, prev = some p → x ≠ p) : unlink nx prev m x = nx x := by
  cases prev with
  | none => rfl
  | some p => exact set_ne _ _ (h p rfl)

theorem Linked.remove {nx : Nat → Option Nat} {K R : List Nat} {m : Nat}
    (h : Linked nx (K ++ m :: R)) (hn : (K ++ m :: R).Nodup) :
    Linked (unlink nx K.getLast? m) (K ++ R) := by
  have hm : nx m = R.head? := (Linked.right h).1
  induction K with
  | nil => exact h.2
  | cons a K ih =>
    cases K with
    | nil =>
      simp only [List.getLast?_singleton, unlink, List.cons_append, List.nil_append, Linked, set_same]
      refine ⟨hm, ?_⟩
      have h2 : Linked nx R := (Linked.right (K := [a, m]) h)
      refine h2.congr fun x hx => set_ne _ _ ?_
      intro e
      subst e
      simp at hn
      exact hn.1.2 hx
    | cons c K =>
      rw [List.getLast?_cons_cons]
      have ih' := ih h.2 (List.nodup_cons.1 hn).2
      refine ⟨?_, ih'⟩
      have : (unlink nx (c :: K).getLast? m) a = nx a := by
        apply unlink_ne
        intro p hp e
        subst e
        exact (List.nodup_cons.1 hn).1 (List.mem_append_left _ (List.mem_of_getLast? hp))
      rw [this, h.1]
      simp

/-- replace one entry of the table of lists -/
def setP (P : Nat → Bool → List Nat) (i : Nat) (b : Bool) (L : List Nat) : Nat → Bool → List Nat :=
  set P i (set (P i) b L)

theorem setP_same (P : Nat → Bool → List Nat) (i : Nat) (b : Bool) (L : List Nat) :
    setP P i b L i b = L := by simp [setP]

theorem setP_ne (P : Nat → Bool → List Nat) {i j : Nat} {b c : Bool} (L : List Nat)
    (h : ¬ (j = i ∧ c = b)) : setP P i b L j c = P j c := by
  unfold setP set
  by_cases hj : j = i
  · subst hj
    by_cases hc : c = b
    · exact absurd ⟨rfl, hc⟩ h
    · simp [hc]
  · simp [hj]

theorem setQ_same (s : St) (i : Nat) (b : Bool) (x : Q) : (setQ s i b x).q i b = x := by simp [setQ]

theorem setQ_ne (s : St) {i j : Nat} {b c : Bool} (x : Q) (h : ¬ (j = i ∧ c = b)) :
    (setQ s i b x).q j c = s.q j c := by
  unfold setQ set
  by_cases hj : j = i
  · subst hj
    by_cases hc : c = b
    · exact absurd ⟨rfl, hc⟩ h
    · simp [hc]
  · simp [hj]

/-- Everything but the heads and the in-use flags: `P i b` are the pending messages of side `b` of
slot `i`. -/
structure Core (N : Nat) (s : St) (P : Nat → Bool → List Nat) : Prop where
  linked : ∀ i b, Linked s.next (P i b)
  tail0 : ∀ i b, P i b = [] → (s.q i b).tail = none
  tailL : ∀ i b t, (s.q i b).tail = some t → (P i b).getLast? = some t
  size : ∀ i b, (s.q i b).size = (P i b).length
  range : ∀ i b, N ≤ i → P i b = []
  nodup : ∀ i b, (P i b).Nodup
  disj : ∀ m i b j c, m ∈ P i b → m ∈ P j c → j = i ∧ c = b
  lognd : s.log.Nodup
  logdj : ∀ m i b, m ∈ P i b → m ∉ s.log
  all : ∀ m, m < s.fresh ↔ m ∈ s.log ∨ ∃ i b, m ∈ P i b
  live : ∀ m, s.live m = true ↔ ∃ i b, m ∈ P i b
  cnt : ∀ b, s.cnt b = s.cntP b + ∑ i ∈ Finset.range N, (P i b).length
  ev : s.ev = s.cnt false + s.cnt true
  evP : s.evP = s.cntP false + s.cntP true
  err : s.err = false

/-- the invariant between calls -/
structure Inv (N : Nat) (s : St) (P : Nat → Bool → List Nat) : Prop extends Core N s P where
  head : ∀ i b, (s.q i b).head = (P i b).head?
  free : ∀ i b, s.inUse i = false → P i b = []
  idx : s.idx < N

theorem sum_setP {N : Nat} (P : Nat → Bool → List Nat) {i : Nat} (hi : i < N) (b c : Bool)
    (L : List Nat) :
    ∑ j ∈ Finset.range N, (setP P i b L j c).length + (if c = b then (P i b).length else 0) =
      ∑ j ∈ Finset.range N, (P j c).length + (if c = b then L.length else 0) := by
  by_cases hc : c = b
  · subst hc
    rw [← Finset.add_sum_erase _ _ (Finset.mem_range.2 hi),
      ← Finset.add_sum_erase _ (fun j => (P j c).length) (Finset.mem_range.2 hi)]
    have : ∑ j ∈ (Finset.range N).erase i, (setP P i c L j c).length =
        ∑ j ∈ (Finset.range N).erase i, (P j c).length := by
      apply Finset.sum_congr rfl
      intro j hj
      rw [setP_ne _ _ (fun h => (Finset.ne_of_mem_erase hj) h.1)]
    rw [this, setP_same]
    simp only [if_true]
    omega
  · simp only [hc, if_false]
    have : ∑ j ∈ Finset.range N, (setP P i b L j c).length = ∑ j ∈ Finset.range N, (P j c).length := by
      apply Finset.sum_congr rfl
      intro j _
      rw [setP_ne _ _ (fun h => hc h.2)]
    omega

/-- state after the processing of message `m` -/
def removed (s : St) (i : Nat) (b : Bool) (prev : Option Nat) (m : Nat) (h t : Option Nat) : St :=
  { setQ s i b ⟨h, t, (s.q i b).size - 1⟩ with
    next := unlink s.next prev m, live := set s.live m false, log := s.log ++ [m],
    cntP := set s.cntP b (s.cntP b + 1), evP := s.evP + 1, err := false }

theorem Core.lt {N : Nat} {s : St} {P : Nat → Bool → List Nat} (h : Core N s P) {i : Nat} {b : Bool}
    (hne : P i b ≠ []) : i < N := by
  by_contra hc
  exact hne (h.range i b (by omega))

theorem Core.remove {N : Nat} {s : St} {P : Nat → Bool → List Nat} (h : Core N s P) {i : Nat}
    {b : Bool} {K R : List Nat} {m : Nat} (hP : P i b = K ++ m :: R) :
    Core N (removed s i b K.getLast? m R.head? (if R = [] then none else (s.q i b).tail))
      (setP P i b (K ++ R)) := by
  have hi : i < N := h.lt (b := b) (by rw [hP]; simp)
  have hmem : m ∈ P i b := by rw [hP]; simp
  have hsub : ∀ x, x ∈ K ++ R → x ∈ P i b := by
    intro x hx; rw [hP]; simp only [List.mem_append, List.mem_cons] at *; tauto
  have hnd : (K ++ m :: R).Nodup := hP ▸ h.nodup i b
  have hmn : m ∉ K ++ R := by
    have := List.nodup_middle.1 hnd
    exact (List.nodup_cons.1 this).1
  have hKR : (K ++ R).Nodup := (List.nodup_cons.1 (List.nodup_middle.1 hnd)).2
  have hin : ∀ x j c, x ∈ setP P i b (K ++ R) j c → x ∈ P j c := by
    intro x j c hx
    by_cases hjc : j = i ∧ c = b
    · obtain ⟨rfl, rfl⟩ := hjc; rw [setP_same] at hx; exact hsub x hx
    · rwa [setP_ne _ _ hjc] at hx
  have hmo : ∀ j c, m ∉ setP P i b (K ++ R) j c := by
    intro j c hx
    by_cases hjc : j = i ∧ c = b
    · obtain ⟨rfl, rfl⟩ := hjc; rw [setP_same] at hx; exact hmn hx
    · rw [setP_ne _ _ hjc] at hx
      exact hjc (h.disj m i b j c hmem hx)
  have hback : ∀ x j c, x ≠ m → x ∈ P j c → x ∈ setP P i b (K ++ R) j c := by
    intro x j c hx hxp
    by_cases hjc : j = i ∧ c = b
    · obtain ⟨rfl, rfl⟩ := hjc
      rw [setP_same]
      rw [hP] at hxp
      simp only [List.mem_append, List.mem_cons] at *
      tauto
    · rwa [setP_ne _ _ hjc]
  constructor
  · intro j c
    by_cases hjc : j = i ∧ c = b
    · obtain ⟨rfl, rfl⟩ := hjc
      rw [setP_same]
      exact (hP ▸ h.linked j c).remove hnd
    · rw [setP_ne _ _ hjc]
      refine (h.linked j c).congr fun x hx => ?_
      show unlink s.next K.getLast? m x = s.next x
      apply unlink_ne
      intro p hp e
      subst e
      have : x ∈ P i b := by rw [hP]; simp [List.mem_of_getLast? hp]
      exact hjc (h.disj x i b j c this hx)
  · intro j c hj
    show ((setQ s i b _).q j c).tail = none
    by_cases hjc : j = i ∧ c = b
    · obtain ⟨rfl, rfl⟩ := hjc
      rw [setP_same] at hj
      rw [setQ_same]
      have : R = [] := (List.append_eq_nil_iff.1 hj).2
      simp [this]
    · rw [setP_ne _ _ hjc] at hj
      rw [setQ_ne _ _ hjc]
      exact h.tail0 j c hj
  · intro j c t
    show ((setQ s i b _).q j c).tail = some t → _
    by_cases hjc : j = i ∧ c = b
    · obtain ⟨rfl, rfl⟩ := hjc
      rw [setP_same, setQ_same]
      intro ht
      by_cases hR : R = []
      · simp [hR] at ht
      · simp only [hR, if_false] at ht
        have := h.tailL j c t ht
        rw [hP] at this
        obtain ⟨r, R, rfl⟩ := List.exists_cons_of_ne_nil hR
        rw [List.getLast?_append, List.getLast?_cons_cons] at this
        rw [List.getLast?_append]
        exact this
    · rw [setP_ne _ _ hjc, setQ_ne _ _ hjc]
      exact h.tailL j c t
  · intro j c
    show ((setQ s i b _).q j c).size = _
    by_cases hjc : j = i ∧ c = b
    · obtain ⟨rfl, rfl⟩ := hjc
      rw [setP_same, setQ_same]
      simp only
      rw [h.size, hP]
      simp
    · rw [setP_ne _ _ hjc, setQ_ne _ _ hjc]
      exact h.size j c
  · intro j c hj
    rw [setP_ne _ _ (fun e => by omega)]
    exact h.range j c hj
  · intro j c
    by_cases hjc : j = i ∧ c = b
    · obtain ⟨rfl, rfl⟩ := hjc; rw [setP_same]; exact hKR
    · rw [setP_ne _ _ hjc]; exact h.nodup j c
  · intro x j c k d h1 h2
    exact h.disj x j c k d (hin x j c h1) (hin x k d h2)
  · show (s.log ++ [m]).Nodup
    rw [List.nodup_append]
    refine ⟨h.lognd, by simp, ?_⟩
    intro a ha c hc e
    simp only [List.mem_singleton] at hc
    subst hc e
    exact h.logdj _ i b hmem ha
  · intro x j c hx
    show x ∉ s.log ++ [m]
    simp only [List.mem_append, List.mem_singleton, not_or]
    exact ⟨h.logdj x j c (hin x j c hx), fun e => hmo j c (e ▸ hx)⟩
  · intro x
    show x < s.fresh ↔ x ∈ s.log ++ [m] ∨ _
    rw [h.all x]
    simp only [List.mem_append, List.mem_singleton]
    constructor
    · rintro (hx | ⟨j, c, hx⟩)
      · left; left; exact hx
      · by_cases e : x = m
        · left; right; exact e
        · right; exact ⟨j, c, hback x j c e hx⟩
    · rintro ((hx | rfl) | ⟨j, c, hx⟩)
      · left; exact hx
      · right; exact ⟨i, b, hmem⟩
      · right; exact ⟨j, c, hin x j c hx⟩
  · intro x
    show set s.live m false x = true ↔ _
    by_cases e : x = m
    · subst e
      simp only [set_same, Bool.false_eq_true, false_iff, not_exists]
      exact hmo
    · rw [set_ne _ _ e, h.live x]
      constructor
      · rintro ⟨j, c, hx⟩; exact ⟨j, c, hback x j c e hx⟩
      · rintro ⟨j, c, hx⟩; exact ⟨j, c, hin x j c hx⟩
  · intro c
    show s.cnt c = set s.cntP b (s.cntP b + 1) c + _
    have h1 := h.cnt c
    have h2 := sum_setP P hi b c (K ++ R)
    have h3 : (P i b).length = (K ++ R).length + 1 := by rw [hP]; simp; omega
    by_cases hc : c = b
    · subst hc
      simp only [if_true] at h2
      rw [set_same]
      omega
    · simp only [hc, if_false] at h2
      rw [set_ne _ _ hc]
      omega
  · exact h.ev
  · show s.evP + 1 = set s.cntP b (s.cntP b + 1) false + set s.cntP b (s.cntP b + 1) true
    have := h.evP
    cases b <;> simp [set] <;> omega
  · rfl

theorem removed_head {s : St} {i : Nat} {b : Bool} {p : Option Nat} {m : Nat} {h t : Option Nat} :
    ((removed s i b p m h t).q i b).head = h := by
  show ((setQ s i b _).q i b).head = h
  rw [setQ_same]

theorem removed_other {s : St} {i : Nat} {b : Bool} {p : Option Nat} {m : Nat} {h t : Option Nat}
    {j : Nat} {c : Bool} (hn : ¬ (j = i ∧ c = b)) : (removed s i b p m h t).q j c = s.q j c :=
  setQ_ne _ _ hn

/-! ## Waiting -/

theorem wait1_eq {N : Nat} {s : St} {P : Nat → Bool → List Nat} (h : Core N s P) {i : Nat}
    {b : Bool} {R : List Nat} {m : Nat} (hP : P i b = m :: R) (hh : (s.q i b).head = some m) :
    wait1 s i b = removed s i b none m R.head? (if R = [] then none else (s.q i b).tail) := by
  have hl : Linked s.next (m :: R) := hP ▸ h.linked i b
  have hlive : s.live m = true := (h.live m).2 ⟨i, b, by rw [hP]; simp⟩
  have hsz : (s.q i b).size ≠ 0 := by rw [h.size, hP]; simp
  unfold wait1 removed
  simp only [hh, hl.1, unlink, h.err, hlive, hsz]
  cases R with
  | nil => rfl
  | cons r R => rfl

/-- an empty side does not change during the processing of the other -/
theorem Inv.wait1 {N : Nat} {s : St} {P : Nat → Bool → List Nat} (h : Inv N s P) {i : Nat} {b : Bool}
    {R : List Nat} {m : Nat} (hP : P i b = m :: R) :
    Inv N (wait1 s i b) (setP P i b R) ∧ (wait1 s i b).log = s.log ++ [m] ∧
      (wait1 s i b).inUse = s.inUse ∧ (wait1 s i b).fresh = s.fresh := by
  have hh : (s.q i b).head = some m := by rw [h.head, hP]; rfl
  have e := wait1_eq h.toCore hP hh
  have hc := h.toCore.remove (K := []) hP
  refine ⟨⟨?_, ?_, ?_, ?_⟩, ?_, ?_, ?_⟩
  · rw [e]; exact hc
  · intro j c
    rw [e]
    by_cases hjc : j = i ∧ c = b
    · obtain ⟨rfl, rfl⟩ := hjc
      rw [removed_head, setP_same]
    · rw [removed_other hjc, setP_ne _ _ hjc, h.head]
  · intro j c hj
    rw [e] at hj
    have := h.free j c hj
    by_cases hjc : j = i ∧ c = b
    · obtain ⟨rfl, rfl⟩ := hjc
      rw [hP] at this
      cases this
    · rw [setP_ne _ _ hjc, this]
  · rw [e]; exact h.idx
  · rw [e]; rfl
  · rw [e]; rfl
  · rw [e]; rfl

theorem setP_setP (P : Nat → Bool → List Nat) (i : Nat) (b : Bool) (L M : List Nat) :
    setP (setP P i b L) i b M = setP P i b M := by
  funext j c
  by_cases hjc : j = i ∧ c = b
  · obtain ⟨rfl, rfl⟩ := hjc; rw [setP_same, setP_same]
  · rw [setP_ne _ _ hjc, setP_ne _ _ hjc, setP_ne _ _ hjc]

/-- both sides of slot `i` empty -/
def cleared (P : Nat → Bool → List Nat) (i : Nat) : Nat → Bool → List Nat :=
  fun j c => if j = i then [] else P j c

theorem waitLoop_ok {N : Nat} (i : Nat) (fuel : Nat) {s : St} {P : Nat → Bool → List Nat}
    (h : Inv N s P) (hf : (P i false).length ≤ fuel ∧ (P i true).length ≤ fuel) :
    Inv N (waitLoop i fuel s) (cleared P i) ∧
      (∃ L, (waitLoop i fuel s).log = s.log ++ L ∧ L.Perm (P i false ++ P i true) ∧
        (P i false).Sublist L ∧ (P i true).Sublist L) ∧
      (waitLoop i fuel s).inUse = set s.inUse i false ∧ (waitLoop i fuel s).fresh = s.fresh := by
  induction fuel generalizing s P with
  | zero =>
    have h1 : P i false = [] := List.length_eq_zero_iff.1 (by omega)
    have h2 : P i true = [] := List.length_eq_zero_iff.1 (by omega)
    have hc : cleared P i = P := by
      funext j c
      unfold cleared
      split
      · rename_i e; subst e; cases c <;> simp [h1, h2]
      · rfl
    have hd : (s.q i false).head = none ∧ (s.q i true).head = none := by
      rw [h.head, h.head, h1, h2]; exact ⟨rfl, rfl⟩
    unfold waitLoop
    rw [if_pos hd, hc, h1, h2]
    refine ⟨⟨⟨h.linked, h.tail0, h.tailL, h.size, h.range, h.nodup, h.disj, h.lognd, h.logdj, h.all,
      h.live, h.cnt, h.ev, h.evP, h.err⟩, h.head, ?_, h.idx⟩, ⟨[], by simp, by simp, by simp, by simp⟩, rfl, rfl⟩
    intro j c hj
    by_cases e : j = i
    · subst e; cases c <;> assumption
    · exact h.free j c (by simpa [set, e] using hj)
  | succ f ih =>
    unfold waitLoop
    by_cases hd : (s.q i false).head = none ∧ (s.q i true).head = none
    · have h1 : P i false = [] := by
        have := h.head i false; rw [hd.1] at this; exact List.head?_eq_none_iff.1 this.symm
      have h2 : P i true = [] := by
        have := h.head i true; rw [hd.2] at this; exact List.head?_eq_none_iff.1 this.symm
      have hc : cleared P i = P := by
        funext j c
        unfold cleared
        split
        · rename_i e; subst e; cases c <;> simp [h1, h2]
        · rfl
      rw [if_pos hd, hc, h1, h2]
      refine ⟨⟨⟨h.linked, h.tail0, h.tailL, h.size, h.range, h.nodup, h.disj, h.lognd, h.logdj, h.all,
        h.live, h.cnt, h.ev, h.evP, h.err⟩, h.head, ?_, h.idx⟩, ⟨[], by simp, by simp, by simp, by simp⟩, rfl, rfl⟩
      intro j c hj
      by_cases e : j = i
      · subst e; cases c <;> assumption
      · exact h.free j c (by simpa [set, e] using hj)
    · rw [if_neg hd]
      simp only
      -- one step of a side
      have side : ∀ (b : Bool) {s : St} {P : Nat → Bool → List Nat}, Inv N s P →
          Inv N (if (s.q i b).head = none then s else Req.wait1 s i b) (setP P i b (P i b).tail) ∧
          (if (s.q i b).head = none then s else Req.wait1 s i b).log = s.log ++ (P i b).take 1 ∧
          (if (s.q i b).head = none then s else Req.wait1 s i b).inUse = s.inUse ∧
          (if (s.q i b).head = none then s else Req.wait1 s i b).fresh = s.fresh := by
        intro b s P h
        cases hP : P i b with
        | nil =>
          have : (s.q i b).head = none := by rw [h.head, hP]; rfl
          rw [if_pos this]
          have e : setP P i b ([] : List Nat).tail = P := by
            funext j c
            by_cases hjc : j = i ∧ c = b
            · obtain ⟨rfl, rfl⟩ := hjc; rw [setP_same, hP]; rfl
            · rw [setP_ne _ _ hjc]
          rw [e]
          exact ⟨h, by simp, rfl, rfl⟩
        | cons m R =>
          have : (s.q i b).head ≠ none := by rw [h.head, hP]; simp
          rw [if_neg this]
          obtain ⟨a, b', c, d⟩ := h.wait1 hP
          exact ⟨a, by simpa using b', c, d⟩
      obtain ⟨a1, a2, a3, a4⟩ := side false h
      obtain ⟨b1, b2, b3, b4⟩ := side true a1
      have e1 : setP P i false (P i false).tail i true = P i true := setP_ne _ _ (by simp)
      rw [e1] at b1 b2
      have e2 : setP (setP P i false (P i false).tail) i true (P i true).tail i false = (P i false).tail := by
        rw [setP_ne _ _ (by simp), setP_same]
      have e3 : setP (setP P i false (P i false).tail) i true (P i true).tail i true = (P i true).tail :=
        setP_same ..
      obtain ⟨c1, ⟨L, c2, c3, c4, c5⟩, c6, c7⟩ := ih b1 (by
        rw [e2, e3]; simp only [List.length_tail]; omega)
      rw [e2] at c3 c4
      rw [e3] at c3 c5
      have ec : cleared (setP (setP P i false (P i false).tail) i true (P i true).tail) i = cleared P i := by
        funext j c
        unfold cleared
        split
        · rfl
        · rename_i e
          rw [setP_ne _ _ (fun k => e k.1), setP_ne _ _ (fun k => e k.1)]
      rw [ec] at c1
      refine ⟨c1, ⟨(P i false).take 1 ++ (P i true).take 1 ++ L, ?_, ?_, ?_, ?_⟩, ?_, ?_⟩
      · rw [c2, b2, a2]; simp only [List.append_assoc]
      · have p1 : P i false = (P i false).take 1 ++ (P i false).tail := by
          rw [← List.drop_one, List.take_append_drop]
        have p2 : P i true = (P i true).take 1 ++ (P i true).tail := by
          rw [← List.drop_one, List.take_append_drop]
        conv => rhs; rw [p1, p2]
        refine (List.Perm.append_left _ c3).trans ?_
        rw [List.append_assoc, List.append_assoc]
        apply List.Perm.append_left
        rw [← List.append_assoc, ← List.append_assoc]
        apply List.Perm.append_right
        exact List.perm_append_comm
      · have p1 : P i false = (P i false).take 1 ++ (P i false).tail := by
          rw [← List.drop_one, List.take_append_drop]
        conv => lhs; rw [p1]
        rw [List.append_assoc]
        exact List.Sublist.append_left (c4.trans (List.sublist_append_right _ _)) _
      · have p2 : P i true = (P i true).take 1 ++ (P i true).tail := by
          rw [← List.drop_one, List.take_append_drop]
        conv => lhs; rw [p2]
        rw [List.append_assoc]
        exact (List.Sublist.append_left c5 _).trans (List.sublist_append_right _ _)
      · rw [c6, b3, a3]
      · rw [c7, b4, a4]

theorem length_le_fresh {N : Nat} {s : St} {P : Nat → Bool → List Nat} (h : Core N s P) (i : Nat)
    (b : Bool) : (P i b).length ≤ s.fresh := by
  have : (P i b) ⊆ List.range s.fresh := by
    intro m hm
    rw [List.mem_range]
    exact (h.all m).2 (Or.inr ⟨i, b, hm⟩)
  have := (List.Nodup.subperm (h.nodup i b) this).length_le
  simpa using this

theorem Inv.waitFor {N : Nat} {s : St} {P : Nat → Bool → List Nat} (h : Inv N s P) (i : Nat) :
    Inv N (waitFor s i) (cleared P i) ∧
      (∃ L, (waitFor s i).log = s.log ++ L ∧ L.Perm (P i false ++ P i true) ∧
        (P i false).Sublist L ∧ (P i true).Sublist L) ∧
      (waitFor s i).inUse = set s.inUse i false ∧ (waitFor s i).fresh = s.fresh :=
  waitLoop_ok i s.fresh h ⟨length_le_fresh h.toCore i false, length_le_fresh h.toCore i true⟩

end GA.Req
