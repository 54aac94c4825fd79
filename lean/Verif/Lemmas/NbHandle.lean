import Verif.Model.NbHandle
import Verif.Lemmas.ReqHeld

/-! # Non-blocking handles: lists of internal handles -/

namespace GA.Nb
open GA.Req (set set_same set_ne CxOK Held)

@[simp] theorem setArm_same (s : St) (i : Nat) (x : Arm) : (setArm s i x).arm i = x := by simp [setArm]
theorem setArm_ne (s : St) {i j : Nat} (x : Arm) (h : j ≠ i) : (setArm s i x).arm j = s.arm j := set_ne _ _ h
@[simp] theorem setArm_slot (s : St) (i : Nat) (x : Arm) : (setArm s i x).slot = s.slot := rfl
@[simp] theorem setArm_cx (s : St) (i : Nat) (x : Arm) : (setArm s i x).cx = s.cx := rfl
@[simp] theorem setArm_err (s : St) (i : Nat) (x : Arm) : (setArm s i x).err = s.err := rfl
@[simp] theorem setSlot_same (s : St) (i : Nat) (x : Slot) : (setSlot s i x).slot i = x := by simp [setSlot]
theorem setSlot_ne (s : St) {i j : Nat} (x : Slot) (h : j ≠ i) : (setSlot s i x).slot j = s.slot j := set_ne _ _ h
@[simp] theorem setSlot_arm (s : St) (i : Nat) (x : Slot) : (setSlot s i x).arm = s.arm := rfl
@[simp] theorem setSlot_cx (s : St) (i : Nat) (x : Slot) : (setSlot s i x).cx = s.cx := rfl
@[simp] theorem setSlot_err (s : St) (i : Nat) (x : Slot) : (setSlot s i x).err = s.err := rfl

/-- `L` is doubly linked, its first element pointing back to `p` -/
def Dl (arm : Nat → Arm) : Option Nat → List Nat → Prop
  | _, [] => True
  | p, a :: t => (arm a).prev = p ∧ (arm a).next = t.head? ∧ Dl arm (some a) t

theorem Dl.congr {arm arm' : Nat → Arm} {p : Option Nat} {L : List Nat} (h : Dl arm p L)
    (hc : ∀ x ∈ L, (arm' x).prev = (arm x).prev ∧ (arm' x).next = (arm x).next) : Dl arm' p L := by
  induction L generalizing p with
  | nil => trivial
  | cons a t ih =>
    obtain ⟨h1, h2, h3⟩ := h
    obtain ⟨c1, c2⟩ := hc a (by simp)
    exact ⟨by rw [c1, h1], by rw [c2, h2], ih h3 fun x hx => hc x (by simp [hx])⟩

theorem Dl.at {arm : Nat → Arm} {p : Option Nat} {A B : List Nat} {i : Nat}
    (h : Dl arm p (A ++ i :: B)) : (arm i).prev = A.getLast?.or p ∧ (arm i).next = B.head? := by
  induction A generalizing p with
  | nil => exact ⟨h.1, h.2.1⟩
  | cons a A ih =>
    have := ih h.2.2
    rw [this.1, this.2]
    refine ⟨?_, rfl⟩
    cases A with
    | nil => rfl
    | cons c A => rw [List.getLast?_cons_cons]; cases h : (c :: A).getLast? <;> simp_all

theorem Dl.remove {arm arm' : Nat → Arm} {p : Option Nat} {A B : List Nat} {i : Nat}
    (h : Dl arm p (A ++ i :: B)) (hn : (A ++ i :: B).Nodup)
    (h1 : ∀ x ∈ A ++ B, (arm' x).next = if A.getLast? = some x then B.head? else (arm x).next)
    (h2 : ∀ x ∈ A ++ B, (arm' x).prev = if B.head? = some x then A.getLast?.or p else (arm x).prev) :
    Dl arm' p (A ++ B) := by
  induction A generalizing p with
  | nil =>
    simp only [List.nil_append] at *
    cases B with
    | nil => trivial
    | cons b t =>
      obtain ⟨-, -, e1, e2, e3⟩ := h
      have hb : b ∉ t := (List.nodup_cons.1 (List.nodup_cons.1 hn).2).1
      refine ⟨by rw [h2 b (by simp)]; simp, by rw [h1 b (by simp)]; simpa using e2, ?_⟩
      refine e3.congr fun x hx => ⟨?_, ?_⟩
      · rw [h2 x (by simp [hx])]
        have : b ≠ x := fun e => hb (e ▸ hx)
        simp [this]
      · rw [h1 x (by simp [hx])]; simp
  | cons a A ih =>
    obtain ⟨e1, e2, e3⟩ := h
    rw [List.cons_append, List.nodup_cons] at hn
    obtain ⟨hna, hn⟩ := hn
    have haA : a ∉ A := fun hx => hna (by simp [hx])
    have haB : a ∉ B := fun hx => hna (by simp [hx])
    refine ⟨?_, ?_, ih e3 hn ?_ ?_⟩
    · rw [h2 a (by simp), if_neg, e1]
      intro e
      exact haB (List.mem_of_mem_head? (by rw [e]; rfl))
    · rw [h1 a (by simp)]
      cases A with
      | nil => simp
      | cons c A =>
        rw [if_neg, e2]
        · rfl
        · rw [List.getLast?_cons_cons]
          intro e
          exact haA (List.mem_of_getLast? e)
    · intro x hx
      rw [h1 x (by simp only [List.cons_append, List.mem_cons]; right; exact hx)]
      have hxa : a ≠ x := fun e => by
        subst e
        simp only [List.mem_append] at hx
        exact hx.elim haA haB
      cases A with
      | nil => simp [hxa]
      | cons c A => rw [List.getLast?_cons_cons]
    · intro x hx
      rw [h2 x (by simp only [List.cons_append, List.mem_cons]; right; exact hx)]
      congr 1
      cases A with
      | nil => rfl
      | cons c A => rw [List.getLast?_cons_cons]; cases h : (c :: A).getLast? <;> simp_all

/-- Well-formed states: `L g` is the list of slot `g`. Handle `ex`, if any, is not in a list although
it is marked active. -/
structure Inv (K N : Nat) (s : St) (L : Nat → List Nat) (ex : Option Nat) : Prop where
  dl : ∀ g, Dl s.arm none (L g)
  head : ∀ g, (s.slot g).head = (L g).head?
  nodup : ∀ g, (L g).Nodup
  mem : ∀ g a, a ∈ L g → a < K ∧ (s.arm a).active = true ∧ (s.arm a).ga = g
  act : ∀ a, a < K → (s.arm a).active = true → some a ≠ ex → a ∈ L (s.arm a).ga
  out : ∀ a g, ex = some a → a ∉ L g
  count : ∀ g, (s.slot g).count = (L g).length
  range : ∀ g, K ≤ g → L g = []
  tag : ∀ g, L g ≠ [] → 0 ≤ (s.slot g).tag ∧ (s.slot g).tag < 2 ^ 24
  hdl : ∀ a, (s.arm a).hdl < N
  cx : CxOK N s.cx
  err : s.err = false

/-- list update -/
def setL (L : Nat → List Nat) (g : Nat) (x : List Nat) : Nat → List Nat := fun h => if h = g then x else L h

@[simp] theorem setL_same (L : Nat → List Nat) (g : Nat) (x : List Nat) : setL L g x g = x := by simp [setL]
theorem setL_ne (L : Nat → List Nat) {g h : Nat} (x : List Nat) (e : h ≠ g) : setL L g x h = L h := by
  simp [setL, e]

theorem Inv.disj {K N : Nat} {s : St} {L : Nat → List Nat} {ex : Option Nat} (h : Inv K N s L ex)
    {g g' a : Nat} (h1 : a ∈ L g) (h2 : a ∈ L g') : g = g' := by
  rw [← (h.mem g a h1).2.2, (h.mem g' a h2).2.2]

theorem Inv.len {K N : Nat} {s : St} {L : Nat → List Nat} {ex : Option Nat} (h : Inv K N s L ex) (g : Nat) :
    (L g).length ≤ K := by
  have := (h.nodup g).subperm (l₂ := List.range K) (fun a ha => List.mem_range.2 (h.mem g a ha).1)
  simpa using this.length_le

/-- what `unlink` does to a handle -/
theorem unlink_arm (s : St) (i g x : Nat) :
    (unlink s i g).arm x =
      { s.arm x with
        next := if (s.arm i).prev = some x then (s.arm i).next else (s.arm x).next
        prev := if (s.arm i).next = some x then (s.arm i).prev else (s.arm x).prev } := by
  unfold unlink
  cases hp : (s.arm i).prev with
  | none =>
    cases hn : (s.arm i).next with
    | none => simp
    | some n =>
      simp only [setSlot_arm]
      by_cases e : x = n
      · subst e; simp
      · rw [setArm_ne _ _ e]; simp [Ne.symm e]
  | some p =>
    cases hn : (s.arm i).next with
    | none =>
      simp only [setSlot_arm]
      by_cases e : x = p
      · subst e; simp
      · rw [setArm_ne _ _ e]; simp [Ne.symm e]
    | some n =>
      simp only [setSlot_arm]
      by_cases e : x = n
      · subst e
        rw [setArm_same]
        by_cases e2 : x = p
        · subst e2; simp
        · rw [setArm_ne _ _ e2]; simp [Ne.symm e2]
      · rw [setArm_ne _ _ e]
        by_cases e2 : x = p
        · subst e2; simp [Ne.symm e]
        · rw [setArm_ne _ _ e2]; simp [Ne.symm e2, Ne.symm e]

theorem unlink_slot (s : St) (i g x : Nat) :
    (unlink s i g).slot x =
      if x = g then { s.slot g with
        head := if (s.arm i).prev = none then (s.arm i).next else (s.slot g).head
        count := (s.slot g).count - 1 }
      else s.slot x := by
  unfold unlink
  by_cases e : x = g
  · subst e
    cases hp : (s.arm i).prev <;> cases hn : (s.arm i).next <;> simp
  · cases hp : (s.arm i).prev <;> cases hn : (s.arm i).next <;> simp [setSlot_ne _ _ e, e]

@[simp] theorem unlink_cx (s : St) (i g : Nat) : (unlink s i g).cx = s.cx := by
  unfold unlink
  cases hp : (s.arm i).prev <;> cases hn : (s.arm i).next <;> rfl
@[simp] theorem unlink_err (s : St) (i g : Nat) : (unlink s i g).err = s.err := by
  unfold unlink
  cases hp : (s.arm i).prev <;> cases hn : (s.arm i).next <;> rfl

theorem Inv.unlink {K N : Nat} {s : St} {L : Nat → List Nat} (h : Inv K N s L none) {g i : Nat}
    {A B : List Nat} (hL : L g = A ++ i :: B) :
    Inv K N (Nb.unlink s i g) (setL L g (A ++ B)) (some i) := by
  have hi : i ∈ L g := by rw [hL]; simp
  have hd := h.dl g
  have hn := h.nodup g
  rw [hL] at hd hn
  obtain ⟨hp, hx⟩ := hd.at
  rw [Option.or_none] at hp
  have hiA : i ∉ A ∧ i ∉ B := by
    rw [List.nodup_append] at hn
    refine ⟨fun hx => hn.2.2 i hx i (by simp) rfl, (List.nodup_cons.1 hn.2.1).1⟩
  have hsub : ∀ x, x ∈ A ++ B → x ∈ L g := by
    intro x hx
    rw [hL]
    simp only [List.mem_append, List.mem_cons] at *
    tauto
  refine ⟨?_, ?_, ?_, ?_, ?_, ?_, ?_, ?_, ?_, ?_, by rw [unlink_cx]; exact h.cx, by rw [unlink_err]; exact h.err⟩
  · intro g'
    by_cases e : g' = g
    · subst e
      rw [setL_same]
      refine Dl.remove hd hn ?_ ?_
      · intro x _
        rw [unlink_arm, hp, hx]
      · intro x _
        rw [unlink_arm, hp, hx, Option.or_none]
    · rw [setL_ne _ _ e]
      refine (h.dl g').congr fun x hx' => ?_
      rw [unlink_arm, hp, hx]
      have n1 : ¬ A.getLast? = some x := fun e2 => e (h.disj hx' (hsub x (by
        have := List.mem_of_getLast? e2; simp [this])))
      have n2 : ¬ B.head? = some x := fun e2 => e (h.disj hx' (hsub x (by
        have := List.mem_of_mem_head? (a := x) (l := B) (by rw [e2]; rfl); simp [this])))
      simp only [n1, n2, if_false, and_self]
  · intro g'
    rw [unlink_slot]
    by_cases e : g' = g
    · subst e
      rw [setL_same, if_pos rfl]
      simp only
      rw [hp, hx, h.head, hL]
      cases A with
      | nil => simp
      | cons a A => rw [if_neg]; · rfl
                    · simp
    · rw [setL_ne _ _ e, if_neg e]; exact h.head g'
  · intro g'
    by_cases e : g' = g
    · subst e
      rw [setL_same]
      exact hn.sublist (List.Sublist.append_left (List.sublist_cons_self i B) A)
    · rw [setL_ne _ _ e]; exact h.nodup g'
  · intro g' a ha
    have ha' : a ∈ L g' := by
      by_cases e : g' = g
      · subst e; rw [setL_same] at ha; exact hsub a ha
      · rwa [setL_ne _ _ e] at ha
    rw [unlink_arm]
    exact h.mem g' a ha'
  · intro a ha hact hne
    rw [unlink_arm] at hact ⊢
    have := h.act a ha hact (by simp)
    simp only
    by_cases e : (s.arm a).ga = g
    · rw [e] at this ⊢
      rw [setL_same]
      rw [hL] at this
      simp only [List.mem_append, List.mem_cons] at *
      rcases this with h1 | h1 | h1
      · left; exact h1
      · exact absurd (congrArg some h1) hne
      · right; exact h1
    · rw [setL_ne _ _ e]; exact this
  · intro a g' e
    simp only [Option.some.injEq] at e
    subst e
    by_cases e : g' = g
    · subst e; rw [setL_same]; simp [hiA]
    · rw [setL_ne _ _ e]; exact fun hx => e (h.disj hx hi)
  · intro g'
    rw [unlink_slot]
    by_cases e : g' = g
    · subst e
      rw [setL_same, if_pos rfl]
      simp only
      rw [h.count, hL]
      simp only [List.length_append, List.length_cons]
      omega
    · rw [setL_ne _ _ e, if_neg e]; exact h.count g'
  · intro g' hg
    by_cases e : g' = g
    · subst e
      have := h.range g' hg
      rw [this] at hi; simp at hi
    · rw [setL_ne _ _ e]; exact h.range g' hg
  · intro g' hg
    rw [unlink_slot]
    by_cases e : g' = g
    · subst e
      rw [if_pos rfl]
      exact h.tag g' (by intro e; rw [e] at hi; simp at hi)
    · rw [if_neg e]; rw [setL_ne _ _ e] at hg; exact h.tag g' hg
  · intro a
    rw [unlink_arm]
    exact h.hdl a

/-- clearing a removed handle -/
theorem Inv.clear {K N : Nat} {s : St} {L : Nat → List Nat} {i : Nat} (h : Inv K N s L (some i))
    (x : Arm) (hx : x.active = false) (hh : x.hdl < N) : Inv K N (setArm s i x) L none := by
  have hne : ∀ g a, a ∈ L g → a ≠ i := fun g a ha e => h.out i g rfl (e ▸ ha)
  refine ⟨fun g => (h.dl g).congr fun a ha => by rw [setArm_ne _ _ (hne g a ha)]; exact ⟨rfl, rfl⟩,
    h.head, h.nodup, fun g a ha => by rw [setArm_ne _ _ (hne g a ha)]; exact h.mem g a ha, ?_, by simp,
    h.count, h.range, h.tag, ?_, h.cx, h.err⟩
  · intro a ha hact _
    by_cases e : a = i
    · subst e; rw [setArm_same, hx] at hact; simp at hact
    · rw [setArm_ne _ _ e] at hact ⊢
      exact h.act a ha hact (by simpa using e)
  · intro a
    by_cases e : a = i
    · subst e; rw [setArm_same]; exact hh
    · rw [setArm_ne _ _ e]; exact h.hdl a

/-- an inactive handle may be considered removed -/
theorem Inv.weaken {K N : Nat} {s : St} {L : Nat → List Nat} (h : Inv K N s L none) {i : Nat}
    (hi : (s.arm i).active = false) : Inv K N s L (some i) :=
  ⟨h.dl, h.head, h.nodup, h.mem, fun a ha hact _ => h.act a ha hact (by simp), by
    intro a g e ha
    simp only [Option.some.injEq] at e
    subst e
    rw [(h.mem g _ ha).2.1] at hi
    simp at hi, h.count, h.range, h.tag, h.hdl, h.cx, h.err⟩

theorem link_arm {s : St} {i index : Nat} (hh : (s.slot index).head ≠ some i) (x : Nat) :
    (link s i index).arm x =
      if x = i then { s.arm i with active := true, prev := none, next := (s.slot index).head, ga := index }
      else { s.arm x with prev := if (s.slot index).head = some x then some i else (s.arm x).prev } := by
  unfold link
  simp only [setSlot_arm, setArm_slot]
  cases hd : (s.slot index).head with
  | none =>
    simp only [setArm_slot, hd, setArm_same]
    by_cases e : x = i
    · subst e; simp
    · rw [setArm_ne _ _ e, setArm_ne _ _ e]; simp [e]
  | some h =>
    have hne : h ≠ i := fun e => hh (by rw [hd, e])
    simp only [setArm_slot, hd]
    by_cases e : x = i
    · subst e
      rw [setArm_same, if_pos rfl, setArm_ne _ _ hne.symm, setArm_same]
    · rw [setArm_ne _ _ e, if_neg e]
      by_cases e2 : x = h
      · subst e2
        rw [setArm_same, setArm_ne _ _ e]; simp
      · rw [setArm_ne _ _ e2, setArm_ne _ _ e]
        simp [Ne.symm e2]

theorem link_slot (s : St) (i index x : Nat) :
    (link s i index).slot x =
      if x = index then { s.slot index with head := some i, count := (s.slot index).count + 1 }
      else s.slot x := by
  unfold link
  simp only [setArm_slot]
  by_cases e : x = index
  · subst e
    cases hd : (s.slot x).head <;> simp
  · rw [setSlot_ne _ _ e, if_neg e]
    cases hd : (s.slot index).head <;> simp

@[simp] theorem link_cx (s : St) (i g : Nat) : (link s i g).cx = s.cx := by
  unfold link; simp only [setArm_slot]
  cases hd : (s.slot g).head <;> rfl
@[simp] theorem link_err (s : St) (i g : Nat) : (link s i g).err = s.err := by
  unfold link; simp only [setArm_slot]
  cases hd : (s.slot g).head <;> rfl

theorem Inv.link {K N : Nat} {s : St} {L : Nat → List Nat} {i index : Nat} (h : Inv K N s L (some i))
    (hi : i < K) (hg : index < K) (ht : 0 ≤ (s.slot index).tag ∧ (s.slot index).tag < 2 ^ 24) :
    Inv K N (Nb.link s i index) (setL L index (i :: L index)) none := by
  have hne : ∀ g a, a ∈ L g → a ≠ i := fun g a ha e => h.out i g rfl (e ▸ ha)
  have hh : (s.slot index).head ≠ some i := by
    rw [h.head]
    intro e
    exact h.out i index rfl (List.mem_of_mem_head? (by rw [e]; rfl))
  have harm := link_arm hh
  refine ⟨?_, ?_, ?_, ?_, ?_, by simp, ?_, ?_, ?_, ?_, by rw [link_cx]; exact h.cx, by rw [link_err]; exact h.err⟩
  · intro g
    by_cases e : g = index
    · subst e
      rw [setL_same]
      refine ⟨by rw [harm]; simp, by rw [harm]; simp [h.head], ?_⟩
      have hd := h.dl g
      cases hL : L g with
      | nil => trivial
      | cons b t =>
        rw [hL] at hd
        have hbi : b ≠ i := hne g b (by rw [hL]; simp)
        have hhd : (s.slot g).head = some b := by rw [h.head, hL]; rfl
        refine ⟨by rw [harm, if_neg hbi, hhd]; simp, by rw [harm, if_neg hbi]; exact hd.2.1, ?_⟩
        refine hd.2.2.congr fun x hx => ?_
        have hxi : x ≠ i := hne g x (by rw [hL]; simp [hx])
        have hxb : b ≠ x := by
          have := h.nodup g
          rw [hL] at this
          exact fun e => (List.nodup_cons.1 this).1 (e ▸ hx)
        rw [harm, if_neg hxi, hhd]
        simp [hxb]
    · rw [setL_ne _ _ e]
      refine (h.dl g).congr fun x hx => ?_
      rw [harm, if_neg (hne g x hx)]
      simp only [and_true]
      rw [if_neg]
      rw [h.head]
      intro e2
      exact e (h.disj hx (List.mem_of_mem_head? (by rw [e2]; rfl)))
  · intro g
    rw [link_slot]
    by_cases e : g = index
    · subst e; simp
    · rw [setL_ne _ _ e, if_neg e]; exact h.head g
  · intro g
    by_cases e : g = index
    · subst e; rw [setL_same]; exact List.nodup_cons.2 ⟨h.out i g rfl, h.nodup g⟩
    · rw [setL_ne _ _ e]; exact h.nodup g
  · intro g a ha
    have : (a = i ∧ g = index) ∨ a ∈ L g := by
      by_cases e : g = index
      · subst e; rw [setL_same] at ha
        simpa using ha
      · rw [setL_ne _ _ e] at ha; right; exact ha
    rcases this with ⟨rfl, rfl⟩ | ha
    · rw [harm, if_pos rfl]; exact ⟨hi, rfl, rfl⟩
    · rw [harm, if_neg (hne g a ha)]; exact h.mem g a ha
  · intro a ha hact _
    by_cases e : a = i
    · subst e; rw [harm, if_pos rfl]; simp
    · rw [harm, if_neg e] at hact ⊢
      have := h.act a ha hact (by simpa using e)
      simp only
      by_cases e2 : (s.arm a).ga = index
      · rw [e2] at this ⊢; rw [setL_same]; simp [this]
      · rw [setL_ne _ _ e2]; exact this
  · intro g
    rw [link_slot]
    by_cases e : g = index
    · subst e; rw [if_pos rfl, setL_same]; simp [h.count]
    · rw [setL_ne _ _ e, if_neg e]; exact h.count g
  · intro g hg'
    rw [setL_ne _ _ (by omega)]; exact h.range g hg'
  · intro g hg'
    rw [link_slot]
    by_cases e : g = index
    · subst e; rw [if_pos rfl]; exact ht
    · rw [if_neg e]; rw [setL_ne _ _ e] at hg'; exact h.tag g hg'
  · intro a
    rw [harm]
    split
    · exact h.hdl i
    · exact h.hdl a

/-! ## Waiting -/

/-- a handle after its transfer has been waited for -/
def done (x : Arm) : Arm := { x with next := none, prev := none, active := false }

theorem waitLoop_ok {N : Nat} (R : List Nat) {s : St} {p : Option Nat} (hd : Dl s.arm p R) (hn : R.Nodup)
    (fuel : Nat) (hf : R.length ≤ fuel) (hh : ∀ a ∈ R, (s.arm a).hdl < N) (hc : CxOK N s.cx) :
    ∃ cx', waitLoop N fuel R.head? s =
        { s with arm := fun x => if x ∈ R then done (s.arm x) else s.arm x, cx := cx' } ∧
      CxOK N cx' ∧ cx'.fresh = s.cx.fresh ∧ (∀ i m, Held s.cx i m → Held cx' i m) ∧
      (∀ m, m ∈ s.cx.log → m ∈ cx'.log) ∧
      (∀ a ∈ R, ∀ m, Held s.cx (s.arm a).hdl m → m ∈ cx'.log) := by
  induction R generalizing s p fuel with
  | nil => exact ⟨s.cx, by cases fuel <;> simp [waitLoop], hc, rfl, fun _ _ h => h, fun _ h => h, by simp⟩
  | cons a t ih =>
    cases fuel with
    | zero => simp at hf
    | succ f =>
      obtain ⟨e1, e2, e3⟩ := hd
      have hna := List.nodup_cons.1 hn
      have ha := hh a (by simp)
      obtain ⟨c1, c2, c3⟩ := hc.exec (.wait (s.arm a).hdl) ha
      obtain ⟨S, hS⟩ : ∃ S, S = setArm { s with cx := (Req.exec N s.cx (.wait (s.arm a).hdl)).1 } a (done (s.arm a)) :=
        ⟨_, rfl⟩
      have hSa : ∀ x, x ≠ a → S.arm x = s.arm x := fun x hx => by rw [hS, setArm_ne _ _ hx]
      have hSc : S.cx = (Req.exec N s.cx (.wait (s.arm a).hdl)).1 := by rw [hS]; rfl
      have hne : ∀ x ∈ t, x ≠ a := fun x hx e => hna.1 (e ▸ hx)
      obtain ⟨cx', d1, d2, d3, d4, d5, d6⟩ := ih (s := S) (p := some a)
        (e3.congr fun x hx => by rw [hSa x (hne x hx)]; exact ⟨rfl, rfl⟩) hna.2 f (by simpa using hf)
        (fun x hx => by rw [hSa x (hne x hx)]; exact hh x (by simp [hx])) (by rw [hSc]; exact c1)
      refine ⟨cx', ?_, d2, by rw [d3, hSc]; exact hc.fresh_wait ha, ?_, ?_, ?_⟩
      · show waitLoop N f (s.arm a).next (setArm { s with cx := (Req.exec N s.cx (.wait (s.arm a).hdl)).1 } a (done (s.arm a))) = _
        rw [← hS, e2, d1, hS]
        simp only [setArm]
        congr 1
        funext x
        by_cases hx : x = a
        · subst hx
          simp [hna.1]
        · simp only [set_ne _ _ hx, List.mem_cons, hx, false_or]
      · intro i m h
        exact d4 i m (by rw [hSc]; exact c2 i m h)
      · intro m h
        exact d5 m (by rw [hSc]; exact c3 m h)
      · intro x hx m h
        rcases List.mem_cons.1 hx with rfl | hx
        · exact d5 m (by rw [hSc]; exact hc.wait ha h)
        · exact d6 x hx m (by rw [hSa x (hne x hx), hSc]; exact c2 _ m h)

/-- message `m` is processed, or the slot `g` still has tag `t` and one of its handles holds it -/
def Track (s : St) (L : Nat → List Nat) (m g : Nat) (t : Int) : Prop :=
  m ∈ s.cx.log ∨ ((s.slot g).tag = t ∧ ∃ a ∈ L g, Held s.cx (s.arm a).hdl m)

theorem Inv.waitH {K N : Nat} {s : St} {L : Nat → List Nat} (h : Inv K N s L none) (hd : Hdl) :
    ∃ L', Inv K N (Nb.waitH K N s hd) L' none ∧
      (∀ m g t, Track s L m g t → Track (Nb.waitH K N s hd) L' m g t) ∧
      (∀ m, Track s L m hd.index hd.tag → m ∈ (Nb.waitH K N s hd).cx.log) ∧
      ((hd.tag : Int) = (s.slot hd.index).tag → L' hd.index = []) ∧
      (Nb.waitH K N s hd).cx.fresh = s.cx.fresh := by
  unfold Nb.waitH
  by_cases ht : (hd.tag : Int) = (s.slot hd.index).tag
  · rw [if_pos ht]
    simp only
    rw [h.head]
    obtain ⟨cx', e, c1, c2, c3, c4, c5⟩ := waitLoop_ok (N := N) (L hd.index) (h.dl _) (h.nodup _) K (h.len _)
      (fun a _ => h.hdl a) h.cx
    rw [e]
    generalize hd.index = g0 at *
    obtain ⟨S, hS⟩ : ∃ S, S = setSlot { s with arm := fun x => if x ∈ L g0 then done (s.arm x) else s.arm x, cx := cx' } g0
      { s.slot g0 with head := none, count := 0, active := false } := ⟨_, rfl⟩
    have hSarm : ∀ x, S.arm x = if x ∈ L g0 then done (s.arm x) else s.arm x := fun x => by rw [hS]; rfl
    have hSs : S.slot g0 = { s.slot g0 with head := none, count := 0, active := false } := by rw [hS, setSlot_same]
    have hSn : ∀ g, g ≠ g0 → S.slot g = s.slot g := fun g hg => by rw [hS, setSlot_ne _ _ hg]
    have hScx : S.cx = cx' := by rw [hS]; rfl
    have hSerr : S.err = false := by rw [hS]; exact h.err
    show ∃ L', Inv K N (setSlot _ g0 { s.slot g0 with head := none, count := 0, active := false }) L' none ∧ _
    rw [show setSlot { s with arm := fun x => if x ∈ L g0 then done (s.arm x) else s.arm x, cx := cx' } g0
      { s.slot g0 with head := none, count := 0, active := false } = S from hS.symm]
    have hno : ∀ g x, g ≠ g0 → x ∈ L g → x ∉ L g0 := fun g x hg hx hx2 => hg (h.disj hx hx2)
    have htr : ∀ m g t, Track s L m g t → Track S (setL L g0 []) m g t := by
      rintro m g t (hm | ⟨ht, a, ha, hm⟩)
      · left; rw [hScx]; exact c4 m hm
      · by_cases e : g = g0
        · subst e; left; rw [hScx]; exact c5 a ha m hm
        · right
          refine ⟨by rw [hSn g e]; exact ht, a, by rw [setL_ne _ _ e]; exact ha, ?_⟩
          rw [hSarm, if_neg (hno g a e ha), hScx]
          exact c3 _ m hm
    refine ⟨setL L g0 [], ⟨?_, ?_, ?_, ?_, ?_, by simp, ?_, ?_, ?_, ?_, by rw [hScx]; exact c1, hSerr⟩, htr, ?_,
      by simp, by rw [hScx]; exact c2⟩
    · intro g
      by_cases e : g = g0
      · subst e; rw [setL_same]; trivial
      · rw [setL_ne _ _ e]
        exact (h.dl g).congr fun x hx => by rw [hSarm, if_neg (hno g x e hx)]; exact ⟨rfl, rfl⟩
    · intro g
      by_cases e : g = g0
      · subst e; rw [setL_same, hSs]; rfl
      · rw [setL_ne _ _ e, hSn g e]; exact h.head g
    · intro g
      by_cases e : g = g0
      · subst e; rw [setL_same]; simp
      · rw [setL_ne _ _ e]; exact h.nodup g
    · intro g a ha
      by_cases e : g = g0
      · subst e; rw [setL_same] at ha; simp at ha
      · rw [setL_ne _ _ e] at ha
        rw [hSarm, if_neg (hno g a e ha)]
        exact h.mem g a ha
    · intro a ha hact _
      rw [hSarm] at hact ⊢
      split at hact
      · simp [done] at hact
      · rename_i hn
        rw [if_neg hn]
        have := h.act a ha hact (by simp)
        rw [setL_ne]
        · exact this
        · intro e; rw [e] at this; exact hn this
    · intro g
      by_cases e : g = g0
      · subst e; rw [setL_same, hSs]; rfl
      · rw [setL_ne _ _ e, hSn g e]; exact h.count g
    · intro g hg
      by_cases e : g = g0
      · subst e; rw [setL_same]
      · rw [setL_ne _ _ e]; exact h.range g hg
    · intro g hg
      by_cases e : g = g0
      · subst e; rw [setL_same] at hg; simp at hg
      · rw [setL_ne _ _ e] at hg; rw [hSn g e]; exact h.tag g hg
    · intro a
      rw [hSarm]
      split
      · exact h.hdl a
      · exact h.hdl a
    · rintro m (hm | ⟨-, a, ha, hm⟩)
      · rw [hScx]; exact c4 m hm
      · rw [hScx]; exact c5 a ha m hm
  · rw [if_neg ht]
    refine ⟨L, h, fun _ _ _ h => h, ?_, fun e => absurd e ht, rfl⟩
    rintro m (hm | ⟨e, _⟩)
    · exact hm
    · exact absurd e.symm ht

/-! ## Testing -/

theorem testLoop_ok {K N : Nat} (fl : Nat → Bool) (g0 : Nat) (R A : List Nat) {s : St} {L : Nat → List Nat}
    (h : Inv K N s L none) (hL : L g0 = A ++ R) (fuel : Nat) (hf : R.length ≤ fuel) :
    ∃ L', Inv K N (testLoop N fl g0 fuel R.head? s) L' none ∧
      (∀ m g t, Track s L m g t → Track (testLoop N fl g0 fuel R.head? s) L' m g t) ∧
      (∀ g, ((testLoop N fl g0 fuel R.head? s).slot g).tag = (s.slot g).tag) ∧
      (testLoop N fl g0 fuel R.head? s).cx.fresh = s.cx.fresh ∧
      ((∀ m, fl m = true) → L' g0 = A) := by
  induction R generalizing A s L fuel with
  | nil =>
    have : testLoop N fl g0 fuel ([] : List Nat).head? s = s := by cases fuel <;> rfl
    rw [this]
    exact ⟨L, h, fun _ _ _ h => h, fun _ => rfl, rfl, fun _ => by rw [hL]; simp⟩
  | cons a R ih =>
    cases fuel with
    | zero => simp at hf
    | succ f =>
      have hla : a ∈ L g0 := by rw [hL]; simp
      have hd := h.dl g0
      rw [hL] at hd
      obtain ⟨hprev, hnext⟩ := hd.at
      have hlt := h.hdl a
      obtain ⟨c1, c2, c3⟩ := h.cx.exec (.test (s.arm a).hdl fl) hlt
      have cf := h.cx.fresh_test hlt fl
      have call := h.cx.test_all hlt fl
      have c0 : (Req.exec N s.cx (.test (s.arm a).hdl fl)).2 = 0 → ∀ m, Held s.cx (s.arm a).hdl m →
        m ∈ (Req.exec N s.cx (.test (s.arm a).hdl fl)).1.log := fun e m hm => h.cx.test hlt fl e hm
      show ∃ L', Inv K N (testLoop N fl g0 (f + 1) (some a) s) L' none ∧ _
      rw [show (List.cons a R).head? = some a from rfl]
      rw [testLoop.eq_def]
      simp only [hnext]
      generalize Req.exec N s.cx (.test (s.arm a).hdl fl) = r at *
      have h1 : Inv K N { s with cx := r.1 } L none :=
        ⟨h.dl, h.head, h.nodup, h.mem, h.act, h.out, h.count, h.range, h.tag, h.hdl, c1, h.err⟩
      have ht1 : ∀ m g t, Track s L m g t → Track { s with cx := r.1 } L m g t := by
        rintro m g t (hm | ⟨ht, b, hb, hm⟩)
        · left; exact c3 m hm
        · right; exact ⟨ht, b, hb, c2 _ m hm⟩
      by_cases hr : r.2 = 0
      · rw [if_pos hr]
        have h2 := h1.unlink hL
        have h3 := h2.clear (done ((Nb.unlink { s with cx := r.1 } a g0).arm a)) rfl (h2.hdl a)
        obtain ⟨S, hS⟩ : ∃ S, S = setArm (Nb.unlink { s with cx := r.1 } a g0) a
          (done ((Nb.unlink { s with cx := r.1 } a g0).arm a)) := ⟨_, rfl⟩
        rw [← hS] at h3
        have hhdl : ∀ x, (S.arm x).hdl = (s.arm x).hdl := by
          intro x
          rw [hS]
          by_cases e : x = a
          · subst e; rw [setArm_same]; simp [done, unlink_arm]
          · rw [setArm_ne _ _ e]; simp [unlink_arm]
        have hcx : S.cx = r.1 := by rw [hS]; simp
        have htag : ∀ g, (S.slot g).tag = (s.slot g).tag := by
          intro g; rw [hS, setArm_slot, unlink_slot]; split
          · rename_i e; rw [e]
          · rfl
        have ht3 : ∀ m g t, Track s L m g t → Track S (setL L g0 (A ++ R)) m g t := by
          rintro m g t (hm | ⟨ht, b, hb, hm⟩)
          · left; rw [hcx]; exact c3 m hm
          · by_cases e : b = a
            · subst e; left; rw [hcx]; exact c0 hr m hm
            · right
              refine ⟨by rw [htag]; exact ht, b, ?_, by rw [hhdl, hcx]; exact c2 _ m hm⟩
              by_cases eg : g = g0
              · subst eg
                rw [setL_same]
                rw [hL] at hb
                simp only [List.mem_append, List.mem_cons] at *
                tauto
              · rw [setL_ne _ _ eg]; exact hb
        obtain ⟨L', d1, d2, d3, d4, d5⟩ := ih A h3 (by simp) f (by simpa using hf)
        refine ⟨L', ?_, ?_, ?_, ?_, d5⟩
        · rw [hS] at d1; exact d1
        · intro m g t hm
          have := d2 m g t (ht3 m g t hm)
          rw [hS] at this; exact this
        · intro g
          have := (d3 g).trans (htag g)
          rw [hS] at this; exact this
        · have := (d4.trans (by rw [hcx])).trans cf
          rw [hS] at this; exact this
      · rw [if_neg hr]
        obtain ⟨L', d1, d2, d3, d4, d5⟩ := ih (A ++ [a]) h1 (by rw [hL]; simp) f (by simpa using hf)
        exact ⟨L', d1, fun m g t hm => d2 m g t (ht1 m g t hm), d3, d4.trans cf, fun hfl => absurd (call hfl) hr⟩

theorem Inv.testH {K N : Nat} {s : St} {L : Nat → List Nat} (h : Inv K N s L none) (hd : Hdl)
    (fl : Nat → Bool) :
    ∃ L', Inv K N (Nb.testH K N s hd fl).1 L' none ∧
      (∀ m g t, Track s L m g t → Track (Nb.testH K N s hd fl).1 L' m g t) ∧
      ((Nb.testH K N s hd fl).2 = 0 → ∀ m, Track s L m hd.index hd.tag →
        m ∈ (Nb.testH K N s hd fl).1.cx.log) ∧
      ((∀ m, fl m = true) → (Nb.testH K N s hd fl).2 = 0) := by
  unfold Nb.testH
  by_cases ht : (hd.tag : Int) = (s.slot hd.index).tag
  · rw [if_pos ht]
    simp only
    rw [h.head]
    obtain ⟨L', d1, d2, d3, -, d5⟩ := testLoop_ok fl hd.index (L hd.index) [] h (by simp) K (h.len _)
    generalize testLoop N fl hd.index K (L hd.index).head? s = S at *
    have hS : ∃ S', S' = (if (S.slot hd.index).count = 0 then
        setSlot S hd.index { S.slot hd.index with head := none, active := false } else S) := ⟨_, rfl⟩
    obtain ⟨S', hS'⟩ := hS
    rw [← hS']
    have hsame : Inv K N S' L' none ∧ S'.cx = S.cx ∧ S'.arm = S.arm ∧
        (∀ g, (S'.slot g).tag = (S.slot g).tag) ∧ (∀ g, (S'.slot g).count = (S.slot g).count) := by
      rw [hS']
      split
      · rename_i hc
        have hL0 : L' hd.index = [] := by
          have := d1.count hd.index
          rw [hc] at this
          exact List.eq_nil_of_length_eq_zero (by omega)
        have hs : ∀ g, ((setSlot S hd.index { S.slot hd.index with head := none, active := false }).slot g).tag
            = (S.slot g).tag ∧
            ((setSlot S hd.index { S.slot hd.index with head := none, active := false }).slot g).count
            = (S.slot g).count ∧
            ((setSlot S hd.index { S.slot hd.index with head := none, active := false }).slot g).head
            = (S.slot g).head := by
          intro g
          by_cases e : g = hd.index
          · subst e
            rw [setSlot_same]
            refine ⟨rfl, rfl, ?_⟩
            rw [d1.head, hL0]; rfl
          · rw [setSlot_ne _ _ e]; exact ⟨rfl, rfl, rfl⟩
        refine ⟨⟨d1.dl, fun g => by rw [(hs g).2.2]; exact d1.head g, d1.nodup, d1.mem, d1.act, d1.out,
          fun g => by rw [(hs g).2.1]; exact d1.count g, d1.range,
          fun g hg => by rw [(hs g).1]; exact d1.tag g hg, d1.hdl, d1.cx, d1.err⟩, rfl, rfl,
          fun g => (hs g).1, fun g => (hs g).2.1⟩
      · exact ⟨d1, rfl, rfl, fun _ => rfl, fun _ => rfl⟩
    obtain ⟨e1, e2, e3, e4, e5⟩ := hsame
    have htr : ∀ m g t, Track s L m g t → Track S' L' m g t := by
      intro m g t hm
      rcases d2 m g t hm with h1 | ⟨h1, a, ha, h2⟩
      · left; rw [e2]; exact h1
      · right; exact ⟨by rw [e4]; exact h1, a, ha, by rw [e2, e3]; exact h2⟩
    refine ⟨L', e1, htr, ?_, ?_⟩
    · intro hz m hm
      have hnil : L' hd.index = [] := by
        have := d1.count hd.index
        rw [e5] at hz
        split at hz
        · simp at hz
        · exact List.eq_nil_of_length_eq_zero (by omega)
      rcases htr m _ _ hm with h1 | ⟨_, a, ha, _⟩
      · exact h1
      · rw [hnil] at ha; simp at ha
    · intro hfl
      rw [e5, d1.count, d5 hfl]
      simp
  · rw [if_neg ht]
    refine ⟨L, h, fun _ _ _ h => h, ?_, fun _ => rfl⟩
    rintro - m (hm | ⟨e, _⟩)
    · exact hm
    · exact absurd e.symm ht

end GA.Nb
