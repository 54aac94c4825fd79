import Verif.Model.SharedFiles
import Mathlib.Data.List.Nodup

/-! # Lemmas about shared files and asynchronous requests -/

namespace GA.SharedFiles
open Spec.Sf

variable {V : Type}

theorem foldl_write (c : Cell → V) (p f off b n : Nat) :
    (transfers (V := V) (.write p f off b n)).foldl move c = seqStep c (.write p f off b n) := by
  induction n with
  | zero =>
    funext x
    cases x with
    | file f' z =>
      simp only [transfers, List.range_zero, List.map_nil, List.foldl_nil, seqStep]
      rw [if_neg (by omega)]
    | mem p' a => rfl
  | succ n ih =>
    have e : transfers (V := V) (.write p f off b (n + 1)) = transfers (V := V) (.write p f off b n) ++ [⟨.file f (off + n), .mem p (b + n)⟩] := by
      simp [transfers, List.range_succ]
    rw [e, List.foldl_append, ih]
    funext x
    cases x with
    | file f' z =>
      simp only [List.foldl_cons, List.foldl_nil, move, seqStep, Cell.file.injEq]
      by_cases h : f' = f ∧ z = off + n
      · obtain ⟨rfl, rfl⟩ := h
        rw [if_pos ⟨rfl, rfl⟩, if_pos (by omega), Nat.add_sub_cancel_left]
      · rw [if_neg h]
        by_cases h2 : f' = f ∧ off ≤ z ∧ z < off + n
        · rw [if_pos h2, if_pos (by omega)]
        · rw [if_neg h2, if_neg (by rintro ⟨a1, a2, a3⟩; exact h2 ⟨a1, a2, by
            rcases Nat.lt_or_ge z (off + n) with g | g
            · exact g
            · exact absurd ⟨a1, by omega⟩ h⟩)]
    | mem p' a => simp [move, seqStep]

theorem foldl_read (c : Cell → V) (p f off b n : Nat) :
    (transfers (V := V) (.read p f off b n)).foldl move c = seqStep c (.read p f off b n) := by
  induction n with
  | zero =>
    funext x
    cases x with
    | mem f' z =>
      simp only [transfers, List.range_zero, List.map_nil, List.foldl_nil, seqStep]
      rw [if_neg (by omega)]
    | file p' a => rfl
  | succ n ih =>
    have e : transfers (V := V) (.read p f off b (n + 1)) = transfers (V := V) (.read p f off b n) ++ [⟨.mem p (b + n), .file f (off + n)⟩] := by
      simp [transfers, List.range_succ]
    rw [e, List.foldl_append, ih]
    funext x
    cases x with
    | mem f' z =>
      simp only [List.foldl_cons, List.foldl_nil, move, seqStep, Cell.mem.injEq]
      by_cases h : f' = p ∧ z = b + n
      · obtain ⟨rfl, rfl⟩ := h
        rw [if_pos ⟨rfl, rfl⟩, if_pos (by omega), Nat.add_sub_cancel_left]
      · rw [if_neg h]
        by_cases h2 : f' = p ∧ b ≤ z ∧ z < b + n
        · rw [if_pos h2, if_pos (by omega)]
        · rw [if_neg h2, if_neg (by rintro ⟨a1, a2, a3⟩; exact h2 ⟨a1, a2, by
            rcases Nat.lt_or_ge z (b + n) with g | g
            · exact g
            · exact absurd ⟨a1, by omega⟩ h⟩)]
    | file p' a => simp [move, seqStep]

/-- requests -/
def IsReq : Act V → Prop
  | .write _ _ _ _ _ => True
  | .read _ _ _ _ _ => True
  | _ => False

theorem foldl_req (c : Cell → V) (a : Act V) (h : IsReq a) : (transfers a).foldl move c = seqStep c a := by
  cases a with
  | write p f off b n => exact foldl_write c p f off b n
  | read p f off b n => exact foldl_read c p f off b n
  | _ => exact h.elim

theorem mem_transfers (c : Cell → V) {a : Act V} {t : Tr} (h : t ∈ transfers a) :
    Writes a t.dst ∧ Reads a t.src ∧ seqStep c a t.dst = c t.src := by
  cases a with
  | write p f off b n =>
    simp only [transfers, List.mem_map, List.mem_range] at h
    obtain ⟨i, hi, rfl⟩ := h
    refine ⟨⟨rfl, by omega, by omega⟩, ⟨rfl, by omega, by omega⟩, ?_⟩
    simp only [seqStep]
    rw [if_pos ⟨trivial, by omega, by omega⟩, Nat.add_sub_cancel_left]
  | read p f off b n =>
    simp only [transfers, List.mem_map, List.mem_range] at h
    obtain ⟨i, hi, rfl⟩ := h
    refine ⟨⟨rfl, by omega, by omega⟩, ⟨rfl, by omega, by omega⟩, ?_⟩
    simp only [seqStep]
    rw [if_pos ⟨trivial, by omega, by omega⟩, Nat.add_sub_cancel_left]
  | _ => exact absurd h (by simp [transfers])

theorem writes_transfers {a : Act V} {x : Cell} (hr : IsReq a) (h : Writes a x) : ∃ t ∈ transfers a, t.dst = x := by
  cases a with
  | write p f off b n =>
    cases x with
    | file f' z =>
      obtain ⟨rfl, h1, h2⟩ := h
      refine ⟨⟨.file f' (off + (z - off)), .mem p (b + (z - off))⟩, ?_, ?_⟩
      · simp only [transfers, List.mem_map, List.mem_range]
        exact ⟨z - off, by omega, rfl⟩
      · show Cell.file f' (off + (z - off)) = Cell.file f' z
        congr 1
        omega
    | mem p' a => exact h.elim
  | read p f off b n =>
    cases x with
    | mem f' z =>
      obtain ⟨rfl, h1, h2⟩ := h
      refine ⟨⟨.mem f' (b + (z - b)), .file f (off + (z - b))⟩, ?_, ?_⟩
      · simp only [transfers, List.mem_map, List.mem_range]
        exact ⟨z - b, by omega, rfl⟩
      · show Cell.mem f' (b + (z - b)) = Cell.mem f' z
        congr 1
        omega
    | file p' a => exact h.elim
  | _ => exact hr.elim

theorem self_apart (a : Act V) (x : Cell) : ¬ (Writes a x ∧ Reads a x) := by
  rintro ⟨h1, h2⟩
  cases a <;> cases x <;> simp_all [Writes, Reads]

theorem seqStep_of_not_writes (c : Cell → V) {a : Act V} {x : Cell} (h : ¬ Writes a x) : seqStep c a x = c x := by
  cases a with
  | write p f off b n =>
    cases x with
    | file f' z => exact if_neg h
    | mem _ _ => rfl
  | read p f off b n =>
    cases x with
    | mem p' a => exact if_neg h
    | file _ _ => rfl
  | store p a v => exact if_neg h
  | _ => rfl

theorem seqStep_local {c d : Cell → V} {a : Act V} {x : Cell} (hr : ∀ y, Reads a y → c y = d y) (hx : c x = d x) :
    seqStep c a x = seqStep d a x := by
  cases a with
  | write p f off b n =>
    cases x with
    | file f' z =>
      simp only [seqStep]
      split
      · exact hr _ ⟨rfl, by omega, by omega⟩
      · exact hx
    | mem p' a => exact hx
  | read p f off b n =>
    cases x with
    | mem f' z =>
      simp only [seqStep]
      split
      · exact hr _ ⟨rfl, by omega, by omega⟩
      · exact hx
    | file p' a => exact hx
  | store p a v =>
    simp only [seqStep]
    split
    · rfl
    · exact hx
  | _ => exact hx

theorem transfers_nodup (a : Act V) : ((transfers a).map Tr.dst).Nodup := by
  cases a with
  | write p f off b n =>
    simp only [transfers, List.map_map]
    refine List.Nodup.map_on ?_ List.nodup_range
    intro i _ j _ e
    simp only [Function.comp_apply, Cell.file.injEq] at e
    omega
  | read p f off b n =>
    simp only [transfers, List.map_map]
    refine List.Nodup.map_on ?_ List.nodup_range
    intro i _ j _ e
    simp only [Function.comp_apply, Cell.mem.injEq] at e
    omega
  | _ => exact List.nodup_nil

theorem lookup_free (t : Nat → Ent V) : ∀ (fuel i : Nat), lookupFrom t fuel i < i + fuel →
    t (lookupFrom t fuel i) = .free
  | 0, i => fun h => by simp only [lookupFrom] at h; omega
  | fuel + 1, i => by
    intro h
    unfold lookupFrom at h ⊢
    split
    · rename_i hu
      rw [if_pos hu] at h
      exact lookup_free t fuel (i + 1) (by omega)
    · rename_i hu
      cases e : t i with
      | free => rfl
      | zero => rw [e] at hu; exact absurd rfl hu
      | busy s => rw [e] at hu; exact absurd rfl hu

theorem lookup_full (t : Nat → Ent V) : ∀ (fuel i : Nat), (∀ j, i ≤ j → j < i + fuel → (t j).isUsed = true) →
    lookupFrom t fuel i = i + fuel ∧ i + fuel ∈ lookupReads t fuel i
  | 0, i => fun _ => ⟨rfl, List.mem_singleton.2 rfl⟩
  | fuel + 1, i => by
    intro h
    have hi := h i (by omega) (by omega)
    have r := lookup_full t fuel (i + 1) (fun j h1 h2 => h j (by omega) (by omega))
    unfold lookupFrom lookupReads
    rw [if_pos hi, if_pos hi]
    exact ⟨by omega, List.mem_cons_of_mem _ (by rw [show i + (fuel + 1) = i + 1 + fuel by omega]; exact r.2)⟩

/-! ## Requests in progress -/

/-- `x` will be changed by a request in progress -/
def Pending (s : St V) (x : Cell) : Prop := ∃ p i sl t, s.aio p i = .busy sl ∧ t ∈ sl.todo ∧ t.dst = x

structure Inv (s : St V) (S : Cell → V) : Prop where
  same : ∀ x, ¬ Pending s x → s.cells x = S x
  todo : ∀ p i sl, s.aio p i = .busy sl → ∀ t ∈ sl.todo, S t.dst = s.cells t.src
  wr : ∀ p i sl, s.aio p i = .busy sl → ∀ t ∈ sl.todo, Writes sl.act t.dst ∧ Reads sl.act t.src
  apart : ∀ p i sl q j sk, s.aio p i = .busy sl → s.aio q j = .busy sk → (p, i) ≠ (q, j) → Apart sl.act sk.act
  nodup : ∀ p i sl, s.aio p i = .busy sl → (sl.todo.map Tr.dst).Nodup

theorem Inv.not_pending {s : St V} {S : Cell → V} (h : Inv s S) {a : Act V} (hc : Clear s a) {x : Cell}
    (hx : Reads a x ∨ Writes a x) : ¬ Pending s x := by
  rintro ⟨p, i, sl, t, h1, h2, rfl⟩
  have w := (h.wr p i sl h1 t h2).1
  have ap := hc p i sl h1 t.dst
  rcases hx with hx | hx
  · exact ap.2.2 ⟨hx, w⟩
  · exact ap.1 ⟨hx, w⟩

/-- an action carried out at once -/
theorem inv_now {s : St V} {S : Cell → V} (h : Inv s S) {a : Act V} (hc : Clear s a) (s' : St V)
    (ha : s'.aio = s.aio) (hcell : s'.cells = seqStep s.cells a) : Inv s' (seqStep S a) := by
  have hp : ∀ x, Pending s' x ↔ Pending s x := by intro x; unfold Pending; rw [ha]
  refine ⟨?_, ?_, ?_, ?_, ?_⟩
  · intro x hx
    rw [hcell]
    exact seqStep_local (fun y hy => h.same y (h.not_pending hc (Or.inl hy))) (h.same x (fun hh => hx ((hp x).2 hh)))
  · intro p i sl hs t ht
    rw [ha] at hs
    have w := h.wr p i sl hs t ht
    rw [hcell, seqStep_of_not_writes S (fun hw => (hc p i sl hs t.dst).1 ⟨hw, w.1⟩),
      seqStep_of_not_writes s.cells (fun hw => (hc p i sl hs t.src).2.1 ⟨hw, w.2⟩)]
    exact h.todo p i sl hs t ht
  · intro p i sl hs; rw [ha] at hs; exact h.wr p i sl hs
  · intro p i sl q j sk hs hs'; rw [ha] at hs hs'; exact h.apart p i sl q j sk hs hs'
  · intro p i sl hs; rw [ha] at hs; exact h.nodup p i sl hs

theorem setSlot_self (t : Nat → Nat → Ent V) (p i : Nat) (e : Ent V) : setSlot t p i e p i = e := if_pos ⟨rfl, rfl⟩

theorem setSlot_other (t : Nat → Nat → Ent V) {p i q j : Nat} (e : Ent V) (h : ¬ (q = p ∧ j = i)) :
    setSlot t p i e q j = t q j := if_neg h

theorem apart_symm {a b : Act V} (h : Apart a b) : Apart b a := fun x =>
  ⟨fun hh => (h x).1 ⟨hh.2, hh.1⟩, fun hh => (h x).2.2 ⟨hh.2, hh.1⟩, fun hh => (h x).2.1 ⟨hh.2, hh.1⟩⟩

/-- a request gets a control block -/
theorem inv_issue {s : St V} {S : Cell → V} (h : Inv s S) {a : Act V} (hc : Clear s a) (hr : IsReq a) {p i k : Nat}
    (hf : s.aio p i = .free) (s' : St V)
    (ha : s'.aio = setSlot s.aio p i (.busy ⟨k, a, transfers a⟩)) (hcell : s'.cells = s.cells) : Inv s' (seqStep S a) := by
  have key : ∀ q j sl, s'.aio q j = .busy sl →
      (q = p ∧ j = i ∧ sl = ⟨k, a, transfers a⟩) ∨ (¬ (q = p ∧ j = i) ∧ s.aio q j = .busy sl) := by
    intro q j sl hs
    rw [ha] at hs
    by_cases e : q = p ∧ j = i
    · obtain ⟨rfl, rfl⟩ := e
      rw [setSlot_self] at hs
      exact Or.inl ⟨rfl, rfl, (Ent.busy.inj hs).symm⟩
    · rw [setSlot_other _ _ e] at hs
      exact Or.inr ⟨e, hs⟩
  have old : ∀ x, Pending s x → Pending s' x := by
    rintro x ⟨q, j, sl, t, h1, h2, h3⟩
    refine ⟨q, j, sl, t, ?_, h2, h3⟩
    rw [ha, setSlot_other]
    · exact h1
    · rintro ⟨rfl, rfl⟩
      rw [hf] at h1
      exact absurd h1 (by simp)
  have new : ∀ x, Writes a x → Pending s' x := by
    intro x hx
    obtain ⟨t, ht, hd⟩ := writes_transfers hr hx
    exact ⟨p, i, _, t, by rw [ha, setSlot_self], ht, hd⟩
  refine ⟨?_, ?_, ?_, ?_, ?_⟩
  · intro x hx
    rw [hcell, seqStep_of_not_writes S (fun hw => hx (new x hw))]
    exact h.same x (fun hh => hx (old x hh))
  · intro q j sl hs t ht
    rcases key q j sl hs with ⟨_, _, rfl⟩ | ⟨_, hs⟩
    · have m := mem_transfers S ht
      rw [m.2.2, hcell]
      exact (h.same t.src (h.not_pending hc (Or.inl m.2.1))).symm
    · have w := h.wr q j sl hs t ht
      rw [seqStep_of_not_writes S (fun hw => (hc q j sl hs t.dst).1 ⟨hw, w.1⟩), hcell]
      exact h.todo q j sl hs t ht
  · intro q j sl hs t ht
    rcases key q j sl hs with ⟨_, _, rfl⟩ | ⟨_, hs⟩
    · have m := mem_transfers S ht
      exact ⟨m.1, m.2.1⟩
    · exact h.wr q j sl hs t ht
  · intro q j sl q' j' sk hs hs' hne
    rcases key q j sl hs with ⟨rfl, rfl, rfl⟩ | ⟨_, hs⟩
    · rcases key q' j' sk hs' with ⟨rfl, rfl, rfl⟩ | ⟨_, hs'⟩
      · exact absurd rfl hne
      · exact hc q' j' sk hs'
    · rcases key q' j' sk hs' with ⟨rfl, rfl, rfl⟩ | ⟨_, hs'⟩
      · exact apart_symm (hc q j sl hs)
      · exact h.apart q j sl q' j' sk hs hs' hne
  · intro q j sl hs
    rcases key q j sl hs with ⟨_, _, rfl⟩ | ⟨_, hs⟩
    · exact transfers_nodup a
    · exact h.nodup q j sl hs

theorem mem_eraseIdx_ne {l : List Tr} {j : Nat} {t u : Tr} (hj : l[j]? = some t) (hu : u ∈ l) (hne : u ≠ t) :
    u ∈ l.eraseIdx j := by
  rw [List.mem_eraseIdx_iff_getElem?]
  obtain ⟨k, hk⟩ := List.mem_iff_getElem?.1 hu
  refine ⟨k, ?_, hk⟩
  rintro rfl
  rw [hk] at hj
  exact hne (Option.some.inj hj)

/-- the system transfers a byte -/
theorem inv_sys {s : St V} {S : Cell → V} (h : Inv s S) {p i j : Nat} {sl : Slot V} {t : Tr}
    (hs : s.aio p i = .busy sl) (hj : sl.todo[j]? = some t) (s' : St V)
    (ha : s'.aio = setSlot s.aio p i (.busy { sl with todo := sl.todo.eraseIdx j })) (hcell : s'.cells = move s.cells t) :
    Inv s' S := by
  have ht : t ∈ sl.todo := List.mem_of_getElem? hj
  have key : ∀ q k sk, s'.aio q k = .busy sk →
      ∃ so, s.aio q k = .busy so ∧ sk.act = so.act ∧ (∀ u ∈ sk.todo, u ∈ so.todo) ∧ List.Sublist sk.todo so.todo := by
    intro q k sk hq
    rw [ha] at hq
    by_cases e : q = p ∧ k = i
    · obtain ⟨rfl, rfl⟩ := e
      rw [setSlot_self] at hq
      obtain rfl := (Ent.busy.inj hq).symm
      exact ⟨sl, hs, rfl, fun u hu => List.mem_of_mem_eraseIdx hu, List.eraseIdx_sublist _ _⟩
    · rw [setSlot_other _ _ e] at hq
      exact ⟨sk, hq, rfl, fun u hu => hu, List.Sublist.refl _⟩
  have src : ∀ q k so, s.aio q k = .busy so → ∀ u ∈ so.todo, u.src ≠ t.dst := by
    intro q k so hq u hu e
    have w1 := (h.wr p i sl hs t ht).1
    have w2 := (h.wr q k so hq u hu).2
    rw [e] at w2
    by_cases e2 : (p, i) = (q, k)
    · obtain ⟨rfl, rfl⟩ := Prod.mk.inj e2
      rw [hs] at hq
      obtain rfl := Ent.busy.inj hq
      exact self_apart _ _ ⟨w1, w2⟩
    · exact (h.apart p i sl q k so hs hq e2 t.dst).2.1 ⟨w1, w2⟩
  refine ⟨?_, ?_, ?_, ?_, ?_⟩
  · intro x hx
    rw [hcell]
    unfold move
    by_cases e : x = t.dst
    · rw [if_pos e, e]
      exact (h.todo p i sl hs t ht).symm
    · rw [if_neg e]
      refine h.same x ?_
      rintro ⟨q, k, so, u, h1, h2, h3⟩
      refine hx ?_
      by_cases e2 : q = p ∧ k = i
      · obtain ⟨rfl, rfl⟩ := e2
        rw [hs] at h1
        obtain rfl := Ent.busy.inj h1
        exact ⟨q, k, _, u, by rw [ha, setSlot_self], mem_eraseIdx_ne hj h2 (fun hh => e (by rw [← h3, hh])), h3⟩
      · exact ⟨q, k, so, u, by rw [ha, setSlot_other _ _ e2]; exact h1, h2, h3⟩
  · intro q k sk hq u hu
    obtain ⟨so, h1, _, h3, _⟩ := key q k sk hq
    rw [hcell]
    unfold move
    rw [if_neg (src q k so h1 u (h3 u hu))]
    exact h.todo q k so h1 u (h3 u hu)
  · intro q k sk hq u hu
    obtain ⟨so, h1, h2, h3, _⟩ := key q k sk hq
    rw [h2]
    exact h.wr q k so h1 u (h3 u hu)
  · intro q k sk q' k' sk' hq hq' hne
    obtain ⟨so, h1, h2, _, _⟩ := key q k sk hq
    obtain ⟨so', h1', h2', _, _⟩ := key q' k' sk' hq'
    rw [h2, h2']
    exact h.apart q k so q' k' so' h1 h1' hne
  · intro q k sk hq
    obtain ⟨so, h1, _, _, h4⟩ := key q k sk hq
    exact (h.nodup q k so h1).sublist (h4.map _)

/-- a request is waited for -/
theorem inv_wait {s : St V} {S : Cell → V} (h : Inv s S) {p i : Nat} {sl : Slot V}
    (hs : s.aio p i = .busy sl) (he : sl.todo = []) (s' : St V)
    (ha : s'.aio = setSlot s.aio p i .free) (hcell : s'.cells = s.cells) : Inv s' S := by
  have key : ∀ q k sk, s'.aio q k = .busy sk → s.aio q k = .busy sk := by
    intro q k sk hq
    rw [ha] at hq
    by_cases e : q = p ∧ k = i
    · obtain ⟨rfl, rfl⟩ := e
      rw [setSlot_self] at hq
      exact absurd hq (by simp)
    · rwa [setSlot_other _ _ e] at hq
  refine ⟨?_, ?_, ?_, ?_, ?_⟩
  · intro x hx
    rw [hcell]
    refine h.same x ?_
    rintro ⟨q, k, so, u, h1, h2, h3⟩
    refine hx ⟨q, k, so, u, ?_, h2, h3⟩
    rw [ha, setSlot_other]
    · exact h1
    · rintro ⟨rfl, rfl⟩
      rw [hs] at h1
      obtain rfl := Ent.busy.inj h1
      rw [he] at h2
      exact absurd h2 (by simp)
  · intro q k sk hq; rw [hcell]; exact h.todo q k sk (key q k sk hq)
  · intro q k sk hq; exact h.wr q k sk (key q k sk hq)
  · intro q k sk q' k' sk' hq hq'; exact h.apart q k sk q' k' sk' (key q k sk hq) (key q' k' sk' hq')
  · intro q k sk hq; exact h.nodup q k sk (key q k sk hq)

theorem inv_issue_any {K mx : Nat} {s : St V} {S : Cell → V} (h : Inv s S) {a : Act V} (hc : Clear s a) (hr : IsReq a)
    (p last : Nat) : Inv (issue K mx s p last a) (seqStep S a) := by
  unfold issue
  dsimp only
  split
  · exact inv_now h hc _ rfl (foldl_req s.cells a hr)
  · rename_i hh
    refine inv_issue h hc hr (p := p) (i := lookupFrom (s.aio p) K 0) ?_ _ rfl rfl
    exact lookup_free (s.aio p) K 0 (by omega)

theorem inv_step {K mx : Nat} {s s' : St V} {S : Cell → V} (h : Inv s S) {a : Act V} (hc : Clear s a)
    (hnf : ∀ p i, a ≠ .fail p i) (hst : step K mx s a = some s') : Inv s' (seqStep S a) := by
  cases a with
  | write p f off b n =>
    simp only [step, Option.some.injEq] at hst
    rw [← hst]
    exact inv_issue_any h hc trivial p _
  | read p f off b n =>
    simp only [step, Option.some.injEq] at hst
    rw [← hst]
    exact inv_issue_any h hc trivial p _
  | store p a v =>
    simp only [step, Option.some.injEq] at hst
    rw [← hst]
    exact inv_now h hc _ rfl rfl
  | wait p id =>
    simp only [step] at hst
    split at hst
    · obtain rfl := Option.some.inj hst; exact h
    · split at hst
      · exact absurd hst (by simp)
      · split at hst
        · rename_i sl hs
          split at hst
          · rename_i he
            obtain rfl := Option.some.inj hst
            exact inv_wait h hs (List.isEmpty_iff.1 he) _ rfl rfl
          · exact absurd hst (by simp)
        · exact absurd hst (by simp)
  | sys p i j =>
    simp only [step] at hst
    split at hst
    · rename_i sl hs
      split at hst
      · exact absurd hst (by simp)
      · rename_i t ht
        obtain rfl := Option.some.inj hst
        exact inv_sys h hs ht _ rfl rfl
    · exact absurd hst (by simp)
  | fail p i => exact absurd rfl (hnf p i)

theorem inv_run {K mx : Nat} : ∀ (as : List (Act V)) (s s' : St V) (S : Cell → V), Inv s S → RunClear K mx s as →
    run K mx s as = some s' → Inv s' (as.foldl seqStep S)
  | [], s, s', S => fun h _ hr => by obtain rfl := Option.some.inj hr; exact h
  | a :: as, s, s', S => by
    intro h hc hr
    simp only [run, Option.bind_eq_some_iff] at hr
    obtain ⟨s1, h1, h2⟩ := hr
    exact inv_run as s1 s' _ (inv_step h hc.1 hc.2.1 h1) (hc.2.2 s1 h1) h2

theorem inv_init (async : Bool) (c : Cell → V) : Inv (init async c) c := by
  have no : ∀ p i sl, (init async c).aio p i ≠ .busy sl := by
    intro p i sl
    cases async <;> simp [init]
  exact ⟨fun _ _ => rfl, fun p i sl hs => absurd hs (no p i sl), fun p i sl hs => absurd hs (no p i sl),
    fun p i sl _ _ _ hs => absurd hs (no p i sl), fun p i sl hs => absurd hs (no p i sl)⟩

/-! ## Ids -/

/-- every control block in use belongs to one request, whose id is its index -/
def IdInv (K : Nat) (s : St V) : Prop := ∀ p i sl, s.aio p i = .busy sl →
  i < K ∧ sl.req < s.num ∧ s.ids sl.req = (i : Int) ∧ s.own sl.req = p

theorem id_issue {K mx : Nat} {s : St V} (h : IdInv K s) (p last : Nat) (a : Act V) : IdInv K (issue K mx s p last a) := by
  unfold issue
  dsimp only
  split
  · intro q j sl hs
    dsimp only at hs ⊢
    have r := h q j sl hs
    rw [if_neg (by omega), if_neg (by omega)]
    exact ⟨r.1, by omega, r.2.2⟩
  · rename_i hh
    intro q j sl hs
    dsimp only at hs ⊢
    by_cases e : q = p ∧ j = lookupFrom (s.aio p) K 0
    · obtain ⟨rfl, rfl⟩ := e
      rw [setSlot_self] at hs
      obtain rfl := (Ent.busy.inj hs).symm
      exact ⟨by omega, by simp, by simp, by simp⟩
    · rw [setSlot_other _ _ e] at hs
      have r := h q j sl hs
      rw [if_neg (by omega), if_neg (by omega)]
      exact ⟨r.1, by omega, r.2.2⟩

theorem id_step {K mx : Nat} {s s' : St V} (h : IdInv K s) {a : Act V} (hst : step K mx s a = some s') : IdInv K s' := by
  cases a with
  | write p f off b n =>
    simp only [step, Option.some.injEq] at hst
    rw [← hst]; exact id_issue h _ _ _
  | read p f off b n =>
    simp only [step, Option.some.injEq] at hst
    rw [← hst]; exact id_issue h _ _ _
  | store p a v =>
    simp only [step, Option.some.injEq] at hst
    rw [← hst]; exact h
  | wait p id =>
    simp only [step] at hst
    split at hst
    · obtain rfl := Option.some.inj hst; exact h
    · split at hst
      · exact absurd hst (by simp)
      · split at hst
        · split at hst
          · obtain rfl := Option.some.inj hst
            intro q j sl hs
            dsimp only at hs ⊢
            by_cases e : q = p ∧ j = id.toNat
            · obtain ⟨rfl, rfl⟩ := e
              rw [setSlot_self] at hs
              exact absurd hs (by simp)
            · rw [setSlot_other _ _ e] at hs
              exact h q j sl hs
          · exact absurd hst (by simp)
        · exact absurd hst (by simp)
  | sys p i j =>
    simp only [step] at hst
    split at hst
    · rename_i sl0 hs0
      split at hst
      · exact absurd hst (by simp)
      · obtain rfl := Option.some.inj hst
        intro q k sl hs
        dsimp only at hs ⊢
        by_cases e : q = p ∧ k = i
        · obtain ⟨rfl, rfl⟩ := e
          rw [setSlot_self] at hs
          obtain rfl := (Ent.busy.inj hs).symm
          exact h q k sl0 hs0
        · rw [setSlot_other _ _ e] at hs
          exact h q k sl hs
    · exact absurd hst (by simp)
  | fail p i =>
    simp only [step] at hst
    split at hst
    · rename_i sl0 hs0
      obtain rfl := Option.some.inj hst
      intro q k sl hs
      dsimp only at hs ⊢
      by_cases e : q = p ∧ k = i
      · obtain ⟨rfl, rfl⟩ := e
        rw [setSlot_self] at hs
        obtain rfl := (Ent.busy.inj hs).symm
        exact h q k sl0 hs0
      · rw [setSlot_other _ _ e] at hs
        exact h q k sl hs
    · exact absurd hst (by simp)

theorem id_run {K mx : Nat} : ∀ (as : List (Act V)) (s s' : St V), IdInv K s → run K mx s as = some s' → IdInv K s'
  | [], s, s' => fun h hr => by obtain rfl := Option.some.inj hr; exact h
  | a :: as, s, s' => by
    intro h hr
    simp only [run, Option.bind_eq_some_iff] at hr
    obtain ⟨s1, h1, h2⟩ := hr
    exact id_run as s1 s' (id_step h h1) h2

theorem id_init (K : Nat) (async : Bool) (c : Cell → V) : IdInv K (init async c) := by
  intro p i sl hs
  cases async <;> simp [init] at hs

/-- a wait that returns: the request of this id has no transfers left and is no longer in progress -/
theorem wait_done {K mx : Nat} {s s' : St V} (h : IdInv K s) {p k : Nat} (ho : s.own k = p)
    (hst : step K mx s (.wait p (s.ids k)) = some s') :
    (∀ q i sl, s.aio q i = .busy sl → sl.req = k → sl.todo = []) ∧
      (∀ q i sl, s'.aio q i = .busy sl → sl.req ≠ k) ∧ s'.cells = s.cells := by
  simp only [step] at hst
  split at hst
  · rename_i hid
    obtain rfl := Option.some.inj hst
    have no : ∀ q i sl, s.aio q i = .busy sl → sl.req ≠ k := by
      intro q i sl hs e
      have r := (h q i sl hs).2.2.1
      rw [e, hid] at r
      omega
    exact ⟨fun q i sl hs e => absurd e (no q i sl hs), no, rfl⟩
  · split at hst
    · exact absurd hst (by simp)
    · split at hst
      · rename_i sl0 hs0
        split at hst
        · rename_i he
          obtain rfl := Option.some.inj hst
          have wh : ∀ q i sl, s.aio q i = .busy sl → sl.req = k → q = p ∧ i = (s.ids k).toNat := by
            intro q i sl hs e
            have r := h q i sl hs
            rw [e] at r
            exact ⟨r.2.2.2.symm.trans ho, by omega⟩
          refine ⟨?_, ?_, rfl⟩
          · intro q i sl hs e
            obtain ⟨rfl, rfl⟩ := wh q i sl hs e
            rw [hs0] at hs
            obtain rfl := Ent.busy.inj hs
            exact List.isEmpty_iff.1 he
          · intro q i sl hs e
            dsimp only at hs
            by_cases e2 : q = p ∧ i = (s.ids k).toNat
            · obtain ⟨rfl, rfl⟩ := e2
              rw [setSlot_self] at hs
              exact absurd hs (by simp)
            · rw [setSlot_other _ _ e2] at hs
              exact e2 (wh q i sl hs e)
        · exact absurd hst (by simp)
      · exact absurd hst (by simp)

/-- the system can finish a request -/
theorem can_finish {K mx : Nat} (p i : Nat) : ∀ (n : Nat) (s : St V) (sl : Slot V), s.aio p i = .busy sl → sl.todo.length = n →
    ∃ s', run K mx s ((List.replicate n (.sys p i 0) : List (Act V))) = some s' ∧
      s'.aio p i = .busy { sl with todo := [] } ∧ ∀ q j, ¬ (q = p ∧ j = i) → s'.aio q j = s.aio q j
  | 0, s, sl => by
    intro hs hn
    refine ⟨s, rfl, ?_, fun _ _ _ => rfl⟩
    rw [hs]
    have : sl.todo = [] := List.length_eq_zero_iff.1 hn
    cases sl
    simp_all
  | n + 1, s, sl => by
    intro hs hn
    cases e : sl.todo with
    | nil => rw [e] at hn; simp at hn
    | cons t ts =>
      have st : step K mx s (.sys p i 0) = some { s with cells := move s.cells t, aio := setSlot s.aio p i (.busy { sl with todo := ts }) } := by
        simp only [step, hs, e, List.getElem?_cons_zero, List.eraseIdx_cons_zero]
      obtain ⟨s', h1, h2, h3⟩ := can_finish (K := K) (mx := mx) p i n
        { s with cells := move s.cells t, aio := setSlot s.aio p i (.busy { sl with todo := ts }) } { sl with todo := ts }
        (setSlot_self s.aio p i _)
        (by rw [e] at hn; simpa using hn)
      refine ⟨s', ?_, h2, fun q j hq => (h3 q j hq).trans (setSlot_other _ _ hq)⟩
      show (step K mx s (.sys p i 0)).bind (fun s'' => run K mx s'' (List.replicate n (.sys p i 0))) = some s'
      rw [st]
      exact h1

/-! ## The table that is never marked free -/

def AllZero (s : St V) : Prop := ∀ p i, s.aio p i = .zero

theorem zero_issue {K mx : Nat} {s : St V} (h : AllZero s) (p last : Nat) {a : Act V} (hr : IsReq a) :
    issue K mx s p last a = { s with
      cells := seqStep s.cells a
      num := s.num + 1
      ids := fun k => if k = s.num then -1 else s.ids k
      own := fun k => if k = s.num then p else s.own k } := by
  unfold issue
  dsimp only
  have := (lookup_full (s.aio p) K 0 (fun j _ _ => by rw [h p j]; rfl)).1
  rw [if_pos (Or.inr (by omega)), foldl_req _ _ hr]

theorem zero_step {K mx : Nat} {s s' : St V} (h : AllZero s) (hi : ∀ k, s.ids k = -1) {a : Act V}
    (hst : step K mx s a = some s') : AllZero s' ∧ (∀ k, s'.ids k = -1) ∧ s'.cells = seqStep s.cells a := by
  cases a with
  | write p f off b n =>
    simp only [step, Option.some.injEq] at hst
    rw [← hst, zero_issue (a := .write p f off b n) h p _ trivial]
    refine ⟨h, fun k => ?_, rfl⟩
    dsimp only
    split
    · rfl
    · exact hi k
  | read p f off b n =>
    simp only [step, Option.some.injEq] at hst
    rw [← hst, zero_issue (a := .read p f off b n) h p _ trivial]
    refine ⟨h, fun k => ?_, rfl⟩
    dsimp only
    split
    · rfl
    · exact hi k
  | store p a v =>
    simp only [step, Option.some.injEq] at hst
    rw [← hst]
    exact ⟨h, hi, rfl⟩
  | wait p id =>
    simp only [step] at hst
    split at hst
    · obtain rfl := Option.some.inj hst; exact ⟨h, hi, rfl⟩
    · split at hst
      · exact absurd hst (by simp)
      · rw [h] at hst
        exact absurd hst (by simp)
  | sys p i j =>
    simp only [step] at hst
    rw [h] at hst
    exact absurd hst (by simp)
  | fail p i =>
    simp only [step] at hst
    rw [h] at hst
    exact absurd hst (by simp)

theorem zero_run {K mx : Nat} : ∀ (as : List (Act V)) (s s' : St V), AllZero s → (∀ k, s.ids k = -1) →
    run K mx s as = some s' → AllZero s' ∧ (∀ k, s'.ids k = -1) ∧ s'.cells = as.foldl seqStep s.cells
  | [], s, s' => fun h hi hr => by obtain rfl := Option.some.inj hr; exact ⟨h, hi, rfl⟩
  | a :: as, s, s' => by
    intro h hi hr
    simp only [run, Option.bind_eq_some_iff] at hr
    obtain ⟨s1, h1, h2⟩ := hr
    obtain ⟨r1, r2, r3⟩ := zero_step h hi h1
    have := zero_run as s1 s' r1 r2 h2
    rw [List.foldl_cons, ← r3]
    exact this

/-! ## The table of shared files -/

theorem getHandle_some (t : Nat → SfEnt) : ∀ (fuel c h : Nat), getHandle t fuel c = some h →
    c ≤ h ∧ h < c + fuel ∧ (t h).actv = false ∧ ∀ k, c ≤ k → k < h → (t k).actv = true
  | 0, c, h => fun e => by simp [getHandle] at e
  | fuel + 1, c, h => by
    intro e
    unfold getHandle at e
    split at e
    · rename_i ha
      have r := getHandle_some t fuel (c + 1) h e
      refine ⟨by omega, by omega, r.2.2.1, fun k h1 h2 => ?_⟩
      rcases Nat.eq_or_lt_of_le h1 with rfl | h3
      · exact ha
      · exact r.2.2.2 k h3 h2
    · rename_i ha
      obtain rfl := Option.some.inj e
      exact ⟨Nat.le_refl _, by omega, by simpa using ha, fun k h1 h2 => absurd h2 (by omega)⟩

theorem getHandle_none (t : Nat → SfEnt) : ∀ (fuel c : Nat), getHandle t fuel c = none ↔
    ∀ k, c ≤ k → k < c + fuel → (t k).actv = true
  | 0, c => ⟨fun _ k h1 h2 => absurd h2 (by omega), fun _ => rfl⟩
  | fuel + 1, c => by
    unfold getHandle
    split
    · rename_i ha
      rw [getHandle_none t fuel (c + 1)]
      constructor
      · intro h k h1 h2
        rcases Nat.eq_or_lt_of_le h1 with rfl | h3
        · exact ha
        · exact h k h3 (by omega)
      · intro h k h1 h2
        exact h k (by omega) (by omega)
    · rename_i ha
      constructor
      · intro h; exact absurd h (by simp)
      · intro h; exact absurd (h c (Nat.le_refl _) (by omega)) ha

/-- the number in a name is the handle -/
def NameInv (t : Nat → SfEnt) : Prop := ∀ h, (t h).actv = true → (t h).name.2 = (h : Int)

theorem name_call {n : Nat} {t : Nat → SfEnt} {c : Call} {r : Nat × (Nat → SfEnt)} (h : NameInv t)
    (hc : ∀ f x, c ≠ .createSuffix f x) (e : sfCall n t c = some r) : NameInv r.2 := by
  cases c with
  | create fname =>
    simp only [sfCall, Option.map_eq_some_iff] at e
    obtain ⟨k, _, rfl⟩ := e
    intro j hj
    dsimp only at hj ⊢
    split
    · rename_i e; rw [e]
    · rename_i e; rw [if_neg e] at hj; exact h j hj
  | createSuffix f x => exact absurd rfl (hc f x)
  | destroy k =>
    simp only [sfCall] at e
    split at e
    · exact absurd e (by simp)
    · split at e
      · exact absurd e (by simp)
      · split at e
        · exact absurd e (by simp)
        · obtain rfl := Option.some.inj e
          intro j hj
          dsimp only at hj ⊢
          split
          · rename_i e; rw [if_pos e] at hj; exact absurd hj (by simp)
          · rename_i e; rw [if_neg e] at hj; exact h j hj
  | rwtor k =>
    simp only [sfCall] at e
    split at e
    · exact absurd e (by simp)
    · obtain rfl := Option.some.inj e; exact h
  | close k =>
    simp only [sfCall] at e
    split at e
    · exact absurd e (by simp)
    · obtain rfl := Option.some.inj e
      intro j hj
      dsimp only at hj ⊢
      split
      · rename_i e; rw [if_pos e] at hj; rw [e]; exact h k hj
      · rename_i e; rw [if_neg e] at hj; exact h j hj
  | reopen k =>
    simp only [sfCall] at e
    obtain rfl := Option.some.inj e
    intro j hj
    dsimp only at hj ⊢
    split
    · rename_i e; rw [if_pos e] at hj; rw [e]; exact h k hj
    · rename_i e; rw [if_neg e] at hj; exact h j hj

theorem name_run {n : Nat} : ∀ (cs : List Call) (t t' : Nat → SfEnt) (hs : List Nat), NameInv t → NoSuffix cs →
    sfRun n t cs = some (hs, t') → NameInv t'
  | [], t, t', hs => fun h _ e => by
    simp only [sfRun, Option.some.injEq, Prod.mk.injEq] at e
    rw [← e.2]; exact h
  | c :: cs, t, t', hs => by
    intro h hn e
    simp only [sfRun, Option.bind_eq_some_iff, Option.map_eq_some_iff] at e
    obtain ⟨r, h1, q, h2, h3⟩ := e
    refine name_run (n := n) cs r.2 t' q.1 (name_call h (fun f x e => hn f x (by rw [e]; exact List.mem_cons_self)) h1)
      (fun f x hm => hn f x (List.mem_cons_of_mem _ hm)) ?_
    rw [h2, ← (Prod.mk.inj h3).2]

end GA.SharedFiles
