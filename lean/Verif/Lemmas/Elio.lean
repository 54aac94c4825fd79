import Verif.Model.Elio
import Mathlib.Tactic.Common

/-!
# Lemmas: files made of extents
-/

namespace GA.Elio

section
variable {V : Type} [Zero V]

/-- the byte of a physical file -/
def Phys.get (p : Phys V) (z : Nat) : Option V := if z < p.len then some (p.dat z) else none

omit [Zero V] in
theorem get_some {p : Phys V} {z : Nat} {v : V} : p.get z = some v ↔ z < p.len ∧ p.dat z = v := by
  unfold Phys.get
  split
  · next h => simp [h]
  · next h =>
    constructor
    · intro e
      nomatch e
    · intro e
      exact absurd e.1 h

theorem pwrite_in {p : Phys V} {off : Nat} {d : List V} {i : Nat} {v : V} (h : d[i]? = some v) : (pwrite p off d).get (off + i) = some v := by
  have hi : i < d.length := by
    rw [List.getElem?_eq_some_iff] at h
    exact h.1
  have he : d.isEmpty = false := by
    cases d with
    | nil => simp at hi
    | cons => rfl
  unfold pwrite
  rw [he]
  rw [if_neg (by simp), get_some]
  dsimp only
  refine ⟨by omega, ?_⟩
  rw [if_pos (by omega), Nat.add_sub_cancel_left, List.getD_eq_getElem?_getD, h]
  rfl

theorem pwrite_out {p : Phys V} {off : Nat} {d : List V} {z : Nat} {v : V} (h : p.get z = some v) (hz : z < off ∨ off + d.length ≤ z) : (pwrite p off d).get z = some v := by
  unfold pwrite
  split
  · exact h
  · rw [get_some] at h ⊢
    dsimp only
    refine ⟨by omega, ?_⟩
    rw [if_neg (by omega), if_pos h.1]
    exact h.2

/-- the loop of `elio_write` -/
theorem writeLoop_spec (s : List Ans) (p : Phys V) (off : Nat) (d : List V) :
    ((writeLoop s p off d).1 = true → ∀ i v, d[i]? = some v → (writeLoop s p off d).2.1.get (off + i) = some v) ∧
      ∀ z v, p.get z = some v → (z < off ∨ off + d.length ≤ z) → (writeLoop s p off d).2.1.get z = some v := by
  induction s generalizing p off d with
  | nil => exact ⟨fun _ i v h => pwrite_in h, fun z v h hz => pwrite_out h hz⟩
  | cons a s ih =>
    unfold writeLoop
    by_cases hd : d.isEmpty
    · rw [if_pos hd]
      rw [List.isEmpty_iff] at hd
      subst hd
      exact ⟨fun _ i v h => by simp at h, fun z v h _ => h⟩
    · rw [if_neg hd]
      cases a with
      | intr => exact ih p off d
      | err => exact ⟨fun h => absurd h (by simp), fun z v h _ => h⟩
      | part k =>
        dsimp only
        obtain ⟨h1, h2⟩ := ih (pwrite p off (d.take (min (k + 1) d.length))) (off + min (k + 1) d.length) (d.drop (min (k + 1) d.length))
        generalize min (k + 1) d.length = n at h1 h2 ⊢
        constructor
        · intro ht i v hi
          by_cases hin : i < n
          · refine h2 _ v (pwrite_in ?_) (Or.inl (by omega))
            rw [List.getElem?_take_of_lt hin]
            exact hi
          · have := h1 ht (i - n) v (by rw [List.getElem?_drop]; rw [show n + (i - n) = i by omega]; exact hi)
            rw [show off + n + (i - n) = off + i by omega] at this
            exact this
        · intro z v h hz
          refine h2 z v (pwrite_out h ?_) ?_
          · rw [List.length_take]
            omega
          · rw [List.length_drop]
            omega

/-- no error among the answers -/
def NoErr (s : List Ans) : Prop := Ans.err ∉ s

theorem writeLoop_ok {s : List Ans} (hs : NoErr s) (p : Phys V) (off : Nat) (d : List V) : (writeLoop s p off d).1 = true ∧ NoErr (writeLoop s p off d).2.2 := by
  induction s generalizing p off d with
  | nil => exact ⟨rfl, hs⟩
  | cons a s ih =>
    have hs' : NoErr s := fun h => hs (List.mem_cons_of_mem _ h)
    unfold writeLoop
    by_cases hd : d.isEmpty
    · rw [if_pos hd]
      exact ⟨rfl, hs⟩
    · rw [if_neg hd]
      cases a with
      | intr => exact ih hs' p off d
      | err => exact absurd List.mem_cons_self hs
      | part k => exact ih hs' _ _ _

/-- the length after the loop -/
theorem pwrite_len (p : Phys V) (off : Nat) (d : List V) : (pwrite p off d).len = if d = [] then p.len else max p.len (off + d.length) := by
  unfold pwrite
  cases d with
  | nil => rfl
  | cons => rfl

theorem writeLoop_len {s : List Ans} (hs : NoErr s) (p : Phys V) (off : Nat) (d : List V) :
    (writeLoop s p off d).2.1.len = if d = [] then p.len else max p.len (off + d.length) := by
  induction s generalizing p off d with
  | nil => exact pwrite_len p off d
  | cons a s ih =>
    have hs' : NoErr s := fun h => hs (List.mem_cons_of_mem _ h)
    unfold writeLoop
    by_cases hd : d.isEmpty
    · rw [if_pos hd, if_pos (List.isEmpty_iff.1 hd)]
    · rw [if_neg hd, if_neg (fun h => hd (List.isEmpty_iff.2 h))]
      have hpos : 0 < d.length := by
        rw [List.isEmpty_iff] at hd
        exact List.length_pos_iff.2 hd
      cases a with
      | intr =>
        dsimp only
        rw [ih hs', if_neg (fun h => hd (List.isEmpty_iff.2 h))]
      | err => exact absurd List.mem_cons_self hs
      | part k =>
        dsimp only
        rw [ih hs', pwrite_len]
        have h1 : d.take (min (k + 1) d.length) ≠ [] := by
          intro h
          have := congrArg List.length h
          rw [List.length_take, List.length_nil] at this
          omega
        rw [if_neg h1]
        split
        · next h =>
          have := congrArg List.length h
          rw [List.length_drop, List.length_nil] at this
          rw [List.length_take]
          omega
        · rw [List.length_take, List.length_drop]
          omega

omit [Zero V] in
theorem slice_length (p : Phys V) (off n : Nat) : (slice p off n).length = n := by simp [slice]

omit [Zero V] in
theorem slice_get {p : Phys V} {off n i : Nat} (h : i < n) : (slice p off n)[i]? = some (p.dat (off + i)) := by
  simp [slice, h]

/-- the loop of `elio_read` -/
theorem readLoop_spec {s s' : List Ans} {p : Phys V} {off n : Nat} {l : List V} (h : readLoop s p off n = (.ok l, s')) :
    l.length = n ∧ ∀ i, i < n → l[i]? = p.get (off + i) := by
  induction s generalizing off n l s' with
  | nil =>
    unfold readLoop at h
    simp only [Prod.mk.injEq] at h
    obtain ⟨h, _⟩ := h
    split at h
    · next hn =>
      injection h with h
      subst h
      refine ⟨slice_length _ _ _, fun i hi => ?_⟩
      rw [slice_get hi]
      unfold Phys.get
      rw [if_pos (by omega)]
    · nomatch h
  | cons a s ih =>
    unfold readLoop at h
    by_cases hn : n = 0
    · rw [if_pos hn] at h
      simp only [Prod.mk.injEq, Except.ok.injEq] at h
      obtain ⟨h, _⟩ := h
      subst h
      exact ⟨hn.symm, fun i hi => by omega⟩
    · rw [if_neg hn] at h
      cases a with
      | intr => exact ih h
      | err => simp at h
      | part k =>
        dsimp only at h
        have hm1 : min (k + 1) (min n (p.len - off)) ≤ n := by omega
        have hm2 : min (k + 1) (min n (p.len - off)) ≤ p.len - off := by omega
        generalize min (k + 1) (min n (p.len - off)) = m at h hm1 hm2
        by_cases hm : m = 0
        · rw [if_pos hm] at h
          simp at h
        · rw [if_neg hm] at h
          cases e : readLoop s p (off + m) (n - m) with
          | mk r s1 =>
            rw [e] at h
            cases r with
            | error x => simp at h
            | ok l1 =>
              simp only [Prod.mk.injEq, Except.ok.injEq] at h
              obtain ⟨h, _⟩ := h
              subst h
              obtain ⟨h1, h2⟩ := ih e
              refine ⟨by rw [List.length_append, slice_length, h1]; omega, fun i hi => ?_⟩
              by_cases him : i < m
              · rw [List.getElem?_append_left (by rw [slice_length]; exact him), slice_get him]
                unfold Phys.get
                rw [if_pos (by omega)]
              · rw [List.getElem?_append_right (by rw [slice_length]; omega), slice_length, h2 _ (by omega)]
                congr 1
                omega

theorem readLoop_ok {s : List Ans} (hs : NoErr s) {p : Phys V} {off n : Nat} (h : n = 0 ∨ off + n ≤ p.len) : ∃ l s', readLoop s p off n = (.ok l, s') ∧ NoErr s' := by
  induction s generalizing off n with
  | nil =>
    unfold readLoop
    rw [if_pos h]
    exact ⟨_, _, rfl, hs⟩
  | cons a s ih =>
    have hs' : NoErr s := fun h => hs (List.mem_cons_of_mem _ h)
    unfold readLoop
    by_cases hn : n = 0
    · rw [if_pos hn]
      exact ⟨_, _, rfl, hs⟩
    · rw [if_neg hn]
      cases a with
      | intr => exact ih hs' h
      | err => exact absurd List.mem_cons_self hs
      | part k =>
        dsimp only
        have hm1 : min (k + 1) (min n (p.len - off)) ≤ n := by omega
        have hm2 : min (k + 1) (min n (p.len - off)) ≠ 0 := by omega
        generalize min (k + 1) (min n (p.len - off)) = m at hm1 hm2
        rw [if_neg hm2]
        obtain ⟨l, s', e, hn'⟩ := ih hs' (off := off + m) (n := n - m) (by omega)
        rw [e]
        exact ⟨_, _, rfl, hn'⟩

/-- the byte of the file -/
def at_ (M : Nat) (f : File V) (z : Nat) : Option V := (f.disk (z / M)).bind fun p => p.get (z % M)

/-- extents in use follow each other -/
structure WF (f : File V) : Prop where
  opened : 0 < f.opened
  exist : ∀ e, e < f.opened → f.disk e ≠ none
  contig : ∀ e, f.disk (e + 1) ≠ none → f.disk e ≠ none
  limit : ∀ e, f.disk e ≠ none → e ≤ maxExtent

/-- bytes that are not lost by opening more extents -/
def Safe (M : Nat) (f : File V) (z : Nat) : Prop := f.mode = .w → z / M < f.opened

theorem nextExt_spec {M e : Nat} {f f' : File V} (hf : WF f) (he : e < f.opened) (h : nextExt e f = some f') :
    WF f' ∧ f'.mode = f.mode ∧ f.opened ≤ f'.opened ∧ e + 1 < f'.opened ∧ e < maxExtent ∧ (∀ i, i < f.opened → f'.disk i = f.disk i) ∧
      (∀ z v, at_ M f z = some v → Safe M f z → at_ M f' z = some v) ∧ (f.mode ≠ .w → ∀ z, at_ M f' z = at_ M f z) := by
  unfold nextExt at h
  split at h
  · next h1 =>
    injection h with h
    subst h
    refine ⟨hf, rfl, Nat.le_refl _, h1, ?_, fun _ _ => rfl, fun _ _ h _ => h, fun _ _ => rfl⟩
    exact Nat.lt_of_succ_le (hf.limit _ (hf.exist _ h1))
  · next h1 =>
    have heo : f.opened = e + 1 := by omega
    split at h
    · nomatch h
    · next h2 =>
      cases hp : openPhys f.mode (f.disk (e + 1)) with
      | none =>
        rw [hp] at h
        nomatch h
      | some p =>
        rw [hp] at h
        injection h with h
        subst h
        refine ⟨⟨?_, ?_, ?_, ?_⟩, rfl, by dsimp only; omega, by dsimp only; omega, by omega, ?_, ?_, ?_⟩
        · dsimp only
          omega
        · intro i hi
          dsimp only at hi ⊢
          split
          · simp
          · exact hf.exist i (by omega)
        · intro i hi
          dsimp only at hi ⊢
          by_cases h3 : i + 1 = e + 1
          · rw [if_neg (by omega)]
            exact hf.exist i (by omega)
          · rw [if_neg h3] at hi
            split
            · simp
            · exact hf.contig i hi
        · intro i hi
          dsimp only at hi
          by_cases h3 : i = e + 1
          · unfold maxExtent at h2 ⊢
            omega
          · rw [if_neg h3] at hi
            exact hf.limit i hi
        · intro i hi
          dsimp only
          rw [if_neg (by omega)]
        · intro z v hz hs
          unfold at_ at hz ⊢
          dsimp only
          split
          · next h3 =>
            cases hm : f.mode with
            | w =>
              have := hs hm
              omega
            | r =>
              rw [hm] at hp
              have hp : f.disk (e + 1) = some p := hp
              rw [h3, hp] at hz
              exact hz
            | rw =>
              rw [hm, ← h3] at hp
              cases hd : f.disk (z / M) with
              | none =>
                rw [hd] at hz
                simp at hz
              | some q =>
                rw [hd] at hp hz
                have hp : some q = some p := hp
                injection hp with hp
                subst hp
                exact hz
          · exact hz
        · intro hm z
          unfold at_
          dsimp only
          split
          · next h3 =>
            rw [← h3] at hp
            cases hmm : f.mode with
            | w => exact absurd hmm hm
            | r =>
              rw [hmm] at hp
              have hp : f.disk (z / M) = some p := hp
              rw [hp]
            | rw =>
              rw [hmm] at hp
              cases hd : f.disk (z / M) with
              | none =>
                rw [hd] at hp
                have hp : some empty = some p := hp
                injection hp with hp
                subst hp
                simp [Phys.get, empty]
              | some q =>
                rw [hd] at hp
                have hp : some q = some p := hp
                injection hp with hp
                subst hp
                rfl
          · rfl

/-- what one call keeps -/
structure Keep (M : Nat) (lo hi : Nat) (f f' : File V) : Prop where
  wf : WF f'
  mode : f'.mode = f.mode
  opened : f.opened ≤ f'.opened
  frame : ∀ z v, at_ M f z = some v → Safe M f z → (z < lo ∨ hi ≤ z) → at_ M f' z = some v

omit [Zero V] in
theorem Keep.safe {M lo hi : Nat} {f f' : File V} (h : Keep M lo hi f f') {z : Nat} (hz : Safe M f z) : Safe M f' z := by
  intro hm
  rw [h.mode] at hm
  exact Nat.lt_of_lt_of_le (hz hm) h.opened

omit [Zero V] in
theorem Keep.trans {M lo hi lo' hi' : Nat} {f f' f'' : File V} (h : Keep M lo hi f f') (h' : Keep M lo' hi' f' f'') : Keep M (min lo lo') (max hi hi') f f'' :=
  ⟨h'.wf, h'.mode.trans h.mode, Nat.le_trans h.opened h'.opened, fun z v hz hs ho => h'.frame z v (h.frame z v hz hs (by omega)) (h.safe hs) (by omega)⟩

omit [Zero V] in
theorem Keep.refl {M lo hi : Nat} {f : File V} (h : WF f) : Keep M lo hi f f := ⟨h, rfl, Nat.le_refl _, fun _ _ h _ _ => h⟩

omit [Zero V] in
theorem Keep.mono {M lo hi lo' hi' : Nat} {f f' : File V} (h : Keep M lo hi f f') (h1 : lo' ≤ lo) (h2 : hi ≤ hi') : Keep M lo' hi' f f' :=
  ⟨h.wf, h.mode, h.opened, fun z v hz hs ho => h.frame z v hz hs (by omega)⟩

theorem keep_next {M e : Nat} {f f' : File V} (hf : WF f) (he : e < f.opened) (h : nextExt e f = some f') (a : Nat) : Keep M a a f f' := by
  obtain ⟨h1, h2, h3, _, _, _, h6, _⟩ := nextExt_spec (M := M) hf he h
  exact ⟨h1, h2, h3, fun z v hz hs _ => h6 z v hz hs⟩

omit [Zero V] in
theorem div_mod_of {M e z : Nat} (h1 : e * M ≤ z) (h2 : z < (e + 1) * M) : z / M = e ∧ z % M = z - e * M := by
  have hM : 0 < M := by
    rcases Nat.eq_zero_or_pos M with h | h
    · subst h
      simp at h2
    · exact h
  have hq : z / M = e := by
    apply Nat.le_antisymm
    · exact Nat.lt_succ_iff.1 ((Nat.div_lt_iff_lt_mul hM).2 h2)
    · exact (Nat.le_div_iff_mul_le hM).2 h1
  refine ⟨hq, ?_⟩
  have := Nat.div_add_mod z M
  rw [hq, Nat.mul_comm] at this
  omega

/-- writing in one extent -/
theorem keep_write {M e off : Nat} {f : File V} {p p' : Phys V} {n : Nat} (hf : WF f) (he : f.disk e = some p)
    (h : ∀ z v, p.get z = some v → (z < off ∨ off + n ≤ z) → p'.get z = some v) :
    Keep M (e * M + off) (e * M + off + n) f { f with disk := fun i => if i = e then some p' else f.disk i } := by
  have hd : ∀ i, (if i = e then some p' else f.disk i) ≠ none ↔ f.disk i ≠ none := by
    intro i
    split
    · next h =>
      rw [h, he]
      simp
    · exact Iff.rfl
  refine ⟨⟨hf.opened, fun i hi => (hd i).2 (hf.exist i hi), fun i hi => (hd i).2 (hf.contig i ((hd (i + 1)).1 hi)), fun i hi => hf.limit i ((hd i).1 hi)⟩, rfl, Nat.le_refl _, ?_⟩
  intro z v hz _ ho
  unfold at_ at hz ⊢
  dsimp only
  by_cases hze : z / M = e
  · rw [if_pos hze]
    rw [hze, he] at hz
    refine h _ v hz ?_
    have := Nat.div_add_mod z M
    rw [hze, Nat.mul_comm] at this
    omega
  · rw [if_neg hze]
    exact hz

/-- the part of the data for this extent -/
def hereOf (M off : Nat) (d : List V) : List V := if M ≤ off + d.length then d.take (M - off) else d

/-- the rest of the data -/
def restOf (M off : Nat) (d : List V) : List V := if M ≤ off + d.length then d.drop (M - off) else []

/-- the file after the part for this extent -/
def putExt (f : File V) (e : Nat) (p : Phys V) : File V := { f with disk := fun i => if i = e then some p else f.disk i }

/-- the cases of `elio_write` -/
theorem write_cases (M A left e off : Nat) (d : List V) (f : File V) (s : List Ans) :
    (∃ x, write M A left e off d f s = (.error x, f, s) ∧ (A ≤ off ∨ (M ≤ off ∧ (nextExt e f = none ∨ left = 0)) ∨ f.disk e = none ∨ f.mode = .r)) ∨
    (off < A ∧ M ≤ off ∧ ∃ left' f', left = left' + 1 ∧ nextExt e f = some f' ∧ write M A left e off d f s = write M A left' (e + 1) (off - M) d f' s) ∨
    (off < A ∧ off < M ∧ ∃ p, f.disk e = some p ∧ (write M A left e off d f s).2.1 = putExt f e (writeLoop s p off (hereOf M off d)).2.1 ∧
      (write M A left e off d f s).2.2 = (writeLoop s p off (hereOf M off d)).2.2 ∧
      (((write M A left e off d f s).1 = .ok () ∧ (writeLoop s p off (hereOf M off d)).1 = true ∧ restOf M off d = []) ∨
        ((write M A left e off d f s).1 ≠ .ok () ∧ ((writeLoop s p off (hereOf M off d)).1 = false ∨
          (restOf M off d ≠ [] ∧ (nextExt e (putExt f e (writeLoop s p off (hereOf M off d)).2.1) = none ∨ left = 0)))))) ∨
    (off < A ∧ off < M ∧ restOf M off d ≠ [] ∧ ∃ p f2 left' r, f.disk e = some p ∧ left = left' + 1 ∧ (writeLoop s p off (hereOf M off d)).1 = true ∧
      nextExt e (putExt f e (writeLoop s p off (hereOf M off d)).2.1) = some f2 ∧
      write M A left' (e + 1) 0 (restOf M off d) f2 (writeLoop s p off (hereOf M off d)).2.2 = r ∧
      (write M A left e off d f s).2 = r.2 ∧ ((write M A left e off d f s).1 = .ok () ↔ r.1 = .ok ())) := by
  by_cases hA : A ≤ off
  · left
    refine ⟨.seek, ?_, Or.inl hA⟩
    unfold write
    rw [if_pos hA]
  by_cases hM : M ≤ off
  · cases hn : nextExt e f with
    | none =>
      left
      refine ⟨.opn, ?_, Or.inr (Or.inl ⟨hM, Or.inl rfl⟩)⟩
      unfold write
      rw [if_neg hA, if_pos hM, hn]
    | some f' =>
      cases left with
      | zero =>
        left
        refine ⟨.opn, ?_, Or.inr (Or.inl ⟨hM, Or.inr rfl⟩)⟩
        unfold write
        rw [if_neg hA, if_pos hM, hn]
      | succ left =>
        right; left
        refine ⟨by omega, hM, left, f', rfl, rfl, ?_⟩
        conv => lhs; unfold write
        rw [if_neg hA, if_pos hM, hn]
  cases hd : f.disk e with
  | none =>
    left
    refine ⟨.seek, ?_, Or.inr (Or.inr (Or.inl rfl))⟩
    unfold write
    rw [if_neg hA, if_neg hM]
    dsimp only
    rw [hd]
  | some p =>
    by_cases hm : f.mode = .r ∧ ¬ (hereOf M off d).isEmpty
    · left
      refine ⟨.writ, ?_, Or.inr (Or.inr (Or.inr hm.1))⟩
      unfold write
      rw [if_neg hA, if_neg hM]
      dsimp only
      rw [hd]
      dsimp only
      exact if_pos hm
    · by_cases hw : (writeLoop s p off (hereOf M off d)).1 = false
      · right; right; left
        have e1 : write M A left e off d f s = (.error .writ, putExt f e (writeLoop s p off (hereOf M off d)).2.1, (writeLoop s p off (hereOf M off d)).2.2) := by
          unfold write
          rw [if_neg hA, if_neg hM]
          dsimp only
          rw [hd]
          dsimp only
          exact (if_neg hm).trans (if_pos hw)
        rw [e1]
        exact ⟨by omega, by omega, p, rfl, rfl, rfl, Or.inr ⟨by simp, Or.inl hw⟩⟩
      · have hw' : (writeLoop s p off (hereOf M off d)).1 = true := by simpa using hw
        by_cases hr : (restOf M off d).isEmpty
        · right; right; left
          have e1 : write M A left e off d f s = (.ok (), putExt f e (writeLoop s p off (hereOf M off d)).2.1, (writeLoop s p off (hereOf M off d)).2.2) := by
            unfold write
            rw [if_neg hA, if_neg hM]
            dsimp only
            rw [hd]
            dsimp only
            exact (if_neg hm).trans ((if_neg hw).trans (if_pos hr))
          rw [e1]
          exact ⟨by omega, by omega, p, rfl, rfl, rfl, Or.inl ⟨rfl, hw', List.isEmpty_iff.1 hr⟩⟩
        · cases hn : nextExt e (putExt f e (writeLoop s p off (hereOf M off d)).2.1) with
          | none =>
            right; right; left
            have e1 : write M A left e off d f s = (.error .opn, putExt f e (writeLoop s p off (hereOf M off d)).2.1, (writeLoop s p off (hereOf M off d)).2.2) := by
              unfold write
              rw [if_neg hA, if_neg hM]
              dsimp only
              rw [hd]
              dsimp only
              refine (if_neg hm).trans ((if_neg hw).trans ((if_neg hr).trans ?_))
              unfold putExt hereOf at hn
              rw [hn]
              rfl
            rw [e1]
            exact ⟨by omega, by omega, p, rfl, rfl, rfl, Or.inr ⟨by simp, Or.inr ⟨fun h => hr (List.isEmpty_iff.2 h), Or.inl hn⟩⟩⟩
          | some f2 =>
            cases left with
            | zero =>
              right; right; left
              have e1 : write M A 0 e off d f s = (.error .opn, putExt f e (writeLoop s p off (hereOf M off d)).2.1, (writeLoop s p off (hereOf M off d)).2.2) := by
                unfold write
                rw [if_neg hA, if_neg hM]
                dsimp only
                rw [hd]
                dsimp only
                refine (if_neg hm).trans ((if_neg hw).trans ((if_neg hr).trans ?_))
                unfold putExt hereOf at hn
                rw [hn]
                rfl
              rw [e1]
              exact ⟨by omega, by omega, p, rfl, rfl, rfl, Or.inr ⟨by simp, Or.inr ⟨fun h => hr (List.isEmpty_iff.2 h), Or.inr rfl⟩⟩⟩
            | succ left =>
              right; right; right
              refine ⟨by omega, by omega, fun h => hr (List.isEmpty_iff.2 h), p, f2, left, _, rfl, rfl, hw', hn, rfl, ?_⟩
              have e1 : write M A (left + 1) e off d f s =
                  match write M A left (e + 1) 0 (restOf M off d) f2 (writeLoop s p off (hereOf M off d)).2.2 with
                  | (.ok _, f3, s3) => (.ok (), f3, s3)
                  | (.error _, f3, s3) => (.error .writ, f3, s3) := by
                conv => lhs; unfold write
                rw [if_neg hA, if_neg hM]
                dsimp only
                rw [hd]
                dsimp only
                refine (if_neg hm).trans ((if_neg hw).trans ((if_neg hr).trans ?_))
                unfold putExt hereOf at hn
                rw [hn]
                rfl
              rw [e1]
              cases hx : write M A left (e + 1) 0 (restOf M off d) f2 (writeLoop s p off (hereOf M off d)).2.2 with
              | mk a b =>
                cases a with
                | ok u => exact ⟨rfl, by simp⟩
                | error x => exact ⟨rfl, by simp⟩

omit [Zero V] in
theorem hereOf_append (M off : Nat) (d : List V) : hereOf M off d ++ restOf M off d = d := by
  unfold hereOf restOf
  split
  · exact List.take_append_drop _ _
  · simp

omit [Zero V] in
theorem hereOf_length {M off : Nat} (h : off < M) (d : List V) : (hereOf M off d).length ≤ M - off ∧ (restOf M off d ≠ [] → (hereOf M off d).length = M - off) := by
  unfold hereOf restOf
  split
  · next h1 =>
    rw [List.length_take]
    exact ⟨by omega, fun _ => by omega⟩
  · next h1 =>
    exact ⟨by omega, fun h => absurd rfl h⟩

/-- a byte of one extent -/
theorem at_ext {M e x : Nat} {f : File V} {p : Phys V} (hx : x < M) (h : f.disk e = some p) : at_ M f (e * M + x) = p.get x := by
  obtain ⟨h1, h2⟩ := div_mod_of (M := M) (e := e) (z := e * M + x) (by omega) (by rw [Nat.succ_mul]; omega)
  unfold at_
  rw [h1, h2, h, Nat.add_sub_cancel_left]
  rfl

theorem put_in {M e off : Nat} {d : List V} {f : File V} {p' : Phys V} (he : e < f.opened) (hoff : off < M)
    (h : ∀ i v, (hereOf M off d)[i]? = some v → p'.get (off + i) = some v) {i : Nat} {v : V} (hi : (hereOf M off d)[i]? = some v) :
    at_ M (putExt f e p') (e * M + off + i) = some v ∧ Safe M (putExt f e p') (e * M + off + i) := by
  have hlt : i < (hereOf M off d).length := by
    rw [List.getElem?_eq_some_iff] at hi
    exact hi.1
  have := (hereOf_length hoff d).1
  rw [Nat.add_assoc]
  refine ⟨?_, fun _ => ?_⟩
  · rw [at_ext (p := p') (by omega) (by unfold putExt; simp)]
    exact h i v hi
  · rw [(div_mod_of (M := M) (e := e) (z := e * M + (off + i)) (by omega) (by rw [Nat.succ_mul]; omega)).1]
    exact he

/-- `elio_write` -/
theorem write_spec {M A : Nat} (left e off : Nat) (d : List V) (f : File V) (s : List Ans) (hf : WF f) (he : e < f.opened) :
    Keep M (e * M + off) (e * M + off + d.length) f (write M A left e off d f s).2.1 ∧
      ((write M A left e off d f s).1 = .ok () → ∀ i v, d[i]? = some v →
        at_ M (write M A left e off d f s).2.1 (e * M + off + i) = some v ∧ Safe M (write M A left e off d f s).2.1 (e * M + off + i)) := by
  induction left generalizing e off d f s with
  | zero =>
    rcases write_cases M A 0 e off d f s with ⟨x, h, _⟩ | ⟨_, _, l', _, hl, _⟩ | ⟨_, hoff, p, hp, h1, _, h2⟩ | ⟨_, _, _, _, _, l', _, _, hl, _⟩
    · rw [h]
      exact ⟨Keep.refl hf, fun h => nomatch h⟩
    · omega
    · rw [h1]
      obtain ⟨w1, w2⟩ := writeLoop_spec s p off (hereOf M off d)
      have hlen := congrArg List.length (hereOf_append M off d)
      rw [List.length_append] at hlen
      refine ⟨(keep_write hf hp w2).mono (Nat.le_refl _) (by omega), fun hok => ?_⟩
      obtain ⟨_, hw, hr⟩ := h2.resolve_right fun h => h.1 hok
      have hd := hereOf_append M off d
      rw [hr, List.append_nil] at hd
      intro i v hi
      rw [← hd] at hi
      exact put_in he hoff (w1 hw) hi
    · omega
  | succ left ih =>
    rcases write_cases M A (left + 1) e off d f s with ⟨x, h, _⟩ | ⟨_, hoff, l', f', hl, hn, h⟩ | ⟨_, hoff, p, hp, h1, _, h2⟩ | ⟨_, hoff, hr, p, f2, l', r, hp, hl, hw, hn, hrr, h1, h2⟩
    · rw [h]
      exact ⟨Keep.refl hf, fun h => nomatch h⟩
    · injection hl with hl
      subst hl
      obtain ⟨g1, g2, g3, g4, _⟩ := nextExt_spec (M := M) hf he hn
      obtain ⟨k1, k2⟩ := ih (e + 1) (off - M) d f' s g1 g4
      have heq : (e + 1) * M + (off - M) = e * M + off := by
        rw [Nat.succ_mul]
        omega
      rw [heq] at k1 k2
      rw [h]
      exact ⟨((keep_next hf he hn (e * M + off)).trans k1).mono (by omega) (by omega), k2⟩
    · rw [h1]
      obtain ⟨w1, w2⟩ := writeLoop_spec s p off (hereOf M off d)
      have hlen := congrArg List.length (hereOf_append M off d)
      rw [List.length_append] at hlen
      refine ⟨(keep_write hf hp w2).mono (Nat.le_refl _) (by omega), fun hok => ?_⟩
      obtain ⟨_, hw, hr⟩ := h2.resolve_right fun h => h.1 hok
      have hd := hereOf_append M off d
      rw [hr, List.append_nil] at hd
      intro i v hi
      rw [← hd] at hi
      exact put_in he hoff (w1 hw) hi
    · injection hl with hl
      subst hl
      obtain ⟨w1, w2⟩ := writeLoop_spec s p off (hereOf M off d)
      have hlen := congrArg List.length (hereOf_append M off d)
      rw [List.length_append] at hlen
      have hl := (hereOf_length hoff d).2 hr
      have K1 : Keep M (e * M + off) (e * M + off + (hereOf M off d).length) f (putExt f e (writeLoop s p off (hereOf M off d)).2.1) := keep_write hf hp w2
      have he1 : e < (putExt f e (writeLoop s p off (hereOf M off d)).2.1).opened := he
      have K2 := keep_next (M := M) K1.wf he1 hn (e * M + M)
      obtain ⟨g1, g2, g3, g4, _⟩ := nextExt_spec (M := M) K1.wf he1 hn
      obtain ⟨k1, k2⟩ := ih (e + 1) 0 (restOf M off d) f2 (writeLoop s p off (hereOf M off d)).2.2 g1 g4
      have heq : (e + 1) * M + 0 = e * M + M := by
        rw [Nat.succ_mul]
        rfl
      rw [heq, hrr] at k1 k2
      rw [h1]
      refine ⟨((K1.trans K2).trans k1).mono (by omega) (by omega), fun hok => ?_⟩
      intro i v hi
      by_cases hih : i < (hereOf M off d).length
      · have hi' : (hereOf M off d)[i]? = some v := by
          rw [← hereOf_append M off d, List.getElem?_append_left hih] at hi
          exact hi
        obtain ⟨q1, q2⟩ := put_in he hoff (w1 hw) hi'
        have q3 := K2.frame _ _ q1 q2 (Or.inl (by omega))
        have q4 := K2.safe q2
        exact ⟨k1.frame _ _ q3 q4 (Or.inl (by omega)), k1.safe q4⟩
      · have hi' : (restOf M off d)[i - (hereOf M off d).length]? = some v := by
          rw [← hereOf_append M off d, List.getElem?_append_right (by omega)] at hi
          exact hi
        have := k2 (h2.1 hok) _ v hi'
        rw [show e * M + M + (i - (hereOf M off d).length) = e * M + off + i by omega] at this
        exact this

theorem nextExt_some {e : Nat} {f : File V} (hm : f.mode ≠ .r ∨ f.disk (e + 1) ≠ none) (h : e < maxExtent) : nextExt e f ≠ none := by
  unfold nextExt
  split
  · simp
  · rw [if_neg (by omega)]
    cases hmm : f.mode with
    | w => simp [openPhys]
    | r =>
      have := hm.resolve_left fun h => h hmm
      cases hd : f.disk (e + 1) with
      | none => exact absurd hd this
      | some p => simp [openPhys]
    | rw => simp [openPhys]

/-- writing succeeds without errors of the system, below the limits -/
theorem write_ok {M A : Nat} (hA : 0 < A) (left e off : Nat) (d : List V) (f : File V) (s : List Ans) (hf : WF f) (he : e < f.opened) (hs : NoErr s) (hm : f.mode ≠ .r)
    (hoA : off < A) (hl : left + e = maxExtent) (h1 : off < (left + 1) * M) (h2 : off + d.length ≤ (left + 1) * M) : (write M A left e off d f s).1 = .ok () := by
  induction left generalizing e off d f s with
  | zero =>
    rcases write_cases M A 0 e off d f s with ⟨x, h, hx⟩ | ⟨_, _, l', _, hl, _⟩ | ⟨_, hoff, p, hp, _, _, h3⟩ | ⟨_, _, _, _, _, l', _, _, hl, _⟩
    · rcases hx with hx | hx | hx | hx
      · omega
      · omega
      · exact absurd hx (hf.exist e he)
      · exact absurd hx hm
    · omega
    · rcases h3 with h3 | ⟨_, h3 | ⟨h3, _⟩⟩
      · exact h3.1
      · rw [(writeLoop_ok hs p off (hereOf M off d)).1] at h3
        nomatch h3
      · exfalso
        apply h3
        unfold restOf
        split
        · rw [List.drop_eq_nil_iff]
          omega
        · rfl
    · omega
  | succ left ih =>
    rcases write_cases M A (left + 1) e off d f s with ⟨x, h, hx⟩ | ⟨_, hoff, l', f', hl', hn, h⟩ | ⟨_, hoff, p, hp, _, _, h3⟩ | ⟨_, hoff, hr, p, f2, l', r, hp, hl', hw, hn, hrr, _, h4⟩
    · rcases hx with hx | ⟨_, hx | hx⟩ | hx | hx
      · omega
      · exact absurd hx (nextExt_some (Or.inl hm) (by omega))
      · omega
      · exact absurd hx (hf.exist e he)
      · exact absurd hx hm
    · injection hl' with hl'
      subst hl'
      obtain ⟨g1, g2, g3, g4, _⟩ := nextExt_spec (M := M) hf he hn
      rw [h]
      rw [Nat.succ_mul] at h1 h2
      exact ih (e + 1) (off - M) d f' s g1 g4 hs (by rw [g2]; exact hm) (by omega) (by omega) (by omega) (by omega)
    · rcases h3 with h3 | ⟨_, h3 | ⟨_, h3 | h3⟩⟩
      · exact h3.1
      · rw [(writeLoop_ok hs p off (hereOf M off d)).1] at h3
        nomatch h3
      · exact absurd h3 (nextExt_some (Or.inl hm) (by omega))
      · omega
    · injection hl' with hl'
      subst hl'
      obtain ⟨w1, w2⟩ := writeLoop_spec s p off (hereOf M off d)
      have K1 : Keep M (e * M + off) (e * M + off + (hereOf M off d).length) f (putExt f e (writeLoop s p off (hereOf M off d)).2.1) := keep_write hf hp w2
      have he1 : e < (putExt f e (writeLoop s p off (hereOf M off d)).2.1).opened := he
      obtain ⟨g1, g2, g3, g4, _⟩ := nextExt_spec (M := M) K1.wf he1 hn
      rw [h4, ← hrr]
      have hlen := congrArg List.length (hereOf_append M off d)
      rw [List.length_append] at hlen
      have hll := (hereOf_length hoff d).2 hr
      rw [Nat.succ_mul] at h1 h2
      have hpos : 0 < (left + 1) * M := Nat.mul_pos (Nat.succ_pos _) (by omega)
      exact ih (e + 1) 0 (restOf M off d) f2 _ g1 g4 (writeLoop_ok hs _ _ _).2 (by rw [g2]; exact hm) hA (by omega) hpos (by omega)

/-- the cases of `elio_read` -/
theorem read_cases (M A left e off n : Nat) (f : File V) (s : List Ans) :
    (∃ x, (read M A left e off n f s).1 = .error x ∧ (read M A left e off n f s).2.1 = f ∧
      (A ≤ off ∨ (M ≤ off ∧ (nextExt e f = none ∨ left = 0)) ∨ f.disk e = none ∨ f.mode = .w ∨
        ∃ p, off < M ∧ f.disk e = some p ∧ ((∃ y s', readLoop s p off (min n (M - off)) = (.error y, s')) ∨ (M - off < n ∧ (nextExt e f = none ∨ left = 0))))) ∨
    (off < A ∧ M ≤ off ∧ ∃ left' f', left = left' + 1 ∧ nextExt e f = some f' ∧ read M A left e off n f s = read M A left' (e + 1) (off - M) n f' s) ∨
    (off < A ∧ off < M ∧ n ≤ M - off ∧ ∃ p l s', f.disk e = some p ∧ readLoop s p off n = (.ok l, s') ∧ read M A left e off n f s = (.ok l, f, s')) ∨
    (off < A ∧ off < M ∧ M - off < n ∧ ∃ p f2 left' l s' r, f.disk e = some p ∧ left = left' + 1 ∧ readLoop s p off (M - off) = (.ok l, s') ∧ nextExt e f = some f2 ∧
      read M A left' (e + 1) 0 (n - (M - off)) f2 s' = r ∧ (read M A left e off n f s).2 = r.2 ∧
      ((∃ l', r.1 = .ok l' ∧ (read M A left e off n f s).1 = .ok (l ++ l')) ∨ (∃ x y, r.1 = .error x ∧ (read M A left e off n f s).1 = .error y))) := by
  by_cases hA : A ≤ off
  · left
    unfold read
    rw [if_pos hA]
    exact ⟨_, rfl, rfl, Or.inl hA⟩
  by_cases hM : M ≤ off
  · cases hn : nextExt e f with
    | none =>
      left
      unfold read
      rw [if_neg hA, if_pos hM, hn]
      exact ⟨_, rfl, rfl, Or.inr (Or.inl ⟨hM, Or.inl rfl⟩)⟩
    | some f' =>
      cases left with
      | zero =>
        left
        unfold read
        rw [if_neg hA, if_pos hM, hn]
        exact ⟨_, rfl, rfl, Or.inr (Or.inl ⟨hM, Or.inr rfl⟩)⟩
      | succ left =>
        right; left
        refine ⟨by omega, hM, left, f', rfl, rfl, ?_⟩
        conv => lhs; unfold read
        rw [if_neg hA, if_pos hM, hn]
  cases hd : f.disk e with
  | none =>
    left
    unfold read
    rw [if_neg hA, if_neg hM]
    dsimp only
    rw [hd]
    exact ⟨_, rfl, rfl, Or.inr (Or.inr (Or.inl rfl))⟩
  | some p =>
    have hh : (if M ≤ off + n then M - off else n) = min n (M - off) := by
      split <;> omega
    have hrr : (if M ≤ off + n then n - (M - off) else 0) = n - (M - off) := by
      split <;> omega
    by_cases hm : f.mode = .w ∧ min n (M - off) ≠ 0
    · left
      refine ⟨.read, ?_, ?_, Or.inr (Or.inr (Or.inr (Or.inl hm.1)))⟩
      all_goals
        unfold read
        rw [if_neg hA, if_neg hM]
        dsimp only
        rw [hd]
        dsimp only
        rw [hh, if_pos hm]
    · cases hr : readLoop s p off (min n (M - off)) with
      | mk res s1 =>
        cases res with
        | error x =>
          left
          refine ⟨x, ?_, ?_, Or.inr (Or.inr (Or.inr (Or.inr ⟨p, by omega, rfl, Or.inl ⟨x, s1, hr⟩⟩)))⟩
          all_goals
            unfold read
            rw [if_neg hA, if_neg hM]
            dsimp only
            rw [hd]
            dsimp only
            rw [hh, if_neg hm, hr]
        | ok l =>
          by_cases hz : n ≤ M - off
          · right; right; left
            have hmin : min n (M - off) = n := by omega
            refine ⟨by omega, by omega, hz, p, l, s1, rfl, by rw [← hmin]; exact hr, ?_⟩
            unfold read
            rw [if_neg hA, if_neg hM]
            dsimp only
            rw [hd]
            dsimp only
            rw [hh, if_neg hm, hr]
            dsimp only
            rw [hrr, if_pos (by omega)]
          · have hmin : min n (M - off) = M - off := by omega
            cases hn : nextExt e f with
            | none =>
              left
              refine ⟨.opn, ?_, ?_, Or.inr (Or.inr (Or.inr (Or.inr ⟨p, by omega, rfl, Or.inr ⟨by omega, Or.inl rfl⟩⟩)))⟩
              all_goals
                unfold read
                rw [if_neg hA, if_neg hM]
                dsimp only
                rw [hd]
                dsimp only
                rw [hh, if_neg hm, hr]
                dsimp only
                rw [hrr, if_neg (by omega), hn]
            | some f2 =>
              cases left with
              | zero =>
                left
                refine ⟨.opn, ?_, ?_, Or.inr (Or.inr (Or.inr (Or.inr ⟨p, by omega, rfl, Or.inr ⟨by omega, Or.inr rfl⟩⟩)))⟩
                all_goals
                  unfold read
                  rw [if_neg hA, if_neg hM]
                  dsimp only
                  rw [hd]
                  dsimp only
                  rw [hh, if_neg hm, hr]
                  dsimp only
                  rw [hrr, if_neg (by omega), hn]
              | succ left =>
                right; right; right
                refine ⟨by omega, by omega, by omega, p, f2, left, l, s1, _, rfl, rfl, by rw [← hmin]; exact hr, rfl, rfl, ?_⟩
                have e1 : read M A (left + 1) e off n f s =
                    match read M A left (e + 1) 0 (n - (M - off)) f2 s1 with
                    | (.ok l', f3, s3) => (.ok (l ++ l'), f3, s3)
                    | (.error _, f3, s3) => (.error .read, f3, s3) := by
                  conv => lhs; unfold read
                  rw [if_neg hA, if_neg hM]
                  dsimp only
                  rw [hd]
                  dsimp only
                  rw [hh, if_neg hm, hr]
                  dsimp only
                  rw [hrr, if_neg (by omega), hn]
                  rfl
                rw [e1]
                cases hx : read M A left (e + 1) 0 (n - (M - off)) f2 s1 with
                | mk a b =>
                  cases a with
                  | ok l' => exact ⟨rfl, Or.inl ⟨l', rfl, rfl⟩⟩
                  | error x => exact ⟨rfl, Or.inr ⟨x, _, rfl, rfl⟩⟩

omit [Zero V] in
theorem safe_ext {M e x : Nat} {f : File V} (he : e < f.opened) (hx : x < M) : Safe M f (e * M + x) := by
  intro _
  rw [(div_mod_of (M := M) (e := e) (z := e * M + x) (by omega) (by rw [Nat.succ_mul]; omega)).1]
  exact he

/-- `elio_read` -/
theorem read_spec {M A : Nat} (left e off n : Nat) (f : File V) (s : List Ans) (hf : WF f) (he : e < f.opened) (a : Nat) :
    Keep M a a f (read M A left e off n f s).2.1 ∧
      ∀ l, (read M A left e off n f s).1 = .ok l → l.length = n ∧ ∀ i, i < n → at_ M (read M A left e off n f s).2.1 (e * M + off + i) = l[i]? := by
  have one : ∀ (e : Nat) (f : File V) (p : Phys V) (off n : Nat) (l : List V) (s s' : List Ans), f.disk e = some p → off + n ≤ M → readLoop s p off n = (.ok l, s') →
      l.length = n ∧ ∀ i, i < n → at_ M f (e * M + off + i) = l[i]? := by
    intro e f p off n l s s' hp hn hr
    obtain ⟨h1, h2⟩ := readLoop_spec hr
    refine ⟨h1, fun i hi => ?_⟩
    rw [h2 i hi, Nat.add_assoc, at_ext (by omega) hp]
  induction left generalizing e off n f s with
  | zero =>
    rcases read_cases M A 0 e off n f s with ⟨x, h, h', _⟩ | ⟨_, _, l', _, hl, _⟩ | ⟨_, hoff, hn, p, l, s', hp, hr, h⟩ | ⟨_, _, _, _, _, l', _, _, _, _, hl, _⟩
    · rw [h, h']
      exact ⟨Keep.refl hf, fun l h => nomatch h⟩
    · omega
    · rw [h]
      refine ⟨Keep.refl hf, fun l' hl' => ?_⟩
      injection hl' with hl'
      subst hl'
      exact one e f p off n l s s' hp (by omega) hr
    · omega
  | succ left ih =>
    rcases read_cases M A (left + 1) e off n f s with ⟨x, h, h', _⟩ | ⟨_, hoff, l', f', hl, hn, h⟩ | ⟨_, hoff, hn, p, l, s', hp, hr, h⟩ | ⟨_, hoff, hn, p, f2, l', l, s', r, hp, hl, hr, hx, hrr, h1, h2⟩
    · rw [h, h']
      exact ⟨Keep.refl hf, fun l h => nomatch h⟩
    · injection hl with hl
      subst hl
      obtain ⟨g1, g2, g3, g4, _⟩ := nextExt_spec (M := M) hf he hn
      obtain ⟨k1, k2⟩ := ih (e + 1) (off - M) n f' s g1 g4
      have heq : (e + 1) * M + (off - M) = e * M + off := by
        rw [Nat.succ_mul]
        omega
      rw [heq] at k2
      rw [h]
      exact ⟨((keep_next hf he hn a).trans k1).mono (by omega) (by omega), k2⟩
    · rw [h]
      refine ⟨Keep.refl hf, fun l' hl' => ?_⟩
      injection hl' with hl'
      subst hl'
      exact one e f p off n l s s' hp (by omega) hr
    · injection hl with hl
      subst hl
      obtain ⟨g1, g2, g3, g4, _⟩ := nextExt_spec (M := M) hf he hx
      obtain ⟨k1, k2⟩ := ih (e + 1) 0 (n - (M - off)) f2 s' g1 g4
      have heq : (e + 1) * M + 0 = e * M + M := by
        rw [Nat.succ_mul]
        rfl
      rw [heq, hrr] at k2
      rw [hrr] at k1
      rw [h1]
      have K := ((keep_next hf he hx a).trans k1).mono (lo' := a) (hi' := a) (by omega) (by omega)
      refine ⟨K, fun l1 hl1 => ?_⟩
      rcases h2 with ⟨l2, e1, e2⟩ | ⟨x, y, _, e2⟩
      · rw [e2] at hl1
        injection hl1 with hl1
        subst hl1
        obtain ⟨q1, q2⟩ := one e f p off (M - off) l s s' hp (by omega) hr
        obtain ⟨q3, q4⟩ := k2 l2 e1
        refine ⟨by rw [List.length_append]; omega, fun i hi => ?_⟩
        by_cases hil : i < M - off
        · have hfr := q2 i hil
          rw [List.getElem?_append_left (by omega)]
          rw [List.getElem?_eq_getElem (by omega)] at hfr ⊢
          have hsafe : Safe M f (e * M + off + i) := by
            rw [Nat.add_assoc]
            exact safe_ext he (by omega)
          by_cases hia : e * M + off + i < a
          · exact K.frame _ _ hfr hsafe (Or.inl hia)
          · exact K.frame _ _ hfr hsafe (Or.inr (by omega))
        · rw [List.getElem?_append_right (by omega), q1, ← q4 _ (by omega)]
          congr 1
          omega
      · rw [e2] at hl1
        nomatch hl1

omit [Zero V] in
theorem contig_le {f : File V} (hf : WF f) {a b : Nat} (hab : a ≤ b) (h : f.disk b ≠ none) : f.disk a ≠ none := by
  induction b with
  | zero =>
    have : a = 0 := by omega
    subst this
    exact h
  | succ b ih =>
    by_cases hb : a = b + 1
    · subst hb
      exact h
    · exact ih (by omega) (hf.contig b h)

omit [Zero V] in
theorem at_disk {M : Nat} {f : File V} {z : Nat} (h : at_ M f z ≠ none) : f.disk (z / M) ≠ none := by
  intro e
  unfold at_ at h
  rw [e] at h
  exact h rfl

theorem have_len {M e off n m : Nat} {f : File V} {p : Phys V} (h : ∀ i, i < n → at_ M f (e * M + off + i) ≠ none) (hp : f.disk e = some p) (hoff : off < M)
    (hmn : m ≤ n) (hmM : m ≤ M - off) : m = 0 ∨ off + m ≤ p.len := by
  by_cases hm0 : m = 0
  · exact Or.inl hm0
  · right
    have := h (m - 1) (by omega)
    rw [Nat.add_assoc, at_ext (by omega) hp] at this
    unfold Phys.get at this
    by_contra hc
    rw [if_neg (by omega)] at this
    exact this rfl

omit [Zero V] in
theorem have_next {M e off n : Nat} {f : File V} (hM : 0 < M) (hf : WF f) (hn : 0 < n) (h : ∀ i, i < n → at_ M f (e * M + off + i) ≠ none) (hc : M ≤ off ∨ M - off < n) :
    f.disk (e + 1) ≠ none ∧ e < maxExtent := by
  have : ∃ i, i < n ∧ (e + 1) * M ≤ e * M + off + i := by
    rw [Nat.succ_mul]
    rcases hc with hc | hc
    · exact ⟨0, hn, by omega⟩
    · exact ⟨M - off, hc, by omega⟩
  obtain ⟨i, hi, hle⟩ := this
  have hd := at_disk (h i hi)
  have hq : e + 1 ≤ (e * M + off + i) / M := (Nat.le_div_iff_mul_le hM).2 hle
  have := hf.limit _ hd
  exact ⟨contig_le hf hq hd, by omega⟩

/-- reading bytes that exist succeeds -/
theorem read_ok {M A : Nat} (hM : 0 < M) (hA : 0 < A) (left e off n : Nat) (f : File V) (s : List Ans) (hf : WF f) (he : e < f.opened) (hs : NoErr s) (hm : f.mode ≠ .w)
    (hoA : off < A) (hl : left + e = maxExtent) (hn : 0 < n) (h : ∀ i, i < n → at_ M f (e * M + off + i) ≠ none) : ∃ l, (read M A left e off n f s).1 = .ok l := by
  induction left generalizing e off n f s with
  | zero =>
    rcases read_cases M A 0 e off n f s with ⟨x, _, _, hx⟩ | ⟨_, _, l', _, hl, _⟩ | ⟨_, hoff, hn, p, l, s', hp, hr, h⟩ | ⟨_, _, _, _, _, l', _, _, _, _, hl, _⟩
    · exfalso
      rcases hx with hx | ⟨hx, _⟩ | hx | hx | ⟨p, hoff, hp, ⟨y, s', hy⟩ | ⟨hy, _⟩⟩
      · omega
      · have := have_next hM hf hn h (Or.inl hx)
        omega
      · exact hf.exist e he hx
      · exact hm hx
      · obtain ⟨l, s2, h1, _⟩ := readLoop_ok (n := min n (M - off)) hs (have_len h hp hoff (by omega) (by omega))
        rw [hy] at h1
        simp at h1
      · have := have_next hM hf hn h (Or.inr hy)
        omega
    · omega
    · rw [h]
      exact ⟨l, rfl⟩
    · omega
  | succ left ih =>
    rcases read_cases M A (left + 1) e off n f s with ⟨x, _, _, hx⟩ | ⟨_, hoff, l', f', hl', hn', h'⟩ | ⟨_, hoff, hn, p, l, s', hp, hr, h⟩ | ⟨_, hoff, hn', p, f2, l', l, s', r, hp, hl', hr, hx, hrr, h1, h2⟩
    · exfalso
      rcases hx with hx | ⟨hx, hy⟩ | hx | hx | ⟨p, hoff, hp, ⟨y, s', hy⟩ | ⟨hy, hz⟩⟩
      · omega
      · obtain ⟨q1, q2⟩ := have_next hM hf hn h (Or.inl hx)
        rcases hy with hy | hy
        · exact nextExt_some (Or.inr q1) q2 hy
        · omega
      · exact hf.exist e he hx
      · exact hm hx
      · obtain ⟨l, s2, h1, _⟩ := readLoop_ok (n := min n (M - off)) hs (have_len h hp hoff (by omega) (by omega))
        rw [hy] at h1
        simp at h1
      · obtain ⟨q1, q2⟩ := have_next hM hf hn h (Or.inr hy)
        rcases hz with hz | hz
        · exact nextExt_some (Or.inr q1) q2 hz
        · omega
    · injection hl' with hl'
      subst hl'
      obtain ⟨g1, g2, g3, g4, _, _, _, g8⟩ := nextExt_spec (M := M) hf he hn'
      have heq : (e + 1) * M + (off - M) = e * M + off := by
        rw [Nat.succ_mul]
        omega
      rw [h']
      exact ih (e + 1) (off - M) n f' s g1 g4 hs (by rw [g2]; exact hm) (by omega) (by omega) hn (fun i hi => by rw [heq, g8 hm]; exact h i hi)
    · rw [h]
      exact ⟨l, rfl⟩
    · injection hl' with hl'
      subst hl'
      obtain ⟨g1, g2, g3, g4, _, _, _, g8⟩ := nextExt_spec (M := M) hf he hx
      have heq : (e + 1) * M + 0 = e * M + M := by
        rw [Nat.succ_mul]
        rfl
      have hs' : NoErr s' := by
        obtain ⟨l1, s1, q1, q2⟩ := readLoop_ok (s := s) (p := p) (off := off) (n := M - off) hs (have_len h hp hoff (by omega) (by omega))
        rw [hr] at q1
        simp only [Prod.mk.injEq] at q1
        rw [q1.2]
        exact q2
      obtain ⟨l2, hl2⟩ := ih (e + 1) 0 (n - (M - off)) f2 s' g1 g4 hs' (by rw [g2]; exact hm) hA (by omega) (by omega) (fun i hi => by
        rw [heq, g8 hm]
        have := h (M - off + i) (by omega)
        rw [show e * M + off + (M - off + i) = e * M + M + i by omega] at this
        exact this)
      rw [hrr] at hl2
      rcases h2 with ⟨l3, _, e2⟩ | ⟨x, y, e1, _⟩
      · exact ⟨_, e2⟩
      · rw [e1] at hl2
        nomatch hl2

/-- writing beyond the last extent fails -/
theorem write_limit {M A : Nat} (left e off : Nat) (d : List V) (f : File V) (s : List Ans) (h : (left + 1) * M < off + d.length) : (write M A left e off d f s).1 ≠ .ok () := by
  induction left generalizing e off d f s with
  | zero =>
    rw [Nat.zero_add, Nat.one_mul] at h
    rcases write_cases M A 0 e off d f s with ⟨x, h1, _⟩ | ⟨_, _, l', _, hl, _⟩ | ⟨_, hoff, p, hp, _, _, h3⟩ | ⟨_, _, _, _, _, l', _, _, hl, _⟩
    · rw [h1]
      simp
    · omega
    · rcases h3 with ⟨_, _, h3⟩ | h3
      · unfold restOf at h3
        rw [if_pos (by omega), List.drop_eq_nil_iff] at h3
        omega
      · exact h3.1
    · omega
  | succ left ih =>
    rw [Nat.succ_mul] at h
    rcases write_cases M A (left + 1) e off d f s with ⟨x, h1, _⟩ | ⟨_, hoff, l', f', hl', hn, h1⟩ | ⟨_, hoff, p, hp, _, _, h3⟩ | ⟨_, hoff, hr, p, f2, l', r, hp, hl', hw, hn, hrr, _, h4⟩
    · rw [h1]
      simp
    · injection hl' with hl'
      subst hl'
      rw [h1]
      exact ih _ _ _ _ _ (by omega)
    · rcases h3 with ⟨_, _, h3⟩ | h3
      · unfold restOf at h3
        rw [if_pos (by rw [Nat.succ_mul] at h; omega), List.drop_eq_nil_iff] at h3
        rw [Nat.succ_mul] at h
        omega
      · exact h3.1
    · injection hl' with hl'
      subst hl'
      rw [Ne, h4, ← hrr]
      refine ih _ _ _ _ _ ?_
      have hlen := congrArg List.length (hereOf_append M off d)
      rw [List.length_append] at hlen
      have hll := (hereOf_length hoff d).2 hr
      omega

/-- lengths of extents in a session that began with an empty file -/
structure Small (M : Nat) (f : File V) : Prop where
  len : ∀ i p, f.disk i = some p → p.len ≤ M
  none : ∀ i, f.opened ≤ i → f.disk i = Option.none

theorem length_put {M e : Nat} {f : File V} {p p' : Phys V} (hf : WF f) (h : Small M f) (he : e < f.opened) (hp : f.disk e = some p) (hle : p.len ≤ p'.len) (hM : p'.len ≤ M) :
    Small M (putExt f e p') ∧ length M (putExt f e p') = max (length M f) (e * M + p'.len) := by
  constructor
  · constructor
    · intro i q hq
      unfold putExt at hq
      dsimp only at hq
      split at hq
      · injection hq with hq
        subst hq
        exact hM
      · exact h.len i q hq
    · intro i hi
      unfold putExt at hi ⊢
      dsimp only at hi ⊢
      rw [if_neg (by omega)]
      exact h.none i hi
  · unfold length putExt
    dsimp only
    by_cases hl : f.opened - 1 = e
    · rw [if_pos hl, hl, hp]
      simp only [Option.map_some, Option.getD_some]
      omega
    · rw [if_neg hl]
      have h1 : e + 1 ≤ f.opened - 1 := by omega
      have h2 := Nat.mul_le_mul_right M h1
      rw [Nat.succ_mul] at h2
      omega

theorem length_next {M e : Nat} {f f' : File V} (hf : WF f) (h : Small M f) (he : e < f.opened) (hn : nextExt e f = some f') :
    Small M f' ∧ (length M f' = length M f ∨ (length M f' = (e + 1) * M ∧ length M f ≤ (e + 1) * M)) := by
  unfold nextExt at hn
  split at hn
  · injection hn with hn
    subst hn
    exact ⟨h, Or.inl rfl⟩
  · next h1 =>
    have heo : f.opened = e + 1 := by omega
    split at hn
    · nomatch hn
    · have hd : f.disk (e + 1) = none := h.none _ (by omega)
      rw [hd] at hn
      have hop : openPhys f.mode (none : Option (Phys V)) = none ∨ openPhys f.mode (none : Option (Phys V)) = some empty := by
        cases f.mode with
        | w => exact Or.inr rfl
        | r => exact Or.inl rfl
        | rw => exact Or.inr rfl
      rcases hop with hop | hop
      · rw [hop] at hn
        nomatch hn
      · rw [hop] at hn
        injection hn with hn
        subst hn
        refine ⟨⟨?_, ?_⟩, Or.inr ⟨?_, ?_⟩⟩
        · intro i q hq
          dsimp only at hq
          split at hq
          · injection hq with hq
            subst hq
            exact Nat.zero_le _
          · exact h.len i q hq
        · intro i hi
          dsimp only at hi ⊢
          rw [if_neg (by omega)]
          exact h.none i (by omega)
        · unfold length
          dsimp only
          rw [show e + 2 - 1 = e + 1 by omega, if_pos rfl]
          rfl
        · unfold length
          rw [show f.opened - 1 = e by omega, Nat.succ_mul]
          cases hde : f.disk e with
          | none => simp
          | some p =>
            have := h.len e p hde
            simp only [Option.map_some, Option.getD_some]
            omega

omit [Zero V] in
theorem hereOf_ne {M off : Nat} {d : List V} (hd : d ≠ []) (hoff : off < M) : hereOf M off d ≠ [] := by
  intro h
  have h1 := hereOf_append M off d
  by_cases hr : restOf M off d = []
  · rw [h, hr] at h1
    exact hd h1.symm
  · have := (hereOf_length hoff d).2 hr
    rw [h] at this
    simp at this
    omega

theorem length_here {M e off : Nat} {d : List V} {f : File V} {s : List Ans} {p : Phys V} (hf : WF f) (hsm : Small M f) (he : e < f.opened) (hs : NoErr s) (hd : d ≠ [])
    (hp : f.disk e = some p) (hoff : off < M) :
    Small M (putExt f e (writeLoop s p off (hereOf M off d)).2.1) ∧
      length M (putExt f e (writeLoop s p off (hereOf M off d)).2.1) = max (length M f) (e * M + off + (hereOf M off d).length) := by
  have hl := writeLoop_len hs p off (hereOf M off d)
  rw [if_neg (hereOf_ne hd hoff)] at hl
  have hpl := hsm.len e p hp
  have := (hereOf_length hoff d).1
  obtain ⟨h1, h2⟩ := length_put hf hsm he hp (p' := (writeLoop s p off (hereOf M off d)).2.1) (by omega) (by omega)
  refine ⟨h1, ?_⟩
  rw [h2, hl]
  have h3 : e * M + p.len ≤ length M f := by
    unfold length
    by_cases hl : f.opened - 1 = e
    · rw [hl, hp]
      simp
    · have h1 : e + 1 ≤ f.opened - 1 := by omega
      have h2 := Nat.mul_le_mul_right M h1
      rw [Nat.succ_mul] at h2
      omega
  omega

/-- the length after a write -/
theorem write_length {M A : Nat} (left e off : Nat) (d : List V) (f : File V) (s : List Ans) (hf : WF f) (hsm : Small M f) (he : e < f.opened) (hs : NoErr s) (hd : d ≠ [])
    (hok : (write M A left e off d f s).1 = .ok ()) :
    Small M (write M A left e off d f s).2.1 ∧ length M (write M A left e off d f s).2.1 = max (length M f) (e * M + off + d.length) := by
  induction left generalizing e off d f s with
  | zero =>
    rcases write_cases M A 0 e off d f s with ⟨x, h1, _⟩ | ⟨_, _, l', _, hl, _⟩ | ⟨_, hoff, p, hp, h1, _, h3⟩ | ⟨_, _, _, _, _, l', _, _, hl, _⟩
    · rw [h1] at hok
      nomatch hok
    · omega
    · rw [h1]
      rcases h3 with ⟨_, _, h3⟩ | h3
      · obtain ⟨h4, h5⟩ := length_here hf hsm he hs hd hp hoff
        refine ⟨h4, ?_⟩
        have := hereOf_append M off d
        rw [h3, List.append_nil] at this
        rw [h5, this]
      · exact absurd hok h3.1
    · omega
  | succ left ih =>
    rcases write_cases M A (left + 1) e off d f s with ⟨x, h1, _⟩ | ⟨_, hoff, l', f', hl', hn, h1⟩ | ⟨_, hoff, p, hp, h1, _, h3⟩ | ⟨_, hoff, hr, p, f2, l', r, hp, hl', hw, hn, hrr, h2, h4⟩
    · rw [h1] at hok
      nomatch hok
    · injection hl' with hl'
      subst hl'
      rw [h1] at hok ⊢
      obtain ⟨a1, a2⟩ := length_next hf hsm he hn
      obtain ⟨b1, _, _, b4, _⟩ := nextExt_spec (M := M) hf he hn
      obtain ⟨c1, c2⟩ := ih (e + 1) (off - M) d f' s b1 a1 b4 hs hd hok
      refine ⟨c1, ?_⟩
      rw [c2]
      have := List.length_pos_iff.2 hd
      rw [Nat.succ_mul] at a2 ⊢
      omega
    · rw [h1]
      rcases h3 with ⟨_, _, h3⟩ | h3
      · obtain ⟨h4, h5⟩ := length_here hf hsm he hs hd hp hoff
        refine ⟨h4, ?_⟩
        have := hereOf_append M off d
        rw [h3, List.append_nil] at this
        rw [h5, this]
      · exact absurd hok h3.1
    · injection hl' with hl'
      subst hl'
      obtain ⟨w1, w2⟩ := writeLoop_spec s p off (hereOf M off d)
      have K1 : Keep M (e * M + off) (e * M + off + (hereOf M off d).length) f (putExt f e (writeLoop s p off (hereOf M off d)).2.1) := keep_write hf hp w2
      have he1 : e < (putExt f e (writeLoop s p off (hereOf M off d)).2.1).opened := he
      obtain ⟨b1, _, _, b4, _⟩ := nextExt_spec (M := M) K1.wf he1 hn
      obtain ⟨h5, h6⟩ := length_here hf hsm he hs hd hp hoff
      obtain ⟨a1, a2⟩ := length_next K1.wf h5 he1 hn
      have hok' := h4.1 hok
      rw [← hrr] at hok'
      obtain ⟨c1, c2⟩ := ih (e + 1) 0 (restOf M off d) f2 _ b1 a1 b4 (writeLoop_ok hs _ _ _).2 hr hok'
      rw [h2, ← hrr]
      refine ⟨c1, ?_⟩
      rw [c2]
      have hlen := congrArg List.length (hereOf_append M off d)
      rw [List.length_append] at hlen
      have hll := (hereOf_length hoff d).2 hr
      have := List.length_pos_iff.2 hr
      rw [Nat.succ_mul] at a2 ⊢
      omega

omit [Zero V] in
theorem deleteFrom_low (k e : Nat) (disk : Nat → Option (Phys V)) (i : Nat) (hi : i < e ∨ e + k ≤ i) : deleteFrom k e disk i = disk i := by
  induction k generalizing e disk with
  | zero => rfl
  | succ k ih =>
    simp only [deleteFrom]
    cases hd : disk e with
    | none => rfl
    | some p =>
      dsimp only
      rw [ih (e + 1) _ (by omega), if_neg (by omega)]

omit [Zero V] in
/-- what `elio_delete` leaves -/
theorem deleteFrom_spec (k e : Nat) (disk : Nat → Option (Phys V)) (h : ∀ i, e ≤ i → disk (i + 1) ≠ none → disk i ≠ none) (hk : disk (e + k) = none) :
    ∀ i, e ≤ i → deleteFrom k e disk i = none := by
  have hup : ∀ a b, e ≤ a → a ≤ b → disk a = none → disk b = none := by
    intro a b ha hab hd
    induction b with
    | zero => rwa [show (0 : Nat) = a by omega]
    | succ b ih =>
      by_cases hb : a ≤ b
      · by_contra hc
        exact h b (by omega) hc (ih hb)
      · rwa [show b + 1 = a by omega]
  induction k generalizing e disk with
  | zero => intro i hi; exact hup _ _ (by omega) (by omega) hk
  | succ k ih =>
    intro i hi
    simp only [deleteFrom]
    cases hd : disk e with
    | none => exact hup _ _ (Nat.le_refl _) hi hd
    | some p =>
      dsimp only
      by_cases hie : i = e
      · subst hie
        rw [deleteFrom_low _ _ _ _ (Or.inl (Nat.lt_succ_self _)), if_pos rfl]
      · refine ih (e + 1) _ ?_ ?_ ?_ i (by omega)
        · intro j hj
          rw [if_neg (by omega), if_neg (by omega)]
          exact h j (by omega)
        · rw [if_neg (by omega)]
          rw [← hk]
          congr 1
          omega
        · intro a b ha hab
          rw [if_neg (by omega), if_neg (by omega)]
          exact hup a b (by omega) hab

end

end GA.Elio
