import Verif.Model.Eaf
import Mathlib.Tactic.ByContra

/-! # Lemmas: exclusive access files -/

namespace GA.Eaf

open GA.Elio (Phys Mode)
open GA.Spec.Eaf (View Desc Call Res after promised proper noHole within asyncDisk Always AllPromised)
open GA.Spec (Bytes.fresh Bytes.wrote)

variable {V : Type} [Zero V]

omit [Zero V] in
theorem firstFree_spec (t : Nat → Option (Slot V)) : ∀ n i k, firstFree t n i = some k → i ≤ k ∧ k < i + n ∧ t k = none ∧ ∀ j, i ≤ j → j < k → t j ≠ none
  | 0, _, _, h => absurd h (by simp [firstFree])
  | n + 1, i, k, h => by
    rw [firstFree] at h
    split at h
    · rename_i hs
      obtain ⟨h1, h2, h3, h4⟩ := firstFree_spec t n (i + 1) k h
      refine ⟨by omega, by omega, h3, fun j hj hk => ?_⟩
      by_cases hji : j = i
      · subst hji; intro hn; rw [hn] at hs; simp at hs
      · exact h4 j (by omega) hk
    · rename_i hs
      injection h with h
      subst h
      refine ⟨Nat.le_refl _, by omega, ?_, fun j h1 h2 => by omega⟩
      cases hi : t i with
      | none => rfl
      | some x => rw [hi] at hs; simp at hs

omit [Zero V] in
theorem findMem_some (t : Nat → Option (Slot V)) (name : Nat) : ∀ n i k, findMem t name n i = some k → i ≤ k ∧ k < i + n ∧ isMem name (t k) = true
  | 0, _, _, h => absurd h (by simp [findMem])
  | n + 1, i, k, h => by
    rw [findMem] at h
    split at h
    · rename_i hs
      injection h with h
      subst h
      exact ⟨Nat.le_refl _, by omega, hs⟩
    · obtain ⟨h1, h2, h3⟩ := findMem_some t name n (i + 1) k h
      exact ⟨by omega, by omega, h3⟩

omit [Zero V] in
theorem findMem_none (t : Nat → Option (Slot V)) (name : Nat) : ∀ n i, findMem t name n i = none → ∀ j, i ≤ j → j < i + n → isMem name (t j) = false
  | 0, _, _, j, h1, h2 => by omega
  | n + 1, i, h, j, h1, h2 => by
    rw [findMem] at h
    split at h
    · exact absurd h (by simp)
    · rename_i hs
      by_cases hji : j = i
      · subst hji; simpa using hs
      · exact findMem_none t name n (i + 1) h j (by omega) (by omega)

omit [Zero V] in
theorem isMem_iff (name : Nat) (s : Option (Slot V)) : isMem name s = true ↔ ∃ z d o, s = some (.mem name z d o) := by
  match s with
  | none => simp [isMem]
  | some (.reg _ _ _) => simp [isMem]
  | some (.mem m z d o) =>
    simp only [isMem, decide_eq_true_eq]
    constructor
    · rintro rfl; exact ⟨z, d, o, rfl⟩
    · rintro ⟨_, _, _, h⟩; injection h with h; injection h

/-- the types that allow reading and writing -/
def canRead : Mode → Bool
  | .w => false
  | _ => true

/-- the types that allow reading and writing -/
def canWrite : Mode → Bool
  | .r => false
  | _ => true

/-- an entry and what the program knows of it -/
def Agree (v : View V) (k : Nat) : Option (Slot V) → Option Desc → Prop
  | none, none => v.isOpen k = false
  | some (.mem n z d o), some (.mem n') => n = n' ∧ v.isOpen k = o ∧ ∃ b, v.mem n = some (z, b) ∧ ∀ p x, b p = some x → d p = x
  | some (.reg _ o m), some (.disk o' r w) => o = o' ∧ r = canRead m ∧ w = canWrite m ∧ v.isOpen k = true
  | _, _ => False

/-- the program knows no more than is true -/
structure Rel (s : St V) (v : View V) : Prop where
  agree : ∀ k, Agree v k (s.slot k) (v.desc k)
  uniq : ∀ j k n, v.desc j = some (.mem n) → v.desc k = some (.mem n) → j = k
  has : ∀ n, v.mem n ≠ none → ∃ k, v.desc k = some (.mem n)
  dir : v.dir = s.dir
  next : v.next = s.next
  reach : v.reach = s.hack
  known : ∀ o p x, v.disk o p = some x → p < (s.ino o).len ∧ (s.ino o).dat p = x
  dirLt : ∀ n o, s.dir n = some o → o < s.next
  descLt : ∀ k o r w, v.desc k = some (.disk o r w) → o < s.next

theorem rel_init : Rel (init : St V) Spec.Eaf.start where
  agree k := by simp [init, Spec.Eaf.start, Agree]
  uniq j k n h := absurd h (by simp [Spec.Eaf.start])
  has n h := absurd rfl h
  dir := rfl
  next := rfl
  reach := rfl
  known o p x h := absurd h (by simp [Spec.Eaf.start, Bytes.fresh])
  dirLt n o h := absurd h (by simp [init])
  descLt k o r w h := absurd h (by simp [Spec.Eaf.start])

section
variable {s : St V} {v : View V}

omit [Zero V]

theorem Rel.none_iff (R : Rel s v) (k : Nat) : s.slot k = none ↔ v.desc k = none := by
  have := R.agree k
  constructor
  · intro h; rw [h] at this
    cases hd : v.desc k with
    | none => rfl
    | some d => rw [hd] at this; exact absurd this (by simp [Agree])
  · intro h; rw [h] at this
    match hs : s.slot k with
    | none => rfl
    | some (.mem _ _ _ _) => rw [hs] at this; exact absurd this (by simp [Agree])
    | some (.reg _ _ _) => rw [hs] at this; exact absurd this (by simp [Agree])

theorem Rel.mem_slot (R : Rel s v) {k n : Nat} (h : v.desc k = some (.mem n)) : ∃ z d o b, s.slot k = some (.mem n z d o) ∧ v.isOpen k = o ∧ v.mem n = some (z, b) ∧ ∀ p x, b p = some x → d p = x := by
  have := R.agree k
  rw [h] at this
  match hs : s.slot k with
  | none => rw [hs] at this; exact absurd this (by simp [Agree])
  | some (.reg _ _ _) => rw [hs] at this; exact absurd this (by simp [Agree])
  | some (.mem m z d o) =>
    rw [hs] at this
    obtain ⟨rfl, ho, b, hb, hk⟩ := this
    exact ⟨z, d, o, b, rfl, ho, hb, hk⟩

theorem Rel.slot_mem (R : Rel s v) {k n z : Nat} {d : Nat → V} {o : Bool} (h : s.slot k = some (.mem n z d o)) : v.desc k = some (.mem n) ∧ v.isOpen k = o ∧ ∃ b, v.mem n = some (z, b) ∧ ∀ p x, b p = some x → d p = x := by
  have := R.agree k
  rw [h] at this
  match hd : v.desc k with
  | none => rw [hd] at this; exact absurd this (by simp [Agree])
  | some (.disk _ _ _) => rw [hd] at this; exact absurd this (by simp [Agree])
  | some (.mem m) =>
    rw [hd] at this
    obtain ⟨rfl, ho, hb⟩ := this
    exact ⟨rfl, ho, hb⟩

theorem Rel.slot_reg (R : Rel s v) {k n o : Nat} {m : Mode} (h : s.slot k = some (.reg n o m)) : v.desc k = some (.disk o (canRead m) (canWrite m)) ∧ v.isOpen k = true := by
  have := R.agree k
  rw [h] at this
  match hd : v.desc k with
  | none => rw [hd] at this; exact absurd this (by simp [Agree])
  | some (.mem _) => rw [hd] at this; exact absurd this (by simp [Agree])
  | some (.disk o' r w) =>
    rw [hd] at this
    obtain ⟨rfl, rfl, rfl, ho⟩ := this
    exact ⟨rfl, ho⟩

/-- the entry of an open descriptor is in use -/
theorem Rel.used (R : Rel s v) {k : Nat} (h : v.isOpen k = true) : s.slot k ≠ none := by
  intro hn
  have := R.agree k
  rw [hn, (R.none_iff k).1 hn] at this
  simp only [Agree] at this
  rw [h] at this
  exact absurd this (by simp)

/-- a file in memory of a name has at most one entry -/
theorem Rel.mem_uniq (R : Rel s v) {j k n z z' : Nat} {d d' : Nat → V} {o o' : Bool} (hj : s.slot j = some (.mem n z d o)) (hk : s.slot k = some (.mem n z' d' o')) : j = k :=
  R.uniq j k n (R.slot_mem hj).1 (R.slot_mem hk).1

/-- an agreement survives changes elsewhere -/
theorem Agree.mono {w : View V} {k : Nat} {a : Option (Slot V)} {d : Option Desc} (h : Agree v k a d) (ho : w.isOpen k = v.isOpen k) (hm : ∀ n, d = some (.mem n) → w.mem n = v.mem n) : Agree w k a d := by
  match a, d, h with
  | none, none, h => simpa [Agree, ho] using h
  | some (.mem n z dd o), some (.mem n'), h =>
    obtain ⟨rfl, h1, b, hb, hk⟩ := h
    exact ⟨rfl, by rw [ho]; exact h1, b, by rw [hm _ rfl]; exact hb, hk⟩
  | some (.reg _ o m), some (.disk o' r w'), h => simpa [Agree, ho] using h

end

omit [Zero V] in
theorem put_self (t : Nat → Option (Slot V)) (i : Nat) (x : Option (Slot V)) : put t i x i = x := by simp [put]

omit [Zero V] in
theorem put_other (t : Nat → Option (Slot V)) {i j : Nat} (x : Option (Slot V)) (h : j ≠ i) : put t i x j = t j := by simp [put, h]

theorem set_self {β : Type} (f : Nat → β) (k : Nat) (x : β) : Spec.Eaf.set f k x k = x := by simp [Spec.Eaf.set]

theorem set_other {β : Type} (f : Nat → β) {k j : Nat} (x : β) (h : j ≠ k) : Spec.Eaf.set f k x j = f j := by simp [Spec.Eaf.set, h]

/-! ## Opening -/

omit [Zero V] in
/-- a new file in memory -/
theorem rel_newMem {s : St V} {v : View V} (R : Rel s v) {i name size : Nat} (d : Nat → V) (hi : s.slot i = none) (hn : v.mem name = none) :
    Rel { s with slot := put s.slot i (some (.mem name size d true)), hack := if s.hack < i + 1 then s.hack + 1 else s.hack } (after v (.openMem name size) (.fd i)) := by
  have hd : v.desc i = none := (R.none_iff i).1 hi
  have nomem : ∀ k, v.desc k ≠ some (.mem name) := fun k hk => by
    obtain ⟨z, dd, o, b, _, _, hb, _⟩ := R.mem_slot hk
    rw [hn] at hb; exact absurd hb (by simp)
  simp only [after, hn]
  refine ⟨fun k => ?_, fun j k n hj hk => ?_, fun n h => ?_, R.dir, R.next, ?_, R.known, R.dirLt, fun k o r w h => ?_⟩
  · by_cases hk : k = i
    · subst hk
      simp only [put_self, set_self]
      exact ⟨rfl, by simp [set_self], Bytes.fresh, by simp [set_self], fun p x h => absurd h (by simp [Bytes.fresh])⟩
    · simp only [put_other _ _ hk, set_other _ _ hk]
      refine (R.agree k).mono (by simp [set_other _ _ hk]) fun n hnk => ?_
      have : n ≠ name := fun e => nomem k (e ▸ hnk)
      simp [set_other _ _ this]
  · simp only at hj hk
    by_cases hji : j = i <;> by_cases hki : k = i
    · rw [hji, hki]
    · rw [hji, set_self] at hj; injection hj with hj; injection hj with hj; subst hj
      rw [set_other _ _ hki] at hk; exact absurd hk (nomem k)
    · rw [hki, set_self] at hk; injection hk with hk; injection hk with hk; subst hk
      rw [set_other _ _ hji] at hj; exact absurd hj (nomem j)
    · rw [set_other _ _ hji] at hj; rw [set_other _ _ hki] at hk; exact R.uniq j k n hj hk
  · simp only at h ⊢
    by_cases hnn : n = name
    · exact ⟨i, by rw [set_self, hnn]⟩
    · rw [set_other _ _ hnn] at h
      obtain ⟨k, hk⟩ := R.has n h
      have : k ≠ i := fun e => by rw [e, hd] at hk; exact absurd hk (by simp)
      exact ⟨k, by rw [set_other _ _ this]; exact hk⟩
  · simp only [R.reach]
  · simp only at h
    by_cases hk : k = i
    · rw [hk, set_self] at h; injection h with h; exact absurd h (by simp)
    · rw [set_other _ _ hk] at h; exact R.descLt k o r w h

omit [Zero V] in
/-- a file in memory is opened again -/
theorem rel_reopen {s : St V} {v : View V} (R : Rel s v) {j name size : Nat} (hj : v.desc j = some (.mem name)) :
    Rel { s with slot := put s.slot j (reopen (s.slot j)) } (after v (.openMem name size) (.fd j)) := by
  obtain ⟨z, d, o, b, hs, ho, hb, hkn⟩ := R.mem_slot hj
  simp only [after, hb]
  have hdesc : Spec.Eaf.set v.desc j (some (Desc.mem name)) = v.desc := by
    funext k; by_cases hk : k = j
    · rw [hk, set_self, hj]
    · rw [set_other _ _ hk]
  rw [hdesc, hs]
  refine ⟨fun k => ?_, R.uniq, R.has, R.dir, R.next, R.reach, R.known, R.dirLt, R.descLt⟩
  by_cases hk : k = j
  · subst hk
    simp only [put_self, hj, reopen]
    exact ⟨rfl, by simp [set_self], b, hb, hkn⟩
  · simp only [put_other _ _ hk]
    exact (R.agree k).mono (by simp [set_other _ _ hk]) fun n _ => rfl

omit [Zero V] in
/-- a descriptor for a file on disk that exists -/
theorem rel_oldDisk {s : St V} {v : View V} (R : Rel s v) {i name o : Nat} (m : Mode) (create trunc : Bool) (hi : s.slot i = none) (ho : s.dir name = some o)
    (p : Phys V) (hp : ∀ z x, trunc = false → v.disk o z = some x → z < p.len ∧ p.dat z = x) :
    Rel { s with slot := put s.slot i (some (.reg name o m)), ino := fun k => if k = o then p else s.ino k } (after v (.openDisk name create trunc (canRead m) (canWrite m)) (.fd i)) := by
  have hd : v.desc i = none := (R.none_iff i).1 hi
  have hv : v.dir name = some o := by rw [R.dir]; exact ho
  simp only [after, hv]
  refine ⟨fun k => ?_, fun j k n hj hk => ?_, fun n h => ?_, R.dir, R.next, R.reach, fun o' z x h => ?_, R.dirLt, fun k o' r w h => ?_⟩
  · by_cases hk : k = i
    · subst hk
      simp only [put_self, set_self]
      exact ⟨rfl, rfl, rfl, by simp [set_self]⟩
    · simp only [put_other _ _ hk, set_other _ _ hk]
      exact (R.agree k).mono (by simp [set_other _ _ hk]) fun n _ => rfl
  · simp only at hj hk
    have e : ∀ l, Spec.Eaf.set v.desc i (some (Desc.disk o (canRead m) (canWrite m))) l = some (Desc.mem n) → v.desc l = some (.mem n) := fun l hl => by
      by_cases hli : l = i
      · rw [hli, set_self] at hl; injection hl with hl; exact absurd hl (by simp)
      · rwa [set_other _ _ hli] at hl
    exact R.uniq j k n (e j hj) (e k hk)
  · obtain ⟨k, hk⟩ := R.has n h
    have : k ≠ i := fun e => by rw [e, hd] at hk; exact absurd hk (by simp)
    exact ⟨k, by simp only [set_other _ _ this]; exact hk⟩
  · simp only at h ⊢
    by_cases hoo : o' = o
    · subst hoo
      simp only [if_true]
      cases trunc with
      | true => simp only [if_true, set_self] at h; exact absurd h (by simp [Bytes.fresh])
      | false => exact hp z x rfl (by simpa using h)
    · simp only [if_neg hoo]
      refine R.known o' z x ?_
      cases trunc with
      | true => simpa [set_other _ _ hoo] using h
      | false => simpa using h
  · simp only at h
    by_cases hk : k = i
    · rw [hk, set_self] at h; injection h with h; injection h with h1 h2 h3
      subst h1; exact R.dirLt name o ho
    · rw [set_other _ _ hk] at h; exact R.descLt k o' r w h

omit [Zero V] in
/-- a new file on disk -/
theorem rel_newDisk {s : St V} {v : View V} (R : Rel s v) {i name : Nat} (m : Mode) (create trunc : Bool) (hi : s.slot i = none) (ho : s.dir name = none) (p : Phys V) :
    Rel { slot := put s.slot i (some (.reg name s.next m)), hack := s.hack, dir := fun k => if k = name then some s.next else s.dir k, ino := fun k => if k = s.next then p else s.ino k, next := s.next + 1 }
      (after v (.openDisk name create trunc (canRead m) (canWrite m)) (.fd i)) := by
  have hd : v.desc i = none := (R.none_iff i).1 hi
  have hv : v.dir name = none := by rw [R.dir]; exact ho
  simp only [after, hv]
  refine ⟨fun k => ?_, fun j k n hj hk => ?_, fun n h => ?_, ?_, by simp only [R.next], R.reach, fun o' z x h => ?_, fun n o h => ?_, fun k o' r w h => ?_⟩
  · by_cases hk : k = i
    · subst hk
      simp only [put_self, set_self]
      exact ⟨R.next.symm, rfl, rfl, by simp [set_self]⟩
    · simp only [put_other _ _ hk, set_other _ _ hk]
      exact (R.agree k).mono (by simp [set_other _ _ hk]) fun n _ => rfl
  · simp only at hj hk
    have e : ∀ l, Spec.Eaf.set v.desc i (some (Desc.disk v.next (canRead m) (canWrite m))) l = some (Desc.mem n) → v.desc l = some (.mem n) := fun l hl => by
      by_cases hli : l = i
      · rw [hli, set_self] at hl; injection hl with hl; exact absurd hl (by simp)
      · rwa [set_other _ _ hli] at hl
    exact R.uniq j k n (e j hj) (e k hk)
  · obtain ⟨k, hk⟩ := R.has n h
    have : k ≠ i := fun e => by rw [e, hd] at hk; exact absurd hk (by simp)
    exact ⟨k, by simp only [set_other _ _ this]; exact hk⟩
  · funext k
    simp only [Spec.Eaf.set, R.dir, R.next]
  · simp only at h ⊢
    by_cases hoo : o' = s.next
    · rw [hoo, ← R.next, set_self] at h; exact absurd h (by simp [Bytes.fresh])
    · simp only [if_neg hoo]
      rw [set_other _ _ (by rw [R.next]; exact hoo)] at h
      exact R.known o' z x h
  · simp only at h ⊢
    split at h
    · injection h with h; omega
    · have := R.dirLt n o h; omega
  · simp only at h ⊢
    by_cases hk : k = i
    · rw [hk, set_self] at h; injection h with h; injection h with h1 h2 h3
      rw [← h1, R.next]; omega
    · rw [set_other _ _ hk] at h
      have := R.descLt k o' r w h; omega

/-- a file in memory that exists is found below the first free entry -/
theorem find_of_noHole {s : St V} {v : View V} (R : Rel s v) {i name k : Nat} (hi : s.slot i = none) (hk : v.desc k = some (.mem name))
    (hh : ∀ j < k, v.desc j ≠ none) : findMem s.slot name i 0 = some k := by
  have hki : k < i := by
    rcases Nat.lt_or_ge k i with h | h
    · exact h
    · exfalso
      rcases Nat.eq_or_lt_of_le h with h | h
      · rw [← h, (R.none_iff i).1 hi] at hk; exact absurd hk (by simp)
      · exact hh i h ((R.none_iff i).1 hi)
  obtain ⟨z, d, o, b, hs, _, _, _⟩ := R.mem_slot hk
  cases hf : findMem s.slot name i 0 with
  | none =>
    have := findMem_none _ _ _ _ hf k (Nat.zero_le _) (by omega)
    rw [hs] at this; exact absurd this (by simp [isMem])
  | some j =>
    obtain ⟨_, _, h3⟩ := findMem_some _ _ _ _ _ hf
    obtain ⟨z', d', o', hj⟩ := (isMem_iff _ _).1 h3
    rw [R.mem_uniq hj hs]

/-- opening -/
theorem step_open {s : St V} {v : View V} (R : Rel s v) (N name : Nat) (type : Int) (ans : Option (Nat → V)) (hh : noHole v (callOf (.opn name type ans : Op V))) :
    promised v (callOf (.opn name type ans)) (resOf (openF N name type ans s).1) ∧ Rel (openF N name type ans s).2 (after v (callOf (.opn name type ans)) (resOf (openF N name type ans s).1)) := by
  have fail : ∀ c : Int, c ≠ 0 → promised v (callOf (.opn name type ans)) (resOf (.code c)) ∧ Rel s (after v (callOf (.opn name type ans)) (resOf (.code c))) := fun c hc => by
    simp only [resOf, if_neg hc, callOf]
    split
    · exact ⟨fun k h => absurd h (by simp), R⟩
    · split
      · exact ⟨fun k h => absurd h (by simp), R⟩
      · split
        · exact ⟨fun k h => absurd h (by simp), R⟩
        · split
          · exact ⟨fun k h => absurd h (by simp), R⟩
          · exact ⟨rfl, R⟩
  unfold openF
  cases hf : firstFree s.slot N 0 with
  | none => exact fail _ (by decide)
  | some i =>
    obtain ⟨_, _, hi, hlow⟩ := firstFree_spec _ _ _ _ hf
    have hdi := (R.none_iff i).1 hi
    dsimp only
    by_cases ht : 0 < type
    · rw [if_pos ht]
      have hcall : callOf (.opn name type ans : Op V) = .openMem name (type.toNat * (1024 * 1024)) := by simp only [callOf, if_pos ht]
      rw [hcall] at fail hh ⊢
      cases hm : v.mem name with
      | some f =>
        obtain ⟨k, hk⟩ := R.has name (by rw [hm]; simp)
        rw [find_of_noHole R hi hk (hh k hk)]
        refine ⟨fun k' h => ?_, rel_reopen R hk⟩
        simp only [resOf] at h; injection h with h; subst h
        exact .inr hk
      | none =>
        have hno : findMem s.slot name i 0 = none := by
          cases hj : findMem s.slot name i 0 with
          | none => rfl
          | some j =>
            obtain ⟨_, _, h3⟩ := findMem_some _ _ _ _ _ hj
            obtain ⟨z', d', o', hj⟩ := (isMem_iff _ _).1 h3
            obtain ⟨_, _, b, hb, _⟩ := R.slot_mem hj
            rw [hm] at hb; exact absurd hb (by simp)
        rw [hno]
        cases ans with
        | none => exact fail _ (by decide)
        | some d =>
          refine ⟨fun k' h => ?_, rel_newMem R d hi hm⟩
          simp only [resOf] at h; injection h with h; subst h
          exact .inl ⟨hdi, hm⟩
    · rw [if_neg ht]
      cases hmode : modeOf type with
      | none => exact fail _ (by decide)
      | some m =>
        have hcall : callOf (.opn name type ans : Op V) = .openDisk name (decide (m ≠ .r)) (decide (m = .w)) (canRead m) (canWrite m) := by
          simp only [callOf, if_neg ht]
          simp only [modeOf] at hmode
          split at hmode
          · injection hmode with hmode; subst hmode; rename_i h; rw [if_pos h]; rfl
          · rename_i h; rw [if_neg h]
            split at hmode
            · injection hmode with hmode; subst hmode; rename_i h; rw [if_pos h]; rfl
            · rename_i h; rw [if_neg h]
              split at hmode
              · injection hmode with hmode; subst hmode; rename_i h; rw [if_pos h]; rfl
              · exact absurd hmode (by simp)
        rw [hcall] at fail ⊢
        dsimp only
        cases hdir : s.dir name with
        | some o =>
          dsimp only
          cases hp : Elio.openPhys m (some (s.ino o)) with
          | none => exact fail _ (by decide)
          | some p =>
            refine ⟨fun k' h => ?_, rel_oldDisk R m _ _ hi hdir p fun z x htr h => ?_⟩
            · simp only [resOf] at h; injection h with h; subst h
              exact ⟨hdi, fun h => by rw [R.dir, hdir] at h; exact absurd h (by simp)⟩
            · have := R.known o z x h
              cases m with
              | w => exact absurd htr (by simp)
              | r => simp only [Elio.openPhys] at hp; injection hp with hp; subst hp; exact this
              | rw => simp only [Elio.openPhys, Option.getD] at hp; injection hp with hp; subst hp; exact this
        | none =>
          dsimp only
          cases hp : Elio.openPhys m (none : Option (Phys V)) with
          | none => exact fail _ (by decide)
          | some p =>
            refine ⟨fun k' h => ?_, rel_newDisk R m _ _ hi hdir p⟩
            simp only [resOf] at h; injection h with h; subst h
            refine ⟨hdi, fun _ => ?_⟩
            cases m with
            | r => simp [Elio.openPhys] at hp
            | w => rfl
            | rw => rfl

/-! ## Closing, writing, reading, deleting, lengths -/

/-- closing -/
theorem step_close {s : St V} {v : View V} (R : Rel s v) (fd : Nat) (ho : v.isOpen fd = true) :
    promised v (.close fd) (resOf (closeF fd s).1) ∧ Rel (closeF fd s).2 (after v (.close fd) (resOf (closeF fd s).1)) := by
  have hu := R.used ho
  unfold closeF
  match hs : s.slot fd with
  | none => exact absurd hs hu
  | some (.mem n z d o) =>
    obtain ⟨hd, hoo, b, hb, hk⟩ := R.slot_mem hs
    refine ⟨by simp [promised, resOf], ?_⟩
    simp only [resOf, if_true, after, hd]
    refine ⟨fun k => ?_, R.uniq, R.has, R.dir, R.next, R.reach, R.known, R.dirLt, R.descLt⟩
    by_cases hkf : k = fd
    · subst hkf
      simp only [put_self, hd]
      exact ⟨rfl, by simp [set_self], b, hb, hk⟩
    · simp only [put_other _ _ hkf]
      exact (R.agree k).mono (by simp [set_other _ _ hkf]) fun n _ => rfl
  | some (.reg n o m) =>
    obtain ⟨hd, hoo⟩ := R.slot_reg hs
    refine ⟨by simp [promised, resOf], ?_⟩
    simp only [resOf, if_true, after, hd]
    have e : ∀ l x, Spec.Eaf.set v.desc fd none l = some x → v.desc l = some x := fun l x hl => by
      by_cases hli : l = fd
      · rw [hli, set_self] at hl; exact absurd hl (by simp)
      · rwa [set_other _ _ hli] at hl
    refine ⟨fun k => ?_, fun j k n hj hk => R.uniq j k n (e j _ hj) (e k _ hk), fun n h => ?_, R.dir, R.next, R.reach, R.known, R.dirLt, fun k o r w h => R.descLt k o r w (e k _ h)⟩
    · by_cases hkf : k = fd
      · subst hkf
        simp only [put_self, set_self]
        simp [Agree, set_self]
      · simp only [put_other _ _ hkf, set_other _ _ hkf]
        exact (R.agree k).mono (by simp [set_other _ _ hkf]) fun n _ => rfl
    · obtain ⟨k, hk⟩ := R.has n h
      have : k ≠ fd := fun e => by rw [e, hd] at hk; injection hk with hk; exact absurd hk (by simp)
      exact ⟨k, by simp only [set_other _ _ this]; exact hk⟩

theorem copyIn_known {b : Nat → Option V} {dat : Nat → V} (h : ∀ p x, b p = some x → dat p = x) (off : Nat) (d : List V) :
    ∀ p x, Bytes.wrote b off d p = some x → copyIn dat off d p = x := by
  intro p x hx
  unfold Bytes.wrote at hx
  unfold copyIn
  split at hx
  · rename_i hc
    rw [if_pos hc, List.getD_eq_getElem?_getD, hx]; rfl
  · rename_i hc
    rw [if_neg hc]; exact h p x hx

/-- a write to a file in memory -/
theorem rel_memWrite {s : St V} {v : View V} (R : Rel s v) {fd n z off : Nat} {dat : Nat → V} {o : Bool} (hs : s.slot fd = some (.mem n z dat o)) (d : List V) (a : Bool) :
    Rel { s with slot := put s.slot fd (some (.mem n z (copyIn dat off d) o)) } (after v (.write fd off d a) .done) := by
  obtain ⟨hd, hoo, b, hb, hk⟩ := R.slot_mem hs
  simp only [after, hd, hb, Option.map_some]
  refine ⟨fun k => ?_, R.uniq, fun m h => ?_, R.dir, R.next, R.reach, R.known, R.dirLt, R.descLt⟩
  · by_cases hkf : k = fd
    · subst hkf
      simp only [put_self, hd]
      exact ⟨rfl, hoo, Bytes.wrote b off d, by simp [set_self], copyIn_known hk off d⟩
    · simp only [put_other _ _ hkf]
      refine (R.agree k).mono rfl fun m hm => ?_
      have : m ≠ n := fun e => hkf (R.uniq k fd n (e ▸ hm) hd)
      simp [set_other _ _ this]
  · by_cases hm : m = n
    · exact ⟨fd, by rw [hm]; exact hd⟩
    · simp only [set_other _ _ hm] at h
      exact R.has m h

/-- a write to a file on disk -/
theorem step_diskWrite {s : St V} {v : View V} (R : Rel s v) {fd n o off : Nat} {m : Mode} (hs : s.slot fd = some (.reg n o m)) (d : List V) (a : Bool) :
    promised v (.write fd off d a) (resOf (diskWrite o m off d s).1) ∧ Rel (diskWrite o m off d s).2 (after v (.write fd off d a) (resOf (diskWrite o m off d s).1)) := by
  obtain ⟨hd, hoo⟩ := R.slot_reg hs
  unfold diskWrite
  split
  · rename_i hc
    refine ⟨?_, R⟩
    simp only [promised, hd, resOf]
    rw [hc.1]
    exact ⟨fun h => absurd h (by simp [canWrite]), fun _ _ => by simp⟩
  · rename_i hc
    simp only [promised, hd, resOf, if_true, after]
    refine ⟨⟨fun _ => by simp, fun hw hne => ?_⟩, ?_⟩
    · exfalso
      apply hc
      refine ⟨?_, hne⟩
      cases m <;> simp [canWrite] at hw ⊢
    · refine ⟨fun k => (R.agree k).mono rfl fun _ _ => rfl, R.uniq, R.has, R.dir, R.next, R.reach, fun o' p x h => ?_, R.dirLt, R.descLt⟩
      simp only at h ⊢
      by_cases ho : o' = o
      · subst ho
        rw [set_self] at h
        simp only [if_true]
        unfold Bytes.wrote at h
        unfold Elio.pwrite
        cases hde : d.isEmpty with
        | true =>
          rw [List.isEmpty_iff] at hde
          subst hde
          simp only [if_true]
          rw [if_neg (by simp only [List.length_nil]; omega)] at h
          exact R.known o' p x h
        | false =>
          simp only [Bool.false_eq_true, if_false]
          split at h
          · rename_i hr
            rw [if_pos hr, List.getD_eq_getElem?_getD, h]
            exact ⟨by omega, rfl⟩
          · rename_i hr
            have := R.known o' p x h
            rw [if_neg hr, if_pos this.1]
            exact ⟨by omega, this.2⟩
      · rw [set_other _ _ ho] at h
        rw [if_neg ho]
        exact R.known o' p x h

/-- writing -/
theorem step_write {s : St V} {v : View V} (R : Rel s v) (fd off : Nat) (d : List V) (ho : v.isOpen fd = true) :
    promised v (.write fd off d false) (resOf (writeF fd off d s).1) ∧ Rel (writeF fd off d s).2 (after v (.write fd off d false) (resOf (writeF fd off d s).1)) := by
  have hu := R.used ho
  unfold writeF
  match hs : s.slot fd with
  | none => exact absurd hs hu
  | some (.reg n o m) => exact step_diskWrite R hs d false
  | some (.mem n z dat o) =>
    obtain ⟨hd, hoo, b, hb, hk⟩ := R.slot_mem hs
    dsimp only
    split
    · rename_i hc
      refine ⟨?_, R⟩
      simp only [promised, hd, resOf]
      intro f hf
      rw [hb] at hf; injection hf with hf; subst hf
      exact ⟨⟨fun h => absurd h (by simp), fun h => by omega⟩, fun _ => by simp⟩
    · rename_i hc
      refine ⟨?_, rel_memWrite R hs d false⟩
      simp only [promised, hd, resOf, if_true]
      intro f hf
      rw [hb] at hf; injection hf with hf; subst hf
      exact ⟨⟨fun _ => by omega, fun _ => by simp⟩, fun h => absurd (by simp) h⟩

/-- reading from a file on disk -/
theorem promised_diskRead {s : St V} {v : View V} (R : Rel s v) {fd n o off len : Nat} {m : Mode} (hs : s.slot fd = some (.reg n o m)) (a : Bool) :
    promised v (.read fd off len a) (resOf (diskRead o m off len s)) ∧ after v (.read fd off len a) (resOf (diskRead o m off len s)) = v := by
  obtain ⟨hd, hoo⟩ := R.slot_reg hs
  refine ⟨?_, by cases resOf (diskRead o m off len s) <;> rfl⟩
  have hbytes : Spec.Eaf.bytes v fd = v.disk o := by simp only [Spec.Eaf.bytes, hd]
  simp only [promised, hd, hbytes]
  unfold diskRead
  split
  · rename_i hc
    refine ⟨fun l h => absurd h (by simp [resOf]), fun h => ?_⟩
    rw [hc.1] at h; exact absurd h (by simp [canRead])
  · split
    · refine ⟨fun l h => ?_, fun _ _ => ⟨_, rfl⟩⟩
      simp only [resOf] at h; injection h with h; subst h
      refine ⟨by simp [Elio.slice], fun i hi x hx => ?_⟩
      have := (R.known o _ x hx).2
      simp [Elio.slice, hi, this]
    · rename_i hc
      refine ⟨fun l h => absurd h (by simp [resOf]), fun _ hall => ?_⟩
      exfalso; apply hc
      rcases Nat.eq_zero_or_pos len with h0 | h0
      · exact .inl h0
      · obtain ⟨x, hx⟩ := hall (len - 1) (by omega)
        have := (R.known o _ x hx).1
        right; omega

/-- reading -/
theorem step_read {s : St V} {v : View V} (R : Rel s v) (fd off n : Nat) (hp : proper v (.read fd off n false : Call V)) :
    ∃ o, readF fd off n s = some (o, s) ∧ promised v (.read fd off n false) (resOf o) ∧ after v (.read fd off n false) (resOf o) = v := by
  have hu := R.used hp.1
  unfold readF
  match hs : s.slot fd with
  | none => exact absurd hs hu
  | some (.reg nm o m) => exact ⟨_, rfl, promised_diskRead R hs false⟩
  | some (.mem nm z dat o) =>
    obtain ⟨hd, hoo, b, hb, hk⟩ := R.slot_mem hs
    have hle := hp.2 nm _ hd hb
    dsimp only at hle ⊢
    rw [if_neg (by omega), if_neg (by omega)]
    refine ⟨_, rfl, ?_, rfl⟩
    have hbytes : Spec.Eaf.bytes v fd = b := by simp only [Spec.Eaf.bytes, hd, hb]; rfl
    simp only [promised, hd, hbytes, resOf]
    refine ⟨fun l h => ?_, fun _ _ _ => ⟨_, rfl⟩⟩
    injection h with h; subst h
    refine ⟨by simp, fun i hi x hx => ?_⟩
    simp [hi, hk _ x hx]

/-- deleting -/
theorem step_delete {s : St V} {v : View V} (R : Rel s v) (name : Nat) (hw : within v (.delete name : Call V)) :
    promised v (.delete name) (resOf (deleteF name s).1) ∧ Rel (deleteF name s).2 (after v (.delete name) (resOf (deleteF name s).1)) := by
  unfold deleteF
  cases hf : findMem s.slot name s.hack 0 with
  | some j =>
    obtain ⟨_, _, h3⟩ := findMem_some _ _ _ _ _ hf
    obtain ⟨z, d, o, hj⟩ := (isMem_iff _ _).1 h3
    obtain ⟨hd, hoo, b, hb, hk⟩ := R.slot_mem hj
    refine ⟨by simp [promised, resOf], ?_⟩
    simp only [resOf, if_true, after, hb]
    have e : ∀ l x, (if v.desc l = some (Desc.mem name) then none else v.desc l) = some x → v.desc l = some x := fun l x hl => by
      split at hl
      · exact absurd hl (by simp)
      · exact hl
    refine ⟨fun k => ?_, fun j k n hj hk => R.uniq j k n (e j _ hj) (e k _ hk), fun n h => ?_, R.dir, R.next, R.reach, R.known, R.dirLt, fun k o r w h => R.descLt k o r w (e k _ h)⟩
    · by_cases hkj : k = j
      · subst hkj
        simp only [put_self, hd, if_true]
        simp [Agree, hd]
      · have : v.desc k ≠ some (.mem name) := fun e => hkj (R.uniq k j name e hd)
        simp only [put_other _ _ hkj, if_neg this]
        refine (R.agree k).mono (by simp [this]) fun m hm => ?_
        have : m ≠ name := fun e => this (e ▸ hm)
        simp [set_other _ _ this]
    · by_cases hn : n = name
      · simp only [hn, set_self] at h; exact absurd rfl h
      · simp only [set_other _ _ hn] at h
        obtain ⟨k, hk⟩ := R.has n h
        refine ⟨k, ?_⟩
        simp only
        rw [if_neg (by rw [hk]; intro h; injection h with h; injection h with h; exact hn h)]
        exact hk
  | none =>
    have hm : v.mem name = none := by
      cases hm : v.mem name with
      | none => rfl
      | some f =>
        obtain ⟨k, hk⟩ := R.has name (by rw [hm]; simp)
        obtain ⟨z, d, o, b, hs, _, _, _⟩ := R.mem_slot hk
        have hlt := hw k hk
        rw [R.reach] at hlt
        have := findMem_none _ _ _ _ hf k (Nat.zero_le _) (by omega)
        rw [hs] at this; exact absurd this (by simp [isMem])
    refine ⟨by simp [promised, resOf], ?_⟩
    simp only [resOf, if_true, after, hm]
    refine ⟨fun k => (R.agree k).mono rfl fun _ _ => rfl, R.uniq, R.has, ?_, R.next, R.reach, R.known, fun n o h => ?_, R.descLt⟩
    · funext k; simp only [Spec.Eaf.set, R.dir]
    · simp only at h
      split at h
      · exact absurd h (by simp)
      · exact R.dirLt n o h

/-- lengths -/
theorem step_length {s : St V} {v : View V} (R : Rel s v) (fd : Nat) (ho : v.isOpen fd = true) :
    promised v (.length fd) (resOf (lengthF fd s)) ∧ after v (.length fd) (resOf (lengthF fd s)) = v := by
  have hu := R.used ho
  refine ⟨?_, by cases resOf (lengthF fd s) <;> rfl⟩
  unfold lengthF
  match hs : s.slot fd with
  | none => exact absurd hs hu
  | some (.reg n o m) =>
    obtain ⟨hd, hoo⟩ := R.slot_reg hs
    simp only [promised, hd, resOf]
    exact ⟨_, rfl, fun z x h => (R.known o z x h).1⟩
  | some (.mem n z dat o) =>
    obtain ⟨hd, hoo, b, hb, hk⟩ := R.slot_mem hs
    rw [ho] at hoo
    subst hoo
    simp only [promised, hd, if_true, resOf]
    intro f hf
    rw [hb] at hf; injection hf with hf; subst hf; rfl

/-! ## Programs -/

/-- every call -/
theorem step_any {s : St V} {v : View V} (R : Rel s v) (N : Nat) (op : Op V) (h : Spec.Eaf.good v (callOf op)) :
    ∃ o s', step N s op = some (o, s') ∧ promised v (callOf op) (resOf o) ∧ Rel s' (after v (callOf op) (resOf o)) := by
  obtain ⟨hp, ha, hh, hw⟩ := h
  match op with
  | .opn name type ans => exact ⟨_, _, rfl, step_open R N name type ans hh⟩
  | .close fd => exact ⟨_, _, rfl, step_close R fd hp⟩
  | .write fd off d => exact ⟨_, _, rfl, step_write R fd off d hp⟩
  | .read fd off n =>
    obtain ⟨o, h1, h2, h3⟩ := step_read R fd off n hp
    exact ⟨o, s, h1, h2, by simp only [callOf]; rw [h3]; exact R⟩
  | .delete name => exact ⟨_, _, rfl, step_delete R name hw⟩
  | .length fd =>
    obtain ⟨h1, h2⟩ := step_length R fd hp
    exact ⟨_, _, rfl, h1, by simp only [callOf]; rw [h2]; exact R⟩
  | .awrite fd off d =>
    have hu := R.used hp
    simp only [step, awriteF]
    match hs : s.slot fd with
    | none => exact absurd hs hu
    | some (.mem n z dat o) => exact absurd (R.slot_mem hs).1 (ha rfl n)
    | some (.reg n o m) => exact ⟨_, _, rfl, step_diskWrite R hs d true⟩
  | .aread fd off buf =>
    have hu := R.used hp.1
    simp only [step, areadF]
    match hs : s.slot fd with
    | none => exact absurd hs hu
    | some (.mem n z dat o) => exact absurd (R.slot_mem hs).1 (ha rfl n)
    | some (.reg n o m) =>
      obtain ⟨h1, h2⟩ := promised_diskRead R hs (off := off) (len := buf.length) true
      exact ⟨_, _, rfl, h1, by simp only [callOf]; rw [h2]; exact R⟩

theorem run_cons {N : Nat} {s s2 : St V} {op : Op V} {ops : List (Op V)} {t : List (Op V × Out V)} (h : run N s (op :: ops) = some (t, s2)) :
    ∃ o s1 t', step N s op = some (o, s1) ∧ run N s1 ops = some (t', s2) ∧ t = (op, o) :: t' := by
  simp only [run] at h
  match hst : step N s op with
  | none => rw [hst] at h; exact absurd h (by simp)
  | some (o, s1) =>
    rw [hst] at h
    dsimp only at h
    match hr : run N s1 ops with
    | none => rw [hr] at h; exact absurd h (by simp)
    | some (t', s3) =>
      rw [hr] at h
      simp only [Option.map_some] at h
      injection h with h
      injection h with h1 h2
      subst h2
      exact ⟨o, s1, t', rfl, hr, h1.symm⟩

/-- every program: a condition `C` that implies the good use of calls as long as an invariant `I` of the tables holds -/
theorem run_any (N : Nat) (I : St V → View V → Prop) (C : View V → Call V → Prop)
    (hg : ∀ s v op, Rel s v → I s v → C v (callOf op) → Spec.Eaf.good v (callOf op))
    (hI : ∀ s v op o s', Rel s v → I s v → C v (callOf op) → step N s op = some (o, s') → I s' (after v (callOf op) (resOf o))) :
    ∀ (ops : List (Op V)) (s s2 : St V) (v : View V) (t : List (Op V × Out V)), Rel s v → I s v → run N s ops = some (t, s2) → Always C v (asSeen t) →
      AllPromised v (asSeen t) ∧ Rel s2 (Spec.Eaf.view v (asSeen t)) ∧ I s2 (Spec.Eaf.view v (asSeen t))
  | [], s, s2, v, t, R, hi, h, _ => by
    simp only [run] at h; injection h with h; injection h with h1 h2
    subst h1 h2
    exact ⟨trivial, R, hi⟩
  | op :: ops, s, s2, v, t, R, hi, h, hc => by
    obtain ⟨o, s1, t', hs, hr, rfl⟩ := run_cons h
    obtain ⟨hc1, hc2⟩ := hc
    obtain ⟨o', s', hs', hp, R'⟩ := step_any R N op (hg s v op R hi hc1)
    rw [hs] at hs'
    injection hs' with hs'; injection hs' with h1 h2
    subst h1 h2
    obtain ⟨h3, h4⟩ := run_any N I C hg hI ops s1 s2 _ t' R' (hI s v op o s1 R hi hc1 hs) hr hc2
    exact ⟨⟨hp, h3⟩, h4⟩

/-- no unused entry below a used one -/
def Prefix (s : St V) : Prop := ∀ i j, i < j → s.slot j ≠ none → s.slot i ≠ none

/-- the entries in use are among the first `eafhack_openfiles` -/
def Below (s : St V) : Prop := ∀ i, s.slot i ≠ none → i < s.hack

/-- how the table changes: an entry is overwritten with an entry, the first free entry gets an entry, or an entry is given back -/
theorem step_slots {N : Nat} {s s' : St V} {op : Op V} {o : Out V} (h : step N s op = some (o, s')) :
    (s'.hack = s.hack ∧ ((∀ k, s'.slot k = none ↔ s.slot k = none) ∨
      (∃ i, s.slot i = none ∧ (∀ j < i, s.slot j ≠ none) ∧ (∀ k, s'.slot k = none ↔ (s.slot k = none ∧ k ≠ i)) ∧ ∃ n a b c d, callOf op = .openDisk n a b c d) ∨
      (∃ i n p m, op = .close i ∧ s.slot i = some (.reg n p m)) ∨ (∃ n j z d q, op = .delete n ∧ s.slot j = some (.mem n z d q) ∧ ∀ k, s'.slot k ≠ none → s.slot k ≠ none))) ∨
    (∃ i, s.slot i = none ∧ (∀ j < i, s.slot j ≠ none) ∧ (∀ k, s'.slot k = none ↔ (s.slot k = none ∧ k ≠ i)) ∧ s'.hack = if s.hack < i + 1 then s.hack + 1 else s.hack) := by
  have over : ∀ (t : Nat → Option (Slot V)) (i : Nat) (x : Slot V), t i ≠ none → ∀ k, put t i (some x) k = none ↔ t k = none := fun t i x hx k => by
    by_cases hk : k = i
    · subst hk; simp [put_self, hx]
    · rw [put_other _ _ hk]
  have new : ∀ (t : Nat → Option (Slot V)) (i : Nat) (x : Slot V), ∀ k, put t i (some x) k = none ↔ (t k = none ∧ k ≠ i) := fun t i x k => by
    by_cases hk : k = i
    · subst hk; simp [put_self]
    · rw [put_other _ _ hk]; simp [hk]
  have disk : ∀ p m off d, (diskWrite p m off d s).2.slot = s.slot ∧ (diskWrite p m off d s).2.hack = s.hack := fun p m off d => by
    unfold diskWrite; split <;> exact ⟨rfl, rfl⟩
  match op with
  | .opn name type ans =>
    simp only [step] at h
    injection h with h
    have h2 : s' = (openF N name type ans s).2 := by rw [h]
    subst h2
    unfold openF
    cases hf : firstFree s.slot N 0 with
    | none => exact .inl ⟨rfl, .inl fun k => Iff.rfl⟩
    | some i =>
      obtain ⟨_, _, hi, hlow⟩ := firstFree_spec _ _ _ _ hf
      dsimp only
      split
      · cases hfm : findMem s.slot name i 0 with
        | some j =>
          obtain ⟨_, _, h3⟩ := findMem_some _ _ _ _ _ hfm
          obtain ⟨z, d, q, hj⟩ := (isMem_iff _ _).1 h3
          refine .inl ⟨rfl, .inl ?_⟩
          simp only [hj, reopen]
          exact over _ _ _ (by rw [hj]; simp)
        | none =>
          cases ans with
          | none => exact .inl ⟨rfl, .inl fun k => Iff.rfl⟩
          | some d => exact .inr ⟨i, hi, fun j hj => hlow j (Nat.zero_le _) hj, new _ _ _, rfl⟩
      · rename_i ht
        cases hm : modeOf type with
        | none => exact .inl ⟨rfl, .inl fun k => Iff.rfl⟩
        | some m =>
          have hcall : ∃ n a b c d, callOf (.opn name type ans : Op V) = .openDisk n a b c d := by
            simp only [callOf, if_neg ht]
            simp only [modeOf] at hm
            split
            · exact ⟨_, _, _, _, _, rfl⟩
            · split
              · exact ⟨_, _, _, _, _, rfl⟩
              · split
                · exact ⟨_, _, _, _, _, rfl⟩
                · rename_i h1 h2 h3; rw [if_neg h1, if_neg h2, if_neg h3] at hm; exact absurd hm (by simp)
          dsimp only
          cases hd : s.dir name with
          | some p =>
            dsimp only
            cases Elio.openPhys m (some (s.ino p)) with
            | none => exact .inl ⟨rfl, .inl fun k => Iff.rfl⟩
            | some q => exact .inl ⟨rfl, .inr (.inl ⟨i, hi, fun j hj => hlow j (Nat.zero_le _) hj, new _ _ _, hcall⟩)⟩
          | none =>
            dsimp only
            cases Elio.openPhys m (none : Option (Phys V)) with
            | none => exact .inl ⟨rfl, .inl fun k => Iff.rfl⟩
            | some q => exact .inl ⟨rfl, .inr (.inl ⟨i, hi, fun j hj => hlow j (Nat.zero_le _) hj, new _ _ _, hcall⟩)⟩
  | .close fd =>
    simp only [step] at h
    injection h with h
    have h2 : s' = (closeF fd s).2 := by rw [h]
    subst h2
    unfold closeF
    match hs : s.slot fd with
    | none => exact .inl ⟨rfl, .inl fun k => Iff.rfl⟩
    | some (.mem _ _ _ _) => exact .inl ⟨rfl, .inl (over _ _ _ (by rw [hs]; simp))⟩
    | some (.reg n p m) => exact .inl ⟨rfl, .inr (.inr (.inl ⟨fd, n, p, m, rfl, hs⟩))⟩
  | .write fd off d =>
    simp only [step] at h
    injection h with h
    have h2 : s' = (writeF fd off d s).2 := by rw [h]
    subst h2
    unfold writeF
    match hs : s.slot fd with
    | none => exact .inl ⟨rfl, .inl fun k => Iff.rfl⟩
    | some (.mem _ _ _ _) =>
      dsimp only
      split
      · exact .inl ⟨rfl, .inl fun k => Iff.rfl⟩
      · exact .inl ⟨rfl, .inl (over _ _ _ (by rw [hs]; simp))⟩
    | some (.reg n p m) =>
      dsimp only
      rw [(disk p m off d).1, (disk p m off d).2]
      exact .inl ⟨rfl, .inl fun k => Iff.rfl⟩
  | .read fd off n =>
    simp only [step, readF] at h
    have : s' = s := by
      match hs : s.slot fd with
      | none => rw [hs] at h; injection h with h; injection h with _ h; exact h.symm
      | some (.reg _ _ _) => rw [hs] at h; injection h with h; injection h with _ h; exact h.symm
      | some (.mem _ _ _ _) =>
        rw [hs] at h; dsimp only at h
        split at h
        · injection h with h; injection h with _ h; exact h.symm
        · split at h
          · exact absurd h (by simp)
          · injection h with h; injection h with _ h; exact h.symm
    subst this
    exact .inl ⟨rfl, .inl fun k => Iff.rfl⟩
  | .awrite fd off d =>
    simp only [step, awriteF] at h
    match hs : s.slot fd with
    | none => rw [hs] at h; injection h with h; injection h with _ h; subst h; exact .inl ⟨rfl, .inl fun k => Iff.rfl⟩
    | some (.reg _ p m) =>
      rw [hs] at h; injection h with h
      have h2 : s' = (diskWrite p m off d s).2 := by rw [h]
      subst h2
      rw [(disk p m off d).1, (disk p m off d).2]
      exact .inl ⟨rfl, .inl fun k => Iff.rfl⟩
    | some (.mem _ _ _ _) =>
      rw [hs] at h; dsimp only at h
      split at h
      · injection h with h; injection h with _ h; subst h; exact .inl ⟨rfl, .inl fun k => Iff.rfl⟩
      · split at h
        · exact absurd h (by simp)
        · injection h with h; injection h with _ h; subst h; exact .inl ⟨rfl, .inl (over _ _ _ (by rw [hs]; simp))⟩
  | .aread fd off buf =>
    simp only [step, areadF] at h
    match hs : s.slot fd with
    | none => rw [hs] at h; injection h with h; injection h with _ h; subst h; exact .inl ⟨rfl, .inl fun k => Iff.rfl⟩
    | some (.reg _ p m) => rw [hs] at h; injection h with h; injection h with _ h; subst h; exact .inl ⟨rfl, .inl fun k => Iff.rfl⟩
    | some (.mem _ _ _ _) =>
      rw [hs] at h; dsimp only at h
      split at h
      · injection h with h; injection h with _ h; subst h; exact .inl ⟨rfl, .inl fun k => Iff.rfl⟩
      · split at h
        · exact absurd h (by simp)
        · injection h with h; injection h with _ h; subst h; exact .inl ⟨rfl, .inl (over _ _ _ (by rw [hs]; simp))⟩
  | .delete name =>
    simp only [step] at h
    injection h with h
    have h2 : s' = (deleteF name s).2 := by rw [h]
    subst h2
    unfold deleteF
    cases hf : findMem s.slot name s.hack 0 with
    | some j =>
      obtain ⟨_, _, h3⟩ := findMem_some _ _ _ _ _ hf
      obtain ⟨z, d, q, hj⟩ := (isMem_iff _ _).1 h3
      refine .inl ⟨rfl, .inr (.inr (.inr ⟨name, j, z, d, q, rfl, hj, fun k hk => ?_⟩))⟩
      by_cases hkj : k = j
      · rw [hkj] at hk; exact absurd (put_self _ _ _) hk
      · dsimp only at hk; rwa [put_other _ _ hkj] at hk
    | none => exact .inl ⟨rfl, .inl fun k => Iff.rfl⟩
  | .length fd =>
    simp only [step] at h
    injection h with h; injection h with _ h; subst h
    exact .inl ⟨rfl, .inl fun k => Iff.rfl⟩

end GA.Eaf
