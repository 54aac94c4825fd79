import Verif.Model.Elio
import Verif.Spec.Elio
import Verif.Lemmas.Elio

/-!
# C78: a file returns the bytes last written to it, wherever it is cut into extents
-/

namespace GA
open Elio Spec

variable {V : Type} [Zero V]

/-- a file after any sequence of operations, with any answers of the system, and what the program knows of its bytes -/
inductive C78_Reach (M A : Nat) : File V → (Nat → Option V) → Prop
  | create {m f} : openFile m (fun _ => none) = some f → C78_Reach M A f Bytes.fresh
  | written {f known off d s} : C78_Reach M A f known → (elioWrite M A off d f s).1 = .ok () → C78_Reach M A (elioWrite M A off d f s).2 (Bytes.wrote known off d)
  | failed {f known off d s} : C78_Reach M A f known → C78_Reach M A (elioWrite M A off d f s).2 (Bytes.spoiled known off d.length)
  | read {f known off n s} : C78_Reach M A f known → C78_Reach M A (elioRead M A off n f s).2 known
  | reopened {f known m f'} : C78_Reach M A f known → openFile m f.disk = some f' → C78_Reach M A f' (if m = .w then Bytes.fresh else known)

private theorem open_inv {m : Mode} {disk : Nat → Option (Phys V)} {f : File V} (hc : ∀ e, disk (e + 1) ≠ none → disk e ≠ none) (hl : ∀ e, disk e ≠ none → e ≤ maxExtent)
    (h : openFile m disk = some f) : WF f ∧ (m ≠ .w → ∀ e p, disk e = some p → f.disk e = some p) ∧ f.mode = m ∧ f.opened = 1 := by
  unfold openFile at h
  split at h
  · nomatch h
  · next p hp =>
    injection h with h
    subst h
    refine ⟨⟨Nat.one_pos, ?_, ?_, ?_⟩, ?_, rfl, rfl⟩
    · intro i hi
      dsimp only at hi ⊢
      rw [if_pos (by omega)]
      exact fun h => nomatch h
    · intro i hi
      dsimp only at hi ⊢
      rw [if_neg (by omega)] at hi
      split
      · exact fun h => nomatch h
      · exact hc i hi
    · intro i hi
      dsimp only at hi
      split at hi
      · omega
      · exact hl i hi
    · intro hm i q hq
      dsimp only
      split
      · next h0 =>
        subst h0
        rw [hq] at hp
        cases m with
        | w => exact absurd rfl hm
        | r => exact hp.symm
        | rw => exact hp.symm
      · exact hq

private theorem reach_inv {M A : Nat} (hM : 0 < M) {f : File V} {known : Nat → Option V} (h : C78_Reach M A f known) :
    WF f ∧ ∀ z v, known z = some v → at_ M f z = some v ∧ Safe M f z := by
  induction h with
  | @create m f h =>
    exact ⟨(open_inv (fun _ h => absurd rfl h) (fun _ h => absurd rfl h) h).1, fun z v h => nomatch h⟩
  | @written f known off d s _ hok ih =>
    obtain ⟨k1, k2⟩ := write_spec (M := M) (A := A) maxExtent 0 off d f s ih.1 ih.1.opened
    rw [Nat.zero_mul, Nat.zero_add] at k1 k2
    refine ⟨k1.wf, fun z v hz => ?_⟩
    unfold Bytes.wrote at hz
    split at hz
    · next h =>
      have := k2 hok _ v hz
      rwa [show off + (z - off) = z by omega] at this
    · next h =>
      obtain ⟨a, b⟩ := ih.2 z v hz
      exact ⟨k1.frame z v a b (by omega), k1.safe b⟩
  | @failed f known off d s _ ih =>
    obtain ⟨k1, k2⟩ := write_spec (M := M) (A := A) maxExtent 0 off d f s ih.1 ih.1.opened
    rw [Nat.zero_mul, Nat.zero_add] at k1 k2
    refine ⟨k1.wf, fun z v hz => ?_⟩
    unfold Bytes.spoiled at hz
    split at hz
    · nomatch hz
    · next h =>
      obtain ⟨a, b⟩ := ih.2 z v hz
      exact ⟨k1.frame z v a b (by omega), k1.safe b⟩
  | @read f known off n s _ ih =>
    obtain ⟨k1, _⟩ := read_spec (M := M) (A := A) maxExtent 0 off n f s ih.1 ih.1.opened 0
    refine ⟨k1.wf, fun z v hz => ?_⟩
    obtain ⟨a, b⟩ := ih.2 z v hz
    exact ⟨k1.frame z v a b (by omega), k1.safe b⟩
  | @reopened f known m f' _ ho ih =>
    obtain ⟨h1, h2, h3, h4⟩ := open_inv ih.1.contig ih.1.limit ho
    refine ⟨h1, fun z v hz => ?_⟩
    split at hz
    · nomatch hz
    · next hm =>
      refine ⟨?_, fun h => absurd (h3.symm.trans h) hm⟩
      have := (ih.2 z v hz).1
      unfold at_ at this ⊢
      obtain ⟨p, hp, hv⟩ := Option.bind_eq_some_iff.1 this
      rw [h2 hm _ _ hp]
      exact hv

/-- C78: a read that succeeds returns as many bytes as asked for, and every byte that was written has the value last written -/
theorem C78_read {M A : Nat} (hM : 0 < M) {f : File V} {known : Nat → Option V} (h : C78_Reach M A f known) {off n : Nat} {s : List Ans} {l : List V}
    (hr : (elioRead M A off n f s).1 = .ok l) : l.length = n ∧ ∀ i v, i < n → known (off + i) = some v → l[i]? = some v := by
  obtain ⟨hw, hk⟩ := reach_inv hM h
  obtain ⟨k1, k2⟩ := read_spec (M := M) (A := A) maxExtent 0 off n f s hw hw.opened 0
  obtain ⟨h1, h2⟩ := k2 l hr
  refine ⟨h1, fun i v hi hv => ?_⟩
  obtain ⟨a, b⟩ := hk _ v hv
  rw [← h2 i hi, Nat.zero_mul, Nat.zero_add]
  exact k1.frame _ _ a b (by omega)

/-- C78: a read of bytes that were all written succeeds, unless the system reports an error, the offset is too large or the file is open only for writing -/
theorem C78_read_succeeds {M A : Nat} (hM : 0 < M) {f : File V} {known : Nat → Option V} (h : C78_Reach M A f known) {off n : Nat} {s : List Ans} (hs : Ans.err ∉ s) (hm : f.mode ≠ .w)
    (hA : off < A) (hn : 0 < n) (hk : ∀ i, i < n → known (off + i) ≠ none) : ∃ l, (elioRead M A off n f s).1 = .ok l := by
  obtain ⟨hw, hi⟩ := reach_inv hM h
  refine read_ok hM (by omega) maxExtent 0 off n f s hw hw.opened hs hm hA rfl hn fun i hin => ?_
  rw [Nat.zero_mul, Nat.zero_add]
  obtain ⟨v, hv⟩ := Option.ne_none_iff_exists'.1 (hk i hin)
  rw [(hi _ v hv).1]
  exact fun h => nomatch h

/-- C78: a write succeeds unless the system reports an error, the file is open only for reading, or the bytes lie beyond the limits: interrupted and partial writes are continued -/
theorem C78_write_succeeds {M A : Nat} (hM : 0 < M) {f : File V} {known : Nat → Option V} (h : C78_Reach M A f known) {off : Nat} {d : List V} {s : List Ans} (hs : Ans.err ∉ s)
    (hm : f.mode ≠ .r) (hA : off < A) (h1 : off < 128 * M) (h2 : off + d.length ≤ 128 * M) : (elioWrite M A off d f s).1 = .ok () := by
  obtain ⟨hw, _⟩ := reach_inv hM h
  exact write_ok (by omega) maxExtent 0 off d f s hw hw.opened hs hm hA rfl h1 h2

/-- C78: a write beyond the limits is reported as an error -/
theorem C78_write_limit {M A : Nat} {f : File V} {off : Nat} {d : List V} {s : List Ans} (h : A ≤ off ∨ 128 * M < off + d.length) : (elioWrite M A off d f s).1 ≠ .ok () := by
  rcases h with h | h
  · show (write M A maxExtent 0 off d f s).1 ≠ _
    unfold write
    rw [if_pos h]
    exact fun h => nomatch h
  · exact write_limit maxExtent 0 off d f s h

/-- a session: a file created by this program, and the end of the last byte written -/
inductive C78_Session (M A : Nat) : File V → Nat → Prop
  | create {m f} : openFile m (fun _ => none) = some f → C78_Session M A f 0
  | written {f hi off d s} : C78_Session M A f hi → Ans.err ∉ s → d ≠ [] → (elioWrite M A off d f s).1 = .ok () →
      C78_Session M A (elioWrite M A off d f s).2 (max hi (off + d.length))

private theorem session_inv {M A : Nat} {f : File V} {hi : Nat} (h : C78_Session M A f hi) : WF f ∧ Small M f ∧ length M f = hi := by
  induction h with
  | @create m f h =>
    obtain ⟨h1, _, _, h4⟩ := open_inv (fun _ h => absurd rfl h) (fun _ h => absurd rfl h) h
    have h0 : ∀ i, f.disk i = if i = 0 then some empty else none := by
      intro i
      unfold openFile at h
      cases m with
      | w => injection h with h; subst h; rfl
      | r => nomatch h
      | rw => injection h with h; subst h; rfl
    refine ⟨h1, ⟨?_, ?_⟩, ?_⟩
    · intro i p hp
      rw [h0] at hp
      split at hp
      · injection hp with hp
        subst hp
        exact Nat.zero_le _
      · nomatch hp
    · intro i hi
      rw [h0, if_neg (by omega)]
    · unfold length
      rw [h4, h0]
      simp [empty]
  | @written f hi off d s _ hs hd hok ih =>
    obtain ⟨h1, h2⟩ := write_length maxExtent 0 off d f s ih.1 ih.2.1 ih.1.opened hs hd hok
    refine ⟨(write_spec maxExtent 0 off d f s ih.1 ih.1.opened (M := M)).1.wf, h1, ?_⟩
    show length M (write M A maxExtent 0 off d f s).2.1 = _
    rw [h2, ih.2.2, Nat.zero_mul, Nat.zero_add]

/-- C78: in the session that creates a file and only writes, the length of the file is the end of the last byte written. (Not after a file is opened again or read beyond its end: see
`C78_length_reopened` and `C78_length_read`.) -/
theorem C78_length_partial {M A : Nat} {f : File V} {hi : Nat} (h : C78_Session M A f hi) : length M f = hi := (session_inv h).2.2

/-- C78: deleting a file of at most 127 extents removes all of them -/
theorem C78_delete_partial {M A : Nat} (hM : 0 < M) {f : File V} {known : Nat → Option V} (h : C78_Reach M A f known) (hl : f.disk 127 = none) (i : Nat) : delete f.disk i = none := by
  obtain ⟨hw, _⟩ := reach_inv hM h
  unfold delete
  cases h0 : f.disk 0 with
  | none => exact absurd h0 (hw.exist 0 hw.opened)
  | some p =>
    dsimp only
    by_cases hi : i = 0
    · rw [deleteFrom_low _ _ _ _ (by omega), if_pos hi]
    · refine deleteFrom_spec _ _ _ ?_ ?_ i (by omega)
      · intro j hj
        rw [if_neg (by omega), if_neg (by omega)]
        exact hw.contig j
      · rw [if_neg (by unfold maxExtent; omega)]
        exact hl

/-- C78: of a file of 128 extents the last one is left on the disk -/
theorem C78_delete_last (disk : Nat → Option (Phys V)) : delete disk 127 = disk 127 := by
  unfold delete
  cases h0 : disk 0 with
  | none => rfl
  | some p =>
    dsimp only
    rw [deleteFrom_low _ _ _ _ (Or.inr (by decide)), if_neg (by decide)]

/-- a new file, open for reading and writing -/
private def new : File V := ⟨fun i => if i = 0 then some empty else none, .rw, 1⟩

private theorem new_open : openFile .rw (fun _ => none) = some (new : File V) := by
  unfold openFile new
  simp [openPhys]

private theorem write_at_M {M A : Nat} (hM : 1 < M) (hA : M < A) (v : V) : elioWrite M A M [v] new [] = (.ok (), ⟨fun i => if i = 1 then some (pwrite empty 0 [v]) else if i = 0 then some empty else none, .rw, 2⟩) := by
  unfold elioWrite
  have h : write M A maxExtent 0 M [v] new [] = (.ok (), ⟨fun i => if i = 1 then some (pwrite empty 0 [v]) else if i = 0 then some empty else none, .rw, 2⟩, []) := by
    unfold write maxExtent
    rw [if_neg (by omega), if_pos (Nat.le_refl _)]
    have hn : nextExt 0 (new : File V) = some ⟨fun i => if i = 1 then some empty else if i = 0 then some empty else none, .rw, 2⟩ := by
      simp [nextExt, new, maxExtent, openPhys]
    rw [hn]
    dsimp only
    conv => lhs; unfold write
    rw [if_neg (by omega), if_neg (by omega)]
    have : ¬ M ≤ M - M + [v].length := by simp; omega
    simp only [this, if_false, if_true, writeLoop]
    simp
    funext i
    by_cases hi : i = 1 <;> simp [hi]
  rw [h]

/-- C78 fails: the length of a file of several extents is wrong after it was opened again. One byte is written at offset `M`; the length is then `M + 1`, and 0 after closing and opening. -/
theorem C78_length_reopened {M A : Nat} (hM : 1 < M) (hA : M < A) (v : V) : ∃ f f' : File V, C78_Session M A f (M + 1) ∧ length M f = M + 1 ∧ openFile .rw f.disk = some f' ∧ length M f' = 0 := by
  have hw := write_at_M hM hA v
  have hs : C78_Session M A (elioWrite M A M [v] new []).2 (max 0 (M + [v].length)) := .written (.create new_open) (by simp) (by simp) (by rw [hw])
  rw [show max 0 (M + [v].length) = M + 1 by simp] at hs
  refine ⟨_, _, hs, C78_length_partial hs, rfl, ?_⟩
  rw [hw]
  simp [length, empty]

/-- C78 fails: a read that fails beyond the end of the file changes its length. Reading a byte at offset `M` of an empty file fails, and then the length is `M`. -/
theorem C78_length_read {M A : Nat} (hM : 1 < M) (hA : M < A) : ∃ f : File V, C78_Session M A f 0 ∧ (elioRead M A M 1 f []).1 = .error .eof ∧ length M (elioRead M A M 1 f []).2 = M := by
  refine ⟨new, .create new_open, ?_⟩
  have h : Elio.read M A maxExtent 0 M 1 (new : File V) [] = (.error .eof, ⟨fun i => if i = 1 then some empty else if i = 0 then some empty else none, .rw, 2⟩, []) := by
    unfold Elio.read maxExtent
    rw [if_neg (by omega), if_pos (Nat.le_refl _)]
    have hn : nextExt 0 (new : File V) = some ⟨fun i => if i = 1 then some empty else if i = 0 then some empty else none, .rw, 2⟩ := by
      simp [nextExt, new, maxExtent, openPhys]
    rw [hn]
    dsimp only
    conv => lhs; unfold Elio.read
    rw [if_neg (by omega), if_neg (by omega)]
    have : ¬ M ≤ M - M + 1 := by omega
    simp only [this, if_false, if_true, readLoop]
    simp [empty]
  unfold elioRead
  rw [h]
  refine ⟨rfl, ?_⟩
  simp [length, empty]

/-- C78 fails: bytes below the end of the file that were not written can be read as zeros if they lie in the last extent, but not if they lie in an earlier extent -/
theorem C78_hole {M A : Nat} (hM : 1 < M) (hA : M < A) (v : V) : ∃ f : File V, C78_Session M A f (M + 1) ∧ (elioRead M A 0 1 f []).1 = .error .eof := by
  have hw := write_at_M hM hA v
  have hs : C78_Session M A (elioWrite M A M [v] new []).2 (max 0 (M + [v].length)) := .written (.create new_open) (by simp) (by simp) (by rw [hw])
  rw [show max 0 (M + [v].length) = M + 1 by simp] at hs
  refine ⟨_, hs, ?_⟩
  rw [hw]
  unfold elioRead Elio.read
  rw [if_neg (by omega), if_neg (by omega)]
  have : ¬ M ≤ 0 + 1 := by omega
  simp [this, readLoop, empty]

/-- C78 fails: truncating a file of several extents to a length in the first one leaves the later extents: the byte at offset `M` is still there, and counts for the length -/
theorem C78_truncate {M A : Nat} (hM : 1 < M) (hA : M < A) (v : V) : ∃ f f' : File V, C78_Session M A f (M + 1) ∧ elioTruncate M 0 f = some f' ∧ length M f' = M + 1 ∧ (elioRead M A M 1 f' []).1 = .ok [v] := by
  have hw := write_at_M hM hA v
  have hs : C78_Session M A (elioWrite M A M [v] new []).2 (max 0 (M + [v].length)) := .written (.create new_open) (by simp) (by simp) (by rw [hw])
  rw [show max 0 (M + [v].length) = M + 1 by simp] at hs
  rw [hw] at hs
  refine ⟨_, ⟨fun i => if i = 1 then some (pwrite empty 0 [v]) else if i = 0 then some (ptrunc empty 0) else none, .rw, 2⟩, hs, ?_, ?_, ?_⟩
  · unfold elioTruncate truncate
    rw [if_neg (by omega)]
    simp
    funext i
    by_cases hi : i = 0
    · simp [hi]
    · simp [hi]
  · simp [length, pwrite, empty]
  · unfold elioRead Elio.read maxExtent
    rw [if_neg (by omega), if_pos (Nat.le_refl _)]
    simp only [nextExt]
    rw [if_pos (by omega)]
    dsimp only
    conv => lhs; unfold Elio.read
    rw [if_neg (by omega), if_neg (by omega)]
    have : ¬ M ≤ 1 := by omega
    simp [this, readLoop, pwrite, empty, slice]

/-- C78: truncating a file of one extent keeps the bytes below the new length, adds zeros, and makes a read of a byte beyond it fail -/
theorem C78_truncate_partial {M A n : Nat} {f : File V} {p : Phys V} (h1 : f.opened = 1) (h0 : f.disk 0 = some p) (hm : f.mode ≠ .w) (hn : n < M) :
    ∃ f', elioTruncate M n f = some f' ∧ length M f' = n ∧ ∀ z, z < M → z < A →
      (elioRead M A z 1 f' []).1 = if z < n then .ok [if z < p.len then p.dat z else 0] else .error .eof := by
  refine ⟨_, by unfold elioTruncate truncate; rw [if_neg (by omega)], ?_, ?_⟩
  · simp [length, h1, h0, ptrunc]
  · intro z hz hA
    unfold elioRead Elio.read
    rw [if_neg (by omega), if_neg (by omega)]
    have e1 : (if M ≤ z + 1 then M - z else 1) = 1 := by split <;> omega
    have e2 : (if M ≤ z + 1 then 1 - (M - z) else 0) = 0 := by split <;> omega
    simp only [e1, e2, h0, hm, if_true, Option.map_some, false_and, if_false, readLoop, ptrunc]
    by_cases hzn : z < n
    · rw [if_pos (by omega), if_pos hzn]
      simp [slice]
    · rw [if_neg (by omega), if_neg hzn]

/-- extents of 4 bytes: five bytes are written at offset 2 in pieces of at most 2 bytes, the file is closed and opened for reading, and six bytes are read at offset 1 -/
private def ex1 : File Nat := (elioWrite 4 100 2 [5, 6, 7, 8, 9] new [.part 0, .intr, .part 1]).2
private def ex2 : File Nat := (openFile .r ex1.disk).getD new

private theorem ex_some {α : Type} {o : Option α} (d : α) (h : o.isSome = true) : o = some (o.getD d) := by
  cases o with
  | none => nomatch h
  | some a => rfl

example : C78_Reach 4 100 ex2 (Bytes.wrote Bytes.fresh 2 [5, 6, 7, 8, 9]) :=
  .reopened (m := .r) (f := ex1) (.written (.create new_open) (by decide +kernel)) (ex_some _ (by decide +kernel))
example : (elioRead 4 100 1 6 ex2 [.intr, .part 0]).1 = .ok [0, 5, 6, 7, 8, 9] := by decide +kernel
example : (elioRead 4 100 3 4 ex2 []).1 = .ok [6, 7, 8, 9] := by decide +kernel
example : Bytes.wrote Bytes.fresh 2 [5, 6, 7, 8, 9] 6 = some 9 := rfl
example : (elioRead 4 100 3 5 ex2 []).1 = .error .read := by decide +kernel
/-- the session of `ex1` -/
example : C78_Session 4 100 ex1 7 := .written (.create new_open) (by simp) (by decide) (by decide +kernel)
example : (ex1.disk 1).isSome = true ∧ (ex1.disk 127).isSome = false := by decide +kernel
/-- a file with bytes that cannot be written: 128 extents of 4 bytes -/
example : (elioWrite 4 1000 511 [1, 2] ex1 []).1 = .error .opn := by decide +kernel
example : (elioWrite 4 1000 510 [1, 2] ex1 []).1 = .ok () := by decide +kernel
/-- truncation of a file of one extent -/
example : ex2.opened = 1 ∧ ex2.mode ≠ .w ∧ (ex2.disk 0).isSome = true := by decide +kernel

end GA
