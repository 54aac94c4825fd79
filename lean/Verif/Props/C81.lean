import Verif.Lemmas.Eaf

/-!
# C81: exclusive access files

A file opened by name gives back the bytes last written to it, in memory and on disk, through any number of opens and closes, until it is deleted.
The specification (`Spec/Eaf`) is what the program knows from its calls and their results, and what it may rely on. Two properties of the code spoil it and are conditions
of `C81_files_partial`: a file in memory is opened again only while no smaller descriptor is unused (`noHole`), and deleted only if it is among the files
a deletion looks at (`within`). Asynchronous calls do not work for files in memory (`asyncDisk`).
-/

namespace GA

open Eaf
open GA.Spec.Eaf (View Call Res start view proper asyncDisk noHole within good keeps memOnly Always AllPromised promised)

variable {V : Type} [Zero V]

/-- Every result of a program is the promised one, if every call of the program is good. Missing: programs that open a file in memory again while a smaller descriptor is
unused, that delete a file in memory behind files on disk, or that use asynchronous calls for files in memory; for these the claim is false, see below. -/
theorem C81_files_partial (N : Nat) (ops : List (Op V)) (t : List (Op V × Out V)) (s : St V) (h : run N init ops = some (t, s)) (hg : Always good start (asSeen t)) :
    AllPromised start (asSeen t) :=
  (run_any N (fun _ _ => True) good (fun _ _ _ _ _ h => h) (fun _ _ _ _ _ _ _ _ _ => trivial) ops init s start t rel_init trivial h hg).1

/-- No good call goes out of the bounds of a file. -/
theorem C81_defined (N : Nat) (ops : List (Op V)) (t : List (Op V × Out V)) (s : St V) (h : run N init ops = some (t, s)) (hg : Always good start (asSeen t))
    (op : Op V) (hop : good (view start (asSeen t)) (callOf op)) : step N s op ≠ none := by
  obtain ⟨_, R, _⟩ := run_any N (fun _ _ => True) good (fun _ _ _ _ _ h => h) (fun _ _ _ _ _ _ _ _ _ => trivial) ops init s start t rel_init trivial h hg
  obtain ⟨o, s', h, _⟩ := step_any R N op hop
  rw [h]; simp

/-- The same for programs that do not give back descriptors: they keep files on disk open and do not delete files in memory. -/
theorem C81_keep (N : Nat) (ops : List (Op V)) (t : List (Op V × Out V)) (s : St V) (h : run N init ops = some (t, s))
    (hg : Always (fun v c => proper v c ∧ asyncDisk v c ∧ keeps v c) start (asSeen t)) : AllPromised start (asSeen t) := by
  refine (run_any N (fun s _ => Prefix s) _ ?_ ?_ ops init s start t rel_init (fun i j _ h => absurd rfl h) h hg).1
  · rintro s v op R hI ⟨hp, ha, hk⟩
    refine ⟨hp, ha, ?_, ?_⟩
    · cases hc : callOf op with
      | openMem name size =>
        intro k hk' j hj hn
        refine hI j k hj (fun e => ?_) ((R.none_iff j).2 hn)
        rw [(R.none_iff k).1 e] at hk'; exact absurd hk' (by simp)
      | _ => trivial
    · cases hc : callOf op with
      | delete name =>
        intro k hk'
        rw [hc] at hk
        obtain ⟨z, d, o, b, _, _, hb, _⟩ := R.mem_slot hk'
        simp only [keeps] at hk
        rw [hk] at hb; exact absurd hb (by simp)
      | _ => trivial
  · rintro s v op o s' R hI ⟨hp, ha, hk⟩ hst
    have new : ∀ i, (∀ j < i, s.slot j ≠ none) → (∀ k, s'.slot k = none ↔ (s.slot k = none ∧ k ≠ i)) → Prefix s' := fun i hi h a b hab hb hn => by
      obtain ⟨h1, h2⟩ := (h a).1 hn
      by_cases hbi : b = i
      · exact hi a (by omega) h1
      · exact hI a b hab (fun e => hb ((h b).2 ⟨e, hbi⟩)) h1
    rcases step_slots hst with ⟨_, h | ⟨i, _, h1, h2, _⟩ | ⟨i, n, p, m, rfl, hs⟩ | ⟨n, j, z, d, q, rfl, hs, _⟩⟩ | ⟨i, _, h1, h2, _⟩
    · exact fun a b hab hb hn => hI a b hab (fun e => hb ((h b).2 e)) ((h a).1 hn)
    · exact new i h1 h2
    · exact absurd (R.slot_reg hs).1 (hk _ _ _)
    · obtain ⟨_, _, b, hb, _⟩ := R.slot_mem hs
      simp only [callOf, keeps] at hk
      rw [hk] at hb; exact absurd hb (by simp)
    · exact new i h1 h2

/-- The same for programs that use only files in memory and may delete them: every deletion works. -/
theorem C81_memory_partial (N : Nat) (ops : List (Op V)) (t : List (Op V × Out V)) (s : St V) (h : run N init ops = some (t, s))
    (hg : Always (fun v c => proper v c ∧ asyncDisk v c ∧ noHole v c ∧ memOnly v c) start (asSeen t)) : AllPromised start (asSeen t) := by
  refine (run_any N (fun s _ => Below s) _ ?_ ?_ ops init s start t rel_init (fun i h => absurd rfl h) h hg).1
  · rintro s v op R hI ⟨hp, ha, hh, hk⟩
    refine ⟨hp, ha, hh, ?_⟩
    cases hc : callOf op with
    | delete name =>
      intro k hk'
      rw [R.reach]
      refine hI k fun e => ?_
      rw [(R.none_iff k).1 e] at hk'; exact absurd hk' (by simp)
    | _ => trivial
  · rintro s v op o s' R hI ⟨hp, ha, hh, hk⟩ hst
    rcases step_slots hst with ⟨e, h | ⟨i, _, h1, h2, n, a, b, c, d, hc⟩ | ⟨i, n, p, m, rfl, hs⟩ | ⟨n, j, z, d, q, rfl, hs, h⟩⟩ | ⟨i, h0, h1, h2, h3⟩
    · intro k hk'; rw [e]; exact hI k fun e => hk' ((h k).2 e)
    · rw [hc] at hk; exact absurd hk (by simp [memOnly])
    · intro k hk'
      simp only [step, closeF, hs] at hst
      injection hst with hst; injection hst with _ hst; subst hst
      dsimp only at hk' ⊢
      by_cases hki : k = i
      · rw [hki] at hk'; exact absurd (put_self _ _ _) hk'
      · rw [put_other _ _ hki] at hk'; exact hI k hk'
    · intro k hk'; rw [e]; exact hI k (h k hk')
    · intro k hk'
      rw [h3]
      by_cases hki : k = i
      · subst hki
        rcases Nat.eq_zero_or_pos k with h | h
        · split <;> omega
        · have := hI (k - 1) (h1 (k - 1) (by omega)); split <;> omega
      · have := hI k fun e => hk' ((h2 k).2 ⟨e, hki⟩)
        split <;> omega

/-! ## Where the claim is false -/

/-- A file on disk, a file in memory; the file in memory is written and closed, the file on disk is closed, the file in memory is opened again: the bytes are lost, the program
reads what happens to be in new memory. -/
theorem C81_reopen (x y : V) : ((run 1024 init [.opn 7 (-1) none, .opn 8 1 (some fun _ => 0), .write 1 0 [x], .close 1, .close 0, .opn 8 1 (some fun _ => y), .read 0 0 1]).map fun r => r.1.map Prod.snd) =
    some [.fd 0, .fd 1, .code 0, .code 0, .code 0, .fd 0, .data [y]] := rfl

/-- Two files on disk, a file in memory: deleting the file in memory reports success, but it still exists with all its bytes; a file on disk of the same name is deleted instead. -/
theorem C81_delete (x : V) : ((run 1024 init [.opn 7 (-1) none, .opn 8 (-1) none, .opn 8 1 (some fun _ => 0), .write 2 0 [x], .close 2, .delete 8, .opn 8 1 none, .read 2 0 1, .opn 8 (-3) none]).map fun r => r.1.map Prod.snd) =
    some [.fd 0, .fd 1, .fd 2, .code 0, .code 0, .code 0, .fd 2, .data [x], .code (-44)] := rfl

/-- An asynchronous read of a file in memory reports success, leaves the buffer as it is and overwrites the start of the file with it. -/
theorem C81_aread (fd off name z : Nat) (dat : Nat → V) (q : Bool) (buf : List V) (s : St V) (hs : s.slot fd = some (.mem name z dat q)) (ho : off ≤ z) (hb : buf.length ≤ z) :
    ∃ s', areadF fd off buf s = some (.data buf, s') ∧ readF fd 0 buf.length s' = some (.data buf, s') := by
  refine ⟨{ s with slot := put s.slot fd (some (.mem name z (copyIn dat 0 buf) q)) }, ?_, ?_⟩
  · simp only [areadF, hs]
    rw [if_neg (by omega), if_neg (by omega)]
  · simp only [readF, put_self]
    rw [if_neg (by omega), if_neg (by omega)]
    congr 3
    refine List.ext_getElem (by simp) fun i h1 h2 => ?_
    simp [copyIn, h2]

/-- An asynchronous write to a file in memory writes the bytes and returns an error. -/
theorem C81_awrite (fd off name z : Nat) (dat : Nat → V) (q : Bool) (d : List V) (s : St V) (hs : s.slot fd = some (.mem name z dat q)) (hd : d ≠ []) (hb : off + d.length ≤ z) :
    ∃ c s', c ≠ 0 ∧ awriteF fd off d s = some (.code c, s') ∧ readF fd off d.length s' = some (.data d, s') := by
  refine ⟨d.length, { s with slot := put s.slot fd (some (.mem name z (copyIn dat off d) q)) }, ?_, ?_, ?_⟩
  · have := List.length_pos_iff.2 hd; omega
  · simp only [awriteF, hs]
    rw [if_neg (by omega), if_neg (by omega)]
  · simp only [readF, put_self]
    rw [if_neg (by omega), if_neg (by omega)]
    congr 3
    refine List.ext_getElem (by simp) fun i h1 h2 => ?_
    simp [copyIn, h2]

/-- A read across the end of a file in memory goes out of its bounds; a write across the end is refused. -/
theorem C81_bounds (fd off name z : Nat) (dat : Nat → V) (q : Bool) (d : List V) (n : Nat) (s : St V) (hs : s.slot fd = some (.mem name z dat q)) (ho : off ≤ z) :
    (z < off + n → readF fd off n s = none) ∧ (z < off + d.length → ∃ c, c ≠ 0 ∧ writeF fd off d s = (.code c, s)) := by
  refine ⟨fun h => ?_, fun h => ⟨-10007, by decide, ?_⟩⟩
  · simp only [readF, hs]; rw [if_neg (by omega), if_pos h]
  · simp only [writeF, hs]; rw [if_pos h]

/-- Probing a request tells nothing about it: the status depends only on the value the variable had before. Every request is complete, and is reported as pending unless
that value was -1. Waiting for a request of a file in memory returns a code that was never set. -/
theorem C81_probe (req status : Int) : elioProbe (-1) = some (-1) ∧ (∀ req', probeF req status = probeF req' status) ∧ (probeF req status = 0 ↔ status = -1) ∧
    ∀ (name z : Nat) (dat : Nat → V) (q : Bool) (junk : Int), waitF (some (.mem name z dat q)) junk = junk := by
  refine ⟨rfl, fun _ => rfl, ?_, fun _ _ _ _ _ => rfl⟩
  unfold probeF; split <;> simp_all

/-! ## Examples -/

/-- a program with a file on disk and two files in memory, one of which is opened again, and one is deleted -/
private def exOps : List (Op Nat) :=
  [.opn 7 1 (some fun _ => 9), .opn 8 (-1) none, .awrite 1 3 [5, 6], .write 0 1048575 [4], .write 0 1048575 [4, 4], .close 0, .aread 1 3 [0, 0], .opn 7 2 none, .read 0 1048575 1, .length 0, .close 0, .delete 7]

private def exTrace : List (Op Nat × Out Nat) :=
  exOps.zip [.fd 0, .fd 1, .code 0, .code 0, .code (-10007), .code 0, .data [5, 6], .fd 0, .data [4], .len 1048576, .code 0, .code 0]

example : (run 1024 init exOps).map (fun r => r.1.map Prod.snd) = some (exTrace.map Prod.snd) := by decide +kernel

/-- its calls are good -/
example : Always good start (asSeen exTrace) := by
  simp [exTrace, exOps, asSeen, callOf, resOf, Always, good, proper, asyncDisk, noHole, within, start, Spec.Eaf.after, Spec.Eaf.set]
  refine ⟨fun k h j hj => ?_, fun m a b h1 h2 => ?_, fun k h => ?_⟩
  · have : k = 0 := by
      by_contra hk
      split at h
      · injection h with h; exact absurd h (by simp)
      · exact absurd h (by simp)
    omega
  · subst h1; simp at h2; omega
  · by_contra hk
    have := h hk
    split at this
    · injection this with this; exact absurd this (by simp)
    · exact absurd this (by simp)

example : ¬ AllPromised (V := Nat) start [(.openMem 7 4, .fd 0), (.write 0 1 [5] false, .done), (.read 0 1 1 false, .data [6])] := by
  simp [AllPromised, promised, start, Spec.Eaf.after, Spec.Eaf.set, Spec.Eaf.bytes, Spec.Bytes.wrote]

end GA
