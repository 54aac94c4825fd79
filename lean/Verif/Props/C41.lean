import Verif.Model.Chunk
import Mathlib.Data.List.Nodup

/-!
# C41, C46: broadcasts transfer every byte
-/

namespace GA
open Model

variable {V : Type}

theorem brdcstLoop_spec (len root : Nat) (n istart : Nat) (bufs : Bufs V)
    (hs : istart ≤ len) (hn : len ≤ istart + n * bigint) (r : Nat) (i : Int) :
    brdcstLoop len root n istart bufs r i =
      if (istart : Int) ≤ i ∧ i < len then bufs root i else bufs r i := by
  induction n generalizing istart bufs with
  | zero =>
    simp only [brdcstLoop]
    rw [if_neg (by omega)]
  | succ n ih =>
    simp only [brdcstLoop]
    generalize hsm : (if istart + bigint > len then len - istart else bigint) = small
    have hsm' : small = len - istart ∧ istart + bigint > len ∨
        small = bigint ∧ istart + bigint ≤ len := by
      by_cases h : istart + bigint > len
      · left; rw [if_pos h] at hsm; exact ⟨hsm.symm, h⟩
      · right; rw [if_neg h] at hsm; exact ⟨hsm.symm, by omega⟩
    rw [Nat.add_mul] at hn
    have hb : bigint = 2147483647 := rfl
    rw [ih (istart + small) _ (by omega) (by omega)]
    simp only [mpiBcast]
    by_cases h1 : ((istart + small : Nat) : Int) ≤ i ∧ i < len
    · rw [if_pos h1, if_neg (by omega), if_pos (by omega)]
    · rw [if_neg h1]
      by_cases h2 : (istart : Int) ≤ i ∧ i < istart + small
      · rw [if_pos (by omega), if_pos (by omega)]
      · rw [if_neg (by omega), if_neg (by omega)]

/-- C41: after `GA_Brdcst` of `len` bytes from `root`, for any length, every member holds the root's
bytes in the buffer and nothing beyond it is changed. For a group, `root` is the rank in the group. -/
theorem C41_brdcst (grp : Option (List Nat)) (bufs : Bufs V) (len root : Nat)
    (hg : ∀ m, grp = some m → m.Nodup ∧ root < m.length) :
    ∃ bufs', msgBrdcst grp bufs len root = some bufs' ∧
      (∀ r : Nat, ∀ i : Nat, i < len → bufs' r i = bufs root i) ∧
      (∀ r : Nat, ∀ i : Int, i < 0 ∨ (len : Int) ≤ i → bufs' r i = bufs r i) := by
  have hb : bigint = 2147483647 := rfl
  have hcov : len ≤ 0 + nsteps len * bigint := by
    unfold nsteps
    have := Nat.div_add_mod (len + (bigint - 1)) bigint
    have := Nat.mod_lt (len + (bigint - 1)) (by rw [hb]; omega : 0 < bigint)
    rw [Nat.mul_comm]
    omega
  have key : msgBrdcst grp bufs len root = some (brdcstLoop len root (nsteps len) 0 bufs) := by
    cases grp with
    | none => rfl
    | some m =>
      obtain ⟨hnd, hr⟩ := hg m rfl
      simp only [msgBrdcst, groupRoot, List.getElem?_eq_getElem hr, Option.map_some]
      rw [hnd.idxOf_getElem]
  refine ⟨_, key, ?_, ?_⟩
  · intro r i hi
    rw [brdcstLoop_spec len root _ 0 bufs (by omega) hcov, if_pos (by omega)]
  · intro r i hi
    rw [brdcstLoop_spec len root _ 0 bufs (by omega) hcov, if_neg (by omega)]

/-- Non-trivial instance: 5 GiB within a group of three processes. -/
example : (∀ m, some [4, 2, 7] = some m → m.Nodup ∧ 1 < m.length) ∧ nsteps 5368709120 = 3 ∧
    groupRoot [4, 2, 7] 1 = some 1 := by
  refine ⟨?_, by decide, by decide⟩
  intro m h
  cases h
  decide

/-- C46, proved part: `GA_Pgroup_brdcst` of fewer than 2 GiB delivers every byte. -/
theorem C46_pgroup_brdcst_partial (grp : Option (List Nat)) (bufs : Bufs V) (len root : Nat)
    (hlen : len < 2147483648) (hg : ∀ m, grp = some m → m.Nodup ∧ root < m.length) :
    ∃ bufs', pgroupBrdcst grp bufs len root = some bufs' ∧
      (∀ r : Nat, ∀ i : Nat, i < len → bufs' r i = bufs root i) ∧
      (∀ r : Nat, ∀ i : Int, i < 0 ∨ (len : Int) ≤ i → bufs' r i = bufs r i) := by
  have hc : toInt32 len = len := by unfold toInt32; omega
  have key : pgroupBrdcst grp bufs len root = some (mpiBcast bufs 0 len root) := by
    unfold pgroupBrdcst
    rw [hc, if_neg (by omega)]
    cases grp with
    | none => simp
    | some m =>
      obtain ⟨hnd, hr⟩ := hg m rfl
      simp only [groupRoot, List.getElem?_eq_getElem hr, Option.map_some, Int.toNat_natCast]
      rw [hnd.idxOf_getElem]
  refine ⟨_, key, ?_, ?_⟩
  · intro r i hi
    simp only [mpiBcast]
    rw [if_pos (by omega)]
  · intro r i hi
    simp only [mpiBcast]
    rw [if_neg (by omega)]

/-- C46 is false of the code for longer buffers: `(int)len` of `2^32 + 1` is 1, so the second byte
is not transferred and no error is reported. -/
theorem C46_pgroup_brdcst_truncates :
    ∃ (bufs bufs' : Bufs Nat), pgroupBrdcst none bufs 4294967297 0 = some bufs' ∧
      bufs' 1 1 ≠ bufs 0 1 :=
  ⟨fun r _ => r, _, rfl, by decide⟩

end GA
