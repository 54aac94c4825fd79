import Verif.Props.C25

/-! # C26: splitting groups

That the calls make the groups `parts` describes, and give a process the part it is in, is part of
`C25_groups` (`SStep.split`, `SStep.splitIrreg`). Here: what `parts` means. -/

namespace GA.Groups

private theorem parts_flatten (sz : Nat) (hsz : 0 < sz) (P : List Nat) (m : Nat) :
    ((List.range m).map (fun b => (P.drop (b * sz)).take sz)).flatten = P.take (m * sz) := by
  induction m with
  | zero => simp
  | succ m ih =>
    rw [List.range_succ, List.map_append, List.flatten_append, ih, Nat.add_mul, Nat.one_mul, List.take_add]
    simp

private theorem ceil_mul (n sz : Nat) (hsz : 0 < sz) : n ≤ (n + sz - 1) / sz * sz := by
  have := Nat.lt_mul_div_succ (n + sz - 1) hsz
  rw [Nat.mul_add, Nat.mul_comm] at this
  omega

/-- **C26.** The parts into which a group `P` is split are, one after the other, the processes of the
group in the order of their ranks. There are at most `num` parts; all have `⌈n / num⌉` processes but
the last, which has at least one and not more. -/
theorem C26_parts (P : List Nat) (num : Nat) (hP : P ≠ []) (hnum : 0 < num) :
    (parts (partSize P.length num) P).flatten = P ∧
    (parts (partSize P.length num) P).length ≤ num ∧
    (∀ p ∈ (parts (partSize P.length num) P).dropLast, p.length = partSize P.length num) ∧
    (∀ p ∈ parts (partSize P.length num) P, 0 < p.length ∧ p.length ≤ partSize P.length num) ∧
    P.length ≤ partSize P.length num * num ∧ (partSize P.length num - 1) * num < P.length := by
  have hn : 0 < P.length := List.length_pos_of_ne_nil hP
  have hsz : 0 < partSize P.length num := by unfold partSize; exact Nat.div_pos (by omega) hnum
  have hle : P.length ≤ partSize P.length num * num := ceil_mul P.length num hnum
  have hlt : (partSize P.length num - 1) * num < P.length := by
    have : partSize P.length num * num ≤ P.length + num - 1 := Nat.div_mul_le_self _ _
    rw [Nat.sub_mul]; omega
  generalize partSize P.length num = sz at *
  have hcov := ceil_mul P.length sz hsz
  have hpl : ∀ b, b < (P.length + sz - 1) / sz → b * sz < P.length := by
    intro b hb
    have h1 : (b + 1) * sz ≤ P.length + sz - 1 := (Nat.le_div_iff_mul_le hsz).mp hb
    rw [Nat.add_mul] at h1; omega
  refine ⟨?_, ?_, ?_, ?_, hle, hlt⟩
  · unfold parts
    rw [parts_flatten sz hsz, List.take_of_length_le hcov]
  · rw [parts_length]
    have : P.length + sz - 1 < (num + 1) * sz := by rw [Nat.add_mul, Nat.mul_comm]; omega
    have := Nat.div_lt_of_lt_mul (by rw [Nat.mul_comm] at this; exact this)
    omega
  · intro p hp
    unfold parts at hp
    rw [List.dropLast_eq_take, List.length_map, List.length_range, ← List.map_take, List.take_range, List.mem_map] at hp
    obtain ⟨b, hb, rfl⟩ := hp
    rw [List.mem_range] at hb
    have h2 := hpl (b + 1) (by omega)
    rw [Nat.add_mul] at h2
    rw [List.length_take, List.length_drop]
    omega
  · intro p hp
    unfold parts at hp
    rw [List.mem_map] at hp
    obtain ⟨b, hb, rfl⟩ := hp
    rw [List.mem_range] at hb
    have h2 := hpl b hb
    rw [List.length_take, List.length_drop]
    omega

/-- The part that a process gets is the one it is in. -/
theorem C26_own_part (P : List Nat) (num me : Nat) (hme : me ∈ P) (hnum : 0 < num) :
    ∃ part, (parts (partSize P.length num) P)[P.idxOf me / partSize P.length num]? = some part ∧ me ∈ part := by
  have hi := List.idxOf_lt_length_of_mem hme
  have hsz : 0 < partSize P.length num := by unfold partSize; exact Nat.div_pos (by omega) hnum
  generalize partSize P.length num = sz at *
  have hdm := Nat.div_mul_le_self (P.idxOf me) sz
  have hd2 := Nat.lt_mul_div_succ (P.idxOf me) hsz
  rw [Nat.mul_add, Nat.mul_comm] at hd2
  generalize P.idxOf me / sz = b at *
  have hb : b < (P.length + sz - 1) / sz := by
    rw [Nat.lt_iff_add_one_le, Nat.le_div_iff_mul_le hsz, Nat.add_mul]; omega
  refine ⟨(P.drop (b * sz)).take sz, ?_, ?_⟩
  · unfold parts
    rw [List.getElem?_map, List.getElem?_range hb]; rfl
  · rw [List.mem_iff_getElem]
    refine ⟨P.idxOf me - b * sz, by rw [List.length_take, List.length_drop]; omega, ?_⟩
    rw [List.getElem_take, List.getElem_drop]
    have e : b * sz + (P.idxOf me - b * sz) = P.idxOf me := by omega
    simp only [e]
    exact List.getElem_idxOf hi

/-- seven processes in three groups, asked by process 4; then by colour -/
example : run 7 4 (init 7 9 0 7) [.split (-1) 3, .nnodes 2, .absId 2 0, .absId 2 2, .nnodes 1, .nnodes 3,
      .splitIrreg (-1) [5, 2, 5, 2, 2, 5, 9], .nnodes 4, .absId 4 1, .setDefault 4, .split 4 2, .absId 5 1, .myNodeid] =
    [.num 2, .num 3, .num 3, .num 5, .num 3, .num 1, .num 4, .num 3, .num 3, .done, .num 6, .num 3, .num 2] := by decide

/-- too few handles -/
example : run 7 4 (init 7 3 0 7) [.split (-1) 3] = [.abort] := by decide

end GA.Groups
