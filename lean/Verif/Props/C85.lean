import Verif.Lemmas.MemLock
import Verif.Spec.Acc

/-!
# C85: accumulates into the same memory do not lose updates

Any number of processes accumulate into the memory of one process; each locks
the area of its accumulate in the table of eight slots.
-/

namespace GA
open MemLock Spec.Acc

/-- Process `p` is adding the elements of `op`. -/
def c85Adding (s : MemLock.State) (p : Nat) (op : Op) : Prop :=
  ∃ more k l, (s.loc p).ops = op :: more ∧
    ((s.loc p).pc = .load k l ∨ ∃ t, (s.loc p).pc = .store k l t)

/-- No range of one process goes, in cache lines, beyond a range of another
process on both sides. -/
def c85NoInside (n : Nat) (prog : Nat → List Op) : Prop :=
  ∀ p, p < n → ∀ q, q < n → p ≠ q → ∀ a ∈ prog p, ∀ b ∈ prog q,
    ¬ (a.lo / 64 < b.lo / 64 ∧ b.hi / 64 < a.hi / 64)

/-- Every accumulate has its elements in the range that it locks. -/
def c85InRange (n : Nat) (prog : Nat → List Op) : Prop :=
  ∀ p, p < n → ∀ op ∈ prog p, op.lo ≤ op.hi ∧ ∀ c ∈ op.cells, op.lo ≤ c.1 ∧ c.1 ≤ op.hi

private theorem added_cons (a : Nat) (c : Nat × Int) (l : List (Nat × Int)) :
    added a (c :: l) = (if c.1 = a then c.2 else 0) + added a l := by
  unfold added
  by_cases h : c.1 = a
  · rw [List.filter_cons_of_pos (by simp [h]), if_pos h, List.map_cons, List.sum_cons]
  · rw [List.filter_cons_of_neg (by simp [h]), if_neg h]; omega

private theorem added_append (a : Nat) : ∀ l m : List (Nat × Int),
    added a (l ++ m) = added a l + added a m
  | [], m => by simp [added]
  | c :: l, m => by
      rw [List.cons_append, added_cons, added_cons, added_append a l m]; omega

private theorem cellSum_added (a : Nat) : ∀ l : List (Nat × Int), cellSum a l = added a l
  | [] => rfl
  | c :: l => by rw [cellSum, added_cons, cellSum_added a l]

private theorem opSum_added (a : Nat) : ∀ l : List Op, opSum a l = added a (l.flatMap Op.cells)
  | [] => rfl
  | op :: l => by
      rw [opSum, List.flatMap_cons, added_append, cellSum_added, opSum_added a l]

private theorem total_added (a : Nat) (f : Nat → List (Nat × Int)) : ∀ n,
    total (fun p => added a (f p)) n = added a (everybody n f)
  | 0 => rfl
  | n + 1 => by
      rw [total, total_added a f n, everybody, everybody, List.range_succ, List.flatMap_append,
        added_append, List.flatMap_cons, List.flatMap_nil, List.append_nil]

private theorem total_zero {f : Nat → Int} : ∀ n, (∀ q, q < n → f q = 0) → total f n = 0
  | 0, _ => rfl
  | n + 1, h => by rw [total, total_zero n fun q hq => h q (by omega), h n (by omega)]; rfl

private theorem ok_of {n : Nat} {prog : Nat → List Op} (h1 : c85InRange n prog)
    (h2 : c85NoInside n prog) : Ok n prog := by
  refine ⟨h1, fun p q hp hq hne a ha b hb hc => h2 p hp q hq hne a ha b hb ?_⟩
  unfold Contains area align at hc
  dsimp only at hc
  omega

/-- **C85** (partial: no range may go beyond a range of another process on both
sides).  Under every schedule: at every time two processes that are adding have
no address in common; nobody is ever stuck for good; and when all accumulates
are done the memory holds, at every address, the old number plus everything
that all accumulates add there. -/
theorem C85_accumulate_partial {n : Nat} {prog : Nat → List Op} (m : Nat → Int)
    (hr : c85InRange n prog) (hi : c85NoInside n prog) (sched : List Nat) :
    let s := exec n sched (start m prog)
    (∀ p q, p < n → q < n → p ≠ q → ∀ a b, c85Adding s p a → c85Adding s q b →
      ¬ ∃ x, (a.lo ≤ x ∧ x ≤ a.hi) ∧ (b.lo ≤ x ∧ x ≤ b.hi)) ∧
    ((∀ p, step n p s = none) → Done n s) ∧
    (∃ more, Done n (exec n (sched ++ more) (start m prog))) ∧
    (Done n s → ∀ x, s.mem x =
      m x + added x (everybody n fun p => (prog p).flatMap Op.cells)) := by
  dsimp only
  have ok := ok_of hr hi
  have hinv := inv_exec ok sched (inv_start (n := n) (prog := prog) m)
  generalize hs : exec n sched (start m prog) = s at hinv ⊢
  refine ⟨?_, inv_stuck hinv, ?_, ?_⟩
  · intro p q hp hq hne a b ha hb hx
    obtain ⟨x, ⟨x1, x2⟩, x3, x4⟩ := hx
    have key : ∀ p, p < n → ∀ a, c85Adding s p a → ∃ k, slotOf (s.loc p).pc = some k ∧
        s.table k = some (area a.lo a.hi) := by
      intro p hp a ha
      obtain ⟨more, k, l, h1, h2⟩ := ha
      have g := (hinv.good p hp).2
      rw [h1] at g
      dsimp only at g
      refine ⟨k, ?_, ?_⟩
      · rcases h2 with h2 | ⟨t, h2⟩ <;> rw [h2] <;> rfl
      · refine (g.1 k ?_).2
        rcases h2 with h2 | ⟨t, h2⟩ <;> rw [h2] <;> rfl
    obtain ⟨j, j1, j2⟩ := key p hp a ha
    obtain ⟨k, k1, k2⟩ := key q hq b hb
    have hap := hinv.excl p q hp hq hne j k _ _ j1 k1 j2 k2
    unfold Apart area align at hap
    dsimp only at hap
    omega
  · obtain ⟨l, hl⟩ := finish ok _ s (Nat.le_refl _) hinv
    exact ⟨l, by rw [exec_append, hs]; exact hl⟩
  · intro hd x
    have h1 := hinv.sum x
    rw [total_zero n (fun q hq => by simp only [remaining, hd q hq]), Int.add_zero] at h1
    rw [h1, ← total_added]
    congr 1
    exact total_congr n fun q _ => opSum_added x (prog q)

/-- **C85, accumulates of the same length.**  When the ranges of different
processes all have the same length no range can go beyond another on both
sides, so nothing is lost, whatever the addresses. -/
theorem C85_same_length {n : Nat} {prog : Nat → List Op} (m : Nat → Int) (len : Nat)
    (hr : c85InRange n prog) (hl : ∀ p, p < n → ∀ op ∈ prog p, op.hi = op.lo + len)
    (sched : List Nat) (hd : Done n (exec n sched (start m prog))) (x : Nat) :
    (exec n sched (start m prog)).mem x =
      m x + added x (everybody n fun p => (prog p).flatMap Op.cells) := by
  refine (C85_accumulate_partial m hr (fun p hp q hq _ a ha b hb hc => ?_) sched).2.2.2 hd x
  have e1 := hl p hp a ha
  have e2 := hl q hq b hb
  omega

/-- **C85, the ranges.**  The accumulate operations lock every byte of the
elements they change: contiguous, in columns (no longer than the stride), and
at a list of pointers. -/
theorem C85_ranges :
    (∀ dst bytes size (v : Nat → Int), 0 < size → ∀ c ∈ (acc1D dst bytes size v).cells,
      (acc1D dst bytes size v).lo ≤ c.1 ∧ c.1 + size - 1 ≤ (acc1D dst bytes size v).hi) ∧
    (∀ dst bytes cols stride size (v : Nat → Nat → Int), 0 < size → bytes ≤ stride →
      ∀ c ∈ (acc2D dst bytes cols stride size v).cells,
      (acc2D dst bytes cols stride size v).lo ≤ c.1 ∧
      c.1 + size - 1 ≤ (acc2D dst bytes cols stride size v).hi) ∧
    (∀ p ps bytes size (v : Nat → Nat → Int), 0 < size →
      ∀ c ∈ (scatterAcc p ps bytes size v).cells,
      (scatterAcc p ps bytes size v).lo ≤ c.1 ∧
      c.1 + size - 1 ≤ (scatterAcc p ps bytes size v).hi) := by
  have hcell : ∀ {bytes size i : Nat}, i < bytes / size → size * i + size ≤ bytes := by
    intro bytes size i h
    have h1 : size * (i + 1) ≤ size * (bytes / size) := Nat.mul_le_mul (Nat.le_refl _) h
    have h2 := Nat.mul_div_le bytes size
    rw [Nat.mul_add, Nat.mul_one] at h1
    omega
  refine ⟨fun dst bytes size v h0 c hc => ?_, fun dst bytes cols stride size v h0 hb c hc => ?_,
    fun p ps bytes size v h0 c hc => ?_⟩
  · simp only [acc1D, List.mem_map, List.mem_range] at hc ⊢
    obtain ⟨i, hi, rfl⟩ := hc
    have := hcell hi
    dsimp only
    omega
  · simp only [acc2D, List.mem_flatMap, List.mem_map, List.mem_range] at hc ⊢
    obtain ⟨j, hj, i, hi, rfl⟩ := hc
    have h1 := hcell hi
    have h2 : size * (j * (stride / size)) ≤ j * stride := by
      rw [Nat.mul_left_comm]
      exact Nat.mul_le_mul (Nat.le_refl _) (Nat.mul_div_le stride size)
    have h3 : (j + 1) * stride ≤ cols * stride := Nat.mul_le_mul hj (Nat.le_refl _)
    rw [Nat.add_mul, Nat.one_mul] at h3
    dsimp only
    rw [Nat.mul_add]
    omega
  · have hmin : ∀ (l : List Nat) (a : Nat), l.foldl (fun m q => min q m) a ≤ a ∧
        ∀ x ∈ l, l.foldl (fun m q => min q m) a ≤ x := by
      intro l
      induction l with
      | nil => intro a; exact ⟨Nat.le_refl _, fun x hx => absurd hx (by simp)⟩
      | cons y l ih =>
        intro a
        obtain ⟨h1, h2⟩ := ih (min y a)
        rw [List.foldl_cons]
        refine ⟨by omega, fun x hx => ?_⟩
        rcases List.mem_cons.1 hx with rfl | hx
        · omega
        · exact h2 x hx
    have hmax : ∀ (l : List Nat) (a : Nat), a ≤ l.foldl (fun m q => max q m) a ∧
        ∀ x ∈ l, x ≤ l.foldl (fun m q => max q m) a := by
      intro l
      induction l with
      | nil => intro a; exact ⟨Nat.le_refl _, fun x hx => absurd hx (by simp)⟩
      | cons y l ih =>
        intro a
        obtain ⟨h1, h2⟩ := ih (max y a)
        rw [List.foldl_cons]
        refine ⟨by omega, fun x hx => ?_⟩
        rcases List.mem_cons.1 hx with rfl | hx
        · omega
        · exact h2 x hx
    simp only [scatterAcc, List.mem_flatMap, List.mem_map, List.mem_range] at hc ⊢
    obtain ⟨j, hj, i, hi, rfl⟩ := hc
    have h1 := hcell hi
    have hm : (p :: ps).getD j 0 ∈ p :: ps := by
      rw [List.getD_eq_getElem?_getD, List.getElem?_eq_getElem hj]; exact List.getElem_mem hj
    have h2 := (hmin (p :: ps) p).2 _ hm
    have h3 := (hmax (p :: ps) p).2 _ hm
    dsimp only
    omega

/-- **C85, what the test misses.**  A range that goes, in cache lines, beyond an
entry of the table on both sides is never found to be in conflict with it. -/
theorem C85_missed {lo hi lo' hi' : Nat} (h1 : lo / 64 < lo' / 64) (h2 : hi' / 64 < hi / 64)
    (h3 : lo' ≤ hi') : conflicts (area lo hi) (area lo' hi') = false := by
  unfold conflicts area align
  simp only [Bool.or_eq_false_iff, Bool.and_eq_false_iff, decide_eq_false_iff_not]
  omega

/-- Process 0 adds 1 to the element at address 128, process 1 adds 10 to the
elements at 64, 128 and 192 (three columns). -/
private def lostProg : Nat → List Op
  | 0 => [acc1D 128 8 8 fun _ => 1]
  | _ => [acc2D 64 8 3 64 8 fun _ _ => 10]

/-- Process 0 gets its area and loads; process 1 does its whole accumulate;
process 0 stores. -/
private def lostSched : List Nat :=
  List.replicate 13 0 ++ List.replicate 20 1 ++ List.replicate 2 0

/-- **C85, an update that is lost.**  Two processes accumulate into one
element, both calls end, and the memory has only one of the two numbers. -/
theorem C85_lost_update : ∃ (prog : Nat → List Op) (sched : List Nat),
    c85InRange 2 prog ∧ Done 2 (exec 2 sched (start (fun _ => 0) prog)) ∧
    added 128 (everybody 2 fun p => (prog p).flatMap Op.cells) = 11 ∧
    (exec 2 sched (start (fun _ => 0) prog)).mem 128 = 1 := by
  refine ⟨lostProg, lostSched, ?_, ?_, by decide +kernel, by decide +kernel⟩
  · unfold c85InRange
    decide +kernel
  · unfold Done
    decide +kernel

/-! ### The hypotheses are met -/

set_option synthInstance.maxSize 1024 in
set_option synthInstance.maxHeartbeats 200000 in
/-- Three processes, overlapping ranges of different kinds. -/
example : ∃ prog : Nat → List Op, c85InRange 3 prog ∧ c85NoInside 3 prog ∧
    prog 0 = [acc1D 128 16 8 fun i => i, acc1D 64 8 8 fun _ => 5] ∧
    prog 1 = [acc2D 128 8 2 32 8 fun i j => i + j] ∧
    prog 2 = [scatterAcc 136 [128, 152] 8 8 fun _ _ => 7] := by
  refine ⟨fun | 0 => _ | 1 => _ | _ => _, ?_, ?_, rfl, rfl, rfl⟩
  · unfold c85InRange
    decide +kernel
  · unfold c85NoInside
    decide +kernel

/-- Two processes add to the same element; the ranges have the same length. -/
example : ∃ sched, Done 2 (exec 2 sched (start (fun _ => 3) fun p => [acc1D 128 8 8 fun _ => p + 1]))
    ∧ (exec 2 sched (start (fun _ => 3) fun p => [acc1D 128 8 8 fun _ => p + 1])).mem 128 = 6 := by
  refine ⟨List.replicate 5 0 ++ List.replicate 40 1 ++ List.replicate 10 0 ++
    List.replicate 40 1, ?_, by decide +kernel⟩
  unfold Done
  decide +kernel

example : 0 < 8 ∧ 24 ≤ 64 ∧ (acc2D 64 24 3 64 8 fun _ _ => 1).cells.length = 9 := by decide

example : (64 : Nat) / 64 < 128 / 64 ∧ (136 : Nat) / 64 < 256 / 64 ∧ 128 ≤ 136 := by decide

end GA
