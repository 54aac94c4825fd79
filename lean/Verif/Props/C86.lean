import Verif.Lemmas.SmpReduce
import Verif.Spec.Reduce

/-!
# C86: the reduction through shared memory within a node

However the processes of a node are scheduled, access by access, all calls end
and the first process has the numbers of all processes combined.
-/

namespace GA
open SmpReduce Spec.Gop Spec.Reduce

variable {α : Type}

/-- The types have four or eight bytes, the operation is commutative and
associative. -/
def c86Legal (c : SmpReduce.Call α) : Prop :=
  (c.size = 4 ∨ c.size = 8) ∧ (∀ a b, c.op a b = c.op b a) ∧
    ∀ a b d, c.op (c.op a b) d = c.op a (c.op b d)

/-- The turns of a schedule that are not lost. -/
def c86Moves (n : Nat) (R : List (SmpReduce.Round α)) :
    List (Nat × Bool) → SmpReduce.State α → Nat
  | [], _ => 0
  | p :: l, s =>
      match step n R p.1 p.2 s with
      | none => c86Moves n R l s
      | some s' => 1 + c86Moves n R l s'

private theorem pieces_op {op : α → α → α} {B : Nat} : ∀ {fuel off n : Nat} {rd : Round α},
    rd ∈ pieces op B fuel off n → rd.op = op ∧ rd.len ≤ B
  | 0, _, _, _, h => absurd h (by simp [pieces])
  | fuel + 1, off, n, rd, h => by
      simp only [pieces] at h
      generalize hd : (if n ≤ B then n else B) = ndo at h
      split at h
      · exact absurd h (by simp)
      · rcases List.mem_cons.1 h with rfl | h
        · exact ⟨rfl, by dsimp only; split at hd <;> omega⟩
        · exact pieces_op h

private theorem rounds_op {n : Nat} {h : List (Call α)} (hl : ∀ c ∈ h, c86Legal c) :
    ∀ rd ∈ rounds n h, (∀ a b, rd.op a b = rd.op b a) ∧
      ∀ a b c, rd.op (rd.op a b) c = rd.op a (rd.op b c) := by
  intro rd hrd
  unfold rounds at hrd
  split at hrd
  · exact absurd hrd (by simp)
  · obtain ⟨c, hc, hr⟩ := List.mem_flatMap.1 hrd
    rw [(pieces_op hr).1]
    exact (hl c hc).2

private theorem pieces_eff {op : α → α → α} (hc : ∀ a b, op a b = op b a)
    (ha : ∀ a b c, op (op a b) c = op a (op b c)) {B : Nat} (hB : 0 < B) {N : Nat} (hN : 0 < N) :
    ∀ (fuel off n : Nat) (x : Nat → Nat → α), n ≤ fuel →
      (pieces op B fuel off n).foldl (fun m rd => eff N rd m) x = reduceAll op N off n x
  | 0, off, n, x, h => by
      funext p k
      unfold reduceAll
      rw [if_neg (by omega)]
      rfl
  | fuel + 1, off, n, x, h => by
      simp only [pieces]
      generalize hd : (if n ≤ B then n else B) = ndo
      have hnd : ndo = min n B := by split at hd <;> omega
      split
      · rename_i h0
        funext p k
        unfold reduceAll
        rw [if_neg (by omega)]
        rfl
      · rename_i h0
        rw [List.foldl_cons, pieces_eff hc ha hB hN fuel (off + ndo) (n - ndo) _ (by omega)]
        have hroot : ∀ d : Nat → α, sub op N d N 0 = combine op d (N - 1) := fun d => by
          obtain ⟨M, rfl⟩ : ∃ M, N = M + 1 := ⟨N - 1, by omega⟩
          exact sub_root op hc ha M d
        funext p k
        unfold reduceAll
        by_cases h1 : p = 0 ∧ off + ndo ≤ k ∧ k < off + ndo + (n - ndo)
        · rw [if_pos h1, if_pos (by omega)]
          congr 1
          funext q
          unfold eff
          dsimp only
          rw [if_neg (by omega)]
        · rw [if_neg h1]
          unfold eff
          dsimp only
          by_cases h2 : p = 0 ∧ off ≤ k ∧ k < off + ndo
          · rw [if_pos h2, if_pos (by omega), hroot]
          · rw [if_neg h2, if_neg (by omega)]

private theorem reduce_one (op : α → α → α) (off n : Nat) (x : Nat → Nat → α) :
    reduceAll op 1 off n x = x := by
  funext p k
  unfold reduceAll
  split
  · rename_i h; rw [h.1]; rfl
  · rfl

private theorem rounds_eff {n : Nat} (hn : 0 < n) : ∀ (h : List (Call α)) (x : Nat → Nat → α),
    (∀ c ∈ h, c86Legal c) → (rounds n h).foldl (fun m rd => eff n rd m) x =
      h.foldl (fun x c => reduceAll c.op n c.off c.n x) x := by
  intro h
  unfold rounds
  by_cases h2 : n < 2
  · have : n = 1 := by omega
    subst this
    rw [if_pos h2]
    induction h with
    | nil => intro x _; rfl
    | cons c h ih =>
      intro x hl
      rw [List.foldl_cons, reduce_one]
      exact ih x fun d hd => hl d (by simp [hd])
  · rw [if_neg h2]
    induction h with
    | nil => intro x _; rfl
    | cons c h ih =>
      intro x hl
      obtain ⟨hs, hc, ha⟩ := hl c (by simp)
      have hB : 0 < 8192 * (8 / c.size) := by rcases hs with e | e <;> rw [e] <;> decide
      rw [List.flatMap_cons, List.foldl_append, List.foldl_cons,
        pieces_eff hc ha hB hn c.n c.off c.n x (Nat.le_refl _)]
      exact ih _ fun d hd => hl d (by simp [hd])

/-- **C86.**  Any number of processes on the node, any history of reductions,
any array elements, buffers and schedule: nobody waits for ever; and when all
calls have ended the first process has, in the elements of each call, the
numbers of all processes combined, and nothing else has changed. -/
theorem C86_smp_reduce {n : Nat} (hn : 0 < n) (h : List (SmpReduce.Call α))
    (hl : ∀ c ∈ h, c86Legal c) (buf x : Nat → Nat → α) (sched : List (Nat × Bool)) :
    let R := rounds n h
    let s := exec n R sched (start buf x)
    (∃ more, Done n R (exec n R (sched ++ more) (start buf x))) ∧
    ((∀ p side, step n R p side s = none) → Done n R s) ∧
    (Done n R s → s.x = h.foldl (fun x c => reduceAll c.op n c.off c.n x) x) := by
  dsimp only
  have hop := rounds_op (n := n) hl
  have hn2 : rounds n h ≠ [] → 2 ≤ n := by
    intro e
    unfold rounds at e
    split at e
    · exact absurd rfl e
    · omega
  have hinv := inv_exec hop hn2 sched (inv_start n (rounds n h) buf x)
  generalize hs : exec n (rounds n h) sched (start buf x) = s at hinv ⊢
  refine ⟨?_, inv_stuck hinv, fun hd => ?_⟩
  · obtain ⟨l, hl'⟩ := finish hop hn2 _ s (Nat.le_refl _) hinv
    exact ⟨l, by rw [exec_append, hs]; exact hl'⟩
  · rw [← rounds_eff hn h x hl]
    funext p
    by_cases hp : p < n
    · have ho := hinv.own p hp
      unfold Own at ho
      rw [hd p hp, List.getElem?_eq_none (Nat.le_refl _)] at ho
      rw [ho.2, after, List.take_length]
    · rw [hinv.out p (by omega), foldl_eff_other n _ _ p (by omega)]

/-- **C86, the end.**  The number of turns of a schedule that are not lost is
bounded: no execution goes on for ever. -/
theorem C86_bounded (n : Nat) (R : List (SmpReduce.Round α)) (buf x : Nat → Nat → α)
    (sched : List (Nat × Bool)) :
    c86Moves n R sched (start buf x) ≤ n * (R.map fun rd => 2 * rd.len + 9).sum := by
  have key : ∀ (l : List (Nat × Bool)) (s : SmpReduce.State α),
      c86Moves n R l s ≤ totalN (fun q => work R (s.loc q)) n := by
    intro l
    induction l with
    | nil => intro s; exact Nat.zero_le _
    | cons p l ih =>
      intro s
      rw [c86Moves]
      cases hs : step n R p.1 p.2 s with
      | none => exact ih s
      | some s' =>
        have h1 := step_total hs
        have h2 := ih s'
        dsimp only
        omega
  refine Nat.le_trans (key sched _) ?_
  have hw : ∀ m, totalN (fun q => work R ((start buf x).loc q)) m =
      m * (R.map fun rd => 2 * rd.len + 9).sum := by
    intro m
    induction m with
    | zero => simp [totalN]
    | succ m ih =>
      rw [totalN, ih, Nat.succ_mul]
      congr 1
      change work R ⟨0, .wait⟩ = _
      rw [work_wait, rest, List.drop_zero]
      rfl
  rw [hw]
  exact Nat.le_refl _

/-- **C86, the buffers.**  The pieces of a call fit into the buffers of 65536
bytes. -/
theorem C86_pieces_fit {n : Nat} {c : SmpReduce.Call α} (hs : c.size = 4 ∨ c.size = 8)
    {rd : SmpReduce.Round α} (h : rd ∈ rounds n [c]) : rd.len * c.size ≤ 65536 := by
  unfold rounds at h
  split at h
  · exact absurd h (by simp)
  · obtain ⟨c', hc, hr⟩ := List.mem_flatMap.1 h
    obtain rfl := List.mem_singleton.1 hc
    have := (pieces_op hr).2
    rcases hs with e | e <;> rw [e] at this ⊢ <;> omega

/-! ### The hypotheses are met -/

private def c86Hist : List (SmpReduce.Call Int) :=
  [⟨0, 2, 8, fun a b => a + b⟩, ⟨1, 20000, 4, max⟩]

example : (∀ c ∈ c86Hist, c86Legal c) ∧ 0 < 5 ∧ (rounds 5 c86Hist).length = 3 ∧
    (rounds 5 c86Hist).map (fun r => (r.off, r.len)) = [(0, 2), (1, 16384), (16385, 3616)] := by
  refine ⟨fun c hc => ?_, by decide, by decide +kernel, by decide +kernel⟩
  simp only [c86Hist, List.mem_cons, List.not_mem_nil, or_false] at hc
  rcases hc with rfl | rfl
  · exact ⟨Or.inr rfl, fun a b => Int.add_comm a b, fun a b d => Int.add_assoc a b d⟩
  · exact ⟨Or.inl rfl, fun a b => Int.max_comm a b, fun a b d => Int.max_assoc a b d⟩

/-- Four processes, two calls, the right child before the left one. -/
example : ∃ sched, Done 4 (rounds 4 [⟨0, 1, 8, fun a b => a + b⟩, ⟨0, 1, 8, fun a b => a * b⟩])
      (exec 4 (rounds 4 [⟨0, 1, 8, fun a b => a + b⟩, ⟨0, 1, 8, fun a b => a * b⟩]) sched
        (start (fun _ _ => 0) (fun p _ => (p : Int) + 1))) ∧
    (exec 4 (rounds 4 [⟨0, 1, 8, fun a b => a + b⟩, ⟨0, 1, 8, fun a b => a * b⟩]) sched
        (start (fun _ _ => 0) (fun p _ => (p : Int) + 1))).x 0 0 = 240 := by
  refine ⟨(List.replicate 30 [(2, true), (3, true), (0, true), (1, false), (0, false)]).flatten,
    ?_, by decide +kernel⟩
  unfold Done
  decide +kernel

end GA
