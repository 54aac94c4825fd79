import Verif.Lemmas.Smp
import Verif.Spec.Gop

/-!
# C84: the broadcast through shared memory within a node

However the processes of a node are scheduled, access by access, all calls end
and give every process the bytes of the sender.
-/

namespace GA
open Smp Spec.Gop

variable {α : Type}

/-- The first two calls that send something have the same sender. -/
def c84Start (h : List Smp.Call) : Prop :=
  match h.filter (fun c => 0 < c.len) with
  | c :: c' :: _ => c.root = c'.root
  | _ => True

/-! ### The end of the schedule -/

private def pos (M n : Nat) : Pc → Nat
  | .begin => 0
  | .set => 1
  | .copy k => 2 + min k M
  | .wait i => M + 3 + 2 * min i (n + 1)
  | .full i => M + 4 + 2 * min i n
  | .last => M + 2 * n + 6

private def weight (M n N : Nat) (l : Loc) : Nat :=
  (N - l.rnd) * (M + 2 * n + 8) + (M + 2 * n + 8 - pos M n l.pc)

private def sumTo (f : Nat → Nat) : Nat → Nat
  | 0 => 0
  | n + 1 => sumTo f n + f n

private theorem sumTo_congr {f g : Nat → Nat} : ∀ n, (∀ q, q < n → g q = f q) →
    sumTo g n = sumTo f n
  | 0, _ => rfl
  | n + 1, h => by
      rw [sumTo, sumTo, sumTo_congr n fun q hq => h q (by omega), h n (by omega)]

private theorem sumTo_lt {f g : Nat → Nat} {p : Nat} (hg : ∀ q, q ≠ p → g q = f q)
    (hp : g p < f p) : ∀ n, p < n → sumTo g n < sumTo f n
  | 0, h => absurd h (by omega)
  | n + 1, h => by
      rw [sumTo, sumTo]
      by_cases e : p = n
      · subst e
        rw [sumTo_congr p fun q hq => hg q (by omega)]
        omega
      · have := sumTo_lt hg hp n (by omega)
        rw [hg n (fun x => e x.symm)]
        omega

private theorem weight_next {M n N : Nat} {l l' : Loc} (h1 : l'.rnd = l.rnd)
    (h2 : pos M n l.pc < pos M n l'.pc) (h3 : pos M n l'.pc ≤ M + 2 * n + 8) :
    weight M n N l' < weight M n N l := by
  unfold weight; rw [h1]; omega

private theorem weight_round {M n N : Nat} {l : Loc} (h : l.rnd < N) (hl : l.pc = .last) (b : Nat) :
    weight M n N ⟨l.rnd + 1, .begin, b⟩ < weight M n N l := by
  unfold weight
  rw [hl]
  simp only [pos]
  obtain ⟨d, hd⟩ : ∃ d, N - l.rnd = d + 1 := ⟨N - l.rnd - 1, by omega⟩
  rw [hd, show N - (l.rnd + 1) = d by omega, Nat.add_mul]
  omega

private theorem pos_le (M n : Nat) (pc : Pc) : pos M n pc ≤ M + 2 * n + 8 := by
  cases pc <;> simp only [pos] <;> omega

/-- Every step makes the weight of the process smaller. -/
private theorem step_weight {n M : Nat} {rs : List Round} (hM : ∀ R ∈ rs, R.len ≤ M) {p : Nat}
    {s s' : State α} (h : step n rs p s = some s') : p < n ∧ (∀ q, q ≠ p → s'.loc q = s.loc q) ∧
      weight M n rs.length (s'.loc p) < weight M n rs.length (s.loc p) := by
  unfold step at h
  have hp : p < n := by
    by_cases hp : p < n
    · exact hp
    · rw [if_neg hp] at h; exact absurd h (by simp)
  rw [if_pos hp] at h
  refine ⟨hp, ?_⟩
  cases hR : rs[(s.loc p).rnd]? with
  | none => rw [hR] at h; exact absurd h (by simp)
  | some R =>
    rw [hR] at h
    dsimp only at h
    have hlen := hM R (List.mem_of_getElem? hR)
    have hN := get_some hR
    split at h
    · simp only [rootStep] at h
      cases hpc : (s.loc p).pc <;> simp only [hpc] at h
      · split at h
        · obtain rfl := Option.some.inj h
          refine ⟨fun q hq => upd_ne _ _ hq, ?_⟩
          simp only [go, upd_eq]
          exact weight_next rfl (by rw [hpc]; simp only [pos]; omega) (pos_le _ _ _)
        · exact absurd h (by simp)
      · obtain rfl := Option.some.inj h
        refine ⟨fun q hq => upd_ne _ _ hq, ?_⟩
        simp only [go, upd_eq]
        exact weight_next rfl (by rw [hpc]; simp only [pos]; omega) (pos_le _ _ _)
      · split at h <;> obtain rfl := Option.some.inj h <;>
        · refine ⟨fun q hq => upd_ne _ _ hq, ?_⟩
          simp only [go, upd_eq]
          exact weight_next rfl (by rw [hpc]; simp only [pos]; omega) (pos_le _ _ _)
      · split at h
        · split at h
          · obtain rfl := Option.some.inj h
            refine ⟨fun q hq => upd_ne _ _ hq, ?_⟩
            simp only [go, upd_eq]
            exact weight_next rfl (by rw [hpc]; simp only [pos]; omega) (pos_le _ _ _)
          · split at h
            · obtain rfl := Option.some.inj h
              refine ⟨fun q hq => upd_ne _ _ hq, ?_⟩
              simp only [go, upd_eq]
              exact weight_next rfl (by rw [hpc]; simp only [pos]; omega) (pos_le _ _ _)
            · exact absurd h (by simp)
        · obtain rfl := Option.some.inj h
          refine ⟨fun q hq => upd_ne _ _ hq, ?_⟩
          simp only [go, upd_eq]
          exact weight_next rfl (by rw [hpc]; simp only [pos]; omega) (pos_le _ _ _)
      · obtain rfl := Option.some.inj h
        refine ⟨fun q hq => upd_ne _ _ hq, ?_⟩
        simp only [go, upd_eq]
        exact weight_next rfl (by rw [hpc]; simp only [pos]; omega) (pos_le _ _ _)
      · obtain rfl := Option.some.inj h
        refine ⟨fun q hq => upd_ne _ _ hq, ?_⟩
        simp only [go, upd_eq]
        exact weight_round hN hpc _
    · simp only [recvStep] at h
      cases hpc : (s.loc p).pc <;> simp only [hpc] at h
      · split at h
        · obtain rfl := Option.some.inj h
          refine ⟨fun q hq => upd_ne _ _ hq, ?_⟩
          simp only [go, upd_eq]
          exact weight_next rfl (by rw [hpc]; simp only [pos]; omega) (pos_le _ _ _)
        · exact absurd h (by simp)
      · exact absurd h (by simp)
      · split at h <;> obtain rfl := Option.some.inj h <;>
        · refine ⟨fun q hq => upd_ne _ _ hq, ?_⟩
          simp only [go, upd_eq]
          exact weight_next rfl (by rw [hpc]; simp only [pos]; omega) (pos_le _ _ _)
      · exact absurd h (by simp)
      · exact absurd h (by simp)
      · obtain rfl := Option.some.inj h
        refine ⟨fun q hq => upd_ne _ _ hq, ?_⟩
        simp only [go, upd_eq]
        exact weight_round hN hpc _

private theorem exec_append (n : Nat) (rs : List Round) (l l' : List Nat) (s : State α) :
    exec n rs (l ++ l') s = exec n rs l' (exec n rs l s) := by
  induction l generalizing s with
  | nil => rfl
  | cons p l ih => exact ih _

private theorem exec_inv {n : Nat} {rs : List Round} {E : Nat → Nat → Nat → α} (ok : Ok n rs E) :
    ∀ (l : List Nat) (s : State α), Inv n rs E s → Inv n rs E (exec n rs l s)
  | [], _, h => h
  | p :: l, s, h => by
      rw [exec]
      refine exec_inv ok l _ ?_
      cases hs : step n rs p s with
      | none => exact h
      | some s' => exact inv_step ok h hs

private theorem finish {n M : Nat} {rs : List Round} {E : Nat → Nat → Nat → α} (ok : Ok n rs E)
    (hM : ∀ R ∈ rs, R.len ≤ M) : ∀ (w : Nat) (s : State α),
    sumTo (fun p => weight M n rs.length (s.loc p)) n < w → Inv n rs E s →
    ∃ more, Done n rs (exec n rs more s)
  | 0, _, h, _ => absurd h (by omega)
  | w + 1, s, h, hi => by
      by_cases hs : ∀ p, step n rs p s = none
      · exact ⟨[], (inv_progress ok hi hs).1⟩
      · obtain ⟨p, hp⟩ := Classical.not_forall.mp hs
        cases hs' : step n rs p s with
        | none => exact absurd hs' hp
        | some s' =>
          obtain ⟨hpn, hq, hw⟩ := step_weight hM hs'
          have hlt := sumTo_lt (p := p) (f := fun p => weight M n rs.length (s.loc p))
            (g := fun p => weight M n rs.length (s'.loc p))
            (fun q hqp => by rw [hq q hqp]) hw n hpn
          obtain ⟨more, hm⟩ := finish ok hM w s' (by omega) (inv_step ok hi hs')
          exact ⟨p :: more, by rw [exec, hs']; exact hm⟩

private theorem bound : ∀ rs : List Round, ∃ M, ∀ R ∈ rs, R.len ≤ M
  | [] => ⟨0, fun R h => absurd h (by simp)⟩
  | R :: rs => by
      obtain ⟨M, hM⟩ := bound rs
      refine ⟨max M R.len, fun R' h => ?_⟩
      rcases List.mem_cons.mp h with rfl | h
      · omega
      · have := hM R' h
        omega

/-! ### The turns of the calls -/

private def eff (n : Nat) (y : Nat → Nat → α) (R : Round) : Nat → Nat → α :=
  fun i => if i < n then part R R.len y i else y i

private theorem bufSize_pos (n : Nat) : 0 < bufSize n := by unfold bufSize; split <;> omega

private theorem pieces_root {B root : Nat} : ∀ (fuel off m : Nat), ∀ R ∈ pieces B root fuel off m,
    R.root = root
  | 0, _, _, R, h => absurd h (by simp [pieces])
  | fuel + 1, off, m, R, h => by
      rw [pieces] at h
      generalize hd : (if m ≤ B then m else B) = ndo at h
      split at h
      · exact absurd h (by simp)
      · rcases List.mem_cons.mp h with rfl | h
        · rfl
        · exact pieces_root fuel _ _ R h

private theorem pieces_fold {n B root : Nat} (hB : 0 < B) (hr : root < n) :
    ∀ (fuel off m : Nat), m ≤ fuel →
    ∀ y : Nat → Nat → α, (pieces B root fuel off m).foldl (eff n) y =
      fun i k => if i < n ∧ off ≤ k ∧ k < off + m then y root k else y i k
  | 0, off, m, h, y => by
      funext i k
      rw [if_neg (by omega)]; rfl
  | fuel + 1, off, m, h, y => by
      rw [pieces]
      generalize hd : (if m ≤ B then m else B) = ndo
      split
      · funext i k
        have : m = 0 := by split at hd <;> omega
        rw [if_neg (by omega)]; rfl
      · have hn : ndo ≤ m := by split at hd <;> omega
        rw [List.foldl_cons, pieces_fold hB hr fuel _ _ (by omega)]
        funext i k
        simp only [eff, part, if_pos hr]
        by_cases hi : i < n
        · simp only [hi, true_and, if_true, part]
          by_cases h1 : off ≤ k ∧ k < off + m
          · rw [if_pos h1]
            by_cases h2 : off ≤ k ∧ k < off + ndo
            · rw [if_pos h2]
              split <;> rfl
            · rw [if_neg h2, if_pos (by omega)]
          · rw [if_neg h1, if_neg (by omega), if_neg (by omega)]
        · simp only [hi, false_and, if_false]

private theorem rounds_fold {n : Nat} (hn : ¬ n < 2) : ∀ (h : List Smp.Call),
    (∀ c ∈ h, c.root < n) → ∀ y : Nat → Nat → α, (rounds n h).foldl (eff n) y =
      h.foldl (fun y c => bcastAll n c.len c.root y) y
  | [], _, y => by simp [rounds]
  | c :: h, hr, y => by
      have ih := rounds_fold hn h (fun c hc => hr c (by simp [hc]))
      simp only [rounds, if_neg hn] at ih ⊢
      rw [List.flatMap_cons, List.foldl_append, ih, List.foldl_cons,
        pieces_fold (bufSize_pos _) (hr c (by simp)) c.len 0 c.len (Nat.le_refl _)]
      congr 1
      funext i k
      simp only [bcastAll, Nat.zero_le, true_and, Nat.zero_add]

private theorem pieces_zero (B root fuel off : Nat) : pieces B root fuel off 0 = [] := by
  cases fuel <;> simp [pieces]

private theorem pieces_cons {B root fuel off m : Nat} (hB : 0 < B) (hm : 0 < m) (hf : m ≤ fuel) :
    ∃ R l, pieces B root fuel off m = R :: l := by
  obtain ⟨f, rfl⟩ : ∃ f, fuel = f + 1 := ⟨fuel - 1, by omega⟩
  rw [pieces]
  rw [if_neg (by split <;> omega)]
  exact ⟨_, _, rfl⟩

private theorem rounds_filter (n : Nat) (h : List Smp.Call) :
    rounds n h = rounds n (h.filter fun c => 0 < c.len) := by
  unfold rounds
  split
  · rfl
  · induction h with
    | nil => rfl
    | cons c h ih =>
      rw [List.flatMap_cons, ih, List.filter_cons]
      by_cases hc : 0 < c.len
      · simp only [hc, decide_true, if_true, List.flatMap_cons]
      · simp only [hc, decide_false, Bool.false_eq_true, if_false]
        rw [show c.len = 0 by omega, pieces_zero]; rfl

private theorem rounds_same {n : Nat} {h : List Smp.Call} (hs : c84Start h) (R R' : Round)
    (h0 : (rounds n h)[0]? = some R) (h1 : (rounds n h)[1]? = some R') : R.root = R'.root := by
  rw [rounds_filter] at h0 h1
  unfold c84Start at hs
  have hpos : ∀ c ∈ h.filter (fun c => 0 < c.len), 0 < c.len := fun c hc => by
    simpa using (List.mem_filter.mp hc).2
  generalize h.filter (fun c => decide (0 < c.len)) = g at *
  unfold rounds at h0 h1
  split at h0
  · exact absurd h0 (by simp)
  · cases g with
    | nil => exact absurd h0 (by simp)
    | cons c g =>
      rename_i hn
      rw [if_neg hn] at h1
      have hc := hpos c (by simp)
      obtain ⟨A, l, hA⟩ := pieces_cons (root := c.root) (off := 0) (bufSize_pos c.len) hc
        (Nat.le_refl _)
      have hroot := pieces_root (B := bufSize c.len) (root := c.root) c.len 0 c.len
      rw [hA] at hroot
      rw [List.flatMap_cons, hA] at h0 h1
      simp only [List.cons_append, List.getElem?_cons_zero, Option.some.injEq] at h0
      simp only [List.cons_append, List.getElem?_cons_succ] at h1
      cases l with
      | cons A' l =>
        simp only [List.cons_append, List.getElem?_cons_zero, Option.some.injEq] at h1
        rw [← h0, ← h1, hroot A (by simp), hroot A' (by simp)]
      | nil =>
        cases g with
        | nil => exact absurd h1 (by simp)
        | cons c' g =>
          obtain ⟨A', l', hA'⟩ := pieces_cons (root := c'.root) (off := 0) (bufSize_pos c'.len)
            (hpos c' (by simp)) (Nat.le_refl _)
          have hroot' := pieces_root (B := bufSize c'.len) (root := c'.root) c'.len 0 c'.len
          rw [hA'] at hroot'
          rw [List.nil_append, List.flatMap_cons, hA'] at h1
          simp only [List.cons_append, List.getElem?_cons_zero, Option.some.injEq] at h1
          rw [← h0, ← h1, hroot A (by simp), hroot' A' (by simp)]
          exact hs

private theorem rounds_root {n : Nat} {h : List Smp.Call} (hr : ∀ c ∈ h, c.root < n) (t : Nat)
    (R : Round) (hR : (rounds n h)[t]? = some R) : R.root < n := by
  have hm := List.mem_of_getElem? hR
  unfold rounds at hm
  split at hm
  · exact absurd hm (by simp)
  · obtain ⟨c, hc, hcR⟩ := List.mem_flatMap.mp hm
    rw [pieces_root _ _ _ R hcR]; exact hr c hc

private theorem single_fold {n : Nat} (hn : n < 2) : ∀ (h : List Smp.Call),
    (∀ c ∈ h, c.root < n) → ∀ y : Nat → Nat → α,
      h.foldl (fun y c => bcastAll n c.len c.root y) y = y
  | [], _, y => rfl
  | c :: h, hr, y => by
      rw [List.foldl_cons, single_fold hn h (fun c hc => hr c (by simp [hc]))]
      have := hr c (by simp)
      funext i k
      unfold bcastAll
      split
      · rw [show c.root = i by omega]
      · rfl

private theorem ok_rounds {n : Nat} {h : List Smp.Call} (hs : c84Start h)
    (hr : ∀ c ∈ h, c.root < n) (x : Nat → Nat → α) :
    Ok n (rounds n h) (fun t => ((rounds n h).take t).foldl (eff n) x) where
  root := rounds_root hr
  same := rounds_same hs
  next := fun t R hR i hi => by
    rw [List.take_add_one, hR, Option.toList_some, List.foldl_append, List.foldl_cons,
      List.foldl_nil]
    simp only [eff, if_pos hi]

/-- C84 (partial: the first two calls have the same sender, see
`C84_deadlock`): for any number of processes on the node and any calls, of any
lengths and from any senders after that, whatever the schedule,
* from every state that can be reached all processes can finish, and a state
  in which no process can move is one in which all have finished;
* when all have finished, every memory is that of the broadcasts one after the
  other. -/
theorem C84_smp_bcast_partial (n : Nat) (h : List Smp.Call) (hr : ∀ c ∈ h, c.root < n)
    (hs : c84Start h) (arr x : Nat → Nat → α) (sched : List Nat) :
    (∃ more, Done n (rounds n h) (exec n (rounds n h) (sched ++ more) (start arr x))) ∧
    ((∀ p, step n (rounds n h) p (exec n (rounds n h) sched (start arr x)) = none) →
      Done n (rounds n h) (exec n (rounds n h) sched (start arr x))) ∧
    (Done n (rounds n h) (exec n (rounds n h) sched (start arr x)) →
      ∀ p, p < n → (exec n (rounds n h) sched (start arr x)).x p =
        h.foldl (fun y c => bcastAll n c.len c.root y) x p) := by
  have ok := ok_rounds hs hr x
  obtain ⟨M, hM⟩ := bound (rounds n h)
  have hi := exec_inv ok sched _ (inv_start ok arr x rfl)
  refine ⟨?_, fun hst => (inv_progress ok hi hst).1, fun hd p hp => ?_⟩
  · obtain ⟨more, hm⟩ := finish ok hM _ _ (Nat.lt_succ_self _) hi
    exact ⟨more, by rw [exec_append]; exact hm⟩
  · have hst : ∀ p, step n (rounds n h) p (exec n (rounds n h) sched (start arr x)) = none := by
      intro q
      unfold step
      split
      · rename_i hq
        rw [hd q hq, List.getElem?_eq_none (Nat.le_refl _)]
      · rfl
    rw [(inv_progress ok hi hst).2 p hp]
    rw [List.take_length]
    by_cases hn : n < 2
    · rw [single_fold hn h hr]
      unfold rounds
      rw [if_pos hn]; rfl
    · rw [rounds_fold hn h hr]

/-- The hypotheses can be met: four processes, two broadcasts from process 0,
the second of 100000 bytes, then one from process 2. -/
example : (∀ c ∈ ([⟨8, 0⟩, ⟨0, 3⟩, ⟨100000, 0⟩, ⟨40, 2⟩] : List Smp.Call), c.root < 4) ∧
    c84Start [⟨8, 0⟩, ⟨0, 3⟩, ⟨100000, 0⟩, ⟨40, 2⟩] := by
  constructor
  · decide
  · exact rfl

/-- The pieces fit into the buffer, and two pieces are used as soon as the
length is more than half of it. -/
theorem C84_pieces_fit (n : Nat) (h : List Smp.Call) : ∀ R ∈ rounds n h, 0 < R.len ∧ R.len ≤ 65536 := by
  have hp : ∀ B root, B ≤ 65536 → ∀ fuel off m, ∀ R ∈ pieces B root fuel off m,
      0 < R.len ∧ R.len ≤ 65536 := by
    intro B root hB fuel
    induction fuel with
    | zero => intro off m R h; exact absurd h (by simp [pieces])
    | succ f ih =>
      intro off m R h
      rw [pieces] at h
      generalize hd : (if m ≤ B then m else B) = ndo at h
      split at h
      · exact absurd h (by simp)
      · rcases List.mem_cons.mp h with rfl | h
        · rename_i h0
          dsimp only
          split at hd <;> omega
        · exact ih _ _ R h
  intro R hR
  unfold rounds at hR
  split at hR
  · exact absurd hR (by simp)
  · obtain ⟨c, -, hc⟩ := List.mem_flatMap.mp hR
    refine hp _ _ ?_ _ _ _ R hc
    unfold bufSize
    split <;> omega

example : (rounds 4 [⟨40000, 0⟩]).map Round.len = [20000, 20000] := by decide +kernel

/-- The disagreement: if the first broadcast after the start is sent by
process 0 and the second by process 1, with three processes, the two senders
can tell process 2 at the same time: one of the signs is lost, and process 2
waits for ever. -/
theorem C84_deadlock : ∃ sched : List Nat,
    (∀ p, step 3 (rounds 3 [⟨1, 0⟩, ⟨1, 1⟩]) p
      (exec 3 (rounds 3 [⟨1, 0⟩, ⟨1, 1⟩]) sched (start (fun _ _ => 0) fun p _ => p)) = none) ∧
    ¬ Done 3 (rounds 3 [⟨1, 0⟩, ⟨1, 1⟩])
      (exec 3 (rounds 3 [⟨1, 0⟩, ⟨1, 1⟩]) sched (start (fun _ _ => 0) fun p _ => p)) := by
  refine ⟨List.replicate 8 0 ++ List.replicate 4 1 ++ List.replicate 8 1 ++ List.replicate 20 1 ++
    List.replicate 20 0 ++ List.replicate 20 2, ?_, ?_⟩
  · intro p
    by_cases h0 : p = 0
    · subst h0; decide +kernel
    · by_cases h1 : p = 1
      · subst h1; decide +kernel
      · by_cases h2 : p = 2
        · subst h2; decide +kernel
        · unfold step
          rw [if_neg (by omega)]
  · intro h
    exact absurd (h 2 (by omega)) (by decide +kernel)

end GA
