import Verif.Lemmas.GhostInv

/-!
# The ghost cell update as a whole
-/

namespace GA.Ghost
open Spec Model

variable {A : RegArray} {V : Type} [Inhabited V]

/-! ## rounds -/

/-- numbers of the rounds: `2*idx` and `2*idx+1` for every dimension with ghost cells -/
def rounds (A : RegArray) : (k idx : Nat) → List Nat
  | 0, _ => []
  | k + 1, idx =>
    if A.width.getD idx 0 ≠ 0 then 2 * idx :: (2 * idx + 1) :: rounds A k (idx + 1)
    else rounds A k (idx + 1)

theorem mem_rounds {k idx r : Nat} : r ∈ rounds A k idx ↔
    (idx ≤ r / 2 ∧ r / 2 < idx + k) ∧ A.width.getD (r / 2) 0 ≠ 0 := by
  induction k generalizing idx with
  | zero => simp only [rounds, List.not_mem_nil, false_iff]; omega
  | succ k ih =>
    simp only [rounds]
    by_cases h : A.width.getD idx 0 ≠ 0
    · rw [if_pos h, List.mem_cons, List.mem_cons, ih]
      constructor
      · rintro (rfl | rfl | h')
        · rw [show 2 * idx / 2 = idx by omega]; exact ⟨by omega, h⟩
        · rw [show (2 * idx + 1) / 2 = idx by omega]; exact ⟨by omega, h⟩
        · exact ⟨by omega, h'.2⟩
      · rintro ⟨h1, h2⟩
        by_cases e : r / 2 = idx
        · omega
        · right; right; exact ⟨by omega, h2⟩
    · rw [if_neg h, ih]
      constructor
      · rintro ⟨h1, h2⟩; exact ⟨by omega, h2⟩
      · rintro ⟨h1, h2⟩
        by_cases e : r / 2 = idx
        · rw [e] at h2; exact absurd h2 h
        · exact ⟨by omega, h2⟩

theorem rounds_sorted (k idx : Nat) : (rounds A k idx).Pairwise (· < ·) := by
  induction k generalizing idx with
  | zero => simp [rounds]
  | succ k ih =>
    simp only [rounds]
    split
    · rw [List.pairwise_cons, List.pairwise_cons]
      refine ⟨?_, ?_, ih (idx + 1)⟩
      · intro b hb
        rcases List.mem_cons.1 hb with rfl | hb
        · omega
        · have := (mem_rounds.1 hb).1; omega
      · intro b hb
        have := (mem_rounds.1 hb).1; omega
    · exact ih (idx + 1)

def ridx (r : Nat) : Nat := r / 2
def rpos (r : Nat) : Bool := decide (r % 2 = 1)

theorem kap_r (r : Nat) : kap (ridx r) (rpos r) = r := by
  unfold kap ridx rpos
  by_cases h : r % 2 = 1 <;> simp only [h, decide_true, decide_false, if_true, Bool.false_eq_true, if_false] <;> omega

section rr
variable (hA : ArrOK A) (hW : WideC A)
include hA hW

theorem planLoop_eq {cand : List Int → List Nat} (hcand : ∀ x, CandOK A.nblock (cand x))
    {c : List Nat} (hc : CoordOK A.nblock c) (flag : Bool) {k idx : Nat} (h : idx + k ≤ A.dims.length) :
    planLoop A flag cand (undigits A.nblock c) k idx =
      some ((rounds A k idx).map fun r => msgOf A flag (ridx r) (rpos r) c) := by
  induction k generalizing idx with
  | zero => simp [planLoop, rounds]
  | succ k ih =>
    simp only [planLoop, rounds]
    by_cases hw : A.width.getD idx 0 ≠ 0
    · rw [if_pos hw, if_pos hw, roundMsg_eq hA hW hcand hc flag false (by omega) hw,
        roundMsg_eq hA hW hcand hc flag true (by omega) hw, ih (by omega)]
      simp only [List.map_cons]
      have e1 : ridx (2 * idx) = idx ∧ rpos (2 * idx) = false := by
        unfold ridx rpos; refine ⟨by omega, by simp⟩
      have e2 : ridx (2 * idx + 1) = idx ∧ rpos (2 * idx + 1) = true := by
        unfold ridx rpos; refine ⟨by omega, by simp⟩
      rw [e1.1, e1.2, e2.1, e2.2]
    · rw [if_neg hw, if_neg hw, ih (by omega)]

/-! ## the synchronous execution -/

theorem setInfo_len {c : List Nat} (hc : CoordOK A.nblock c) :
    ((List.range A.dims.length).any fun i => decide ((owns A (undigits A.nblock c : Nat)).1.getD i 0 = 0 ∧
      (owns A (undigits A.nblock c : Nat)).2.getD i 0 = -1)) = false := by
  rw [List.any_eq_false]
  intro i hi
  have hi := List.mem_range.1 hi
  rw [(owns_bl hc i).1]
  have := (bl_first hA hc hi).1
  simp only [decide_eq_true_eq, not_and]
  intro h; omega

theorem checkDistr_wide : checkDistr A.nblock A.dims A.mapc A.width = true := by
  -- block extents per axis
  have hax : ∀ d, d < A.dims.length → ∀ j, j < A.nblock.getD d 0 →
      (A.width.getD d 0 : Int) ≤ (if j = A.nblock.getD d 0 - 1 then A.dims.getD d 0
        else (axis A.nblock A.mapc d).getD (j + 1) 0 - 1) - (axis A.nblock A.mapc d).getD j 0 + 1 := by
    intro d hd j hj
    have hl := nlen hA
    have h0 : CoordOK A.nblock ((A.nblock.map fun _ => 0).set d j) := by
      rw [coordOK_iff]
      refine ⟨by simp, ?_⟩
      intro i hi
      rw [getD_set (by simp; omega)]
      by_cases e : i = d
      · subst e; simpa using hj
      · rw [if_neg e]
        have h1 := (axis_ok hA.map (d := i) hi).1
        have : (A.nblock.map fun _ => 0).getD i 0 = 0 := by
          simp only [List.getD_eq_getElem?_getD, List.getElem?_map]
          cases A.nblock[i]? <;> rfl
        rw [this]; exact h1
    have := hW _ h0 d hd
    unfold bl bh wd at this
    rw [coordLo_getD hA.map h0 (by omega), coordHi_getD hA.map h0 (by omega),
      getD_set (by simp; omega), if_pos rfl] at this
    exact this.2
  have hlen := hA.map.length
  have hwl := hA.width
  have hmap := hA.map
  clear hA hW
  generalize A.nblock = ns at *
  generalize A.dims = ds at *
  generalize A.mapc = m at *
  generalize A.width = w at *
  induction ns generalizing ds m w with
  | nil => simp [checkDistr]
  | cons n ns ih =>
    match ds, w, hlen, hwl, hmap with
    | d :: ds, w :: ws, hlen, hwl, hmap =>
      simp only [checkDistr, Bool.and_eq_true]
      constructor
      · have h0 := hax 0 (by simp)
        simp only [List.getD_cons_zero, axis] at h0
        -- along the axis
        have : ∀ k m', k ≤ n → (∀ j, j < k → (w : Int) ≤ (if j = k - 1 then d else m'.getD (j + 1) 0 - 1)
            - m'.getD j 0 + 1) → checkAxis k m' d w = true := by
          intro k
          induction k with
          | zero => intros; rfl
          | succ k ihk =>
            intro m' hk hj
            simp only [checkAxis, Bool.and_eq_true]
            constructor
            · have := hj 0 (by omega)
              by_cases hk0 : 0 < k
              · rw [if_neg (by omega)] at this
                simp only [hk0, if_true, Bool.not_eq_true', decide_eq_false_iff_not]
                simp only [Nat.zero_add] at this
                omega
              · rw [if_pos (by omega)] at this
                simp only [hk0, if_false, Bool.not_eq_true', decide_eq_false_iff_not]
                omega
            · apply ihk _ (by omega)
              intro j hjk
              have := hj (j + 1) (by omega)
              have e : ∀ t, (m'.drop 1).getD t 0 = m'.getD (t + 1) 0 := by
                intro t; simp [List.getD_eq_getElem?_getD, Nat.add_comm]
              rw [e, e]
              by_cases hc : j = k - 1
              · rw [if_pos hc]; rw [if_pos (by omega)] at this; exact this
              · rw [if_neg hc]; rw [if_neg (by omega)] at this; exact this
        exact this n m (le_refl _) (fun j hj => by
          have := h0 j hj
          simpa using this)
      · refine ih ds (by simpa using hlen) (m.drop n) hmap.2 ws (by simpa using hwl) ?_
        intro d' hd' j hj
        have := hax (d' + 1) (by simpa using hd') j (by simpa using hj)
        simpa [axis] using this

theorem setInfo_eq {cand : List Int → List Nat} (hcand : ∀ x, CandOK A.nblock (cand x))
    {c : List Nat} (hc : CoordOK A.nblock c) (flag : Bool) (hg : hasGhosts A.width = true) :
    setInfo A flag cand (undigits A.nblock c) = some (bufLen (coordLo A.nblock A.mapc c)
      (coordHi A.nblock A.dims A.mapc c) A.width,
      (rounds A A.dims.length 0).map fun r => msgOf A flag (ridx r) (rpos r) c) := by
  unfold setInfo
  rw [if_pos hg]
  simp only
  rw [checkDistr_wide hA hW]
  simp only [Bool.not_true, Bool.false_eq_true, if_false]
  rw [setInfo_len hA hW hc]
  simp only [Bool.false_eq_true, if_false]
  rw [planLoop_eq hA hW hcand hc flag (by omega), owns_of_coord hc]
  rfl

end rr

/-! ## stages -/

/-- stage of the send and of the receive of coordinate `i` of `n` -/
def sstage (pos : Bool) (n i : Nat) : Nat :=
  if i % 2 = 1 then 1 else if n % 2 = 1 ∧ i = (if pos then n - 1 else 0) then 3 else 2
def rstage (pos : Bool) (n i : Nat) : Nat :=
  if i % 2 = 1 then 2 else if n % 2 = 1 ∧ i = (if pos then 0 else n - 1) then 3 else 1

def comm (pos : Bool) (n i : Nat) : List Op := if pos then commPos n i else commNeg n i

theorem comm_cases (pos : Bool) {n i : Nat} (hn : n ≠ 1) (hi : i < n) :
    (comm pos n i = [Op.snd, Op.rcv] ∧ sstage pos n i < rstage pos n i) ∨
    (comm pos n i = [Op.rcv, Op.snd] ∧ rstage pos n i < sstage pos n i) := by
  unfold comm commPos commNeg sstage rstage
  rcases Nat.mod_two_eq_zero_or_one n with a | a <;> rcases Nat.mod_two_eq_zero_or_one i with b | b <;>
    cases pos
  all_goals by_cases e0 : i = 0
  all_goals by_cases e1 : i = n - 1
  all_goals first
    | (exfalso; omega)
    | (have E0 : (i = 0) = True := eq_true e0
       have E1 := eq_false e1
       simp [a, b, E0, E1])
    | (have E0 := eq_false e0
       have E1 : (i = n - 1) = True := eq_true e1
       simp [a, b, E0, E1])
    | (have E0 := eq_false e0
       have E1 := eq_false e1
       simp [a, b, E0, E1])

theorem stage_bounds (pos : Bool) (n i : Nat) : 1 ≤ sstage pos n i ∧ sstage pos n i ≤ 3 ∧
    1 ≤ rstage pos n i ∧ rstage pos n i ≤ 3 := by
  unfold sstage rstage
  split_ifs <;> omega

/-- the partner of a send receives in the same stage -/
theorem stage_match (pos : Bool) {n i : Nat} (hi : i < n) :
    rstage pos n (if pos then (i + 1) % n else (i + n - 1) % n) = sstage pos n i := by
  obtain ⟨r1, r2⟩ := ring_cases hi
  rw [r1, r2]
  clear r1 r2
  cases pos
  · simp only [Bool.false_eq_true, if_false]
    by_cases e : i = 0
    · rw [if_pos e]; simp only [sstage, rstage, Bool.false_eq_true, if_false]
      split_ifs <;> first | omega | simp_all
    · rw [if_neg e]; simp only [sstage, rstage, Bool.false_eq_true, if_false]; split_ifs <;> omega
  · simp only [if_true]
    by_cases e : i + 1 = n
    · rw [if_pos e]; simp only [sstage, rstage, if_true]; split_ifs <;> first | omega | simp_all
    · rw [if_neg e]; simp only [sstage, rstage, if_true]; split_ifs <;> first | omega | simp_all

theorem nb_self_iff (hA : ArrOK A) {c : List Nat} (hc : CoordOK A.nblock c) (pos : Bool) {d : Nat}
    (hd : d < A.dims.length) : nb A pos d c = c ↔ A.nblock.getD d 0 = 1 := by
  have hl := nlen hA
  have hci := (coordOK_iff.1 hc).2 d (by omega)
  have hi := nb_idx hA hc pos hd
  obtain ⟨r1, r2⟩ := ring_cases hci
  constructor
  · intro h
    rw [h, r1, r2] at hi
    cases pos
    · simp only [Bool.false_eq_true, if_false] at hi; split at hi <;> omega
    · simp only [if_true] at hi; split at hi <;> omega
  · intro h
    have h0 : c.getD d 0 = 0 := by omega
    have : nb A pos d c = c.set d 0 := by
      unfold nb
      rw [h, h0]
      cases pos <;> rfl
    rw [this]
    apply List.ext_getElem (by simp)
    intro j h1 h2
    simp only [List.getElem_set]
    split
    · rename_i h; subst h; simpa [List.getD_eq_getElem?_getD, h2] using h0.symm
    · rfl

/-! ## the plan -/

section plan
variable (A : RegArray) (flag : Bool) (M0 : Nat → Int → V)

def RR : List Nat := rounds A A.dims.length 0
def rk (r : Nat) : Nat := (RR A).getD r 0

def runM : List Nat → (Nat → Int → V) → (Nat → Int → V)
  | [], M => M
  | k :: l, M => runM l (stepAll A flag (ridx k) (rpos k) M)

def thePlan : Plan V where
  n := gridSize A.nblock
  R := (RR A).length
  blen := fun p => bufLen (coordLo A.nblock A.mapc (digits A.nblock p))
    (coordHi A.nblock A.dims A.mapc (digits A.nblock p)) A.width
  msg := fun p r => msgOf A flag (ridx (rk A r)) (rpos (rk A r)) (digits A.nblock p)
  mid := fun p r => if A.nblock.getD (ridx (rk A r)) 0 = 1 then [Op.copy]
    else comm (rpos (rk A r)) (A.nblock.getD (ridx (rk A r)) 0)
      ((digits A.nblock p).getD (ridx (rk A r)) 0)
  src := fun p r => srcOf A (ridx (rk A r)) (rpos (rk A r)) p
  ss := fun p r => sstage (rpos (rk A r)) (A.nblock.getD (ridx (rk A r)) 0)
      ((digits A.nblock p).getD (ridx (rk A r)) 0)
  rs := fun p r => rstage (rpos (rk A r)) (A.nblock.getD (ridx (rk A r)) 0)
      ((digits A.nblock p).getD (ridx (rk A r)) 0)
  buf := fun p r => bufAt A flag (ridx (rk A r)) (rpos (rk A r)) (runM A flag ((RR A).take r) M0) p
  M := fun r => runM A flag ((RR A).take r) M0

end plan

theorem runM_append (flag : Bool) (l l' : List Nat) (M : Nat → Int → V) :
    runM A flag (l ++ l') M = runM A flag l' (runM A flag l M) := by
  induction l generalizing M with
  | nil => rfl
  | cons k l ih => simp only [List.cons_append, runM, ih]

theorem rk_mem {r : Nat} (hr : r < (RR A).length) : rk A r ∈ RR A ∧
    (RR A).take (r + 1) = (RR A).take r ++ [rk A r] := by
  unfold rk
  rw [List.getD_eq_getElem?_getD, List.getElem?_eq_getElem hr]
  refine ⟨List.getElem_mem hr, ?_⟩
  rw [List.take_succ, List.getElem?_eq_getElem hr]
  rfl

theorem rk_ok {r : Nat} (hr : r < (RR A).length) : ridx (rk A r) < A.dims.length ∧
    A.width.getD (ridx (rk A r)) 0 ≠ 0 := by
  have := mem_rounds.1 (rk_mem hr).1
  exact ⟨by unfold ridx; omega, this.2⟩

theorem take_lt {r : Nat} (hr : r < (RR A).length) : ∀ k ∈ (RR A).take r, k < rk A r := by
  have hs := rounds_sorted (A := A) A.dims.length 0
  intro k hk
  have h1 := (rk_mem hr).2
  have : ((RR A).take (r + 1)).Pairwise (· < ·) := List.Pairwise.sublist (List.take_sublist _ _) hs
  rw [h1, List.pairwise_append] at this
  exact this.2.2 k hk _ (by simp)

theorem content_run (hA : ArrOK A) (hW : WideC A) {flag : Bool} {M0 : Nat → Int → V} {f : List Int → V}
    (h0 : Content A flag [] M0 M0 f) {r : Nat} (hr : r ≤ (RR A).length) :
    Content A flag ((RR A).take r) M0 (runM A flag ((RR A).take r) M0) f := by
  induction r with
  | zero => simpa [runM] using h0
  | succ r ih =>
    have hr' : r < (RR A).length := by omega
    rw [(rk_mem hr').2, runM_append]
    simp only [runM]
    have hk := kap_r (rk A r)
    have := content_step hA hW (idx := ridx (rk A r)) (pos := rpos (rk A r)) (rk_ok hr').1 (rk_ok hr').2
      (L := (RR A).take r) (by rw [hk]; exact take_lt hr') (ih (by omega))
    rwa [hk] at this

theorem buf_bound (hA : ArrOK A) (hW : WideC A) (flag : Bool) {idx : Nat} (pos : Bool)
    (hidx : idx < A.dims.length) (hw : A.width.getD idx 0 ≠ 0) {c : List Nat}
    (hc : CoordOK A.nblock c) :
    (prodNat (natEdges (RL A flag idx pos c) (RH A flag idx pos c)) : Int) ≤
      bufLen (coordLo A.nblock A.mapc c) (coordHi A.nblock A.dims A.mapc c) A.width := by
  obtain ⟨h1, h2, h3⟩ := blen_eq hA hW hc
  have n1 := win_ne hA hW hc flag pos hw
  have l1 : (RL A flag idx pos c).length = A.dims.length := tab_length _ _
  have l2 : (RH A flag idx pos c).length = A.dims.length := tab_length _ _
  have hwl := hA.width
  rw [prodNat_natEdges n1.2]
  have hed : ∀ i, i < A.dims.length → (edges (RL A flag idx pos c) (RH A flag idx pos c)).getD i 0 =
      rHi A flag idx pos c i - rLo A flag idx pos c i + 1 := by
    intro i hi
    rw [edges_getD (by omega) (by omega)]
    unfold RL RH
    rw [tab_getD _ hi, tab_getD _ hi]
  have hb := fun i (hi : i < A.dims.length) => bD_getD hA hW hc hi
  unfold bD at hb
  refine bufLen_ge (k := idx) (by omega) (by omega) ?_ (by omega) ?_ ?_ ?_
  · rw [edges_length (by omega)]; omega
  · rw [hb idx hidx]
    have := hW c hc idx hidx
    have := wd_nonneg A idx
    unfold ee; omega
  · intro i hi
    rw [hwl] at hi
    rw [hed i hi, hb i hi]
    have := win_bounds hA hW hc flag pos hw hi
    omega
  · rw [hed idx hidx]
    unfold rHi rLo
    simp only [if_true]
    show _ = wd A idx
    cases pos <;> simp only [Bool.false_eq_true, if_false, if_true] <;> omega

theorem plan_ok (hA : ArrOK A) (hW : WideC A) (flag : Bool) (M0 : Nat → Int → V) :
    (thePlan A flag M0).OK := by
  have hco : ∀ p, p < gridSize A.nblock → CoordOK A.nblock (digits A.nblock p) ∧
      undigits A.nblock (digits A.nblock p) = p := by
    intro p hp
    exact ⟨digits_ok hp, undigits_digits hp⟩
  have hn := nlen hA
  have hpk : ∀ p r, p < gridSize A.nblock → r < (RR A).length → ∃ c0 cs,
      ((thePlan A flag M0).msg p r).count = c0 :: cs ∧
      writeStrided ((thePlan A flag M0).M r p) ((thePlan A flag M0).msg p r).sndOff
        (setstride 1 ((thePlan A flag M0).msg p r).ld) c0 cs = some ((thePlan A flag M0).buf p r) ∧
      readStrided (fun i => ((thePlan A flag M0).buf ((thePlan A flag M0).src p r) r).getD i default)
        ((thePlan A flag M0).M r p) ((thePlan A flag M0).msg p r).rcvOff
        (setstride 1 ((thePlan A flag M0).msg p r).ld) c0 cs = some ((thePlan A flag M0).M (r + 1) p) ∧
      ((thePlan A flag M0).buf p r).length = prodNat (c0 :: cs) ∧
      ((thePlan A flag M0).buf ((thePlan A flag M0).src p r) r).length = prodNat (c0 :: cs) ∧
      (prodNat (c0 :: cs) : Int) ≤ (thePlan A flag M0).blen p := by
    intro p r hp hr
    obtain ⟨hc, he⟩ := hco p hp
    obtain ⟨hi, hw⟩ := rk_ok hr
    obtain ⟨c0, cs, s1, s2, s3, s4, s5, -⟩ := step_spec hA hW flag (rpos (rk A r)) hi hw
      (runM A flag ((RR A).take r) M0) hc
    rw [he] at s2 s3 s4 s5
    have hb := buf_bound hA hW flag (rpos (rk A r)) hi hw hc
    refine ⟨c0, cs, s1, s2, ?_, s4, s5, ?_⟩
    · have : (thePlan A flag M0).M (r + 1) p = stepAll A flag (ridx (rk A r)) (rpos (rk A r))
          (runM A flag ((RR A).take r) M0) p := by
        show runM A flag ((RR A).take (r + 1)) M0 p = _
        rw [(rk_mem hr).2, runM_append]
        rfl
      rw [this]
      exact s3
    · have e : natEdges (RL A flag (ridx (rk A r)) (rpos (rk A r)) (digits A.nblock p))
          (RH A flag (ridx (rk A r)) (rpos (rk A r)) (digits A.nblock p)) = c0 :: cs := s1
      rw [e] at hb
      exact hb
  have hnb : ∀ p r, p < gridSize A.nblock → r < (RR A).length → ∀ q,
      CoordOK A.nblock (nb A q (ridx (rk A r)) (digits A.nblock p)) ∧
      undigits A.nblock (nb A q (ridx (rk A r)) (digits A.nblock p)) < gridSize A.nblock ∧
      digits A.nblock (undigits A.nblock (nb A q (ridx (rk A r)) (digits A.nblock p))) =
        nb A q (ridx (rk A r)) (digits A.nblock p) ∧
      (A.nblock.getD (ridx (rk A r)) 0 ≠ 1 →
        undigits A.nblock (nb A q (ridx (rk A r)) (digits A.nblock p)) ≠ p) := by
    intro p r hp hr q
    obtain ⟨hc, he⟩ := hco p hp
    obtain ⟨hi, hw⟩ := rk_ok hr
    have h1 := nb_ok hA hc q hi
    refine ⟨h1, undigits_lt h1, digits_undigits h1, ?_⟩
    intro hne h
    apply hne
    apply (nb_self_iff hA hc q hi).1
    rw [← digits_undigits h1, h]
  have hmid : ∀ p r, p < gridSize A.nblock → r < (RR A).length →
      ((thePlan A flag M0).mid p r ≠ [Op.copy] ↔ A.nblock.getD (ridx (rk A r)) 0 ≠ 1) := by
    intro p r hp hr
    obtain ⟨hc, he⟩ := hco p hp
    obtain ⟨hi, hw⟩ := rk_ok hr
    have hci := (coordOK_iff.1 hc).2 (ridx (rk A r)) (by omega)
    show (if A.nblock.getD (ridx (rk A r)) 0 = 1 then [Op.copy] else _) ≠ _ ↔ _
    by_cases h : A.nblock.getD (ridx (rk A r)) 0 = 1
    · rw [if_pos h]; simp only [ne_eq, not_true_eq_false, h]
    · rw [if_neg h]
      rcases comm_cases (rpos (rk A r)) h hci with ⟨e, _⟩ | ⟨e, _⟩ <;> rw [e] <;> simp only [ne_eq, h, not_false_eq_true, iff_true] <;> simp
  constructor
  · intro p r hp hr
    obtain ⟨c0, cs, s1, s2, s3, s4, s5, s6⟩ := hpk p r hp hr
    refine ⟨c0, cs, s1, s2, s3, ?_, ?_⟩
    · rw [s5]; unfold packedSize; rw [n1dim_eq]; simp only [prodNat]; rw [Nat.mul_comm]
    · rw [s5]; exact s6
  · intro p r hp hr
    obtain ⟨c0, cs, s1, s2, s3, s4, s5, s6⟩ := hpk p r hp hr
    refine ⟨?_, by rw [s4]; exact s6⟩
    rw [s4, ← s1]
    rfl
  · intro p r hp hr
    obtain ⟨hc, he⟩ := hco p hp
    obtain ⟨hi, hw⟩ := rk_ok hr
    have hci := (coordOK_iff.1 hc).2 (ridx (rk A r)) (by omega)
    by_cases h : A.nblock.getD (ridx (rk A r)) 0 = 1
    · left
      refine ⟨if_pos h, ?_⟩
      show srcOf A _ _ p = p
      unfold srcOf
      rw [(nb_self_iff hA hc _ hi).2 h, he]
    · right
      have e1 : (thePlan A flag M0).mid p r = comm (rpos (rk A r)) (A.nblock.getD (ridx (rk A r)) 0)
        ((digits A.nblock p).getD (ridx (rk A r)) 0) := if_neg h
      rw [e1]
      exact comm_cases (rpos (rk A r)) h hci
  · intro p r
    exact stage_bounds _ _ _
  · intro p r hp hr hm
    obtain ⟨hc, he⟩ := hco p hp
    obtain ⟨hi, hw⟩ := rk_ok hr
    have hci := (coordOK_iff.1 hc).2 (ridx (rk A r)) (by omega)
    have h1 := (hmid p r hp hr).1 hm
    obtain ⟨n1, n2, n3, n4⟩ := hnb p r hp hr (rpos (rk A r))
    refine ⟨undigits A.nblock (nb A (rpos (rk A r)) (ridx (rk A r)) (digits A.nblock p)), n2, n4 h1, rfl,
      (hmid _ r n2 hr).2 h1, ?_, ?_⟩
    · show srcOf A _ _ _ = p
      unfold srcOf
      rw [n3, nb_nb hA hc _ hi, he]
    · show rstage _ _ _ = sstage _ _ _
      rw [n3, nb_idx hA hc _ hi]
      exact stage_match _ hci
  · intro p r hp hr hm
    obtain ⟨hc, he⟩ := hco p hp
    obtain ⟨hi, hw⟩ := rk_ok hr
    have h1 := (hmid p r hp hr).1 hm
    obtain ⟨n1, n2, n3, n4⟩ := hnb p r hp hr (!rpos (rk A r))
    have hback : nb A (rpos (rk A r)) (ridx (rk A r))
        (nb A (!rpos (rk A r)) (ridx (rk A r)) (digits A.nblock p)) = digits A.nblock p := by
      have := nb_nb hA hc (!rpos (rk A r)) hi
      rwa [Bool.not_not] at this
    refine ⟨n2, n4 h1, rfl, (hmid _ r n2 hr).2 h1, ?_, ?_⟩
    · show ((undigits A.nblock (nb A (rpos (rk A r)) (ridx (rk A r)) (digits A.nblock (undigits A.nblock
        (nb A (!rpos (rk A r)) (ridx (rk A r)) (digits A.nblock p))))) : Nat) : Int) = p
      rw [n3, hback, he]
    · show sstage _ _ ((digits A.nblock (undigits A.nblock
        (nb A (!rpos (rk A r)) (ridx (rk A r)) (digits A.nblock p)))).getD _ _) = rstage _ _ _
      rw [n3]
      have hci := (coordOK_iff.1 n1).2 (ridx (rk A r)) (by omega)
      have := stage_match (rpos (rk A r)) hci
      rw [← nb_idx hA n1 _ hi, hback] at this
      exact this.symm

/-! ## the programs -/

theorem procTopology_eq (ns : List Nat) (p : Nat) : procTopology ns p = digits ns p := by
  induction ns generalizing p with
  | nil => rfl
  | cons n ns ih => simp [procTopology, digits, ih]

theorem prog_eq (hA : ArrOK A) (flag : Bool) (M0 : Nat → Int → V) {p : Nat}
    (hp : p < gridSize A.nblock) {k idx tag : Nat} (hk : idx + k = A.dims.length)
    (hd : rounds A k idx = (RR A).drop tag) :
    progLoop A p k idx tag ((rounds A k idx).map fun r => msgOf A flag (ridx r) (rpos r)
      (digits A.nblock p)) = (thePlan A flag M0).progFrom p (rounds A k idx).length tag := by
  have hc := digits_ok hp
  have he := undigits_digits hp
  induction k generalizing idx tag with
  | zero => simp [progLoop, rounds, Plan.progFrom]
  | succ k ih =>
    simp only [progLoop, rounds]
    by_cases hw : A.width.getD idx 0 ≠ 0
    · simp only [rounds, if_pos hw] at hd
      rw [if_pos hw, if_pos hw]
      have g0 : rk A tag = 2 * idx := by
        unfold rk
        have : ((RR A).drop tag)[0]? = some (2 * idx) := by rw [← hd]; rfl
        rw [List.getElem?_drop] at this
        rw [List.getD_eq_getElem?_getD]
        simp only [Nat.add_zero] at this
        rw [this]; rfl
      have g1 : rk A (tag + 1) = 2 * idx + 1 := by
        unfold rk
        have : ((RR A).drop tag)[1]? = some (2 * idx + 1) := by rw [← hd]; rfl
        rw [List.getElem?_drop] at this
        rw [List.getD_eq_getElem?_getD, this]; rfl
      have g2 : rounds A k (idx + 1) = (RR A).drop (tag + 2) := by
        rw [← List.drop_drop, ← hd]; rfl
      have e1 : ridx (2 * idx) = idx ∧ rpos (2 * idx) = false := by
        unfold ridx rpos; refine ⟨by omega, by simp⟩
      have e2 : ridx (2 * idx + 1) = idx ∧ rpos (2 * idx + 1) = true := by
        unfold ridx rpos; refine ⟨by omega, by simp⟩
      simp only [List.map_cons, List.length_cons, Plan.progFrom]
      rw [ih (by omega) g2]
      have hself : ∀ q, (undigits A.nblock (nb A q idx (digits A.nblock p)) : Int) = p ↔
          A.nblock.getD idx 0 = 1 := by
        intro q
        rw [← nb_self_iff hA hc q (by omega)]
        constructor
        · intro h
          have h' : undigits A.nblock (nb A q idx (digits A.nblock p)) = p := by exact_mod_cast h
          rw [← digits_undigits (nb_ok hA hc q (by omega)), h']
        · intro h; rw [h, he]
      have hm0 : (thePlan A flag M0).msg p tag = msgOf A flag idx false (digits A.nblock p) := by
        show msgOf A flag (ridx (rk A tag)) (rpos (rk A tag)) _ = _
        rw [g0, e1.1, e1.2]
      have hm1 : (thePlan A flag M0).msg p (tag + 1) = msgOf A flag idx true (digits A.nblock p) := by
        show msgOf A flag (ridx (rk A (tag + 1))) (rpos (rk A (tag + 1))) _ = _
        rw [g1, e2.1, e2.2]
      have hi0 : (thePlan A flag M0).mid p tag = if A.nblock.getD idx 0 = 1 then [Op.copy]
          else commNeg (A.nblock.getD idx 0) ((digits A.nblock p).getD idx 0) := by
        show (if A.nblock.getD (ridx (rk A tag)) 0 = 1 then [Op.copy] else comm (rpos (rk A tag)) _ _) = _
        rw [g0, e1.1, e1.2]; rfl
      have hi1 : (thePlan A flag M0).mid p (tag + 1) = if A.nblock.getD idx 0 = 1 then [Op.copy]
          else commPos (A.nblock.getD idx 0) ((digits A.nblock p).getD idx 0) := by
        show (if A.nblock.getD (ridx (rk A (tag + 1))) 0 = 1 then [Op.copy]
          else comm (rpos (rk A (tag + 1))) _ _) = _
        rw [g1, e2.1, e2.2]; rfl
      rw [e1.1, e1.2, e2.1, e2.2, procTopology_eq, ← List.append_assoc]
      congr 1
      congr 1
      · unfold msgActs Plan.tagg Plan.ops
        rw [hm0, hi0]
        simp only [Bool.false_eq_true, if_false]
        by_cases h1 : A.nblock.getD idx 0 = 1
        · rw [if_pos h1, if_pos]
          simp only [decide_eq_true_eq]
          exact ((hself false).2 h1).symm
        · rw [if_neg h1, if_neg]
          simp only [decide_eq_true_eq]
          intro h; exact h1 ((hself false).1 h.symm)
      · unfold msgActs Plan.tagg Plan.ops
        rw [hm1, hi1]
        simp only [if_true]
        by_cases h1 : A.nblock.getD idx 0 = 1
        · rw [if_pos h1, if_pos]
          simp only [decide_eq_true_eq]
          exact ((hself false).2 h1).symm
        · rw [if_neg h1, if_neg]
          simp only [decide_eq_true_eq]
          intro h; exact h1 ((hself false).1 h.symm)
    · rw [if_neg hw, if_neg hw]
      simp only [rounds, if_neg hw] at hd
      exact ih (by omega) hd

end GA.Ghost
