import Verif.Lemmas.SprsConv

/-! # Lemmas: products of sparse and dense arrays -/

namespace GA.Sprs
open GA.Model GA.Spec.Sprs

variable {V : Type}

theorem flatMap_congr {α β : Type} {L : List α} {f g : α → List β} (h : ∀ a ∈ L, f a = g a) : L.flatMap f = L.flatMap g := by
  rw [List.flatMap_def, List.flatMap_def, List.map_congr_left h]

/-- a loop over the elements of one block -/
theorem block_loop {n : Nat} {idim jdim : Int} {M : List (Entry V)} {l : Loc V} {B : List (List (List (Int × V)))} (b1 : Holds l B)
    (b5 : ∀ c r, c < n → r < l.nrows → (rowIn l.blkidx B c r).Perm (rowPart M (l.ilo + r) (bound jdim n c) (limHi jdim n c)))
    (hM : ∀ e ∈ M, e.In idim jdim) {c : Nat} (hc : c < n) {w : View V} (hw : accessColBlock l c = some w) {β : Type}
    (F G : Nat → Int → V → List β)
    (hFG : ∀ r j v, 0 ≤ j → j < jdim → bound jdim n c ≤ j → j ≤ limHi jdim n c → r < l.nrows → F r j v = G r j v) :
    ((cells l.nrows w).flatMap fun k => F k.1 (w.jdx k.2) (w.val k.2)) =
      (List.range l.nrows).flatMap fun r => (rowIn l.blkidx B c r).flatMap fun jv => G r jv.1 jv.2 := by
  rw [cells_flatRows]
  apply flatMap_congr
  intro r hr
  have hr := List.mem_range.1 hr
  rw [csr_rowIn b1 hw hr]
  apply flatMap_congr
  intro jv hjv
  rw [(b5 c r hc hr).mem_iff] at hjv
  obtain ⟨e, he, rfl⟩ := List.mem_map.1 hjv
  obtain ⟨he, hc⟩ := List.mem_filter.1 he
  obtain ⟨-, -, m3, m4⟩ := hM e he
  simp only [decide_eq_true_eq] at hc
  exact hFG _ _ _ m3 m4 hc.2.1 hc.2.2 hr

/-- the rows of all blocks together -/
theorem rows_all {n : Nat} {idim jdim : Int} {M : List (Entry V)} {l : Loc V} {B : List (List (List (Int × V)))} (hn : 0 < n) (hj : (n : Int) ≤ jdim)
    (b5 : ∀ c r, c < n → r < l.nrows → (rowIn l.blkidx B c r).Perm (rowPart M (l.ilo + r) (bound jdim n c) (limHi jdim n c)))
    (hM : ∀ e ∈ M, e.In idim jdim) {β : Type} (G : Nat → Int → V → List β) :
    ((List.range n).flatMap fun c => (List.range l.nrows).flatMap fun r => (rowIn l.blkidx B c r).flatMap fun jv => G r jv.1 jv.2).Perm
      ((List.range l.nrows).flatMap fun r : Nat => (M.filter fun e => e.row = l.ilo + r).flatMap fun e => G r e.col e.val) := by
  refine (flatMap_swap _ _ _).trans (flatMap_perm fun r hr => ?_)
  have hr := List.mem_range.1 hr
  rw [← List.flatMap_assoc]
  have := ((flatMap_perm fun c hc => b5 c r (List.mem_range.1 hc) hr).trans (row_blocks hn hj hM (l.ilo + r))).flatMap_right
    fun jv : Int × V => G r jv.1 jv.2
  rw [List.flatMap_map] at this
  exact this

theorem getBox_at (B : Dns V) (lo0 lo1 ld a b : Int) (hb : 0 ≤ b) (hb' : b < ld) : getBox B lo0 lo1 ld (a * ld + b) = B.at' (lo0 + b) (lo1 + a) := by
  unfold getBox
  rw [Int.add_comm (a * ld), Int.add_mul_emod_self_right, Int.emod_eq_of_lt hb hb', Int.add_mul_ediv_right _ _ (by omega), Int.ediv_eq_zero_of_lt hb hb',
    Int.zero_add]

/-- the result is found in the memory of the process with the row -/
theorem gather_at [Zero V] {d0 d1 : Int} {n p : Nat} {lo hi : Nat → Int} {mem : Nat → Option (Int → V)} {D : Dns V} (h : gather d0 d1 n lo hi mem = some D)
    {x1 : Int} (hp : p < n) (hx : lo p ≤ x1 ∧ x1 ≤ hi p) (huni : ∀ q, q < n → lo q ≤ x1 ∧ x1 ≤ hi q → q = p) (x0 : Int) :
    D.at' x0 x1 = ((mem p).getD fun _ => 0) (x0 - 1 + (x1 - lo p) * d0) := by
  unfold gather at h
  split at h
  · rw [← Option.some.inj h]
    dsimp only
    have hfind : ((List.range n).find? fun q => decide (lo q ≤ x1 ∧ x1 ≤ hi q)) = some p := by
      cases hf : (List.range n).find? fun q => decide (lo q ≤ x1 ∧ x1 ≤ hi q) with
      | none =>
        have := List.find?_eq_none.1 hf _ (List.mem_range.2 hp)
        rw [decide_eq_true_eq] at this
        exact absurd hx this
      | some q =>
        have h1 := List.find?_some hf
        rw [decide_eq_true_eq] at h1
        rw [huni q (List.mem_range.1 (List.mem_of_find?_eq_some hf)) h1]
    rw [hfind]
  · cases h

/-- the sum of the products of the row `i` of `A` with a function of the column -/
theorem row_sum [Semiring V] {idim kdim : Int} {A : List (Entry V)} (hA : ∀ e ∈ A, e.In idim kdim) (i : Int) (f : Int → V) :
    ((A.filter fun e => e.row = i).map fun e => e.val * f e.col).sum = ((List.range kdim.toNat).map fun k : Nat => elem A i k * f k).sum := by
  have hin : ∀ e ∈ A.filter fun e => e.row = i, 0 ≤ e.col ∧ e.col < kdim := fun e he => by
    obtain ⟨-, -, m3, m4⟩ := hA e (List.mem_filter.1 he).1
    exact ⟨m3, m4⟩
  have hel : ∀ k : Nat, elem A i k * f k = (((A.filter fun e => e.row = i)).map fun e => if e.col = (k : Int) then e.val * f e.col else 0).sum := by
    intro k
    have : elem A i k = (((A.filter fun e => e.row = i).filter fun e => e.col = (k : Int)).map fun e => e.val).sum := by
      unfold elem
      rw [List.filter_filter]
      congr 2
      apply List.filter_congr
      intro e _
      rw [Bool.eq_iff_iff]
      simp only [Bool.and_eq_true, decide_eq_true_eq]
      exact And.comm
    rw [this]
    generalize (A.filter fun e => e.row = i) = L
    induction L with
    | nil => simp
    | cons e L ih =>
      rw [List.filter_cons, List.map_cons, List.sum_cons, ← ih]
      by_cases h : e.col = (k : Int)
      · simp [h, add_mul]
      · simp [h]
  simp only [hel]
  revert hin
  generalize (A.filter fun e => e.row = i) = L
  intro hin
  induction L with
  | nil => simp
  | cons e L ih =>
    simp only [List.map_cons, List.sum_cons]
    rw [List.sum_map_add, ← ih fun e he => hin e (List.mem_cons_of_mem _ he)]
    obtain ⟨h0, h1⟩ := hin e List.mem_cons_self
    congr 1
    rw [sum_range_single (a := e.col.toNat) (by omega)]
    · rw [if_pos (by omega)]
    · intro k _ hk
      rw [if_neg (by omega)]

/-- the additions of a process in the product of a sparse and a dense array -/
theorem sprsdns_perm [Mul V] {n : Nat} {idim kdim : Int} {A : List (Entry V)} {locA : Nat → Loc V} (B : Dns V) (hn : 0 < n)
    (hk : (n : Int) ≤ kdim) (hA : ∀ e ∈ A, e.In idim kdim) (h : Good n idim kdim locA A) {p : Nat} (hp : p < n) (J : Int) :
    ((List.range n).flatMap fun l => (locA p).blkidx.flatMap fun c => sprsdnsBlock kdim J n B (locA p) l c).Perm
      ((List.range n).flatMap fun l : Nat => (List.range (locA p).nrows).flatMap fun r : Nat => (A.filter fun e => e.row = (locA p).ilo + r).flatMap fun e =>
        (List.range (limHi kdim n l - bound kdim n l + 1).toNat).map fun j : Nat =>
          (bound kdim n l + (j : Int) + r * J, e.val * B.at' (bound kdim n l + j + 1) (e.col + 1))) := by
  obtain ⟨Bk, b1, b2, b3, b4, b5⟩ := h p hp
  refine flatMap_perm fun l _ => ?_
  have h1 : (locA p).blkidx.flatMap (fun c => sprsdnsBlock kdim J n B (locA p) l c) = (locA p).blkidx.flatMap fun c =>
      (List.range (locA p).nrows).flatMap fun r => (rowIn (locA p).blkidx Bk c r).flatMap fun jv =>
        (List.range (limHi kdim n l - bound kdim n l + 1).toNat).map fun j : Nat =>
          (bound kdim n l + (j : Int) + r * J, jv.2 * B.at' (bound kdim n l + j + 1) (jv.1 + 1)) := by
    apply flatMap_congr
    intro c hc
    obtain ⟨w, hw⟩ := access_some hc
    unfold sprsdnsBlock
    rw [hw]
    dsimp only [colDistribution]
    refine block_loop b1 b5 hA (b4 c hc) hw (fun r j v => (List.range (limHi kdim n l + 1 - (bound kdim n l + 1) + 1).toNat).map fun j' : Nat =>
      (bound kdim n l + 1 - 1 + (j' : Int) + r * J, v * getBox B (bound kdim n l + 1) (bound kdim n c + 1) (limHi kdim n l + 1 - (bound kdim n l + 1) + 1)
        ((j - bound kdim n c) * (limHi kdim n l + 1 - (bound kdim n l + 1) + 1) + j')))
      (fun r jv v => (List.range (limHi kdim n l - bound kdim n l + 1).toNat).map fun j : Nat =>
          (bound kdim n l + (j : Int) + r * J, v * B.at' (bound kdim n l + j + 1) (jv + 1))) ?_
    intro r j v _ _ _ _ _
    have e1 : limHi kdim n l + 1 - (bound kdim n l + 1) + 1 = limHi kdim n l - bound kdim n l + 1 := by omega
    rw [e1]
    apply List.map_congr_left
    intro j' hj'
    have hj' := List.mem_range.1 hj'
    rw [getBox_at _ _ _ _ _ _ (by omega) (by omega)]
    have e2 : bound kdim n l + 1 - 1 + (j' : Int) = bound kdim n l + j' := by omega
    have e3 : bound kdim n l + 1 + (j' : Int) = bound kdim n l + j' + 1 := by omega
    have e4 : bound kdim n c + 1 + (j - bound kdim n c) = j + 1 := by omega
    rw [e2, e3, e4]
  rw [h1]
  refine (blk_perm b1 b4 _ fun c hc => ?_).trans (rows_all hn hk b5 hA fun r jv v => (List.range (limHi kdim n l - bound kdim n l + 1).toNat).map fun j : Nat =>
          (bound kdim n l + (j : Int) + r * J, v * B.at' (bound kdim n l + j + 1) (jv + 1)))
  simp [rowIn_empty hc]

/-- the product of a sparse and a dense array with at least as many columns as `A` -/
theorem sprsdns_eq [Semiring V] {n : Nat} {idim kdim : Int} {A : List (Entry V)} {locA : Nat → Loc V} {B : Dns V} (hn : 0 < n) (hi : (n : Int) ≤ idim)
    (hk : (n : Int) ≤ kdim) (hA : ∀ e ∈ A, e.In idim kdim) (h : Good n idim kdim locA A) (hd1 : B.d1 = kdim) (hd0 : kdim ≤ B.d0) :
    ∃ D, sprsdns idim kdim n locA B = some D ∧ D.d0 = B.d0 ∧ D.d1 = idim ∧
      ∀ i j, 0 ≤ i → i < idim → 0 ≤ j → j < B.d0 → D.at' (j + 1) (i + 1) =
        if j < kdim then ((List.range kdim.toNat).map fun k : Nat => elem A i k * B.at' (j + 1) (k + 1)).sum else 0 := by
  have hlim : ∀ p, p < n → (locA p).ilo = bound idim n p ∧ (locA p).ihi = limHi idim n p := fun p hp => by
    obtain ⟨Bk, b1, b2, b3, b4, b5⟩ := h p hp
    exact ⟨b2, b3⟩
  have hok : ((List.range n).all fun p => sprsdnsOK kdim n B (locA p)) = true := by
    rw [List.all_eq_true]
    intro p hp
    have hp := List.mem_range.1 hp
    obtain ⟨Bk, b1, b2, b3, b4, b5⟩ := h p hp
    unfold sprsdnsOK
    rw [List.all_eq_true]
    intro l hl
    rw [List.all_eq_true]
    intro c hc
    have hl := List.mem_range.1 hl
    have := limHi_lt hl hk
    have := limHi_lt (b4 c hc) hk
    have := limits_nonempty hl hk
    have := limits_nonempty hp hi
    rw [decide_eq_true_eq]
    dsimp only [colDistribution]
    omega
  have hacc : ∀ p, p < n → accums (B.d0 * ((locA p).ihi - (locA p).ilo + 1)) ((List.range n).flatMap fun l => (locA p).blkidx.flatMap fun c =>
        sprsdnsBlock kdim B.d0 n B (locA p) l c) = some (((List.range n).flatMap fun l => (locA p).blkidx.flatMap fun c =>
        sprsdnsBlock kdim B.d0 n B (locA p) l c).foldl (fun m w => fun x => if x = w.1 then m x + w.2 else m x) fun _ => 0) := by
    intro p hp
    rw [accums, if_pos]
    rw [List.all_eq_true]
    intro w hw
    rw [(sprsdns_perm B hn hk hA h hp B.d0).mem_iff] at hw
    obtain ⟨l, hl, hw⟩ := List.mem_flatMap.1 hw
    obtain ⟨r, hr, hw⟩ := List.mem_flatMap.1 hw
    obtain ⟨e, -, hw⟩ := List.mem_flatMap.1 hw
    obtain ⟨j, hj, rfl⟩ := List.mem_map.1 hw
    have hl := List.mem_range.1 hl
    have hr := List.mem_range.1 hr
    have hj := List.mem_range.1 hj
    have := limHi_lt hl hk
    have := bound_nonneg (p := l) hn hk
    simp only [Loc.nrows] at hr
    rw [decide_eq_true_eq]
    dsimp only
    have h1 : 0 ≤ (r : Int) * B.d0 := Int.mul_nonneg (by omega) (by omega)
    have h2 : (r : Int) * B.d0 + B.d0 ≤ B.d0 * ((locA p).ihi - (locA p).ilo + 1) := by
      have : ((r : Int) + 1) * B.d0 ≤ ((locA p).ihi - (locA p).ilo + 1) * B.d0 := Int.mul_le_mul_of_nonneg_right (by omega) (by omega)
      rw [Int.mul_comm B.d0]
      rw [Int.add_mul, Int.one_mul] at this
      exact this
    omega
  have hsome : ∃ D, sprsdns idim kdim n locA B = some D := by
    unfold sprsdns
    rw [if_neg (by omega), if_neg (by omega), if_neg (by simp [hok])]
    unfold gather
    rw [if_pos]
    · exact ⟨_, rfl⟩
    · rw [List.all_eq_true]
      intro p hp
      exact congrArg Option.isSome (hacc p (List.mem_range.1 hp))
  obtain ⟨D, hD⟩ := hsome
  have hg : gather B.d0 idim n (fun p => (locA p).ilo + 1) (fun p => (locA p).ihi + 1) (fun p =>
      accums (B.d0 * ((locA p).ihi - (locA p).ilo + 1)) ((List.range n).flatMap fun l => (locA p).blkidx.flatMap fun c =>
        sprsdnsBlock kdim B.d0 n B (locA p) l c)) = some D := by
    unfold sprsdns at hD
    rw [if_neg (by omega), if_neg (by omega), if_neg (by simp [hok])] at hD
    exact hD
  refine ⟨D, hD, ?_, ?_, ?_⟩
  · unfold gather at hg
    split at hg
    · rw [← Option.some.inj hg]
    · cases hg
  · unfold gather at hg
    split at hg
    · rw [← Option.some.inj hg]
    · cases hg
  intro i j i0 i1 j0 j1
  have hp : owner idim n i < n := owner_lt hn
  have hown := (owner_iff hi hp i0 i1).1 rfl
  obtain ⟨l1, l2⟩ := hlim _ hp
  rw [gather_at hg hp (by omega) (by
    intro q hq hh
    obtain ⟨l3, l4⟩ := hlim _ hq
    exact ((owner_iff hi hq i0 i1).2 (by omega)).symm)]
  generalize owner idim n i = p at hp hown l1 l2
  rw [hacc p hp, Option.getD_some, accums_fold, zero_add, ((sprsdns_perm B hn hk hA h hp B.d0).map _).sum_eq]
  obtain ⟨r0, hr0⟩ : ∃ r0 : Nat, i = (locA p).ilo + r0 := ⟨(i - (locA p).ilo).toNat, by omega⟩
  have hr0' : r0 < (locA p).nrows := by
    simp only [Loc.nrows]
    omega
  have ex : j + 1 - 1 + (i + 1 - ((locA p).ilo + 1)) * B.d0 = j + r0 * B.d0 := by
    have e1 : i + 1 - ((locA p).ilo + 1) = r0 := by omega
    rw [e1]
    omega
  rw [ex]
  simp only [sum_flatMap, List.map_map, Function.comp_def]
  -- an addition to this element
  have hhit : ∀ l r j' : Nat, l < n → j' < (limHi kdim n l - bound kdim n l + 1).toNat → bound kdim n l + (j' : Int) + r * B.d0 = j + r0 * B.d0 →
      r = r0 ∧ bound kdim n l + (j' : Int) = j := by
    intro l r j' hl hj' hh
    have := limHi_lt hl hk
    have := bound_nonneg (p := l) hn hk
    obtain ⟨h1, h2⟩ := dist_inj (a := r) (c := r0) (by omega) (by omega) j0 j1 hh
    exact ⟨by omega, h2⟩
  by_cases hjk : j < kdim
  · rw [if_pos hjk]
    have hl : owner kdim n j < n := owner_lt hn
    have hol := (owner_iff hk hl j0 hjk).1 rfl
    rw [sum_range_single hl]
    · rw [sum_range_single hr0']
      · obtain ⟨j0', hj0'⟩ : ∃ j0' : Nat, j = bound kdim n (owner kdim n j) + j0' := ⟨(j - bound kdim n (owner kdim n j)).toNat, by omega⟩
        rw [← row_sum hA i fun k => B.at' (j + 1) (k + 1), ← hr0]
        congr 1
        apply List.map_congr_left
        intro e _
        rw [sum_range_single (a := j0') (by omega)]
        · rw [← hj0', if_pos rfl]
        · intro j' hj' hne
          rw [if_neg]
          intro hh
          have := (hhit _ _ _ hl hj' hh).2
          omega
      · intro r _ hne
        refine sum_zero fun e _ => sum_zero fun j' hj' => ?_
        rw [if_neg]
        intro hh
        exact hne (hhit _ _ _ hl (List.mem_range.1 hj') hh).1
    · intro l hl' hne
      refine sum_zero fun r _ => sum_zero fun e _ => sum_zero fun j' hj' => ?_
      rw [if_neg]
      intro hh
      have hj' := List.mem_range.1 hj'
      have := (hhit _ _ _ hl' hj' hh).2
      exact hne ((owner_iff hk hl' j0 hjk).2 (by omega)).symm
  · rw [if_neg hjk]
    refine sum_zero fun l hl => sum_zero fun r _ => sum_zero fun e _ => sum_zero fun j' hj' => ?_
    rw [if_neg]
    intro hh
    have hj' := List.mem_range.1 hj'
    have hl := List.mem_range.1 hl
    have := (hhit _ _ _ hl hj' hh).2
    have := limHi_lt hl hk
    omega

/-- the additions of a process in the product of a dense array and a square sparse array -/
theorem dnssprs_perm [Mul V] {n : Nat} {kdim : Int} {M : List (Entry V)} {locB : Nat → Loc V} (A : Dns V) (me : Nat) (hn : 0 < n)
    (hk : (n : Int) ≤ kdim) (hM : ∀ e ∈ M, e.In kdim kdim) (h : Good n kdim kdim locB M) (ilo ihi : Int) :
    ((List.range n).flatMap fun l => (List.range n).flatMap fun m => dnssprsBlock kdim kdim n me A ilo ihi locB l m).Perm
      ((List.range (ihi - ilo + 1).toNat).flatMap fun i : Nat => (List.range n).flatMap fun m : Nat => (List.range (locB m).nrows).flatMap fun r : Nat =>
        (M.filter fun e => e.row = (locB m).ilo + r).map fun e => (e.col + i * kdim, A.at' (e.row + 1) (ilo + i) * e.val)) := by
  refine (flatMap_swap _ _ _).trans (List.Perm.trans ?_ (flatMap_swap _ _ _))
  refine flatMap_perm fun m hm => ?_
  have hm := List.mem_range.1 hm
  obtain ⟨Bk, b1, b2, b3, b4, b5⟩ := h m hm
  have hrd : ∀ l, (rowDistribution kdim n me l).1 = bound kdim n l := by
    intro l
    unfold rowDistribution
    split
    · next hl => rw [hl]; exact ownLo_eq hn hk
    · rfl
  have h1 : ((List.range n).flatMap fun l => dnssprsBlock kdim kdim n me A ilo ihi locB l m) =
      (List.range n).flatMap fun l => (List.range (ihi - ilo + 1).toNat).flatMap fun i : Nat => (List.range (locB m).nrows).flatMap fun r =>
        (rowIn (locB m).blkidx Bk l r).flatMap fun jv => [(jv.1 + (i : Int) * kdim, A.at' ((locB m).ilo + r + 1) (ilo + i) * jv.2)] := by
    apply flatMap_congr
    intro l hl
    unfold dnssprsBlock
    cases hw : accessColBlock (locB m) l with
    | none =>
      have hf : findBlock (locB m).blkidx l = none := by simpa [accessColBlock] using hw
      have := rowIn_empty (B := Bk) (find_none.1 hf)
      simp [this]
    | some w =>
      dsimp only [colDistribution]
      apply flatMap_congr
      intro i _
      rw [← List.flatMap_pure_eq_map]
      refine block_loop b1 b5 hM (List.mem_range.1 hl) hw (fun r j v => [((rowDistribution kdim n me l).1 + 1 - 1 + (j - bound kdim n l) + (i : Int) * kdim,
        getBox A ((locB m).ilo + 1) ilo ((locB m).ihi - (locB m).ilo + 1) (i * ((locB m).ihi - (locB m).ilo + 1) + r) * v)])
        (fun r j v => [(j + (i : Int) * kdim, A.at' ((locB m).ilo + r + 1) (ilo + i) * v)]) ?_
      intro r j v _ _ _ _ hr
      simp only [Loc.nrows] at hr
      rw [getBox_at _ _ _ _ _ _ (by omega) (by omega), hrd]
      have e1 : bound kdim n l + 1 - 1 + (j - bound kdim n l) = j := by omega
      have e2 : (locB m).ilo + 1 + (r : Int) = (locB m).ilo + r + 1 := by omega
      rw [e1, e2]
  rw [h1]
  refine (flatMap_swap _ _ _).trans (flatMap_perm fun i _ => ?_)
  refine (rows_all hn hk b5 hM fun r j v => [(j + (i : Int) * kdim, A.at' ((locB m).ilo + r + 1) (ilo + i) * v)]).trans (List.Perm.of_eq ?_)
  apply flatMap_congr
  intro r _
  rw [← List.flatMap_pure_eq_map]
  apply flatMap_congr
  intro e he
  have := (List.mem_filter.1 he).2
  simp only [decide_eq_true_eq] at this
  show _ = [_]
  dsimp only
  rw [this]

/-- the rows of all processes are the rows of the matrix -/
theorem proc_rows {n : Nat} {kdim : Int} (hn : 0 < n) (hk : (n : Int) ≤ kdim) {M : List (Entry V)} {jdim : Int} (hM : ∀ e ∈ M, e.In kdim jdim)
    {locB : Nat → Loc V} (hlim : ∀ p, p < n → (locB p).ilo = bound kdim n p ∧ (locB p).ihi = limHi kdim n p) :
    ((List.range n).flatMap fun m : Nat => (List.range (locB m).nrows).flatMap fun r : Nat => M.filter fun e => e.row = (locB m).ilo + r).Perm M := by
  refine List.Perm.trans ?_ (bucket_perm M (fun e => owner kdim n e.row) (n := n) fun e _ => owner_lt hn)
  refine flatMap_perm fun m hm => ?_
  have hm := List.mem_range.1 hm
  obtain ⟨l1, l2⟩ := hlim m hm
  have := limits_nonempty hm hk
  have h2 := bucket_perm (M.filter fun e => owner kdim n e.row = m) (fun e => (e.row - (locB m).ilo).toNat) (n := (locB m).nrows) (by
    intro e he
    obtain ⟨he, ho⟩ := List.mem_filter.1 he
    obtain ⟨m1, m2, -, -⟩ := hM e he
    have ho := (owner_iff hk hm m1 m2).1 (by simpa using ho)
    simp only [Loc.nrows]
    omega)
  refine List.Perm.trans (List.Perm.of_eq ?_) h2
  apply flatMap_congr
  intro r hr
  have hr := List.mem_range.1 hr
  rw [List.filter_filter]
  apply List.filter_congr
  intro e he
  obtain ⟨m1, m2, -, -⟩ := hM e he
  have ho := owner_iff hk hm m1 m2
  rw [Bool.eq_iff_iff]
  simp only [Bool.and_eq_true, decide_eq_true_eq, ho]
  simp only [Loc.nrows] at hr
  omega

/-- the sum of the products of a function of the row with the column `j` of `M` -/
theorem col_sum [Semiring V] {idim jdim : Int} {M : List (Entry V)} (hM : ∀ e ∈ M, e.In idim jdim) (j : Int) (f : Int → V) :
    (M.map fun e => if e.col = j then f e.row * e.val else 0).sum = ((List.range idim.toNat).map fun k : Nat => f k * elem M k j).sum := by
  have hel : ∀ k : Nat, f k * elem M k j = (M.map fun e => if e.row = (k : Int) then (if e.col = j then f e.row * e.val else 0) else 0).sum := by
    intro k
    clear hM
    unfold elem
    induction M with
    | nil => simp
    | cons e M ih =>
      rw [List.filter_cons, List.map_cons, List.sum_cons, ← ih]
      by_cases h : e.row = (k : Int)
      · by_cases h' : e.col = j
        · simp [h, h', mul_add]
        · simp [h']
      · simp [h]
  simp only [hel]
  clear hel
  induction M with
  | nil => simp
  | cons e L ih =>
    simp only [List.map_cons, List.sum_cons]
    rw [List.sum_map_add, ← ih fun e he => hM e (List.mem_cons_of_mem _ he)]
    obtain ⟨h0, h1, -, -⟩ := hM e List.mem_cons_self
    congr 1
    rw [sum_range_single (a := e.row.toNat) (by omega)]
    · rw [if_pos (c := e.row = _) (by omega)]
    · intro k _ hk
      rw [if_neg (c := e.row = _) (by omega)]

/-- the product of a dense array and a square sparse array -/
theorem dnssprs_eq [Semiring V] {n : Nat} {kdim : Int} {M : List (Entry V)} {locB : Nat → Loc V} {A : Dns V} (hn : 0 < n) (hi : (n : Int) ≤ A.d1)
    (hk : (n : Int) ≤ kdim) (hM : ∀ e ∈ M, e.In kdim kdim) (h : Good n kdim kdim locB M) (hd0 : A.d0 = kdim) :
    ∃ D, dnssprs kdim kdim n A locB = some D ∧ D.d0 = kdim ∧ D.d1 = A.d1 ∧
      ∀ i j, 0 ≤ i → i < A.d1 → 0 ≤ j → j < kdim → D.at' (j + 1) (i + 1) =
        ((List.range kdim.toNat).map fun k : Nat => A.at' (k + 1) (i + 1) * elem M k j).sum := by
  have hlim : ∀ p, p < n → (locB p).ilo = bound kdim n p ∧ (locB p).ihi = limHi kdim n p := fun p hp => by
    obtain ⟨Bk, b1, b2, b3, b4, b5⟩ := h p hp
    exact ⟨b2, b3⟩
  have hok : ((List.range n).all fun p => dnssprsOK kdim kdim n p A (ownLo A.d1 n p + 1) (limHi A.d1 n p + 1) locB) = true := by
    rw [List.all_eq_true]
    intro p hp
    have hp := List.mem_range.1 hp
    unfold dnssprsOK
    rw [List.all_eq_true]
    intro l hl
    rw [List.all_eq_true]
    intro m hm
    have hl := List.mem_range.1 hl
    have hm := List.mem_range.1 hm
    have := limHi_lt hl hk
    have := limHi_lt hm hk
    have := limits_nonempty hl hk
    have := limits_nonempty hp hi
    obtain ⟨l1, l2⟩ := hlim m hm
    have hr1 : (rowDistribution kdim n p l).1 = bound kdim n l := by
      unfold rowDistribution
      split
      · next hl => rw [hl]; exact ownLo_eq hn hk
      · rfl
    have hr2 : (rowDistribution kdim n p l).2 = limHi kdim n l := by
      unfold rowDistribution
      split
      · next hl => rw [hl]
      · rfl
    rw [Bool.and_eq_true, Bool.or_eq_true, decide_eq_true_eq, decide_eq_true_eq, decide_eq_true_eq, hr1, hr2, ownLo_eq hn hi]
    exact ⟨by omega, Or.inr (by omega)⟩
  have hacc : ∀ p, p < n → accums (kdim * (limHi A.d1 n p + 1 - (ownLo A.d1 n p + 1) + 1)) ((List.range n).flatMap fun l => (List.range n).flatMap fun m =>
          dnssprsBlock kdim kdim n p A (ownLo A.d1 n p + 1) (limHi A.d1 n p + 1) locB l m) =
        some (((List.range n).flatMap fun l => (List.range n).flatMap fun m =>
          dnssprsBlock kdim kdim n p A (ownLo A.d1 n p + 1) (limHi A.d1 n p + 1) locB l m).foldl
            (fun m w => fun x => if x = w.1 then m x + w.2 else m x) fun _ => 0) := by
    intro p hp
    rw [accums, if_pos]
    rw [List.all_eq_true]
    intro w hw
    rw [(dnssprs_perm A p hn hk hM h _ _).mem_iff] at hw
    obtain ⟨i, hi', hw⟩ := List.mem_flatMap.1 hw
    obtain ⟨m, -, hw⟩ := List.mem_flatMap.1 hw
    obtain ⟨r, -, hw⟩ := List.mem_flatMap.1 hw
    obtain ⟨e, he, rfl⟩ := List.mem_map.1 hw
    have hi' := List.mem_range.1 hi'
    obtain ⟨-, -, m3, m4⟩ := hM e (List.mem_filter.1 he).1
    rw [decide_eq_true_eq]
    dsimp only
    have h1 : 0 ≤ (i : Int) * kdim := Int.mul_nonneg (by omega) (by omega)
    have h2 : (i : Int) * kdim + kdim ≤ kdim * (limHi A.d1 n p + 1 - (ownLo A.d1 n p + 1) + 1) := by
      have : ((i : Int) + 1) * kdim ≤ (limHi A.d1 n p + 1 - (ownLo A.d1 n p + 1) + 1) * kdim := Int.mul_le_mul_of_nonneg_right (by omega) (by omega)
      rw [Int.mul_comm kdim]
      rw [Int.add_mul, Int.one_mul] at this
      exact this
    omega
  have hun : dnssprs kdim kdim n A locB = gather kdim A.d1 n (fun p => ownLo A.d1 n p + 1) (fun p => limHi A.d1 n p + 1) fun p =>
      accums (kdim * (limHi A.d1 n p + 1 - (ownLo A.d1 n p + 1) + 1)) ((List.range n).flatMap fun l => (List.range n).flatMap fun m =>
          dnssprsBlock kdim kdim n p A (ownLo A.d1 n p + 1) (limHi A.d1 n p + 1) locB l m) := by
    unfold dnssprs
    rw [if_neg (by omega), if_neg (by omega)]
    dsimp only
    rw [if_neg (by simp [hok])]
  have hsome : ∃ D, dnssprs kdim kdim n A locB = some D := by
    rw [hun]
    unfold gather
    rw [if_pos]
    · exact ⟨_, rfl⟩
    · rw [List.all_eq_true]
      intro p hp
      exact congrArg Option.isSome (hacc p (List.mem_range.1 hp))
  obtain ⟨D, hD⟩ := hsome
  have hg := hun.symm.trans hD
  refine ⟨D, hD, ?_, ?_, ?_⟩
  · unfold gather at hg
    split at hg
    · rw [← Option.some.inj hg]
    · cases hg
  · unfold gather at hg
    split at hg
    · rw [← Option.some.inj hg]
    · cases hg
  intro i j i0 i1 j0 j1
  have hp : owner A.d1 n i < n := owner_lt hn
  have hown := (owner_iff hi hp i0 i1).1 rfl
  have hlo : ∀ p, ownLo A.d1 n p = bound A.d1 n p := fun p => ownLo_eq hn hi
  rw [gather_at hg hp (by rw [hlo]; omega) (by
    intro q hq hh
    rw [hlo] at hh
    exact ((owner_iff hi hq i0 i1).2 (by omega)).symm)]
  generalize owner A.d1 n i = p at hp hown
  rw [hacc p hp, Option.getD_some, accums_fold, zero_add, ((dnssprs_perm A p hn hk hM h _ _).map _).sum_eq, hlo]
  obtain ⟨r0, hr0⟩ : ∃ r0 : Nat, i = bound A.d1 n p + r0 := ⟨(i - bound A.d1 n p).toNat, by omega⟩
  have ex : j + 1 - 1 + (i + 1 - (bound A.d1 n p + 1)) * kdim = j + r0 * kdim := by
    have e1 : i + 1 - (bound A.d1 n p + 1) = r0 := by omega
    rw [e1]
    omega
  rw [ex, sum_flatMap, sum_range_single (a := r0) (by omega)]
  · have hcol := col_sum hM j fun k => A.at' (k + 1) (i + 1)
    rw [← hcol, ← ((proc_rows hn hk hM hlim).map _).sum_eq]
    congr 1
    rw [List.map_flatMap, List.map_flatMap]
    apply flatMap_congr
    intro m _
    rw [List.map_flatMap, List.map_flatMap]
    apply flatMap_congr
    intro r _
    rw [List.map_map]
    apply List.map_congr_left
    intro e he
    simp only [Function.comp]
    have e1 : bound A.d1 n p + 1 + (r0 : Int) = i + 1 := by omega
    rw [e1]
    by_cases hc : e.col = j
    · rw [if_pos hc, if_pos (by rw [hc])]
    · rw [if_neg hc, if_neg (by omega)]
  · intro r _ hne
    refine sum_zero fun w hw => ?_
    obtain ⟨m, -, hw⟩ := List.mem_flatMap.1 hw
    obtain ⟨r', -, hw⟩ := List.mem_flatMap.1 hw
    obtain ⟨e, he, rfl⟩ := List.mem_map.1 hw
    obtain ⟨-, -, m3, m4⟩ := hM e (List.mem_filter.1 he).1
    rw [if_neg]
    intro hh
    have := (dist_inj (a := r) (c := r0) m3 m4 j0 j1 hh).1
    omega

end GA.Sprs
