import Verif.Lemmas.SprsStores

/-! # Lemmas: from sparse to dense, columns -/

namespace GA.Sprs
open GA.Model GA.Spec.Sprs

variable {V : Type}

/-- the block that a process has is found -/
theorem access_some {l : Loc V} {c : Nat} (hc : c ∈ l.blkidx) : ∃ w, accessColBlock l c = some w := by
  cases hw : accessColBlock l c with
  | none =>
    have hf : findBlock l.blkidx c = none := by simpa [accessColBlock] using hw
    exact absurd hc (find_none.1 hf)
  | some w => exact ⟨w, rfl⟩

theorem rowIn_empty {blkidx : List Nat} {B : List (List (List (Int × V)))} {c : Nat} (hc : c ∉ blkidx) (r : Nat) : rowIn blkidx B c r = [] := by
  simp [rowIn, find_none.2 hc]

/-- a loop over the blocks of a process is a loop over all blocks -/
theorem blk_perm {n : Nat} {l : Loc V} {B : List (List (List (Int × V)))} (h : Holds l B) (hlt : ∀ c ∈ l.blkidx, c < n) {β : Type}
    (F : Nat → List β) (hF : ∀ c, c ∉ l.blkidx → F c = []) : (l.blkidx.flatMap F).Perm ((List.range n).flatMap F) := by
  have hperm : ((List.range n).filter fun c => c ∈ l.blkidx).Perm l.blkidx := by
    rw [List.perm_ext_iff_of_nodup (List.Nodup.filter _ List.nodup_range) h.hnodup]
    intro c
    simp only [List.mem_filter, List.mem_range, decide_eq_true_eq]
    exact ⟨fun h => h.2, fun h => ⟨hlt c h, h⟩⟩
  refine ((hperm.flatMap_right F).symm).trans (List.Perm.of_eq ?_)
  generalize List.range n = L
  induction L with
  | nil => rfl
  | cons c L ih =>
    rw [List.filter_cons, List.flatMap_cons]
    by_cases hc : c ∈ l.blkidx
    · simp [hc, ih]
    · simp [hc, ih, hF c hc]

/-- the stores of a process are those of its elements -/
theorem sparseStores_perm {n : Nat} {idim jdim : Int} {M : List (Entry V)} {loc : Nat → Loc V} (hn : 0 < n) (hj : (n : Int) ≤ jdim)
    (hM : ∀ e ∈ M, e.In idim jdim) (h : Good n idim jdim loc M) {p : Nat} (hp : p < n) (ld : Int) :
    (sparseStores ld (loc p)).Perm ((List.range (loc p).nrows).flatMap fun r : Nat =>
      (M.filter fun e => e.row = (loc p).ilo + r).map fun e => ((r : Int) * ld + e.col, e.val)) := by
  obtain ⟨B, b1, b2, b3, b4, b5⟩ := h p hp
  have h1 : sparseStores ld (loc p) = (loc p).blkidx.flatMap fun c => (List.range (loc p).nrows).flatMap fun r : Nat =>
      (rowIn (loc p).blkidx B c r).map fun jv => ((r : Int) * ld + jv.1, jv.2) := by
    unfold sparseStores
    rw [List.flatMap_def, List.flatMap_def]
    congr 1
    apply List.map_congr_left
    intro c hc
    obtain ⟨w, hw⟩ := access_some hc
    rw [hw]
    dsimp only
    rw [cells_rows _ w fun r j v => ((r : Int) * ld + j, v)]
    rw [List.flatMap_def, List.flatMap_def]
    congr 1
    apply List.map_congr_left
    intro r hr
    rw [csr_rowIn b1 hw (List.mem_range.1 hr)]
  rw [h1]
  refine (blk_perm b1 b4 _ fun c hc => ?_).trans ?_
  · simp [rowIn_empty hc]
  refine (flatMap_swap _ _ _).trans (flatMap_perm fun r hr => ?_)
  have hr := List.mem_range.1 hr
  rw [← List.map_flatMap]
  have := ((flatMap_perm fun c hc => b5 c r (List.mem_range.1 hc) hr).trans (row_blocks hn hj hM ((loc p).ilo + r))).map
    fun jv : Int × V => ((r : Int) * ld + jv.1, jv.2)
  rw [List.map_map] at this
  exact this

theorem foldl_const_single {α : Type} {L : List (α × V)} {d : V} : L.length ≤ 1 →
    ∀ [AddCommMonoid V], L.foldl (fun _ w => w.2) d = if L = [] then d else (L.map (·.2)).sum := by
  intro h _
  cases L with
  | nil => rfl
  | cons x L =>
    cases L with
    | nil => simp
    | cons y L => simp at h

/-- the dense array made from a square sparse array -/
theorem fromSparse_eq [AddCommMonoid V] {n : Nat} {idim : Int} {M : List (Entry V)} {loc : Nat → Loc V} (hn : 0 < n) (hi : (n : Int) ≤ idim)
    (hM : ∀ e ∈ M, e.In idim idim) (h : Good n idim idim loc M) (honce : ∀ i j, (M.filter fun e => e.row = i ∧ e.col = j).length ≤ 1) :
    ∃ D, fromSparse true idim idim n loc = some D ∧ D.d0 = idim ∧ D.d1 = idim ∧
      ∀ i j, 0 ≤ i → i < idim → 0 ≤ j → j < idim → D.at' (j + 1) (i + 1) = elem M i j := by
  have hlim : ∀ p, p < n → (loc p).ilo = bound idim n p ∧ (loc p).ihi = limHi idim n p := fun p hp => by
    obtain ⟨B, b1, b2, b3, b4, b5⟩ := h p hp
    exact ⟨b2, b3⟩
  have hmono : ∀ p, p + 1 < n → bound idim n (p : Nat) ≤ bound idim n ((p + 1 : Nat) : Int) := by
    intro p hp
    have := limits_nonempty (p := p) (by omega : p < n) hi
    simp only [limHi, hp, if_true] at this
    have e : ((p + 1 : Nat) : Int) = (p : Int) + 1 := by omega
    rw [e]
    omega
  have hmap0 : dimOK idim [1] = true := by
    simp [dimOK]
    omega
  have hmap1 : dimOK idim ((List.range n).map fun p => (loc p).ilo + 1) = true := by
    simp only [dimOK, Bool.and_eq_true, List.all_eq_true, decide_eq_true_eq]
    refine ⟨⟨by simpa using hi, ?_⟩, ?_⟩
    · intro m hm
      obtain ⟨p, hp, rfl⟩ := List.mem_map.1 hm
      have hp := List.mem_range.1 hp
      have := bound_nonneg (p := p) hn hi
      have := limits_nonempty hp hi
      have := limHi_lt hp hi
      have := (hlim p hp).1
      omega
    · intro m hm
      obtain ⟨k, hk, hm⟩ := List.mem_iff_getElem.1 hm
      simp only [List.length_zip, List.length_tail, List.length_map, List.length_range] at hk
      rw [List.getElem_zip, List.getElem_tail] at hm
      simp only [List.getElem_map, List.getElem_range] at hm
      rw [← hm]
      dsimp only
      rw [(hlim k (by omega)).1, (hlim (k + 1) (by omega)).1]
      have := hmono k (by omega)
      omega
  have hany : ((List.range n).any fun p => decide ((loc p).ilo > (loc p).ihi ∨ (loc p).ihi + 1 > idim)) = false := by
    rw [List.any_eq_false]
    intro p hp
    have hp := List.mem_range.1 hp
    have := limits_nonempty hp hi
    have := limHi_lt hp hi
    obtain ⟨h1, h2⟩ := hlim p hp
    rw [decide_eq_true_eq]
    omega
  have hst : ∀ p, p < n → stores (idim * ((loc p).ihi - (loc p).ilo + 1)) (sparseStores idim (loc p)) =
      some ((sparseStores idim (loc p)).foldl (fun m w => fun x => if x = w.1 then w.2 else m x) fun _ => 0) := by
    intro p hp
    rw [stores, if_pos]
    rw [List.all_eq_true]
    intro w hw
    rw [(sparseStores_perm hn hi hM h hp idim).mem_iff] at hw
    obtain ⟨r, hr, hw⟩ := List.mem_flatMap.1 hw
    obtain ⟨e, he, rfl⟩ := List.mem_map.1 hw
    have hr := List.mem_range.1 hr
    obtain ⟨-, -, m3, m4⟩ := hM e (List.mem_filter.1 he).1
    simp only [Loc.nrows] at hr
    rw [decide_eq_true_eq]
    dsimp only
    have h1 : 0 ≤ (r : Int) * idim := Int.mul_nonneg (by omega) (by omega)
    have h2 : (r : Int) * idim + idim ≤ idim * ((loc p).ihi - (loc p).ilo + 1) := by
      have : ((r : Int) + 1) * idim ≤ ((loc p).ihi - (loc p).ilo + 1) * idim := Int.mul_le_mul_of_nonneg_right (by omega) (by omega)
      rw [Int.mul_comm idim]
      rw [Int.add_mul, Int.one_mul] at this
      exact this
    omega
  have hall : ((List.range n).all fun p => (stores (idim * ((loc p).ihi - (loc p).ilo + 1)) (sparseStores idim (loc p))).isSome) = true := by
    rw [List.all_eq_true]
    intro p hp
    rw [hst p (List.mem_range.1 hp)]
    rfl
  unfold fromSparse
  have hm : sparseMap true n loc = 1 :: (List.range n).map fun p => (loc p).ilo + 1 := rfl
  rw [hm]
  simp only [if_true, List.take_succ_cons, List.take_zero, List.drop_succ_cons, List.drop_zero, hmap0, hmap1, hany, hall, and_self, not_true, if_false,
    Bool.false_eq_true]
  refine ⟨_, rfl, rfl, rfl, ?_⟩
  intro i j i0 i1 j0 j1
  dsimp only
  have hp : owner idim n i < n := owner_lt hn
  have hown := (owner_iff hi hp i0 i1).1 rfl
  have hfind : ((List.range n).find? fun p => decide ((loc p).ilo + 1 ≤ i + 1 ∧ i + 1 ≤ (loc p).ihi + 1)) = some (owner idim n i) := by
    cases hf : (List.range n).find? fun p => decide ((loc p).ilo + 1 ≤ i + 1 ∧ i + 1 ≤ (loc p).ihi + 1) with
    | none =>
      have := List.find?_eq_none.1 hf _ (List.mem_range.2 hp)
      simp only [decide_eq_true_eq] at this
      obtain ⟨h1, h2⟩ := hlim _ hp
      omega
    | some q =>
      have h1 := List.find?_some hf
      have hq := List.mem_range.1 (List.mem_of_find?_eq_some hf)
      simp only [decide_eq_true_eq] at h1
      obtain ⟨h3, h4⟩ := hlim _ hq
      rw [(owner_iff hi hq i0 i1).2 (by omega)]
  rw [hfind]
  generalize owner idim n i = p at hp hown
  dsimp only
  rw [hst p hp, Option.getD_some, stores_fold]
  obtain ⟨l1, l2⟩ := hlim p hp
  have hfil : ((sparseStores idim (loc p)).filter fun w => w.1 = j + 1 - 1 + (i + 1 - ((loc p).ilo + 1)) * idim).Perm
      ((M.filter fun e => e.row = i ∧ e.col = j).map fun e => (j + 1 - 1 + (i + 1 - ((loc p).ilo + 1)) * idim, e.val)) := by
    refine ((sparseStores_perm hn hi hM h hp idim).filter _).trans (List.Perm.of_eq ?_)
    rw [filter_flatMap]
    obtain ⟨r0, hr0⟩ : ∃ r0 : Nat, i = (loc p).ilo + r0 := ⟨(i - (loc p).ilo).toNat, by omega⟩
    have hr0' : r0 < (loc p).nrows := by
      simp only [Loc.nrows]
      omega
    have hx : ∀ r : Nat, r < (loc p).nrows → (((M.filter fun e => e.row = (loc p).ilo + r).map fun e => ((r : Int) * idim + e.col, e.val)).filter
        fun w => decide (w.1 = j + 1 - 1 + (i + 1 - ((loc p).ilo + 1)) * idim)) =
          if r = r0 then ((M.filter fun e => e.row = i ∧ e.col = j).map fun e => (j + 1 - 1 + (i + 1 - ((loc p).ilo + 1)) * idim, e.val)) else [] := by
      intro r hr
      rw [List.filter_map, List.filter_filter]
      by_cases hrr : r = r0
      · subst hrr
        rw [if_pos rfl]
        have h1 : (M.filter fun e => ((fun w : Int × V => decide (w.1 = j + 1 - 1 + (i + 1 - ((loc p).ilo + 1)) * idim)) ∘
            fun e : Entry V => ((r : Int) * idim + e.col, e.val)) e && decide (e.row = (loc p).ilo + r)) = M.filter fun e => e.row = i ∧ e.col = j := by
          apply List.filter_congr
          intro e he
          obtain ⟨-, -, m3, m4⟩ := hM e he
          rw [Bool.eq_iff_iff]
          simp only [Function.comp, Bool.and_eq_true, decide_eq_true_eq]
          have e1 : i + 1 - ((loc p).ilo + 1) = r := by omega
          rw [e1]
          omega
        rw [h1]
        apply List.map_congr_left
        intro e he
        have := (List.mem_filter.1 he).2
        simp only [decide_eq_true_eq] at this
        have e1 : i + 1 - ((loc p).ilo + 1) = r := by omega
        rw [e1, this.2]
        refine Prod.ext ?_ rfl
        dsimp only
        omega
      · rw [if_neg hrr]
        have h1 : (M.filter fun e => ((fun w : Int × V => decide (w.1 = j + 1 - 1 + (i + 1 - ((loc p).ilo + 1)) * idim)) ∘
            fun e : Entry V => ((r : Int) * idim + e.col, e.val)) e && decide (e.row = (loc p).ilo + r)) = [] := by
          rw [List.filter_eq_nil_iff]
          intro e he hc
          obtain ⟨-, -, m3, m4⟩ := hM e he
          simp only [Function.comp, Bool.and_eq_true, decide_eq_true_eq] at hc
          have e1 : i + 1 - ((loc p).ilo + 1) = r0 := by omega
          have e2 : j + 1 - 1 = j := by omega
          rw [e1, e2] at hc
          have := (dist_inj (a := r) (c := r0) m3 m4 j0 j1 (by omega)).1
          omega
        rw [h1]
        rfl
    have : ((List.range (loc p).nrows).flatMap fun r : Nat => (((M.filter fun e => e.row = (loc p).ilo + r).map fun e => ((r : Int) * idim + e.col, e.val)).filter
        fun w => decide (w.1 = j + 1 - 1 + (i + 1 - ((loc p).ilo + 1)) * idim))) = (List.range (loc p).nrows).flatMap fun r : Nat =>
          if r = r0 then ((M.filter fun e => e.row = i ∧ e.col = j).map fun e => (j + 1 - 1 + (i + 1 - ((loc p).ilo + 1)) * idim, e.val)) else [] := by
      rw [List.flatMap_def, List.flatMap_def]
      congr 1
      apply List.map_congr_left
      intro r hr
      exact hx r (List.mem_range.1 hr)
    rw [this]
    have h2 : ∀ (m : Nat) (X : List (Int × V)), ((List.range m).flatMap fun r => if r = r0 then X else []) = if r0 < m then X else [] := by
      intro m X
      induction m with
      | zero => simp
      | succ m ih =>
        rw [List.range_succ, List.flatMap_append, ih, List.flatMap_cons, List.flatMap_nil, List.append_nil]
        by_cases h : r0 < m
        · have : ¬ m = r0 := by omega
          simp [h, this, Nat.lt_succ_of_lt h]
        · by_cases h' : m = r0
          · subst h'
            simp
          · have : ¬ r0 < m + 1 := by omega
            simp [h, h', this]
    rw [h2, if_pos hr0']
  have hone := honce i j
  have hlen := hfil.length_eq
  rw [List.length_map] at hlen
  rw [foldl_const_single (by omega)]
  rw [(hfil.map (·.2)).sum_eq, List.map_map, elem]
  split
  · next hnil =>
    rw [hnil] at hlen
    have : (M.filter fun e => e.row = i ∧ e.col = j) = [] := List.eq_nil_of_length_eq_zero hlen.symm
    rw [this]
    rfl
  · rfl

/-- a column -/
theorem getColumn_eq [AddCommMonoid V] {n : Nat} {idim jdim : Int} {M : List (Entry V)} {loc : Nat → Loc V} (hn : 0 < n)
    (hj : (n : Int) ≤ jdim) (hM : ∀ e ∈ M, e.In idim jdim) (h : Good n idim jdim loc M) {p : Nat} (hp : p < n) (icol : Int)
    (honce : ∀ i, (M.filter fun e => e.row = i ∧ e.col = icol).length ≤ 1) {r : Nat} (hr : r < (loc p).nrows) :
    getColumn jdim n icol (loc p) r = elem M ((loc p).ilo + r) icol := by
  obtain ⟨B, b1, b2, b3, b4, b5⟩ := h p hp
  have hcell : ∀ (c : Nat) (w : View V) (d : Nat → V), accessColBlock (loc p) c = some w →
      (cells ((loc p).ihi - (loc p).ilo + 1).toNat w).foldl (fun d k => if w.jdx k.2 = icol then upd d k.1 (w.val k.2) else d) d r =
        ((rowIn (loc p).blkidx B c r).filter fun jv => jv.1 = icol).foldl (fun _ jv => jv.2) (d r) := by
    intro c w d hw
    have h1 := fold_cells (fun _ a j v => if j = icol then v else a) w ((loc p).ihi - (loc p).ilo + 1).toNat d r
    have hr' : r < ((loc p).ihi - (loc p).ilo + 1).toNat := hr
    rw [if_pos hr', csr_rowIn b1 hw hr] at h1
    have h2 : (fun (d : Nat → V) (k : Nat × Nat) => if w.jdx k.2 = icol then upd d k.1 (w.val k.2) else d) =
        fun d k => upd d k.1 (if w.jdx k.2 = icol then w.val k.2 else d k.1) := by
      funext d k
      split
      · rfl
      · funext x
        by_cases hx : x = k.1
        · simp [upd, hx]
        · simp [upd, hx]
    rw [h2, h1]
    generalize rowIn (loc p).blkidx B c r = L
    generalize d r = a
    induction L generalizing a with
    | nil => rfl
    | cons x L ih =>
      rw [List.foldl_cons, ih, List.filter_cons]
      by_cases hx : x.1 = icol
      · simp [hx]
      · simp [hx]
  -- the elements of the row in that column are in one block
  by_cases hin : 0 ≤ icol ∧ icol < jdim
  · obtain ⟨c0, c1⟩ := hin
    have ho : owner jdim n icol < n := owner_lt hn
    have hown := (owner_iff hj ho c0 c1).1 rfl
    have hblk : Int.tdiv (icol * n) jdim = (owner jdim n icol : Int) := by
      rw [Int.tdiv_eq_ediv_of_nonneg (Int.mul_nonneg c0 (by omega))]
      have h1 : icol * n / jdim < n := Int.ediv_lt_of_lt_mul (by omega) (by
        rw [Int.mul_comm (n : Int)]
        exact Int.mul_lt_mul_of_pos_right c1 (by omega))
      have h2 : 0 ≤ icol * n / jdim := Int.ediv_nonneg (Int.mul_nonneg c0 (by omega)) (by omega)
      simp only [owner]
      rw [if_neg (by omega)]
      omega
    have hfil : (((rowIn (loc p).blkidx B (owner jdim n icol) r).filter fun jv => jv.1 = icol)).Perm
        ((M.filter fun e => e.row = (loc p).ilo + r ∧ e.col = icol).map fun e => (e.col, e.val)) := by
      refine ((b5 _ r ho hr).filter _).trans (List.Perm.of_eq ?_)
      rw [rowPart, List.filter_map, List.filter_filter]
      congr 1
      apply List.filter_congr
      intro e _
      rw [Bool.eq_iff_iff]
      simp only [Function.comp, Bool.and_eq_true, decide_eq_true_eq]
      omega
    have hfold : ∀ (L : List Nat) (d : Nat → V), L.Nodup → (∀ c ∈ L, c ∈ (loc p).blkidx) →
        (L.foldl (fun (d : Nat → V) (c : Nat) =>
          if (c : Int) = Int.tdiv (icol * n) jdim then
            match accessColBlock (loc p) c with
            | some w => (cells ((loc p).ihi - (loc p).ilo + 1).toNat w).foldl (fun d k => if w.jdx k.2 = icol then upd d k.1 (w.val k.2) else d) d
            | none => d
          else d) d) r = if owner jdim n icol ∈ L then
            ((rowIn (loc p).blkidx B (owner jdim n icol) r).filter fun jv => jv.1 = icol).foldl (fun _ jv => jv.2) (d r) else d r := by
      intro L
      induction L with
      | nil => intro d _ _; simp
      | cons c L ih =>
        intro d hnd hL
        rw [List.nodup_cons] at hnd
        rw [List.foldl_cons, ih _ hnd.2 fun c hc => hL c (List.mem_cons_of_mem _ hc)]
        rw [hblk]
        by_cases hc : c = owner jdim n icol
        · have hnot : owner jdim n icol ∉ L := hc ▸ hnd.1
          obtain ⟨w, hw⟩ := access_some (hL c List.mem_cons_self)
          rw [if_neg hnot, if_pos (by rw [hc]), hw]
          dsimp only
          rw [hcell c w d hw, hc, if_pos List.mem_cons_self]
        · have hc' : ¬ (c : Int) = (owner jdim n icol : Int) := by omega
          rw [if_neg hc']
          have : owner jdim n icol ∈ c :: L ↔ owner jdim n icol ∈ L := by
            simp only [List.mem_cons]
            constructor
            · rintro (h | h)
              · exact absurd h.symm hc
              · exact h
            · exact Or.inr
          simp only [this]
    unfold getColumn
    refine (hfold (loc p).blkidx (fun _ => 0) b1.hnodup fun c hc => hc).trans ?_
    have hone := honce ((loc p).ilo + r)
    have hlen := hfil.length_eq
    rw [List.length_map] at hlen
    split
    · rw [foldl_const_single (by omega), (hfil.map (·.2)).sum_eq, List.map_map, elem]
      split
      · next hnil =>
        rw [hnil] at hlen
        have : (M.filter fun e => e.row = (loc p).ilo + r ∧ e.col = icol) = [] := List.eq_nil_of_length_eq_zero hlen.symm
        rw [this]
        rfl
      · rfl
    · next hno =>
      rw [rowIn_empty hno] at hlen
      have : (M.filter fun e => e.row = (loc p).ilo + r ∧ e.col = icol) = [] := List.eq_nil_of_length_eq_zero hlen.symm
      rw [elem, this]
      rfl
  · have hz : elem M ((loc p).ilo + r) icol = 0 := by
      have : (M.filter fun e => e.row = (loc p).ilo + r ∧ e.col = icol) = [] := by
        rw [List.filter_eq_nil_iff]
        intro e he
        obtain ⟨-, -, m3, m4⟩ := hM e he
        simp only [decide_eq_true_eq]
        omega
      rw [elem, this]
      rfl
    rw [hz]
    have hfold : ∀ (L : List Nat) (d : Nat → V), (∀ c ∈ L, c ∈ (loc p).blkidx) → d r = 0 →
        (L.foldl (fun (d : Nat → V) (c : Nat) =>
          if (c : Int) = Int.tdiv (icol * n) jdim then
            match accessColBlock (loc p) c with
            | some w => (cells ((loc p).ihi - (loc p).ilo + 1).toNat w).foldl (fun d k => if w.jdx k.2 = icol then upd d k.1 (w.val k.2) else d) d
            | none => d
          else d) d) r = 0 := by
      intro L
      induction L with
      | nil => intro d _ hd; exact hd
      | cons c L ih =>
        intro d hL hd
        rw [List.foldl_cons]
        refine ih _ (fun c hc => hL c (List.mem_cons_of_mem _ hc)) ?_
        split
        · obtain ⟨w, hw⟩ := access_some (hL c List.mem_cons_self)
          rw [hw]
          dsimp only
          rw [hcell c w d hw]
          have : ((rowIn (loc p).blkidx B c r).filter fun jv => jv.1 = icol) = [] := by
            rw [List.filter_eq_nil_iff]
            intro jv hjv
            rw [(b5 c r (b4 c (hL c List.mem_cons_self)) hr).mem_iff] at hjv
            obtain ⟨e, he, rfl⟩ := List.mem_map.1 hjv
            obtain ⟨-, -, m3, m4⟩ := hM e (List.mem_filter.1 he).1
            simp only [decide_eq_true_eq]
            omega
          rw [this]
          exact hd
        · exact hd
    exact hfold _ _ (fun c hc => hc) rfl

end GA.Sprs
