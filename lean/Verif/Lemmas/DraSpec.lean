import Verif.Lemmas.DraExec

/-! # Lemmas: requests on disk resident arrays and their specification -/

namespace GA.Dra
open GA.Spec GA.Model GA.Spec.Dra

theorem destIdx_get {x dlo glo : List Int} (h1 : dlo.length = x.length) (h2 : glo.length = x.length) :
    destIdx x dlo glo = (List.range x.length).map fun i => glo.getD i 0 + (x.getD i 0 - dlo.getD i 0) := by
  induction x generalizing dlo glo with
  | nil => simp [destIdx]
  | cons x xs ih =>
    match dlo, glo, h1, h2 with
    | d :: ds, g :: gs, h1, h2 =>
      rw [destIdx, ih (by simpa using h1) (by simpa using h2), List.length_cons, List.range_succ_eq_map, List.map_cons, List.map_map]
      congr 1
      · simp; omega

theorem getD_reverse (l : List Int) {i : Nat} (h : i < l.length) : l.reverse.getD i 0 = l.getD (l.length - 1 - i) 0 := by
  rw [List.getD_eq_getElem?_getD, List.getD_eq_getElem?_getD, List.getElem?_reverse h]

theorem dest_partner {tr : Bool} {x dlo glo : List Int} (h1 : dlo.length = x.length) (h2 : glo.length = x.length) :
    dest tr dlo glo x = partner tr dlo glo x := by
  cases tr
  · exact destIdx_get h1 h2
  · simp only [dest, trDestIdx, if_true, partner]
    rw [destIdx_get h1 (by simpa using h2)]
    apply List.ext_getElem
    · simp
    · intro i hi hj
      simp only [List.length_reverse, List.length_map, List.length_range] at hi
      rw [List.getElem_reverse]
      simp only [List.getElem_map, List.getElem_range, List.length_map, List.length_range]
      rw [getD_reverse _ (by omega), h2]
      congr 2
      omega

theorem partner_length {tr : Bool} {a b x : List Int} : (partner tr a b x).length = x.length := by simp [partner]

/-- the partner of the partner -/
theorem partner_back {tr : Bool} {x a b : List Int} (h1 : a.length = x.length) : partner tr b a (partner tr a b x) = x := by
  apply List.ext_getElem
  · simp [partner]
  · intro i hi hj
    have key : ∀ j, j < x.length → (partner tr a b x).getD j 0 = b.getD j 0 + (x.getD (if tr then x.length - 1 - j else j) 0 - a.getD (if tr then x.length - 1 - j else j) 0) := by
      intro j hj
      unfold partner
      rw [List.getD_eq_getElem?_getD, List.getElem?_map, List.getElem?_range hj]
      rfl
    have e : (partner tr b a (partner tr a b x))[i] = a.getD i 0 + ((partner tr a b x).getD (if tr then x.length - 1 - i else i) 0 -
        b.getD (if tr then x.length - 1 - i else i) 0) := by
      conv_lhs => unfold partner
      simp only [List.getElem_map, List.getElem_range, List.length_map, List.length_range]
      simp only [partner, List.length_map, List.length_range]
    rw [e, key _ (by split <;> omega)]
    have e2 : (if tr then x.length - 1 - (if tr then x.length - 1 - i else i) else (if tr then x.length - 1 - i else i)) = i := by
      cases tr
      · simp
      · simp only [if_true]; omega
    rw [e2]
    rw [List.getD_eq_getElem?_getD (l := x), List.getElem?_eq_getElem hj]
    simp

theorem edges_sub {lo hi : List Int} (h : hi.length = lo.length) : edges lo hi = (List.zipWith (· - ·) hi lo).map (· + 1) := by
  induction lo generalizing hi with
  | nil => cases hi <;> simp_all [edges]
  | cons l lo ih =>
    match hi, h with
    | h' :: hi, h => simp [edges, ih (by simpa using h)]

theorem edges_pos' {lo hi : List Int} (h : InPatch lo hi lo) : ∀ e ∈ edges lo hi, 1 ≤ e := by
  induction lo generalizing hi with
  | nil => simp [edges]
  | cons l lo ih =>
    match hi, h with
    | h' :: hi, h =>
      simp only [InPatch] at h
      simp only [edges, List.mem_cons]
      rintro e (rfl | he)
      · omega
      · exact ih h.2 e he

theorem prodI_ge_one {l : List Int} (h : ∀ e ∈ l, 1 ≤ e) : 1 ≤ prodI l := by
  induction l with
  | nil => simp [prodI]
  | cons a l ih =>
    have h1 := h a List.mem_cons_self
    have h2 := ih fun e he => h e (List.mem_cons_of_mem _ he)
    simp only [prodI]
    nlinarith

theorem prodI_snoc (l : List Int) (a : Int) : prodI (l ++ [a]) = prodI l * a := by
  induction l with
  | nil => simp [prodI]
  | cons b l ih => simp only [List.cons_append, prodI, ih]; ring

theorem eq_of_prod {l m : List Int} (hl : ∀ e ∈ l, 1 ≤ e) (hm : m.length = l.length) (h1 : prodI l = prodI m) (h2 : l.dropLast = m.dropLast) : l = m := by
  cases hle : l.reverse with
  | nil =>
    have : l = [] := by simpa using hle
    subst this
    cases m <;> simp_all
  | cons a r =>
    have hl' : l = r.reverse ++ [a] := by
      have := congrArg List.reverse hle
      simpa using this
    cases hme : m.reverse with
    | nil =>
      have : m = [] := by simpa using hme
      subst this
      subst hl'
      simp at hm
    | cons b s =>
      have hm' : m = s.reverse ++ [b] := by
        have := congrArg List.reverse hme
        simpa using this
      subst hl'
      subst hm'
      simp only [List.dropLast_concat] at h2
      rw [← h2] at h1 ⊢
      rw [prodI_snoc, prodI_snoc] at h1
      have : 1 ≤ prodI r.reverse := prodI_ge_one fun e he => hl e (List.mem_append_left _ he)
      rw [Int.eq_of_mul_eq_mul_left (by omega) h1]

theorem accepted_iff {A : DArr} {gdims : List Int} {R : SReq} (hg : gdims.length = A.shape.length) :
    accepted A gdims (reqOf R) = true ↔ R.OK (A.shape.map (·.1)) gdims := by
  constructor
  · intro h
    obtain ⟨a, b, c, d⟩ := accepted_facts h
    refine ⟨a, b, ?_⟩
    unfold accepted at h
    simp only [Bool.and_eq_true, decide_eq_true_eq] at h
    obtain ⟨⟨_, h1⟩, h2⟩ := h
    have la := a.2.2.length
    have lb := b.2.2.length
    have e1 := edges_sub la.2
    have e2 := edges_sub lb.2
    have hc : (reqOf R).dlo = R.dlo := rfl
    have hpos : ∀ e ∈ (if (reqOf R).trans then (edges (reqOf R).glo (reqOf R).ghi).reverse else edges (reqOf R).glo (reqOf R).ghi), 1 ≤ e := by
      intro e he
      have := edges_pos' b.2.2
      split at he
      · exact this e (by simpa using he)
      · exact this e he
    have hlen : (edges (reqOf R).dlo (reqOf R).dhi).length =
        (if (reqOf R).trans then (edges (reqOf R).glo (reqOf R).ghi).reverse else edges (reqOf R).glo (reqOf R).ghi).length := by
      split
      · rw [List.length_reverse, edges_len la.2, edges_len lb.2, c, d]
      · rw [edges_len la.2, edges_len lb.2, c, d]
    have := eq_of_prod hpos hlen h1 h2
    rw [e1, e2] at this
    have hinj : Function.Injective (fun l : List Int => l.map (· + 1)) := List.map_injective_iff.2 fun a b h => by simpa using h
    apply hinj
    dsimp only
    rw [← show _ = List.map (· + 1) (List.zipWith (· - ·) R.dhi R.dlo) from this]
    show (if R.trans = true then _ else _) = _
    split <;> rename_i ht
    · rw [List.map_reverse]; rfl
    · rfl
  · rintro ⟨a, b, c⟩
    have la := a.2.2.length
    have lb := b.2.2.length
    have e1 := edges_sub la.2
    have e2 := edges_sub lb.2
    have key : ∀ (dims lo hi : List Int), PatchOK dims lo hi → (decide (lo.length = dims.length) && decide (hi.length = dims.length) &&
      ((lo.zip (hi.zip dims)).all fun s => decide (0 < s.1) && decide (s.1 ≤ s.2.1) && decide (s.2.1 ≤ s.2.2))) = true := by
      intro dims
      induction dims with
      | nil =>
        intro lo hi h
        have l1 := InPatch.length h.1
        have l2 := InPatch.length h.2.1
        cases lo <;> cases hi <;> simp_all
      | cons d dims ih =>
        intro lo hi h
        match lo, hi, h with
        | l :: lo, h' :: hi, h =>
          simp only [PatchOK, InArray, List.map_cons, InPatch] at h
          have := ih lo hi ⟨h.1.2, h.2.1.2, h.2.2.2⟩
          simp only [Bool.and_eq_true, decide_eq_true_eq, List.length_cons, Nat.add_right_cancel_iff, List.zip_cons_cons, List.all_cons] at this ⊢
          exact ⟨this.1, ⟨⟨by omega, by omega⟩, by omega⟩, this.2⟩
        | [], _, h => exact absurd h.1 (by simp [InArray, InPatch])
        | _ :: _, [], h => exact absurd h.2.1 (by simp [InArray, InPatch])
    have he : (if R.trans then (edges R.glo R.ghi).reverse else edges R.glo R.ghi) = edges R.dlo R.dhi := by
      rw [e1, e2, c]
      split
      · rw [List.map_reverse]
      · rfl
    unfold accepted
    have k1 := key gdims R.glo R.ghi b
    have k2 := key (A.shape.map (·.1)) R.dlo R.dhi a
    simp only [Bool.and_eq_true, decide_eq_true_eq] at k1 k2 ⊢
    exact ⟨⟨⟨⟨hg, k1⟩, k2⟩, congrArg prodI he⟩, congrArg List.dropLast he⟩

/-- the global section is the image of the disk section -/
theorem glob_patch {ddims gdims : List Int} {R : SReq} (h : R.OK ddims gdims) (hlen : gdims.length = ddims.length) {y : List Int} :
    InPatch R.glo R.ghi y ↔ ∃ x, InPatch R.dlo R.dhi x ∧ y = dest R.trans R.dlo R.glo x := by
  obtain ⟨a, b, c⟩ := h
  have la := a.2.2.length
  have lb := b.2.2.length
  have l1 := InPatch.length a.1
  have l2 := InPatch.length b.1
  simp only [List.length_map] at l1 l2
  have hgl : R.glo.length = R.dlo.length := by rw [l1.1, l2.1, hlen]
  have e1 : ∀ (a b : List Int), b.length = a.length → destIdx a a b = b := by
    intro a
    induction a with
    | nil => intro b h; cases b <;> simp_all [destIdx]
    | cons x a ih =>
      intro b h
      match b, h with
      | y :: b, h => rw [destIdx, ih b (by simpa using h)]; congr 1; omega
  have e2 : ∀ (lo hi glo ghi : List Int), hi.length = lo.length → glo.length = lo.length → ghi.length = lo.length →
      List.zipWith (· - ·) hi lo = List.zipWith (· - ·) ghi glo → destIdx hi lo glo = ghi := by
    intro lo
    induction lo with
    | nil => intro hi glo ghi h1 h2 h3 _; cases hi <;> cases glo <;> cases ghi <;> simp_all [destIdx]
    | cons l lo ih =>
      intro hi glo ghi h1 h2 h3 h
      match hi, glo, ghi, h1, h2, h3 with
      | h' :: hi, g :: glo, k :: ghi, h1, h2, h3 =>
        simp only [List.zipWith_cons_cons, List.cons.injEq] at h
        rw [destIdx, ih hi glo ghi (by simpa using h1) (by simpa using h2) (by simpa using h3) h.2]
        congr 1; omega
  have f1 : dest R.trans R.dlo R.glo R.dlo = R.glo := by
    unfold dest trDestIdx
    split
    · rw [e1 _ _ (by simpa using hgl), List.reverse_reverse]
    · exact e1 _ _ hgl
  have f2 : dest R.trans R.dlo R.glo R.dhi = R.ghi := by
    unfold dest trDestIdx
    split
    · rename_i ht
      rw [if_pos ht] at c
      rw [e2 R.dlo R.dhi R.glo.reverse R.ghi.reverse la.2 (by simpa using hgl) (by simpa [lb.2] using hgl) ?_, List.reverse_reverse]
      rw [c, List.reverse_zipWith (by rw [lb.2])]
    · rename_i ht
      rw [if_neg ht] at c
      exact e2 _ _ _ _ la.2 hgl (by rw [lb.2, hgl]) c
  have := dest_patch (tr := R.trans) (y := y) (lo := R.dlo) (hi := R.dhi) (dlo := R.dlo) (glo := R.glo) rfl hgl la.2
  rwa [f1, f2] at this

/-- number of rows of the decomposition -/
theorem decomp_rows (stale : Nat → Int) (ax : List Ax) (h : ax.length ≤ 6) : (decomp stale ax).2.length ≤ 10 := by
  have key : ∀ (last : Ent) (pre : List Ax) (prev : Nat → Int) (rest : List Ax), (coverLoop last pre prev rest).length ≤ 2 * rest.length := by
    intro last pre prev rest
    induction rest generalizing pre prev with
    | nil => simp [coverLoop]
    | cons a rest ih =>
      simp only [coverLoop]
      rw [List.length_append, List.length_append, List.length_cons]
      have h1 : (if a.offLow ≠ 0 then [pre.map Ax.full ++ a.low :: rest.map Ax.mid ++ [last]] else []).length ≤ 1 := by split <;> simp
      refine le_trans (Nat.add_le_add (Nat.add_le_add h1 ?_) (ih _ _)) (b := 1 + 1 + 2 * rest.length) (by omega)
      have h2 : ∀ (c : Prop) [Decidable c] (z : List Ent), (if c then [z] else []).length ≤ 1 := by intro c _ z; split <;> simp
      exact h2 _ _
  unfold decomp
  dsimp only
  split
  · have := key (ax.getLastD default).whole [] stale ax.dropLast
    rw [List.length_dropLast] at this
    dsimp only
    omega
  · simp

theorem staleAfter_zero {A : DArr} (h6 : A.shape.length ≤ 6) (stale : Nat → Int) (dlo dhi : List Int) :
    staleAfter stale (decomp stale (axes A.shape dlo dhi)).2 = stale := by
  have hlen : ∀ (sh : List (Int × Int)) (lo hi : List Int), (axes sh lo hi).length ≤ sh.length := by
    intro sh
    induction sh with
    | nil => simp [axes]
    | cons s sh ih =>
      intro lo hi
      obtain ⟨d, c⟩ := s
      cases lo <;> cases hi <;> simp [axes]
      exact ih _ _
  have := decomp_rows stale (axes A.shape dlo dhi) (le_trans (hlen _ _ _) h6)
  unfold staleAfter
  rw [List.getElem?_eq_none (by omega)]

end GA.Dra
