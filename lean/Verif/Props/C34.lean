import Verif.Props.C44

/-!
# C34: `GA_Compare_distr` recognises equal distributions

A distribution is a `Model.DArray`: a regular array or a block-cyclic one, with the list it is
restricted to and its process group. `NGA_Distribution` is `Model.rOwns` for regular arrays and
`Model.bOwns` for the blocks of the others; `Model.bProc` is the process that holds a block.
-/

namespace GA
open Spec Model

/-- A distribution map without empty blocks: in each dimension the starts begin with 1 and
increase strictly. -/
def StrictMap : (nblock : List Nat) → (mapc : List Int) → Prop
  | n :: ns, m => (0 < n ∧ n ≤ m.length ∧ (m.take n).head? = some 1 ∧ (m.take n).Pairwise (· < ·)) ∧
      StrictMap ns (m.drop n)
  | [], _ => True

private theorem StrictMap.pos {ns : List Nat} {m : List Int} (h : StrictMap ns m) :
    ∀ x ∈ m.take ns.sum, 1 ≤ x := by
  induction ns generalizing m with
  | nil => simp
  | cons n ns ih =>
    obtain ⟨⟨h1, h2, h3, h4⟩, h5⟩ := h
    intro x hx
    rw [List.sum_cons, List.take_add] at hx
    rcases List.mem_append.1 hx with hx | hx
    · cases hh : m.take n with
      | nil => rw [hh] at hx; simp at hx
      | cons y ys =>
        rw [hh] at hx h3 h4
        simp only [List.head?_cons, Option.some.injEq] at h3
        subst h3
        rcases List.mem_cons.1 hx with rfl | hx
        · omega
        · have := (List.pairwise_cons.1 h4).1 x hx; omega
    · exact ih h5 x hx

private theorem StrictMap.len {ns : List Nat} {m : List Int} (h : StrictMap ns m) :
    ns.sum ≤ m.length := by
  induction ns generalizing m with
  | nil => simp
  | cons n ns ih =>
    have := ih h.2
    rw [List.length_drop] at this
    have := h.1.2.1
    rw [List.sum_cons]
    omega

private theorem strict_lt {na nb : List Nat} {n n' : Nat} {ma mb : List Int}
    (ha : StrictMap (n :: na) ma) (hb : StrictMap (n' :: nb) mb) (hs : (n :: na).sum = (n' :: nb).sum)
    (hl : na.length = nb.length) (ht : ma.take (n :: na).sum = mb.take (n :: na).sum) : ¬ n < n' := by
  intro hlt
  cases na with
  | nil =>
    have : nb = [] := List.length_eq_zero_iff.1 (by simpa using hl.symm)
    subst this
    simp at hs
    omega
  | cons k na =>
    obtain ⟨⟨a1, a2, a3, a4⟩, ⟨⟨b1, b2, b3, b4⟩, _⟩⟩ := ha
    obtain ⟨⟨c1, c2, c3, c4⟩, _⟩ := hb
    have e : ma[n]? = mb[n]? := by
      have h := congrArg (fun l => l[n]?) ht
      rwa [List.getElem?_take_of_lt (by simp; omega), List.getElem?_take_of_lt (by simp; omega)] at h
    have e1 : ma[n]? = some 1 := by
      rw [List.head?_take, if_neg (by omega), List.head?_drop] at b3
      exact b3
    rw [e1] at e
    have h0 : (mb.take n')[0]? = some 1 := by rw [← List.head?_eq_getElem?]; exact c3
    have hn : (mb.take n')[n]? = some 1 := by rw [List.getElem?_take_of_lt hlt]; exact e.symm
    rw [List.pairwise_iff_getElem] at c4
    obtain ⟨i0, j0⟩ := List.getElem?_eq_some_iff.1 h0
    obtain ⟨i1, j1⟩ := List.getElem?_eq_some_iff.1 hn
    have := c4 0 n i0 i1 a1
    omega

/-- the number of blocks per dimension can be read off a map without empty blocks -/
private theorem strict_unique {na nb : List Nat} {ma mb : List Int}
    (ha : StrictMap na ma) (hb : StrictMap nb mb) (hl : na.length = nb.length)
    (hs : na.sum = nb.sum) (ht : ma.take na.sum = mb.take na.sum) : na = nb := by
  induction na generalizing nb ma mb with
  | nil => exact (List.length_eq_zero_iff.1 hl.symm).symm
  | cons n na ih =>
    cases nb with
    | nil => simp at hl
    | cons n' nb =>
      have hl' : na.length = nb.length := by simpa using hl
      have h1 := strict_lt ha hb hs hl' ht
      have h2 := strict_lt hb ha hs.symm hl'.symm (by rw [← hs]; exact ht.symm)
      have : n = n' := by omega
      subst this
      have hs' : na.sum = nb.sum := by simpa using hs
      rw [ih ha.2 hb.2 hl' hs']
      have h := congrArg (List.drop n) ht
      rw [List.drop_take, List.drop_take] at h
      simpa using h

private theorem sameMap_take {k : Nat} {a b : List Int} (h : sameMap k a b = true)
    (hp : ∀ x ∈ a.take k, x ≠ -1) : a.take k = b.take k := by
  induction k generalizing a b with
  | zero => simp
  | succ k ih =>
    match a, b, h with
    | x :: a, y :: b, h =>
      simp only [sameMap] at h
      split at h
      · simp at h
      · rename_i hxy
        rw [if_neg (hp x (by simp))] at h
        simp only [ne_eq, Decidable.not_not] at hxy
        subst hxy
        simp only [List.take_succ_cons, List.cons.injEq, true_and]
        exact ih h fun z hz => hp z (by simp [hz])
    | [], b, h => simp [sameMap] at h
    | x :: a, [], h => simp [sameMap] at h

private theorem sameMap_self {k : Nat} {a : List Int} (h : k ≤ a.length) :
    sameMap k a (a.take k) = true := by
  induction k generalizing a with
  | zero => simp [sameMap]
  | succ k ih =>
    cases a with
    | nil => simp at h
    | cons x a =>
      simp only [List.take_succ_cons, sameMap]
      rw [if_neg (by simp), ih (by simpa using h)]
      simp

private theorem getD_of_take {a b : List Int} {k i : Nat} (h : a.take k = b.take k) (hi : i < k) :
    a.getD i 0 = b.getD i 0 := by
  have h := congrArg (fun l => l[i]?) h
  rw [List.getElem?_take_of_lt hi, List.getElem?_take_of_lt hi] at h
  rw [List.getD_eq_getElem?_getD, List.getD_eq_getElem?_getD, h]

private theorem drop_of_take {a b : List Int} {n k : Nat} (h : a.take (n + k) = b.take (n + k)) :
    (a.drop n).take k = (b.drop n).take k := by
  have h := congrArg (List.drop n) h
  rw [List.drop_take, List.drop_take] at h
  simpa using h

private theorem ownsLo_take {ns : List Nat} {a b : List Int} {idx : Nat} (hp : ∀ n ∈ ns, 0 < n)
    (h : a.take ns.sum = b.take ns.sum) : ownsLo ns a idx = ownsLo ns b idx := by
  induction ns generalizing a b idx with
  | nil => rfl
  | cons n ns ih =>
    have hn := Nat.mod_lt idx (hp n (by simp))
    rw [List.sum_cons] at h
    simp only [ownsLo]
    rw [getD_of_take h (by omega), ih (fun x hx => hp x (by simp [hx])) (drop_of_take h)]

private theorem ownsHi_take {ns : List Nat} {ds a b : List Int} {idx : Nat} (hp : ∀ n ∈ ns, 0 < n)
    (h : a.take ns.sum = b.take ns.sum) : ownsHi ns ds a idx = ownsHi ns ds b idx := by
  induction ns generalizing ds a b idx with
  | nil => rfl
  | cons n ns ih =>
    cases ds with
    | nil => rfl
    | cons d ds =>
      have hn := Nat.mod_lt idx (hp n (by simp))
      rw [List.sum_cons] at h
      simp only [ownsHi]
      rw [ih (fun x hx => hp x (by simp [hx])) (drop_of_take h)]
      congr 1
      split
      · rfl
      · rw [getD_of_take h (by omega)]

private theorem splitIdx_lt {ns : List Nat} (hp : ∀ n ∈ ns, 0 < n) (t : Nat) :
    List.Forall₂ (· < ·) (splitIdx ns t) ns := by
  induction ns generalizing t with
  | nil => exact .nil
  | cons n ns ih => exact .cons (Nat.mod_lt _ (hp n (by simp))) (ih (fun x hx => hp x (by simp [hx])) _)

private theorem irr_take {ns idx : List Nat} {ds a b : List Int} (hi : List.Forall₂ (· < ·) idx ns)
    (h : a.take ns.sum = b.take ns.sum) :
    irrLo ns a idx = irrLo ns b idx ∧ irrHi ns ds a idx = irrHi ns ds b idx := by
  induction hi generalizing ds a b with
  | nil => exact ⟨rfl, rfl⟩
  | @cons i n is ns hn _ ih =>
    rw [List.sum_cons] at h
    have hd := drop_of_take h
    cases ds with
    | nil =>
      simp only [irrLo, irrHi]
      rw [getD_of_take h (by omega), (ih (ds := []) hd).1]
      exact ⟨rfl, trivial⟩
    | cons d ds =>
      simp only [irrLo, irrHi]
      rw [getD_of_take h (by omega), (ih (ds := ds) hd).1, (ih (ds := ds) hd).2]
      refine ⟨rfl, ?_⟩
      congr 1
      split
      · rw [getD_of_take h (by omega)]
      · rfl

private theorem strict_pos {ns : List Nat} {m : List Int} (h : StrictMap ns m) : ∀ n ∈ ns, 0 < n := by
  induction ns generalizing m with
  | nil => simp
  | cons n ns ih =>
    intro x hx
    rcases List.mem_cons.1 hx with rfl | hx
    · exact h.1.1
    · exact ih h.2 x hx

theorem compare_owns (A B : RegArray) {la lb : List Int} {ga gb : Int}
    (hA : StrictMap A.nblock A.mapc) (hB : StrictMap B.nblock B.mapc)
    (hla : A.nblock.length = A.dims.length) (hlb : B.nblock.length = B.dims.length)
    (hcmp : compareDistr ⟨.regular A, la, ga⟩ ⟨.regular B, lb, gb⟩ = true) :
    A.dims = B.dims ∧ ∀ q, owns A q = owns B q := by
  simp only [compareDistr, Bool.and_eq_true, decide_eq_true_eq] at hcmp
  obtain ⟨⟨⟨h1, h2⟩, h3⟩, h4⟩ := hcmp
  simp only [maplen] at h2 h3
  refine ⟨h1, ?_⟩
  have ht := sameMap_take h3 fun x hx => by have := hA.pos x hx; omega
  have hn := strict_unique hA hB (by rw [hla, hlb, h1]) h2 ht
  intro q
  unfold owns
  rw [← hn, ← h1, ownsLo_take (strict_pos hA) ht, ownsHi_take (strict_pos hA) ht]

/-- **C34 (regular arrays).** If two regular arrays without empty blocks compare equal, they have
the same dimensions and every process owns the same block of both. Missing for the full claim:
irregular maps with empty blocks (`C34_empty_blocks`), and arrays on different process groups, for
which the process numbers do not mean the same processes (`C34_group_ignored`). -/
theorem C34_regular_partial (A B : RegArray) (la lb : List Int) (ga gb : Int)
    (hA : StrictMap A.nblock A.mapc) (hB : StrictMap B.nblock B.mapc)
    (hla : A.nblock.length = A.dims.length) (hlb : B.nblock.length = B.dims.length)
    (hcmp : compareDistr ⟨.regular A, la, ga⟩ ⟨.regular B, lb, gb⟩ = true)
    (ganproc nproc : Nat) :
    A.dims = B.dims ∧ setRestricted ganproc nproc la = setRestricted ganproc nproc lb ∧
      ∀ R, setRestricted ganproc nproc la = some R → ∀ p, rOwns A R p = rOwns B R p := by
  simp only [compareDistr, Bool.and_eq_true, decide_eq_true_eq] at hcmp
  obtain ⟨⟨⟨h1, h2⟩, h3⟩, h4⟩ := hcmp
  simp only [maplen] at h2 h3
  subst h4
  refine ⟨h1, rfl, ?_⟩
  have ht := sameMap_take h3 fun x hx => by have := hA.pos x hx; omega
  have hn := strict_unique hA hB (by rw [hla, hlb, h1]) h2 ht
  have hown : ∀ q, owns A q = owns B q := by
    intro q
    unfold owns
    rw [← hn, ← h1, ownsLo_take (strict_pos hA) ht, ownsHi_take (strict_pos hA) ht]
  intro R _ p
  have hb : rOwnsBlock A R = rOwnsBlock B R := by
    funext q
    unfold rOwnsBlock
    rw [hown, h1]
  unfold rOwns
  rw [hb]

/-- **C34 (block-cyclic arrays).** If two block-cyclic arrays compare equal, they have the same
dimensions and the same blocks, and on the same number of processes every block is held by the same
process. Irregular tilings must have no empty blocks; see `C34_empty_tiles`. -/
theorem C34_block_partial (A B : BArray) (hA : Created A) (hB : Created B)
    (sA : A.kind = .tiledIrreg → StrictMap A.nblocks A.mapc)
    (sB : B.kind = .tiledIrreg → StrictMap B.nblocks B.mapc) (la lb : List Int) (ga gb : Int)
    (hcmp : compareDistr ⟨.block A, la, ga⟩ ⟨.block B, lb, gb⟩ = true) :
    A.dims = B.dims ∧ la = lb ∧ bTotal A = bTotal B ∧
      ∀ b, bOwns A b = bOwns B b ∧ (A.nproc = B.nproc → bProc A b = bProc B b) := by
  have lA := hA.ok.map.length
  have lB := hB.ok.map.length
  simp only [compareDistr, Bool.and_eq_true, decide_eq_true_eq] at hcmp
  obtain ⟨⟨⟨h1, h2⟩, h3⟩, h4⟩ := hcmp
  refine ⟨h1, h4, ?_⟩
  by_cases hk : A.kind = .tiledIrreg
  · have hk' : B.kind = .tiledIrreg := by rw [← h2]; exact hk
    rw [if_pos hk] at h3
    simp only [Bool.and_eq_true, decide_eq_true_eq] at h3
    obtain ⟨⟨h5, h6⟩, h7⟩ := h3
    simp only [maplen, if_pos hk, if_pos hk'] at h5 h6
    have sA := sA hk
    have sB := sB hk'
    have ht := sameMap_take h6 fun x hx => by have := sA.pos x hx; omega
    have hn := strict_unique sA sB (by rw [← lA, ← lB, h1]) h5 ht
    refine ⟨by unfold bTotal; rw [hn], fun b => ⟨?_, fun _ => ?_⟩⟩
    · unfold bOwns
      simp only [hk, hk', if_true]
      obtain ⟨e1, e2⟩ := irr_take (ds := A.dims) (splitIdx_lt (strict_pos sA) b) ht
      rw [← hn, ← h1, e1, e2]
    · unfold bProc
      rw [hk, hk', hn, h7]
  · have hk' : B.kind ≠ .tiledIrreg := by rw [← h2]; exact hk
    rw [if_neg hk] at h3
    simp only [Bool.and_eq_true, decide_eq_true_eq] at h3
    obtain ⟨⟨h5, h6⟩, h7⟩ := h3
    refine ⟨by unfold bTotal; rw [h6], fun b => ⟨?_, fun hnp => ?_⟩⟩
    · unfold bOwns
      simp only [hk, hk', if_false]
      rw [h1, h5, h6]
    · by_cases hc : A.kind = .cyclic
      · have hc' : B.kind = .cyclic := by rw [← h2]; exact hc
        unfold bProc
        rw [hc, hc', hnp]
      · rw [if_neg hc] at h7
        simp only [decide_eq_true_eq] at h7
        unfold bProc
        rw [← h2, h6, h7, hnp]

private theorem mapOK_len {ns : List Nat} {ds m : List Int} (h : MapOK ns ds m) : ns.sum ≤ m.length := by
  induction ns generalizing ds m with
  | nil => simp
  | cons n ns ih =>
    cases ds with
    | nil => exact h.elim
    | cons d ds =>
      have := ih h.2
      rw [List.length_drop] at this
      have := h.1.2.1
      rw [List.sum_cons]
      omega

/-- **C34 (duplicates).** `GA_Duplicate` makes an array that compares equal to the original one. -/
theorem C34_duplicate (a : DArray)
    (h : match a.dist with
      | .regular A => MapOK A.nblock A.dims A.mapc
      | .block A => A.kind = .tiledIrreg → A.nblocks.sum ≤ A.mapc.length) :
    compareDistr a (duplicateDist a) = true := by
  obtain ⟨d, l, g⟩ := a
  cases d with
  | regular A =>
    have := mapOK_len h
    simp [compareDistr, duplicateDist, maplen, sameMap_self this]
  | block A =>
    by_cases hk : A.kind = .tiledIrreg
    · have := h hk
      by_cases h0 : 0 < A.nblocks.sum
      · simp [compareDistr, duplicateDist, maplen, hk, h0, sameMap_self this]
      · have h0 : A.nblocks.sum = 0 := by omega
        simp [compareDistr, duplicateDist, maplen, hk, h0, sameMap]
    · simp [compareDistr, duplicateDist, maplen, hk]

private theorem axes_strict {dims chunk blk : List Int} {pe : List Nat}
    (h : SplitOK dims chunk blk pe) :
    StrictMap ((axisMaps dims chunk blk pe).map List.length) (axisMaps dims chunk blk pe).flatten := by
  induction dims generalizing chunk blk pe with
  | nil =>
    match chunk, blk, pe, h with
    | [], [], [], _ => simp [axisMaps, StrictMap]
  | cons d ds ih =>
    match chunk, blk, pe, h with
    | c :: cs, b :: bs, p :: ps, ⟨⟨hd, hb, hp⟩, h⟩ =>
      rw [axisMaps_cons]
      simp only [List.map_cons, List.flatten_cons, StrictMap]
      obtain ⟨s1, s2, s3⟩ := axisOf_strict (c := c) hd hb hp
      rw [List.take_left, List.drop_left]
      exact ⟨⟨axisOf_pos hd hb hp, by simp, s1, s2⟩, ih h⟩

/-- **C34 (default distributions).** Arrays with the default distribution have no empty blocks
inside their process grid, so `C34_regular_partial` covers all of them. -/
theorem C34_default_strict (less : Waste → Waste → Bool) (npes : Nat) (dims chunk : List Int)
    (width : List Nat) (hn : 0 < npes) (hd : dims ≠ []) (hp : ∀ d ∈ dims, 1 ≤ d)
    (hc : chunk.length = dims.length) :
    ∃ A, defaultArray less npes dims chunk width = some A ∧ StrictMap A.nblock A.mapc ∧
      A.nblock.length = A.dims.length := by
  obtain ⟨blk, b1, b2, b3⟩ := defaultArray_spec (less := less) (width := width) hn hd hp hc
  exact ⟨_, b3, axes_strict b2, by simp [(axisMaps_length b2).1]⟩

/-! ## Negative results -/

/-- **C34, negative result.** The number of blocks per dimension is not compared. These two
irregular 4 x 4 arrays, both accepted by `NGA_Create_irreg`, compare equal, but process 2 owns the
whole of columns 1..4 of rows 1..4 in the second and nothing in the first. -/
theorem C34_empty_blocks :
    setIrreg [4, 4] [1, 1, 1, 1] [2, 2] [0, 0] = some ⟨[4, 4], [2, 2], [1, 1, 1, 1], [0, 0]⟩ ∧
    setIrreg [4, 4] [1, 1, 1, 1] [3, 1] [0, 0] = some ⟨[4, 4], [3, 1], [1, 1, 1, 1], [0, 0]⟩ ∧
    compareDistr ⟨.regular ⟨[4, 4], [2, 2], [1, 1, 1, 1], [0, 0]⟩, [], 0⟩
      ⟨.regular ⟨[4, 4], [3, 1], [1, 1, 1, 1], [0, 0]⟩, [], 0⟩ = true ∧
    owns ⟨[4, 4], [2, 2], [1, 1, 1, 1], [0, 0]⟩ 2 = ([1, 1], [0, 4]) ∧
    owns ⟨[4, 4], [3, 1], [1, 1, 1, 1], [0, 0]⟩ 2 = ([1, 1], [4, 4]) := by decide

/-- **C34, negative result.** The same for irregular tilings, where `num_blocks` is not compared. -/
theorem C34_empty_tiles :
    ∃ A B, setTiledIrreg 1 [4, 4] [1, 1, 1, 1] [2, 2] [1, 1] = some A ∧
      setTiledIrreg 1 [4, 4] [1, 1, 1, 1] [3, 1] [1, 1] = some B ∧
      compareDistr ⟨.block A, [], 0⟩ ⟨.block B, [], 0⟩ = true ∧
      bTotal A = 4 ∧ bTotal B = 3 ∧ bOwns A 2 ≠ bOwns B 2 :=
  ⟨⟨.tiledIrreg, [4, 4], [], [2, 2], [1, 1], [1, 1, 1, 1], 1⟩,
    ⟨.tiledIrreg, [4, 4], [], [3, 1], [1, 1], [1, 1, 1, 1], 1⟩, by decide⟩

/-- **C34, negative result.** The process group is not compared. -/
theorem C34_group_ignored (d : Dist) (l : List Int) (g g' : Int)
    (h : compareDistr ⟨d, l, g⟩ ⟨d, l, g⟩ = true) : compareDistr ⟨d, l, g⟩ ⟨d, l, g'⟩ = true := by
  simpa [compareDistr] using h

/-! ## Non-vacuity -/

private def exC : RegArray := ⟨[10, 7], [3, 2], [1, 5, 9, 1, 4], [0, 0]⟩
example : StrictMap exC.nblock exC.mapc ∧
    compareDistr ⟨.regular exC, [5, 0, 7, 3, 2, 6], 0⟩ ⟨.regular exC, [5, 0, 7, 3, 2, 6], 0⟩ = true := by
  refine ⟨?_, by decide⟩
  simp [exC, StrictMap]
example : compareDistr ⟨.regular exC, [5, 0, 7, 3, 2, 6], 0⟩ ⟨.regular exC, [5, 0, 7, 3, 2, 1], 0⟩ = false := by
  decide

end GA
