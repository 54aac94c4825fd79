import Verif.Props.C67

/-!
# C68: gather and scatter on global pointer arrays
-/

namespace GA
open Spec Model GP

variable {B : Type}

/-! ## the linked lists -/

private theorem chase_same {l l' : Int → Int} {k : Int} (h : ∀ i, i ≠ k → l' i = l i) (fuel : Nat) (s : Int) (hk : k ∉ chase l fuel s) :
    chase l' fuel s = chase l fuel s := by
  induction fuel generalizing s with
  | zero => rfl
  | succ f ih =>
    simp only [chase] at hk ⊢
    by_cases hs : s > -1
    · rw [if_pos hs] at hk ⊢
      rw [if_pos hs]
      simp only [List.mem_cons, not_or] at hk
      rw [h s (Ne.symm hk.1), ih _ hk.2]
    · rw [if_neg hs, if_neg hs]

private theorem link_append (cs : List Int) (c : Int) (i : Int) (h l n : Int → Int) :
    link (cs ++ [c]) i h l n =
      (upd (link cs i h l n).1 c (i + cs.length), upd (link cs i h l n).2.1 (i + cs.length) ((link cs i h l n).1 c),
        upd (link cs i h l n).2.2 c ((link cs i h l n).2.2 c + 1)) := by
  induction cs generalizing i h l n with
  | nil => simp [link]
  | cons d cs ih =>
    simp only [List.cons_append, link, ih, List.length_cons]
    have : i + 1 + (cs.length : Int) = i + ((cs.length + 1 : Nat) : Int) := by push_cast; ring
    rw [this]

/-- the list of process `p` has the numbers of its elements, the last one first -/
private theorem chase_link (cs : List Int) : ∀ (p : Int) (fuel : Nat), cs.length ≤ fuel →
    chase (link cs 0 (fun _ => -1) (fun _ => 0) (fun _ => 0)).2.1 fuel ((link cs 0 (fun _ => -1) (fun _ => 0) (fun _ => 0)).1 p) =
      (((List.range cs.length).filter fun i => decide (cs.getD i 0 = p)).reverse).map fun i : Nat => (i : Int) := by
  induction cs using List.reverseRecOn with
  | nil =>
    intro p fuel _
    cases fuel <;> simp [link, chase]
  | append_singleton cs c ih =>
    intro p fuel hf
    rw [List.length_append, List.length_singleton] at hf
    obtain ⟨f, rfl⟩ : ∃ f, fuel = f + 1 := ⟨fuel - 1, by omega⟩
    rw [link_append]
    simp only [Int.zero_add]
    have hne : ∀ q : Int, (cs.length : Int) ∉ (((List.range cs.length).filter fun i => decide (cs.getD i 0 = q)).reverse).map fun i : Nat => (i : Int) := by
      intro q hm
      simp only [List.mem_map, List.mem_reverse, List.mem_filter, List.mem_range] at hm
      obtain ⟨i, hi, e⟩ := hm
      omega
    have hfil : (List.range (cs ++ [c]).length).filter (fun i => decide ((cs ++ [c]).getD i 0 = p)) =
        ((List.range cs.length).filter fun i => decide (cs.getD i 0 = p)) ++ if c = p then [cs.length] else [] := by
      rw [List.length_append, List.length_singleton, List.range_succ, List.filter_append]
      congr 1
      · apply List.filter_congr
        intro i hi
        have := List.mem_range.1 hi
        simp [List.getD_eq_getElem?_getD, List.getElem?_append_left this]
      · by_cases e : c = p <;> simp [List.getD_eq_getElem?_getD, e]
    rw [hfil]
    have hs : ∀ q fuel, cs.length ≤ fuel → chase (upd (link cs 0 (fun _ => -1) (fun _ => 0) (fun _ => 0)).2.1 (cs.length : Int)
        ((link cs 0 (fun _ => -1) (fun _ => 0) (fun _ => 0)).1 c)) fuel ((link cs 0 (fun _ => -1) (fun _ => 0) (fun _ => 0)).1 q) =
        chase (link cs 0 (fun _ => -1) (fun _ => 0) (fun _ => 0)).2.1 fuel ((link cs 0 (fun _ => -1) (fun _ => 0) (fun _ => 0)).1 q) := by
      intro q fuel hfu
      apply chase_same (k := (cs.length : Int)) (fun i hi => by simp [upd, hi])
      rw [ih q fuel hfu]
      exact hne q
    by_cases e : c = p
    · subst e
      simp only [upd, if_true, List.reverse_append, List.map_append, List.reverse_singleton, List.map_cons, List.map_nil, List.singleton_append]
      have := hs c f (by omega)
      rw [ih c f (by omega)] at this
      rw [← this]
      simp only [chase]
      rw [if_pos (by omega)]
      simp [upd]
    · simp only [if_neg e, List.append_nil]
      have := hs p (f + 1) (by omega)
      rw [ih p (f + 1) (by omega)] at this
      have e' : ¬ p = c := fun h => e h.symm
      have e2 : upd (link cs 0 (fun _ => -1) (fun _ => 0) (fun _ => 0)).1 c (cs.length : Int) p = (link cs 0 (fun _ => -1) (fun _ => 0) (fun _ => 0)).1 p := by
        simp [upd, e']
      rw [e2, this]


private theorem mem_chain {ptrs : List Ptr} {p i : Int} :
    i ∈ chain ptrs p ↔ ∃ k : Nat, k < ptrs.length ∧ i = k ∧ (ptrs.getD k ⟨0, 0⟩).proc = p := by
  unfold chain
  dsimp only
  rw [chase_link _ _ _ (by simp)]
  simp only [List.mem_map, List.mem_reverse, List.mem_filter, List.mem_range, List.length_map, decide_eq_true_eq]
  constructor
  · rintro ⟨k, ⟨h1, h2⟩, rfl⟩
    refine ⟨k, h1, rfl, ?_⟩
    rw [List.getD_eq_getElem?_getD, List.getElem?_map, List.getElem?_eq_getElem h1] at h2
    rw [List.getD_eq_getElem?_getD, List.getElem?_eq_getElem h1]
    exact h2
  · rintro ⟨k, h1, rfl, h2⟩
    refine ⟨k, ⟨h1, ?_⟩, rfl⟩
    rw [List.getD_eq_getElem?_getD, List.getElem?_map, List.getElem?_eq_getElem h1]
    rw [List.getD_eq_getElem?_getD, List.getElem?_eq_getElem h1] at h2
    exact h2

/-! ## the list of places -/

private theorem gatherPtrs_length (b0 : Int) (ss : List Int) : (gatherPtrs b0 ss).length = ss.length := by
  induction ss generalizing b0 with
  | nil => rfl
  | cons s ss ih => simp [gatherPtrs, ih]

private theorem gatherPtrs_getD (b0 : Int) (ss : List Int) {i : Nat} (h : i < ss.length) : (gatherPtrs b0 ss).getD i 0 = b0 + (ss.take i).sum := by
  induction ss generalizing b0 i with
  | nil => simp at h
  | cons s ss ih =>
    cases i with
    | zero => simp [gatherPtrs]
    | succ i =>
      simp only [gatherPtrs, List.getD_cons_succ, List.take_succ_cons, List.sum_cons]
      rw [ih (b0 + s) (by simpa using h)]
      ring

private theorem sum_take_le {ss : List Int} (h : ∀ s ∈ ss, 0 ≤ s) {i j : Nat} (hij : i ≤ j) : (ss.take i).sum ≤ (ss.take j).sum := by
  induction ss generalizing i j with
  | nil => simp
  | cons s ss ih =>
    have hs := h s (List.mem_cons_self ..)
    cases j with
    | zero =>
      have : i = 0 := by omega
      subst this; simp
    | succ j =>
      have h' : ∀ s ∈ ss, 0 ≤ s := fun t ht => h t (List.mem_cons_of_mem _ ht)
      cases i with
      | zero =>
        have := ih h' (i := 0) (j := j) (by omega)
        simp only [List.take_zero, List.sum_nil, List.take_succ_cons, List.sum_cons] at this ⊢
        omega
      | succ i =>
        have := ih h' (i := i) (j := j) (by omega)
        simp only [List.take_succ_cons, List.sum_cons]
        omega

private theorem sum_take_succ {ss : List Int} {i : Nat} (h : i < ss.length) : (ss.take (i + 1)).sum = (ss.take i).sum + ss.getD i 0 := by
  rw [List.take_add_one, List.sum_append, List.getD_eq_getElem?_getD, List.getElem?_eq_getElem h]
  simp

private theorem checkAll {dims : List Int} {xs : List (List Int)} (h : ∀ x ∈ xs, InArray dims x) :
    (xs.all fun x => checkSubscript x (dims.map fun _ => 1) dims) = true := by
  rw [List.all_eq_true]
  exact fun x hx => checkSubscript_of_inPatch (h x hx)

private theorem getD_map' {α β : Type} (f : α → β) (xs : List α) (d : β) (d' : α) {i : Nat} (h : i < xs.length) : (xs.map f).getD i d = f (xs.getD i d') := by
  rw [List.getD_eq_getElem?_getD, List.getElem?_map, List.getD_eq_getElem?_getD, List.getElem?_eq_getElem h]
  rfl

private theorem getD_mem' {α : Type} (xs : List α) (d : α) {i : Nat} (h : i < xs.length) : xs.getD i d ∈ xs := by
  rw [List.getD_eq_getElem?_getD, List.getElem?_eq_getElem h]
  exact List.getElem_mem h

private theorem mem_work {nproc : Nat} {ptrs : List Ptr} {q : Int} {i : Int} :
    (q, i) ∈ ((List.range nproc).flatMap fun p : Nat => (chain ptrs p).map fun i => ((p : Int), i)) ↔
      ∃ k : Nat, k < ptrs.length ∧ i = k ∧ (ptrs.getD k ⟨0, 0⟩).proc = q ∧ 0 ≤ q ∧ q < nproc := by
  simp only [List.mem_flatMap, List.mem_range, List.mem_map, mem_chain, Prod.mk.injEq]
  constructor
  · rintro ⟨p, hp, j, ⟨k, h1, h2, h3⟩, rfl, rfl⟩
    exact ⟨k, h1, h2, h3, by omega, by omega⟩
  · rintro ⟨k, h1, h2, h3, h4, h5⟩
    refine ⟨q.toNat, by omega, i, ⟨k, h1, h2, ?_⟩, by omega, rfl⟩
    rw [h3]; omega

/-- transfers of a gather, for any places and sizes -/
private theorem gather_fold (nproc : Nat) {st : St B} (xs : List (List Int)) (bp bs : List Int) (loc : Int → B) :
    (List.range nproc).foldl (fun l (p : Nat) => (chain (xs.map st.pt) p).foldl (fun l i =>
        memcpy (bs.getD i.toNat 0) (st.mem p) ((xs.map st.pt).getD i.toNat ⟨0, 0⟩).addr (bp.getD i.toNat 0) l) l) loc =
    (((List.range nproc).flatMap fun p : Nat => (chain (xs.map st.pt) p).map fun i => ((p : Int), i))).foldl
      (fun l e => memcpy (bs.getD e.2.toNat 0) (st.mem e.1) (st.pt (xs.getD e.2.toNat [])).addr (bp.getD e.2.toNat 0) l) loc := by
  rw [List.foldl_flatMap]
  congr 1
  funext l p
  rw [List.foldl_map]
  have : ∀ (L : List Int) (l : Int → B), (∀ i ∈ L, i.toNat < xs.length) → L.foldl (fun l i =>
        memcpy (bs.getD i.toNat 0) (st.mem p) ((xs.map st.pt).getD i.toNat ⟨0, 0⟩).addr (bp.getD i.toNat 0) l) l =
      L.foldl (fun l i => memcpy (bs.getD i.toNat 0) (st.mem p) (st.pt (xs.getD i.toNat [])).addr (bp.getD i.toNat 0) l) l := by
    intro L
    induction L with
    | nil => intros; rfl
    | cons a L ih =>
      intro l hL
      rw [List.foldl_cons, List.foldl_cons, getD_map' st.pt xs ⟨0, 0⟩ [] (hL a (List.mem_cons_self ..)), ih _ fun i hi => hL i (List.mem_cons_of_mem _ hi)]
  refine this _ _ fun i hi => ?_
  obtain ⟨k, h1, h2, -⟩ := mem_chain.1 hi
  simp at h1
  omega

/-- a gather, for any disjoint places and sizes -/
private theorem gather_bytes {A : RegArray} (hA : ArrOK A) {st : St B} {val : List Int → List B} (hv : GPHolds A st val) {nproc : Nat}
    (hnp : gridSize A.nblock ≤ nproc) {xs : List (List Int)} {bp bs : List Int}
    (hn : ∀ i, i < xs.length → 0 < bs.getD i 0 ∧ bs.getD i 0 ≤ (val (xs.getD i [])).length)
    (hd : ∀ i j a, i < xs.length → j < xs.length → i ≠ j → Within (bp.getD i 0) (bs.getD i 0) a → ¬ Within (bp.getD j 0) (bs.getD j 0) a) (loc : Int → B) :
    (∀ i, i < xs.length → bytesAt ((List.range nproc).foldl (fun l (p : Nat) => (chain (xs.map st.pt) p).foldl (fun l i =>
        memcpy (bs.getD i.toNat 0) (st.mem p) ((xs.map st.pt).getD i.toNat ⟨0, 0⟩).addr (bp.getD i.toNat 0) l) l) loc) (bp.getD i 0) (bs.getD i 0).toNat =
      (val (xs.getD i [])).take (bs.getD i 0).toNat) ∧
    ∀ a, (∀ i, i < xs.length → ¬ Within (bp.getD i 0) (bs.getD i 0) a) →
      (List.range nproc).foldl (fun l (p : Nat) => (chain (xs.map st.pt) p).foldl (fun l i =>
        memcpy (bs.getD i.toNat 0) (st.mem p) ((xs.map st.pt).getD i.toNat ⟨0, 0⟩).addr (bp.getD i.toNat 0) l) l) loc a = loc a := by
  rw [gather_fold]
  obtain ⟨g1, g2⟩ := gp_get_bytes hA hv (S := fun i : Int => 0 ≤ i ∧ i < xs.length) (key := fun i => xs.getD i.toNat [])
    (n := fun i => bs.getD i.toNat 0) (d := fun i => bp.getD i.toNat 0)
    (W := (List.range nproc).flatMap fun p : Nat => (chain (xs.map st.pt) p).map fun i => ((p : Int), i))
    (by
      rintro ⟨q, i⟩ he
      obtain ⟨k, h1, rfl, h3, -, -⟩ := mem_work.1 he
      rw [List.length_map] at h1
      rw [getD_map' st.pt xs ⟨0, 0⟩ [] h1] at h3
      have := hn k h1
      refine ⟨⟨by omega, by dsimp only; omega⟩, ?_⟩
      simp only [Int.toNat_natCast]
      rw [← h3]
      exact hv.owner _ fun h => by rw [h] at this; simp at this; omega)
    (by
      rintro i ⟨h1, h2⟩
      have hi : i.toNat < xs.length := by omega
      have := hn i.toNat hi
      have ho := hv.owner (xs.getD i.toNat []) fun h => by rw [h] at this; simp at this; omega
      have hg := ((ownedBy_iff hA.ne hA.map).1 ho).1
      refine ⟨_, mem_work.2 ⟨i.toNat, by simpa using hi, by omega, rfl, ?_⟩⟩
      rw [getD_map' st.pt xs ⟨0, 0⟩ [] hi]
      omega)
    (by
      rintro i ⟨h1, h2⟩
      have := hn i.toNat (by omega)
      omega)
    (by
      rintro i j a ⟨h1, h2⟩ ⟨h3, h4⟩ hij
      exact hd i.toNat j.toNat a (by omega) (by omega) (by omega)) loc
  constructor
  · intro i hi
    have := g1 (i : Int) ⟨by omega, by omega⟩
    simpa using this
  · intro a ha
    exact g2 a fun i hi => ha i.toNat (by omega)

/-- **C68 (gather), partial.** Elements that all have at least one byte, in any order, with repetitions: the lists have the lengths of the elements and their
places in the buffer, one behind the other; at every place are the bytes of the element; memory outside of the buffer is not changed. Missing: elements
without bytes (`C68_empty_element`) and the sum of the sizes (`C68_sum`). -/
theorem C68_gather_partial (A : RegArray) (hA : ArrOK A) (nproc : Nat) (hnp : gridSize A.nblock ≤ nproc) (st : St B) (val : List Int → List B)
    (hv : GPHolds A st val) (xs : List (List Int)) (hx : ∀ x ∈ xs, InArray A.dims x) (h0 : ∀ x ∈ xs, val x ≠ []) (b0 : Int) (loc : Int → B)
    (bp0 bs0 : List Int) :
    ∃ loc' bp bs, gpGather nproc A.dims st xs b0 false loc bp0 bs0 = some (loc', bp, bs) ∧ bp.length = xs.length ∧ bs.length = xs.length ∧
      (∀ i, i < xs.length →
        bs.getD i 0 = (val (xs.getD i [])).length ∧
        bp.getD i 0 = b0 + ((xs.take i).map fun x => ((val x).length : Int)).sum ∧
        bytesAt loc' (bp.getD i 0) (val (xs.getD i [])).length = val (xs.getD i [])) ∧
      ∀ a, ¬ Within b0 ((xs.map fun x => ((val x).length : Int)).sum) a → loc' a = loc a := by
  have hs : xs.map st.sz = xs.map fun x => ((val x).length : Int) := List.map_congr_left fun x _ => hv.size x
  have hany : ((xs.map st.sz).any fun s => decide (s ≤ 0)) = false := by
    rw [List.any_eq_false]
    intro s hs'
    obtain ⟨x, hx', rfl⟩ := List.mem_map.1 hs'
    have := List.length_pos_of_ne_nil (h0 x hx')
    rw [hv.size]
    simp only [decide_eq_true_eq]
    omega
  have hbs : ∀ i, i < xs.length → (xs.map st.sz).getD i 0 = (val (xs.getD i [])).length := by
    intro i hi
    rw [getD_map' st.sz xs 0 [] hi, hv.size]
  have hbp : ∀ i, i < xs.length → (gatherPtrs b0 (xs.map st.sz)).getD i 0 = b0 + ((xs.map st.sz).take i).sum := fun i hi =>
    gatherPtrs_getD b0 _ (by simpa using hi)
  have hnn : ∀ s ∈ xs.map st.sz, 0 ≤ s := by
    intro s hs'
    obtain ⟨x, hx', rfl⟩ := List.mem_map.1 hs'
    rw [hv.size]; omega
  have hend : ∀ i, i < xs.length → b0 + ((xs.map st.sz).take i).sum + (xs.map st.sz).getD i 0 = b0 + ((xs.map st.sz).take (i + 1)).sum := by
    intro i hi
    rw [sum_take_succ (by simpa using hi)]; ring
  obtain ⟨g1, g2⟩ := gather_bytes hA hv hnp (xs := xs) (bp := gatherPtrs b0 (xs.map st.sz)) (bs := xs.map st.sz)
    (fun i hi => by
      rw [hbs i hi]
      have := List.length_pos_of_ne_nil (h0 _ (getD_mem' xs [] hi))
      omega)
    (fun i j a hi hj hij h1 h2 => by
      unfold Within at h1 h2
      rw [hbp i hi, hend i hi] at h1
      rw [hbp j hj, hend j hj] at h2
      rcases Nat.lt_or_gt_of_ne hij with h | h
      · have := sum_take_le hnn (i := i + 1) (j := j) h
        omega
      · have := sum_take_le hnn (i := j + 1) (j := i) h
        omega) loc
  have hgo : gpGather nproc A.dims st xs b0 false loc bp0 bs0 = some ((List.range nproc).foldl (fun l (p : Nat) => (chain (xs.map st.pt) p).foldl (fun l i =>
      memcpy ((xs.map st.sz).getD i.toNat 0) (st.mem p) ((xs.map st.pt).getD i.toNat ⟨0, 0⟩).addr ((gatherPtrs b0 (xs.map st.sz)).getD i.toNat 0) l) l) loc,
      gatherPtrs b0 (xs.map st.sz), xs.map st.sz) := by
    unfold gpGather
    rw [checkAll hx]
    simp only [Bool.not_true, Bool.false_eq_true, if_false, hany]
  refine ⟨_, _, _, hgo, ?_, ?_, ?_, ?_⟩
  · rw [gatherPtrs_length]; simp
  · simp
  · intro i hi
    have := g1 i hi
    rw [hbs i hi] at this
    refine ⟨hbs i hi, ?_, ?_⟩
    · rw [hbp i hi, hs, List.map_take]
    · simpa using this
  · intro a ha
    refine g2 a fun i hi hw => ha ?_
    unfold Within at hw ⊢
    rw [hbp i hi, hend i hi] at hw
    have h1 := sum_take_le hnn (i := 0) (j := i) (by omega)
    have h2 := sum_take_le hnn (i := i + 1) (j := (xs.map st.sz).length) (by simp; omega)
    rw [List.take_length] at h2
    simp only [List.take_zero, List.sum_nil] at h1
    rw [← hs]
    omega

/-- **C68 (gather to given places), partial.** Places and sizes are given by the caller, the sizes positive and not larger than the elements, the places
disjoint. -/
theorem C68_gather_given_partial (A : RegArray) (hA : ArrOK A) (nproc : Nat) (hnp : gridSize A.nblock ≤ nproc) (st : St B) (val : List Int → List B)
    (hv : GPHolds A st val) (xs : List (List Int)) (hx : ∀ x ∈ xs, InArray A.dims x) (b0 : Int) (loc : Int → B) (bp bs : List Int)
    (hl : bs.length = xs.length) (hn : ∀ i, i < xs.length → 0 < bs.getD i 0 ∧ bs.getD i 0 ≤ (val (xs.getD i [])).length)
    (hd : ∀ i j a, i < xs.length → j < xs.length → i ≠ j → Within (bp.getD i 0) (bs.getD i 0) a → ¬ Within (bp.getD j 0) (bs.getD j 0) a) :
    ∃ loc', gpGather nproc A.dims st xs b0 true loc bp bs = some (loc', bp, bs) ∧
      (∀ i, i < xs.length → bytesAt loc' (bp.getD i 0) (bs.getD i 0).toNat = (val (xs.getD i [])).take (bs.getD i 0).toNat) ∧
      ∀ a, (∀ i, i < xs.length → ¬ Within (bp.getD i 0) (bs.getD i 0) a) → loc' a = loc a := by
  have hany : (bs.any fun s => decide (s ≤ 0)) = false := by
    rw [List.any_eq_false]
    intro s hs'
    obtain ⟨i, hi, rfl⟩ := List.getElem_of_mem hs'
    have := (hn i (by omega)).1
    rw [List.getD_eq_getElem?_getD, List.getElem?_eq_getElem hi] at this
    simp only [decide_eq_true_eq]
    simp at this
    omega
  refine ⟨_, ?_, gather_bytes hA hv hnp hn hd loc⟩
  unfold gpGather
  rw [checkAll hx]
  simp only [Bool.not_true, Bool.false_eq_true, if_false, if_true, hany]

/-! ## scatter -/

/-- **C68 (scatter), partial.** Different elements, sizes positive and not larger than the elements: afterwards each element has the given bytes in front of
the rest of its old ones, and no other element is changed, nor memory that belongs to none of them. -/
theorem C68_scatter_partial (A : RegArray) (hA : ArrOK A) (nproc : Nat) (hnp : gridSize A.nblock ≤ nproc) (st : St B) (val : List Int → List B)
    (hv : GPHolds A st val) (xs : List (List Int)) (hx : ∀ x ∈ xs, InArray A.dims x) (hnd : xs.Nodup) (loc : Int → B) (bp bs : List Int)
    (hl : bs.length = xs.length) (hn : ∀ i, i < xs.length → 0 < bs.getD i 0 ∧ bs.getD i 0 ≤ (val (xs.getD i [])).length) :
    ∃ st' val', gpScatter nproc A.dims st xs loc bp bs = some st' ∧ GPHolds A st' val' ∧
      (∀ i, i < xs.length → val' (xs.getD i []) = overwrite (bytesAt loc (bp.getD i 0) (bs.getD i 0).toNat) (val (xs.getD i []))) ∧
      (∀ x, x ∉ xs → val' x = val x) ∧
      ∀ q a, (∀ x ∈ xs, (st.pt x).proc = q → ¬ Within (st.pt x).addr (val x).length a) → st'.mem q a = st.mem q a := by
  have hany : (bs.any fun s => decide (s ≤ 0)) = false := by
    rw [List.any_eq_false]
    intro s hs'
    obtain ⟨i, hi, rfl⟩ := List.getElem_of_mem hs'
    have := (hn i (by omega)).1
    rw [List.getD_eq_getElem?_getD, List.getElem?_eq_getElem hi] at this
    simp only [decide_eq_true_eq]
    simp at this
    omega
  have hidx : ∀ i, i < xs.length → xs.idxOf (xs.getD i []) = i := by
    intro i hi
    rw [List.getD_eq_getElem?_getD, List.getElem?_eq_getElem hi]
    exact hnd.idxOf_getElem i hi
  have hget : ∀ x ∈ xs, xs.idxOf x < xs.length ∧ xs.getD (xs.idxOf x) [] = x := by
    intro x hx'
    have h := List.idxOf_lt_length_iff.2 hx'
    refine ⟨h, ?_⟩
    rw [List.getD_eq_getElem?_getD, List.getElem?_eq_getElem h]
    simp
  obtain ⟨a, b⟩ := gp_put_bytes hA hv (S := fun x => x ∈ xs) (n := fun x => bs.getD (xs.idxOf x) 0) (d := fun x => bp.getD (xs.idxOf x) 0)
    (W := (List.range nproc).flatMap fun p : Nat => (chain (xs.map st.pt) p).map fun i => ((p : Int), xs.getD i.toNat []))
    (by
      intro e he
      simp only [List.mem_flatMap, List.mem_range, List.mem_map, mem_chain, List.length_map] at he
      obtain ⟨p, hp, i, ⟨k, h1, rfl, h3⟩, rfl⟩ := he
      rw [getD_map' st.pt xs ⟨0, 0⟩ [] h1] at h3
      have := hn k h1
      refine ⟨getD_mem' xs [] h1, ?_⟩
      simp only [Int.toNat_natCast]
      rw [← h3]
      exact hv.owner _ fun h => by rw [h] at this; simp at this; omega)
    (by
      intro x hx'
      obtain ⟨h1, h2⟩ := hget x hx'
      have := hn _ h1
      have ho := hv.owner x fun h => by rw [h2, h] at this; simp at this; omega
      have hg := ((ownedBy_iff hA.ne hA.map).1 ho).1
      refine ⟨(st.pt x).proc, ?_⟩
      simp only [List.mem_flatMap, List.mem_range, List.mem_map, mem_chain, List.length_map, Prod.mk.injEq]
      refine ⟨(st.pt x).proc.toNat, by omega, xs.idxOf x, ⟨_, h1, rfl, ?_⟩, by omega, by simpa using h2⟩
      rw [getD_map' st.pt xs ⟨0, 0⟩ [] h1, h2]
      omega)
    (by
      intro x hx'
      obtain ⟨h1, h2⟩ := hget x hx'
      have := hn _ h1
      rw [h2] at this
      omega) loc
  have hfold : (List.range nproc).foldl (fun m (p : Nat) => (chain (xs.map st.pt) p).foldl (fun m i =>
        upd m (p : Int) (memcpy (bs.getD i.toNat 0) loc (bp.getD i.toNat 0) ((xs.map st.pt).getD i.toNat ⟨0, 0⟩).addr (m p))) m) st.mem =
      ((List.range nproc).flatMap fun p : Nat => (chain (xs.map st.pt) p).map fun i => ((p : Int), xs.getD i.toNat [])).foldl
        (fun m e => upd m e.1 (memcpy (bs.getD (xs.idxOf e.2) 0) loc (bp.getD (xs.idxOf e.2) 0) (st.pt e.2).addr (m e.1))) st.mem := by
    rw [List.foldl_flatMap]
    congr 1
    funext m p
    rw [List.foldl_map]
    have : ∀ (L : List Int) (m : Int → Int → B), (∀ i ∈ L, i.toNat < xs.length) → L.foldl (fun m i =>
          upd m (p : Int) (memcpy (bs.getD i.toNat 0) loc (bp.getD i.toNat 0) ((xs.map st.pt).getD i.toNat ⟨0, 0⟩).addr (m p))) m =
        L.foldl (fun m i => upd m (p : Int) (memcpy (bs.getD (xs.idxOf (xs.getD i.toNat [])) 0) loc (bp.getD (xs.idxOf (xs.getD i.toNat [])) 0)
          (st.pt (xs.getD i.toNat [])).addr (m p))) m := by
      intro L
      induction L with
      | nil => intros; rfl
      | cons a L ih =>
        intro l hL
        have ha := hL a (List.mem_cons_self ..)
        rw [List.foldl_cons, List.foldl_cons, getD_map' st.pt xs ⟨0, 0⟩ [] ha, hidx _ ha, ih _ fun i hi => hL i (List.mem_cons_of_mem _ hi)]
    refine this _ _ fun i hi => ?_
    obtain ⟨k, h1, h2, -⟩ := mem_chain.1 hi
    simp at h1
    omega
  refine ⟨_, _, ?_, a, ?_, ?_, ?_⟩
  · unfold gpScatter
    rw [checkAll hx]
    simp only [Bool.not_true, Bool.false_eq_true, if_false, hany, hfold]
  · intro i hi
    simp only [getD_mem' xs [] hi, if_true, hidx i hi]
  · intro x hx'
    simp only [hx', if_false]
  · intro q a' h
    refine b q a' fun x hx' h1 h2 => h x hx' h1 ?_
    obtain ⟨h3, h4⟩ := hget x hx'
    have := hn _ h3
    rw [h4] at this
    unfold Within at h2 ⊢
    omega

/-! ## sizes and local access -/

/-- **C68 (size of a gather).** -/
theorem C68_gather_size (A : RegArray) (st : St B) (val : List Int → List B) (hv : GPHolds A st val) (xs : List (List Int)) (hx : ∀ x ∈ xs, InArray A.dims x) :
    gpGatherSize A.dims st xs = some (xs.map fun x => ((val x).length : Int)).sum := by
  unfold gpGatherSize
  rw [checkAll hx]
  simp only [Bool.not_true, Bool.false_eq_true, if_false, Option.some.injEq]
  rw [← List.sum_eq_foldl]
  congr 1
  exact List.map_congr_left fun x _ => hv.size x

/-- **C68 (local access).** The owner of an element gets the address of its bytes and their number; a process that does not own it gets an error. -/
theorem C68_access (A : RegArray) (hA : ArrOK A) (me : Int) (st : St B) (val : List Int → List B) (hv : GPHolds A st val) (x : List Int)
    (hl : x.length = A.dims.length) :
    (OwnedBy A me x → ∃ ptr n, gpAccess A me st x = some (ptr, n) ∧ n = (val x).length ∧ bytesAt (st.mem me) ptr (val x).length = val x) ∧
    (¬ OwnedBy A me x → gpAccess A me st x = none) := by
  unfold gpAccess
  constructor
  · intro ho
    refine ⟨(st.pt x).addr, st.sz x, ?_, hv.size x, ?_⟩
    · rw [checkSubscript_of_inPatch ho]; rfl
    · by_cases e : val x = []
      · rw [e]; rfl
      · rw [gp_owner_unique hA ho (hv.owner x e)]
        exact hv.bytes x
  · intro ho
    by_cases hc : checkSubscript x (owns A me).1 (owns A me).2 = true
    · exact absurd (gp_owned_of_check hA hl hc) ho
    · simp [hc]

/-- **C68 (sum).** The sum that `GP_Gather` and `GP_Scatter` return is right if the sizes have the width of `Integer`. -/
theorem C68_sum (bs : List Int) : gatherSize false bs.length (fun i => bs.getD i.toNat 0) = bs.sum := by
  unfold gatherSize
  simp only [Bool.false_eq_true, if_false, Int.toNat_natCast]
  congr 1
  apply List.ext_getElem (by simp)
  intro i h1 h2
  simp [List.getD_eq_getElem?_getD, h2]

/-! ## a concrete case -/

example : (gpGather 2 exGP.dims exGPSt [[2, 2], [1, 1], [2, 2]] 1000 false (fun _ => 0) [] []).map
    (fun r => (bytesAt r.1 1000 5, r.2)) = some ([20, 10, 11, 12, 20], [1000, 1001, 1004], [1, 3, 1]) := by decide +kernel

example : (∀ x ∈ [[2, 2], [1, 1], [2, 2]], InArray exGP.dims x) ∧ (∀ x ∈ ([[2, 2], [1, 1], [2, 2]] : List (List Int)), exGPVal x ≠ []) ∧
    gridSize exGP.nblock ≤ 2 := by decide

example : (gpScatter 2 exGP.dims exGPSt [[2, 2], [1, 1]] (fun a => a.toNat) [5, 6] [1, 2]).map
    (fun st => (bytesAt (st.mem 0) 100 3, bytesAt (st.mem 1) 50 1)) = some ([6, 7, 12], [5]) := by decide +kernel

example : [[2, 2], [1, 1]].Nodup ∧ ∀ i, i < 2 → 0 < ([1, 2] : List Int).getD i 0 ∧
    ([1, 2] : List Int).getD i 0 ≤ (exGPVal (([[2, 2], [1, 1]] : List (List Int)).getD i [])).length := by decide

/-! ## what does not hold -/

/-- An element that was not assigned makes `GP_Gather` free pointers that were never set. -/
theorem C68_empty_element (A : RegArray) (nproc : Nat) (st : St B) (val : List Int → List B) (hv : GPHolds A st val) (xs : List (List Int)) (b0 : Int)
    (loc : Int → B) (bp bs : List Int) (h : ∃ x ∈ xs, val x = []) : gpGather nproc A.dims st xs b0 false loc bp bs = none := by
  obtain ⟨x, hx, e⟩ := h
  have : ((xs.map st.sz).any fun s => decide (s ≤ 0)) = true := by
    rw [List.any_eq_true]
    exact ⟨st.sz x, List.mem_map.2 ⟨x, hx, rfl⟩, by rw [hv.size, e]; simp⟩
  unfold gpGather
  simp only [Bool.false_eq_true, if_false, this, if_true]
  split <;> rfl

/-- Sizes of 4 bytes are added as if they were `Integer`s of 8 bytes: for two elements of 1 and 3 bytes, followed by anything, the sum is wrong. -/
theorem C68_sum_wide_wrong (bs : Int → Int) (h0 : bs 0 = 1) (h1 : bs 1 = 3) (h2 : 0 ≤ bs 2) (h3 : 0 ≤ bs 3) : gatherSize true 2 bs ≠ 1 + 3 := by
  have : gatherSize true 2 bs = (bs 0 + 2 ^ 32 * bs 1) + ((bs 2 + 2 ^ 32 * bs 3) + 0) := by
    simp [gatherSize, List.range_succ]
  rw [this, h0, h1]
  omega

end GA
