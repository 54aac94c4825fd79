import Verif.Lemmas.SprsMul
import Verif.Spec.SprsMul
import Mathlib.Algebra.BigOperators.Ring.List

/-! # Lemmas: the product of two sparse arrays -/

namespace GA.Sprs
open GA.Model GA.Spec.Sprs

variable {V : Type}

theorem good_perm {n : Nat} {idim jdim : Int} {loc : Nat → Loc V} {M M' : List (Entry V)} (h : Good n idim jdim loc M) (hp : M.Perm M') :
    Good n idim jdim loc M' := by
  intro p hp'
  obtain ⟨B, b1, b2, b3, b4, b5⟩ := h p hp'
  exact ⟨B, b1, b2, b3, b4, fun c r hc hr => (b5 c r hc hr).trans ((hp.filter _).map _)⟩

theorem sumAt_perm [AddCommMonoid V] {L M : List (El V)} (h : L.Perm M) (x : Int × Int) : sumAt L x = sumAt M x := ((h.filter _).map _).sum_eq

theorem sumAt_flatMap [AddCommMonoid V] {α : Type} (f : α → List (El V)) (L : List α) (x : Int × Int) :
    sumAt (L.flatMap f) x = (L.map fun a => sumAt (f a) x).sum := by
  induction L with
  | nil => rfl
  | cons a L ih => rw [List.flatMap_cons, sumAt_append, ih, List.map_cons, List.sum_cons]

theorem sumAt_elem [AddCommMonoid V] (M : List (Entry V)) (i j : Int) : sumAt M (i, j) = elem M i j := by
  rw [sumAt, elem]
  congr 2
  apply List.filter_congr
  intro e _
  rw [Bool.eq_iff_iff]
  simp [pos]

section
variable [Semiring V] {n : Nat} {idim kdim jdim : Int} {A B : List (Entry V)}

theorem prods_sum (B : List (Entry V)) (a : Entry V) (i j : Int) :
    sumAt (prods B a) (i, j) = if a.row = i then a.val * elem B a.col j else 0 := by
  rw [sumAt, prods, List.filter_map, List.map_map, List.filter_filter]
  by_cases h : a.row = i
  · rw [if_pos h, elem, ← List.sum_map_mul_left]
    congr 1
    have : (B.filter fun b => ((fun e : El V => decide (pos e = (i, j))) ∘ fun b : Entry V => (⟨a.row, b.col, a.val * b.val⟩ : El V)) b && decide (b.row = a.col))
        = B.filter fun b => b.row = a.col ∧ b.col = j := by
      apply List.filter_congr
      intro b _
      rw [Bool.eq_iff_iff]
      simp only [Function.comp, pos, Prod.mk.injEq, Bool.and_eq_true, decide_eq_true_eq, h, true_and]
      tauto
    rw [this]
    rfl
  · rw [if_neg h]
    have : (B.filter fun b => ((fun e : El V => decide (pos e = (i, j))) ∘ fun b : Entry V => (⟨a.row, b.col, a.val * b.val⟩ : El V)) b && decide (b.row = a.col))
        = [] := by
      rw [List.filter_eq_nil_iff]
      intro b _
      simp [pos, h]
    rw [this]
    rfl

theorem prods_elem (hinA : ∀ e ∈ A, e.In idim kdim) (i j : Int) :
    sumAt (A.flatMap (prods B)) (i, j) = ((List.range kdim.toNat).map fun k : Nat => elem A i k * elem B k j).sum := by
  rw [sumAt_flatMap]
  have h1 := bucket_perm A (fun e => e.col.toNat) (n := kdim.toNat) (by
    intro e he
    obtain ⟨-, -, m3, m4⟩ := hinA e he
    omega)
  rw [← ((h1.map fun a => sumAt (prods B a) (i, j)).sum_eq), List.map_flatMap, List.flatMap_def, List.sum_flatten, List.map_map]
  congr 1
  apply List.map_congr_left
  intro k hk
  simp only [Function.comp]
  rw [elem, ← List.sum_map_mul_right]
  have hA : ∀ L : List (Entry V), (∀ e ∈ L, e.In idim kdim) →
      ((L.filter fun e => e.col.toNat = k).map fun a => sumAt (prods B a) (i, j)).sum =
        (((L.filter fun e => e.row = i ∧ e.col = (k : Int)).map fun e => e.val * elem B k j)).sum := by
    intro L hL
    induction L with
    | nil => rfl
    | cons a L ih =>
      have ih := ih fun e he => hL e (List.mem_cons_of_mem _ he)
      obtain ⟨-, -, m3, m4⟩ := hL a List.mem_cons_self
      rw [List.filter_cons, List.filter_cons]
      by_cases hc : a.col = (k : Int)
      · have hc' : a.col.toNat = k := by omega
        by_cases hr : a.row = i
        · rw [if_pos (by simpa using hc'), if_pos (by simp [hr, hc]), List.map_cons, List.map_cons, List.sum_cons, List.sum_cons, ih, prods_sum, if_pos hr, hc]
        · rw [if_pos (by simpa using hc'), if_neg (by simp [hr]), List.map_cons, List.sum_cons, ih, prods_sum, if_neg hr, zero_add]
      · have hc' : ¬ a.col.toNat = k := by omega
        simp [hc', hc, ih]
  rw [hA A hinA]

omit [Semiring V] in
theorem once_value [AddCommMonoid V] {C : List (Entry V)} (h : (C.map fun e => (e.row, e.col)).Nodup) {e : Entry V} (he : e ∈ C) :
    elem C e.row e.col = e.val := by
  have : (C.filter fun e' => e'.row = e.row ∧ e'.col = e.col) = [e] := by
    induction C with
    | nil => simp at he
    | cons c C ih =>
      rw [List.map_cons, List.nodup_cons] at h
      obtain ⟨h1, h2⟩ := h
      rcases List.mem_cons.1 he with rfl | he
      · rw [List.filter_cons_of_pos (by simp)]
        congr 1
        rw [List.filter_eq_nil_iff]
        intro x hx hc
        simp only [decide_eq_true_eq] at hc
        exact h1 (List.mem_map.2 ⟨x, hx, Prod.ext hc.1 hc.2⟩)
      · rw [List.filter_cons_of_neg, ih h2 he]
        intro hc
        simp only [decide_eq_true_eq] at hc
        exact h1 (List.mem_map.2 ⟨e, he, Prod.ext hc.1.symm hc.2.symm⟩)
  rw [elem, this]
  simp

/-- a product is determined up to the order of its entries -/
theorem _root_.GA.Spec.Sprs.IsProduct.perm {C C' : List (Entry V)} (h : IsProduct kdim A B C) (h' : IsProduct kdim A B C') : C.Perm C' := by
  classical
  have key : ∀ {C C' : List (Entry V)}, IsProduct kdim A B C → IsProduct kdim A B C' → ∀ e ∈ C, e ∈ C' := by
    intro C C' h h' e he
    obtain ⟨e', h1, h2, h3⟩ := (h'.present e.row e.col).2 ((h.present e.row e.col).1 ⟨e, he, rfl, rfl⟩)
    have v1 := once_value h.once he
    have v2 := once_value h'.once h1
    rw [h2, h3, h'.value, ← h.value, v1] at v2
    have : e' = e := by
      cases e
      cases e'
      simp_all
    rw [← this]
    exact h1
  rw [List.perm_ext_iff_of_nodup (List.Nodup.of_map _ h.once) (List.Nodup.of_map _ h'.once)]
  exact fun e => ⟨key h h' e, key h' h e⟩

/-- the product of two arrays -/
theorem matmat_good {locA locB : Nat → Loc V} (raw : Nat → Raw V) (d0 : Nat → Nat → El V) (hn : 0 < n) (hi : (n : Int) ≤ idim) (hk : (n : Int) ≤ kdim)
    (hj : (n : Int) ≤ jdim) (hinA : ∀ e ∈ A, e.In idim kdim) (hinB : ∀ e ∈ B, e.In kdim jdim) (hA : Good n idim kdim locA A) (hB : Good n kdim jdim locB B) :
    ∃ C, IsProduct kdim A B C ∧ (∀ e ∈ C, e.In idim jdim) ∧ ∃ loc' : Nat → Loc V, Good n idim jdim loc' C ∧
      ∃ o, matmat raw d0 kdim kdim jdim n locA locB =
          (if ∀ p, p < n → ∃ a ∈ A, ∃ b ∈ B, owner idim n a.row = p ∧ a.col = b.row then some o else none) ∧ ∀ p, p < n → o p = some (loc' p) := by
  classical
  have hmem : ∀ (L : List (Entry V)) (x : Int × Int), x ∈ (L.flatMap (prods B)).map pos ↔ ∃ a ∈ L, ∃ b ∈ B, a.row = x.1 ∧ a.col = b.row ∧ b.col = x.2 := by
    intro L x
    constructor
    · intro h
      obtain ⟨e, he, rfl⟩ := List.mem_map.1 h
      obtain ⟨a, ha, he⟩ := List.mem_flatMap.1 he
      obtain ⟨b, hb, rfl⟩ := List.mem_map.1 he
      obtain ⟨h1, h2⟩ := List.mem_filter.1 hb
      exact ⟨a, ha, b, h1, rfl, (by simpa using h2 : b.row = a.col).symm, rfl⟩
    · rintro ⟨a, ha, b, hb, h1, h2, h3⟩
      refine List.mem_map.2 ⟨⟨a.row, b.col, a.val * b.val⟩, List.mem_flatMap.2 ⟨a, ha, List.mem_map.2 ⟨b, List.mem_filter.2 ⟨hb, by simp [h2]⟩, rfl⟩⟩, ?_⟩
      exact Prod.ext h1 h3
  -- the tables
  have htab : ∀ p, ∃ t : Tab V, p < n → localProduct jdim n
      (bufSize ((locA p).ihi - (locA p).ilo + 1).toNat jdim (maxNnz n locA) (maxNnz n locB)) locA locB p (Tab.empty (d0 p)) = some t ∧
      (t.items.map pos).Nodup ∧ (∀ x, sumAt t.items x = sumAt ((owned idim n A p).flatMap (prods B)) x) ∧
      ∀ x, x ∈ t.items.map pos ↔ x ∈ ((owned idim n A p).flatMap (prods B)).map pos := by
    intro p
    by_cases hp : p < n
    · obtain ⟨BA, a1, a2, a3, a4, a5⟩ := hA p hp
      have hBs : ∀ l, ∃ BB, l < n → Holds (locB l) BB ∧ (locB l).ilo = bound kdim n l ∧ (locB l).ihi = limHi kdim n l ∧
          ∀ c r, c < n → r < (locB l).nrows → (rowIn (locB l).blkidx BB c r).Perm (rowPart B ((locB l).ilo + r) (bound jdim n c) (limHi jdim n c)) := by
        intro l
        by_cases hl : l < n
        · obtain ⟨BB, b1, b2, b3, b4, b5⟩ := hB l hl
          exact ⟨BB, fun _ => ⟨b1, b2, b3, b5⟩⟩
        · exact ⟨[], fun h => absurd h hl⟩
      obtain ⟨BB, hBB⟩ := Classical.axiomOfChoice hBs
      have hcol : ∀ l r, l < n → r < (locA p).nrows → ∀ jv ∈ rowIn (locA p).blkidx BA l r, (locB l).ilo ≤ jv.1 ∧ jv.1 ≤ (locB l).ihi := by
        intro l r hl hr jv hjv
        rw [(a5 l r hl hr).mem_iff] at hjv
        obtain ⟨e, he, rfl⟩ := List.mem_map.1 hjv
        have := (List.mem_filter.1 he).2
        simp only [decide_eq_true_eq] at this
        rw [(hBB l hl).2.1, (hBB l hl).2.2.1]
        exact this.2
      have hperm := allProds_perm (BB := BB) hp hi hk hj hinA hinB a2 a3 a5 (fun l hl => ⟨(hBB l hl).2.1, (hBB l hl).2.2.1⟩) fun l hl => (hBB l hl).2.2.2
      obtain ⟨t, t1, t2⟩ := accumulate_all (tabOk_empty jdim
          (bufSize ((locA p).ihi - (locA p).ilo + 1).toNat jdim (maxNnz n locA) (maxNnz n locB)) (d0 p))
        (Q := allProds n locA BA locB BB p) (by
          intro L hL hm
          rw [a2, a3]
          refine prods_bound hp hi hinA hinB (row_le_max hn hi hk hinA hA) (row_le_max hn hk hj hinB hB) (by omega) L hL fun x hx => ?_
          have := hm x hx
          rw [List.nil_append] at this
          exact (hperm.map pos).mem_iff.1 this)
      refine ⟨t, fun _ => ⟨?_, t2.nodup, fun x => ?_, fun x => ?_⟩⟩
      · rw [localProduct_eq _ _ a1 (fun l hl => (hBB l hl).1) hcol]
        exact t1
      · rw [t2.sum, List.nil_append]
        exact sumAt_perm hperm x
      · rw [t2.mem, List.nil_append]
        exact (hperm.map pos).mem_iff
    · exact ⟨Tab.empty (d0 p), fun h => absurd h hp⟩
  obtain ⟨t, ht⟩ := Classical.axiomOfChoice htab
  have hitem : ∀ p, p < n → ∀ e ∈ (t p).items, owner idim n e.row = p ∧ e.In idim jdim := by
    intro p hp e he
    obtain ⟨a, ha, b, hb, h1, h2, h3⟩ := (hmem _ _).1 (((ht p hp).2.2.2 (pos e)).1 (List.mem_map_of_mem he))
    obtain ⟨g1, g2⟩ := List.mem_filter.1 ha
    simp only [decide_eq_true_eq] at g2
    simp only [pos] at h1 h3
    obtain ⟨m1, m2, -⟩ := hinA a g1
    obtain ⟨-, -, m3, m4⟩ := hinB b hb
    rw [h1] at g2 m1 m2
    rw [h3] at m3 m4
    exact ⟨g2, m1, m2, m3, m4⟩
  let C : List (Entry V) := (List.range n).flatMap fun p => (t p).items
  have hinC : ∀ e ∈ C, e.In idim jdim := by
    intro e he
    obtain ⟨p, hp, he⟩ := List.mem_flatMap.1 he
    exact (hitem p (List.mem_range.1 hp) e he).2
  have hown : ∀ q, q < n → owned idim n C q = (t q).items := by
    intro q hq
    show (C.filter fun e => decide (owner idim n e.row = q)) = _
    show (((List.range n).flatMap fun p => (t p).items).filter fun e => decide (owner idim n e.row = q)) = _
    rw [filter_flatMap]
    have h1 : ((List.range n).flatMap fun p => (t p).items.filter fun e => decide (owner idim n e.row = q)) =
        (List.range n).flatMap fun p => if p = q then (t q).items else [] := by
      rw [List.flatMap_def, List.flatMap_def]
      congr 1
      apply List.map_congr_left
      intro p hp
      have hp := List.mem_range.1 hp
      by_cases hpq : p = q
      · subst hpq
        rw [if_pos rfl, List.filter_eq_self]
        intro e he
        simpa using (hitem p hp e he).1
      · rw [if_neg hpq, List.filter_eq_nil_iff]
        intro e he
        have := (hitem p hp e he).1
        simp only [decide_eq_true_eq]
        omega
    rw [h1]
    have h2 : ∀ m, ((List.range m).flatMap fun p => if p = q then (t q).items else []) = if q < m then (t q).items else [] := by
      intro m
      induction m with
      | zero => simp
      | succ m ih =>
        rw [List.range_succ, List.flatMap_append, ih, List.flatMap_cons, List.flatMap_nil, List.append_nil]
        by_cases h : q < m
        · have : ¬ m = q := by omega
          simp [h, this, Nat.lt_succ_of_lt h]
        · by_cases h' : m = q
          · subst h'
            simp
          · have : ¬ q < m + 1 := by omega
            simp [h, h', this]
    rw [h2, if_pos hq]
  have hbuck : ((List.range n).flatMap fun p => owned idim n A p).Perm A := bucket_perm A (fun e => owner idim n e.row) fun e _ => owner_lt hn
  have hlay : ∀ p, ∃ l : Loc V, p < n → ∃ B', layout (raw p) jdim n (locA p).ilo (locA p).ihi (t p).items = some l ∧ Holds l B' ∧ l.ilo = bound idim n p ∧
      l.ihi = limHi idim n p ∧ (l.blkidx = (List.range n).filter fun c => ∃ e ∈ owned idim n C p, owner jdim n e.col = c) ∧
      ∀ c r, c < n → r < l.nrows → (rowIn l.blkidx B' c r).Perm (rowPart C (l.ilo + r) (bound jdim n c) (limHi jdim n c)) := by
    intro p
    by_cases hp : p < n
    · obtain ⟨l, B', h1, h2⟩ := layout_rows (raw := raw p) hp hi hj hinC (es := (t p).items) (by rw [hown p hp])
      obtain ⟨BA, a1, a2, a3, -⟩ := hA p hp
      rw [ownLo_eq hn hi, ← a2, ← a3] at h1
      exact ⟨l, fun _ => ⟨B', h1, h2⟩⟩
    · exact ⟨⟨0, 0, [], [], [], fun _ => 0, fun _ => 0, fun _ => 0, 0⟩, fun h => absurd h hp⟩
  obtain ⟨loc', hloc⟩ := Classical.axiomOfChoice hlay
  refine ⟨C, ⟨?_, ?_, ?_⟩, hinC, loc', ?_,
    fun p => (localProduct jdim n (bufSize ((locA p).ihi - (locA p).ilo + 1).toNat jdim (maxNnz n locA) (maxNnz n locB)) locA locB p (Tab.empty (d0 p))).bind
      fun t => layout (raw p) jdim n (locA p).ilo (locA p).ihi ((List.range t.cnt).map t.data), ?_, ?_⟩
  · show (((List.range n).flatMap fun p => (t p).items).map pos).Nodup
    rw [List.map_flatMap, List.nodup_flatMap]
    refine ⟨fun p hp => (ht p (List.mem_range.1 hp)).2.1, ?_⟩
    refine (List.pairwise_lt_range (n := n)).imp_of_mem ?_
    intro p q hp hq hpq
    simp only [Function.onFun]
    intro x hx hx'
    obtain ⟨e, he, rfl⟩ := List.mem_map.1 hx
    obtain ⟨e', he', hee⟩ := List.mem_map.1 hx'
    have h1 := (hitem p (List.mem_range.1 hp) e he).1
    have h2 := (hitem q (List.mem_range.1 hq) e' he').1
    have : e'.row = e.row := (Prod.ext_iff.1 hee).1
    rw [this] at h2
    omega
  · intro i j
    constructor
    · rintro ⟨c, hc, rfl, rfl⟩
      obtain ⟨p, hp, he⟩ := List.mem_flatMap.1 hc
      obtain ⟨a, ha, b, hb, h⟩ := (hmem _ _).1 (((ht p (List.mem_range.1 hp)).2.2.2 (pos c)).1 (List.mem_map_of_mem he))
      exact ⟨a, (List.mem_filter.1 ha).1, b, hb, h⟩
    · rintro ⟨a, ha, b, hb, h⟩
      have ho : owner idim n a.row < n := owner_lt hn
      have := ((ht _ ho).2.2.2 (i, j)).2 ((hmem _ _).2 ⟨a, List.mem_filter.2 ⟨ha, by simp⟩, b, hb, h⟩)
      obtain ⟨e, he, hee⟩ := List.mem_map.1 this
      exact ⟨e, List.mem_flatMap.2 ⟨_, List.mem_range.2 ho, he⟩, (Prod.ext_iff.1 hee).1, (Prod.ext_iff.1 hee).2⟩
  · intro i j
    rw [← sumAt_elem, ← prods_elem hinA]
    show sumAt ((List.range n).flatMap fun p => (t p).items) (i, j) = _
    rw [← sumAt_perm (hbuck.flatMap_right (prods B)) (i, j), List.flatMap_assoc, sumAt_flatMap, sumAt_flatMap]
    congr 1
    apply List.map_congr_left
    intro p hp
    exact (ht p (List.mem_range.1 hp)).2.2.1 (i, j)
  · intro p hp
    obtain ⟨B', h1, h2, h3, h4, h5, h6⟩ := hloc p hp
    refine ⟨B', h2, h3, h4, ?_, h6⟩
    intro c hc
    rw [h5] at hc
    exact List.mem_range.1 (List.mem_filter.1 hc).1
  · have hcnt : ∀ p, p < n → (0 < (t p).cnt ↔ ∃ a ∈ A, ∃ b ∈ B, owner idim n a.row = p ∧ a.col = b.row) := by
      intro p hp
      have h1 : 0 < (t p).cnt ↔ ∃ x, x ∈ (t p).items.map pos := by
        rw [← List.length_pos_iff_exists_mem]
        simp [Tab.items]
      rw [h1]
      constructor
      · rintro ⟨x, hx⟩
        obtain ⟨a, ha, b, hb, -, h, -⟩ := (hmem _ _).1 (((ht p hp).2.2.2 x).1 hx)
        obtain ⟨g1, g2⟩ := List.mem_filter.1 ha
        exact ⟨a, g1, b, hb, by simpa using g2, h⟩
      · rintro ⟨a, ha, b, hb, h1, h2⟩
        exact ⟨(a.row, b.col), ((ht p hp).2.2.2 _).2 ((hmem _ _).2 ⟨a, List.mem_filter.2 ⟨ha, by simpa using h1⟩, b, hb, rfl, h2, rfl⟩)⟩
    unfold matmat
    rw [if_neg (by simp)]
    dsimp only
    have hall : (((List.range n).all fun p => ((localProduct jdim n
        (bufSize ((locA p).ihi - (locA p).ilo + 1).toNat jdim (maxNnz n locA) (maxNnz n locB)) locA locB p (Tab.empty (d0 p))).map
          fun t => decide (0 < t.cnt)).getD false) = true) ↔ ∀ p, p < n → ∃ a ∈ A, ∃ b ∈ B, owner idim n a.row = p ∧ a.col = b.row := by
      rw [List.all_eq_true]
      constructor
      · intro h p hp
        have := h p (List.mem_range.2 hp)
        rw [(ht p hp).1] at this
        exact (hcnt p hp).1 (by simpa using this)
      · intro h p hp
        have hp := List.mem_range.1 hp
        rw [(ht p hp).1]
        simpa using (hcnt p hp).2 (h p hp)
    by_cases hc : ∀ p, p < n → ∃ a ∈ A, ∃ b ∈ B, owner idim n a.row = p ∧ a.col = b.row
    · rw [if_pos (hall.2 hc), if_pos hc]
    · rw [if_neg fun h => hc (hall.1 h), if_neg hc]
  · intro p hp
    obtain ⟨B', h1, -⟩ := hloc p hp
    dsimp only
    rw [(ht p hp).1]
    exact h1

end

end GA.Sprs
