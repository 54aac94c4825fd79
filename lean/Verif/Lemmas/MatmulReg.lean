import Verif.Lemmas.MatmulAlg

/-! # Lemmas: the regular algorithm for matrix multiplication -/

namespace GA.Matmul
open GA.Model GA.Spec

/-! ## saved states of the task list -/

theorem starts_eq {lo hi c : Int} (hc : 0 < c) : starts lo hi c = if lo ≤ hi then lo :: starts (lo + c) hi c else [] := by
  unfold starts
  by_cases h : lo ≤ hi
  · rw [if_pos h]
    have e : ((hi - lo + c) / c).toNat = ((hi - (lo + c) + c) / c).toNat + 1 := by
      have e1 : hi - lo + c = (hi - (lo + c) + c) + 1 * c := by ring
      rw [e1, Int.add_mul_ediv_right _ _ (by omega)]
      have : 0 ≤ (hi - (lo + c) + c) / c := Int.ediv_nonneg (by omega) (by omega)
      omega
    rw [e, List.range_succ_eq_map, List.map_cons, List.map_map]
    congr 1
    · simp
    · refine List.map_congr_left ?_
      intro t _
      simp only [Function.comp, Nat.succ_eq_add_one, Nat.cast_add, Nat.cast_one]
      ring
  · rw [if_neg h]
    have : (hi - lo + c) / c ≤ 0 := by
      have : (hi - lo + c) / c < 1 := Int.ediv_lt_of_lt_mul hc (by omega)
      omega
    rw [show ((hi - lo + c) / c).toNat = 0 by omega]
    rfl

theorem starts_suffix {hi c : Int} (hc : 0 < c) : ∀ (pre : List Int) (lo x : Int) (post : List Int),
    starts lo hi c = pre ++ x :: post → starts x hi c = x :: post
  | [], lo, x, post, h => by
    have h' := h
    rw [starts_eq hc] at h'
    split at h'
    · simp only [List.nil_append, List.cons.injEq] at h'
      rw [← h'.1, h, ← h'.1]; rfl
    · simp at h'
  | p :: pre, lo, x, post, h => by
    rw [starts_eq hc] at h
    split at h
    · simp only [List.cons_append, List.cons.injEq] at h
      exact starts_suffix hc pre _ x post h.2
    · simp at h

theorem pairsK_suffix {j : Int} {p : Bool} {ks : List Int} {d : List TState} {s : TState} {r : List TState}
    (h : pairsK j p ks = d ++ s :: r) :
    ∃ kpre kpost, ks = kpre ++ s.klo :: kpost ∧ s.jlo = j ∧ s :: r = pairsK j s.put (s.klo :: kpost) := by
  cases ks with
  | nil => simp [pairsK] at h
  | cons k ks =>
    simp only [pairsK] at h
    cases d with
    | nil =>
      simp only [List.nil_append, List.cons.injEq] at h
      obtain ⟨rfl, rfl⟩ := h
      exact ⟨[], ks, rfl, rfl, rfl⟩
    | cons d0 d =>
      simp only [List.cons_append, List.cons.injEq] at h
      obtain ⟨_, h⟩ := h
      obtain ⟨k1, k2, rfl, rfl, e2⟩ := List.map_eq_append_iff.1 h
      cases k2 with
      | nil => simp at e2
      | cons x k2 =>
        simp only [List.map_cons, List.cons.injEq] at e2
        obtain ⟨rfl, rfl⟩ := e2
        exact ⟨k :: k1, k2, rfl, rfl, rfl⟩

theorem pairs_none {jstart jend kend J K : Int} :
    pairs jstart jend kend J K none = (starts jstart jend J).flatMap fun j => pairsK j true (starts 0 kend K) := by
  unfold pairs
  dsimp only
  cases starts jstart jend J <;> rfl

theorem pairs_resume {jstart jend kend J K : Int} (hJ : 0 < J) (hK : 0 < K) (s : TState) (r : List TState) :
    ∀ (js : List Int) (d : List TState), (∀ pre x post, js = pre ++ x :: post → starts x jend J = x :: post) →
      (js.flatMap fun j => pairsK j true (starts 0 kend K)) = d ++ s :: r → pairs jstart jend kend J K (some s) = s :: r
  | [], d, _, h => by simp at h
  | j :: js, d, hs, h => by
    rw [List.flatMap_cons] at h
    rcases List.append_eq_append_iff.1 h with ⟨d', rfl, h2⟩ | ⟨d', h1, h2⟩
    · exact pairs_resume hJ hK s r js d' (fun pre x post e => hs (j :: pre) x post (by rw [e]; rfl)) h2
    · cases d' with
      | nil =>
        rw [List.nil_append] at h2
        exact pairs_resume hJ hK s r js [] (fun pre x post e => hs (j :: pre) x post (by rw [e]; rfl)) (by rw [← h2]; rfl)
      | cons s' d' =>
        simp only [List.cons_append, List.cons.injEq] at h2
        obtain ⟨rfl, rfl⟩ := h2
        obtain ⟨kpre, kpost, e1, e2, e3⟩ := pairsK_suffix h1
        unfold pairs
        dsimp only
        rw [e2, hs [] j js rfl]
        dsimp only
        rw [starts_suffix hK kpre 0 s.klo kpost e1, ← e3]
        rfl

section
variable {V : Type} [Semiring V]

/-! ## one pass -/

/-- the stores or accumulates of one entry of the lists -/
def entryActs (c : Call V) (A B : Arr V) (scaled : Bool) (t : ATask) (u : BTask) : List (CAct V) :=
  taskActs c A B (!scaled && t.put) t.ilo t.ihi u.jlo u.jhi t.klo t.khi

/-- an entry of the lists that lies inside the patches -/
def EntryOK (m n k : Int) (t : ATask) (u : BTask) : Prop :=
  u.klo = t.klo ∧ u.khi = t.khi ∧ 0 ≤ t.ilo ∧ t.ihi ≤ m - 1 ∧ 0 ≤ u.jlo ∧ u.jhi ≤ n - 1 ∧ 0 ≤ t.klo ∧ t.khi ≤ k - 1

/-- state before the task `t` -/
def RgInv (c : Call V) (A B : Arr V) (t : ATask) (u : BTask) (st : RgSt V) : Prop :=
  IsChunk A c.ta c.ailo c.ajlo t.ilo t.ihi t.klo t.khi (st.bufA st.shA).val st.adim ∧ (st.bufA (!st.shA)).pending = false ∧
  IsChunk B c.tb c.bilo c.bjlo u.klo u.khi u.jlo u.jhi (st.bufB st.shB).val st.bdimNext ∧ (st.bufB (!st.shB)).pending = false ∧
  (st.newB = false → st.b = st.shB ∧ (st.bufB st.shB).pending = false)

theorem regLoop_ok {c : Call V} {A B : Arr V} {d0 d1 m n k : Int} (hg : Good c A B d0 d1 m n k) (tb : List BTask) (scaled : Bool) :
    ∀ (ts : List ATask) (st : RgSt V), (∀ t ∈ ts, EntryOK m n k t (tb.getD t.bid default)) →
      (∀ t rest, ts = t :: rest → RgInv c A B t (tb.getD t.bid default) st) →
      regLoop c A B d0 d1 tb scaled ts st = some (ts.flatMap fun t => entryActs c A B scaled t (tb.getD t.bid default))
  | [], _, _, _ => rfl
  | t :: rest, st, hok, hinv => by
    obtain ⟨ia, a2, ib, b2, b3⟩ := hinv t rest rfl
    obtain ⟨o1, o2, o3, o4, o5, o6, o7, o8⟩ := hok t (List.mem_cons_self ..)
    generalize hu : tb.getD t.bid default = u at *
    have ne1 : ((!st.shA) = st.shA) = False := by cases st.shA <;> simp
    have ne2 : ((!st.shB) = st.shB) = False := by cases st.shB <;> simp
    have ne1' : (st.shA = !st.shA) = False := by cases st.shA <;> simp
    have ne2' : (st.shB = !st.shB) = False := by cases st.shB <;> simp
    have ib' := ib
    rw [o1, o2] at ib'
    have he := emit_ok (d0 := d0) (d1 := d1) (!scaled && t.put) ia ib' (hg.emit o3 o4 o5 o6)
    have hput : (if scaled = true then false else t.put) = (!scaled && t.put) := by cases scaled <;> simp
    -- the buffer of `B`
    have hb : (if st.newB = true then st.shB else st.b) = st.shB := by
      by_cases h : st.newB = true
      · rw [if_pos h]
      · rw [if_neg h]; exact (b3 (by simpa using h)).1
    have hB : ∃ fb : Bool → Buf V, (if st.newB = true then set2 st.bufB st.shB (nbWait (st.bufB st.shB)) else st.bufB) = fb ∧
        (fb st.shB).val = (st.bufB st.shB).val ∧ (fb st.shB).pending = false ∧ (fb (!st.shB)).pending = false := by
      by_cases h : st.newB = true
      · rw [if_pos h]
        exact ⟨_, rfl, by simp [set2, nbWait], by simp [set2, nbWait], by simpa [set2, ne2] using b2⟩
      · rw [if_neg h]
        exact ⟨_, rfl, rfl, (b3 (by simpa using h)).2, b2⟩
    obtain ⟨fb, hB0, hB1, hB2, hB3⟩ := hB
    unfold regLoop
    simp only [hu, hb, hB0, hput]
    cases rest with
    | nil =>
      simp only [hB1, hB2]
      simp only [set2, if_true, nbWait, Bool.or_self, Bool.false_eq_true, if_false, he]
      simp only [regLoop, entryActs, List.flatMap_cons, List.flatMap_nil, hu, Option.map_some, List.append_nil]
    | cons t' rest =>
      obtain ⟨r1, r2, r3, r4, r5, r6, r7, r8⟩ := hok t' (by simp)
      obtain ⟨a, ad, ea, ja⟩ := getChunk_ok (st.bufA (!st.shA)).val (hg.a.sub r3 r4 r7 r8)
      have ea' : nbGet (set2 st.bufA st.shA (nbWait (st.bufA st.shA)) (!st.shA))
          (getChunk A c.ta c.ailo c.ajlo t'.ilo t'.ihi t'.klo t'.khi) = some (⟨a, true⟩, ad) := by
        unfold nbGet
        simp only [set2, ne1, if_false, a2, Bool.false_eq_true, ea, Option.map_some]
      simp only [ea']
      by_cases hbid : t.bid = t'.bid
      · rw [if_neg (by simpa using hbid)]
        dsimp only
        rw [hB1, hB2]
        simp only [set2, if_true, nbWait, Bool.or_self, Bool.false_eq_true, if_false, he]
        rw [regLoop_ok hg tb scaled (t' :: rest) _ (fun t ht => hok t (List.mem_cons_of_mem _ ht))]
        · simp only [entryActs, List.flatMap_cons, hu, Option.map_some]
        · intro t1 r1 e
          simp only [List.cons.injEq] at e
          obtain ⟨rfl, rfl⟩ := e
          refine ⟨?_, ?_, ?_, ?_, ?_⟩
          · simpa [set2] using ja
          · simp [set2, ne1']
          · rw [← hbid, hu]
            dsimp only
            rw [hB1]; exact ib
          · exact hB3
          · intro _; exact ⟨rfl, hB2⟩
      · rw [if_pos (by simpa using hbid)]
        generalize hu' : tb.getD t'.bid default = u' at *
        obtain ⟨b, bd, eb, jb⟩ := getChunk_ok (fb (!st.shB)).val (hg.b.sub (by omega : 0 ≤ u'.klo) (by omega : u'.khi ≤ k - 1) r5 r6)
        have eb' : nbGet (fb (!st.shB)) (getChunk B c.tb c.bilo c.bjlo u'.klo u'.khi u'.jlo u'.jhi) = some (⟨b, true⟩, bd) := by
          unfold nbGet
          simp only [hB3, Bool.false_eq_true, if_false, eb, Option.map_some]
        simp only [eb']
        have hx : set2 fb (!st.shB) ⟨b, true⟩ st.shB = fb st.shB := by simp [set2, ne2']
        rw [hx, hB1, hB2]
        have hy : (set2 st.bufA st.shA (nbWait (st.bufA st.shA)) st.shA) = nbWait (st.bufA st.shA) := by simp [set2]
        rw [hy]
        simp only [nbWait, Bool.or_self, Bool.false_eq_true, if_false, he]
        rw [regLoop_ok hg tb scaled (t' :: rest) _ (fun t ht => hok t (List.mem_cons_of_mem _ ht))]
        · simp only [entryActs, List.flatMap_cons, hu, Option.map_some]
        · intro t1 r1 e
          simp only [List.cons.injEq] at e
          obtain ⟨rfl, rfl⟩ := e
          rw [hu']
          refine ⟨?_, ?_, ?_, ?_, ?_⟩
          · simpa [set2] using ja
          · simp [set2, ne1']
          · simpa [set2] using jb
          · dsimp only
            rw [Bool.not_not, hx]; exact hB2
          · simp

theorem regPass_ok {c : Call V} {A B : Arr V} {d0 d1 m n k : Int} (hg : Good c A B d0 d1 m n k) (tb : List BTask) (scaled : Bool)
    (ts : List ATask) (hok : ∀ t ∈ ts, EntryOK m n k t (tb.getD t.bid default)) (old : Int → V) :
    regPass c A B d0 d1 scaled ts tb old = some (ts.flatMap fun t => entryActs c A B scaled t (tb.getD t.bid default)) := by
  unfold regPass
  cases ts with
  | nil => rfl
  | cons t rest =>
    obtain ⟨o1, o2, o3, o4, o5, o6, o7, o8⟩ := hok t (List.mem_cons_self ..)
    obtain ⟨a, ad, ea, ja⟩ := getChunk_ok old (hg.a.sub o3 o4 o7 o8)
    obtain ⟨b, bd, eb, jb⟩ := getChunk_ok old (hg.b.sub (by omega : 0 ≤ (tb.getD t.bid default).klo)
      (by omega : (tb.getD t.bid default).khi ≤ k - 1) o5 o6)
    simp only [nbGet, Bool.false_eq_true, if_false, ea, eb, Option.map_some]
    refine regLoop_ok hg tb scaled (t :: rest) _ hok ?_
    intro t1 r1 e
    simp only [List.cons.injEq] at e
    obtain ⟨rfl, rfl⟩ := e
    refine ⟨?_, ?_, ?_, ?_, ?_⟩
    · simpa [set2] using ja
    · simp [set2]
    · simpa [set2] using jb
    · simp [set2]
    · simp

/-! ## the task list -/

theorem taskLoop_ok {c : Call V} {A B : Arr V} {m n k istart iend jstart jend : Int} {ch : Chunks} (hp : ch.Pos)
    (hbl : 0 ≤ istart ∧ iend ≤ m - 1 ∧ 0 ≤ jstart ∧ jend ≤ n - 1) (scaled : Bool) (nloops : Nat) :
    ∀ (ss : List TState) (ii jj : Nat), (∀ s ∈ ss, s.jlo ∈ starts jstart jend ch.j ∧ s.klo ∈ starts 0 (k - 1) ch.k) →
      ∀ ta tb more, taskLoop istart iend jend (k - 1) ch nloops ii jj ss = (ta, tb, more) →
      (∀ t ∈ ta, jj ≤ t.bid ∧ EntryOK m n k t (tb.getD (t.bid - jj) default)) ∧
      ∃ done, (match more with | none => ss = done | some s => ∃ r, ss = done ++ s :: r) ∧
        (ta.flatMap fun t => entryActs c A B scaled t (tb.getD (t.bid - jj) default)) =
          done.flatMap (pairActs c A B scaled istart iend jend (k - 1) ch) ∧
        (ii + nloops < maxChunks → ss ≠ [] → done ≠ [])
  | [], ii, jj, _, ta, tb, more, h => by
    simp only [taskLoop, Prod.mk.injEq] at h
    obtain ⟨rfl, rfl, rfl⟩ := h
    exact ⟨by simp, [], rfl, rfl, by simp⟩
  | s :: ss, ii, jj, hss, ta, tb, more, h => by
    rw [taskLoop] at h
    by_cases hm : ii + nloops ≥ maxChunks
    · rw [if_pos hm] at h
      simp only [Prod.mk.injEq] at h
      obtain ⟨rfl, rfl, rfl⟩ := h
      exact ⟨by simp, [], ⟨ss, rfl⟩, rfl, by omega⟩
    · rw [if_neg hm] at h
      obtain ⟨p1, p2, p3⟩ := hp
      obtain ⟨s1, s2⟩ := hss s (List.mem_cons_self ..)
      have bj := chunk_bounds p2 s1
      have bk := chunk_bounds p3 s2
      obtain ⟨ta', tb', more', hr⟩ : ∃ ta' tb' more', taskLoop istart iend jend (k - 1) ch nloops
          (ii + (pairTasks istart iend (k - 1) ch.i ch.k s jj).length) (jj + 1) ss = (ta', tb', more') := ⟨_, _, _, rfl⟩
      obtain ⟨g1, done, g2, g3, _⟩ := taskLoop_ok (c := c) (A := A) (B := B) ⟨p1, p2, p3⟩ hbl scaled nloops ss _ (jj + 1)
        (fun s hs => hss s (List.mem_cons_of_mem _ hs)) ta' tb' more' hr
      simp only [hr, Prod.mk.injEq] at h
      obtain ⟨rfl, rfl, rfl⟩ := h
      have hnext : ∀ t ∈ ta', ((⟨s.klo, chunkEnd (k - 1) s.klo ch.k, s.jlo, chunkEnd jend s.jlo ch.j⟩ : BTask) :: tb').getD
          (t.bid - jj) default = tb'.getD (t.bid - (jj + 1)) default := by
        intro t ht
        have := (g1 t ht).1
        rw [show t.bid - jj = (t.bid - (jj + 1)) + 1 by omega, List.getD_cons_succ]
      refine ⟨?_, s :: done, ?_, ?_, by simp⟩
      · intro t ht
        rcases List.mem_append.1 ht with ht | ht
        · unfold pairTasks at ht
          obtain ⟨i, hi, rfl⟩ := List.mem_map.1 ht
          have bi := chunk_bounds p1 hi
          refine ⟨le_refl _, ?_⟩
          simp only [Nat.sub_self, List.getD_cons_zero]
          exact ⟨rfl, rfl, by dsimp only; omega, by dsimp only; omega, by dsimp only; omega, by dsimp only; omega,
            by dsimp only; omega, by dsimp only; omega⟩
        · obtain ⟨q1, q2⟩ := g1 t ht
          rw [hnext t ht]
          exact ⟨by omega, q2⟩
      · cases more' with
        | none => dsimp only at g2 ⊢; rw [g2]
        | some s' =>
          obtain ⟨r, e⟩ := g2
          exact ⟨r, by rw [e]; rfl⟩
      · rw [List.flatMap_append, List.flatMap_cons, ← g3]
        congr 1
        · unfold pairTasks pairActs entryActs
          rw [List.flatMap_map]
          refine List.flatMap_congr ?_
          intro i _
          simp only [Nat.sub_self, List.getD_cons_zero]
        · refine List.flatMap_congr ?_
          intro t ht
          rw [hnext t ht]

/-! ## all passes -/

/-- number of chunks of rows -/
def nChunks (istart iend I : Int) : Nat :=
  ((iend - istart + 1) / I + if (iend - istart + 1) % I ≠ 0 then 1 else 0).toNat

theorem getTaskList_ok {c : Call V} {A B : Arr V} {d0 d1 m n k istart iend jstart jend : Int} {ch : Chunks}
    (hg : Good c A B d0 d1 m n k) (hp : ch.Pos)
    (hbl : 0 ≤ istart ∧ iend ≤ m - 1 ∧ 0 ≤ jstart ∧ jend ≤ n - 1) (scaled : Bool) (old : Int → V) (st : Option TState)
    (hss : ∀ s ∈ pairs jstart jend (k - 1) ch.j ch.k st, s.jlo ∈ starts jstart jend ch.j ∧ s.klo ∈ starts 0 (k - 1) ch.k)
    {ta : List ATask} {tb : List BTask} {more : Option TState}
    (h : getTaskList istart iend jstart jend (k - 1) ch st = some (ta, tb, more)) :
    ∃ done, (match more with
        | none => pairs jstart jend (k - 1) ch.j ch.k st = done
        | some s => ∃ r, pairs jstart jend (k - 1) ch.j ch.k st = done ++ s :: r) ∧
      regPass c A B d0 d1 scaled ta tb old = some (done.flatMap (pairActs c A B scaled istart iend jend (k - 1) ch)) ∧
      (nChunks istart iend ch.i < maxChunks → pairs jstart jend (k - 1) ch.j ch.k st ≠ [] → done ≠ []) := by
  have h' : (if nChunks istart iend ch.i > maxChunks then none else some (taskLoop istart iend jend (k - 1) ch
      (nChunks istart iend ch.i) 0 0 (pairs jstart jend (k - 1) ch.j ch.k st))) = some (ta, tb, more) := h
  by_cases hx : nChunks istart iend ch.i > maxChunks
  · rw [if_pos hx] at h'; simp at h'
  · rw [if_neg hx] at h'
    simp only [Option.some.injEq] at h'
    obtain ⟨g1, done, g2, g3, g4⟩ := taskLoop_ok (c := c) (A := A) (B := B) hp hbl scaled _ _ 0 0 hss ta tb more h'
    refine ⟨done, by cases more <;> exact g2, ?_, fun q => g4 (by omega)⟩
    rw [regPass_ok hg tb scaled ta (fun t ht => by simpa using (g1 t ht).2), ← g3]
    simp

/-- the list still to be done in state `st` -/
def Rest (jstart jend kend : Int) (ch : Chunks) (st : Option TState) : Prop :=
  ∃ d, pairs jstart jend kend ch.j ch.k none = d ++ pairs jstart jend kend ch.j ch.k st

theorem Rest.mem {jstart jend kend : Int} {ch : Chunks} {st : Option TState} (h : Rest jstart jend kend ch st) :
    ∀ s ∈ pairs jstart jend kend ch.j ch.k st, s.jlo ∈ starts jstart jend ch.j ∧ s.klo ∈ starts 0 kend ch.k := by
  obtain ⟨d, h⟩ := h
  intro s hs
  have : s ∈ pairs jstart jend kend ch.j ch.k none := by rw [h]; exact List.mem_append_right _ hs
  rw [pairs_none, List.mem_flatMap] at this
  obtain ⟨j, hj, hs⟩ := this
  unfold pairsK at hs
  split at hs
  · simp at hs
  · rename_i k0 ks e
    rw [e]
    rcases List.mem_cons.1 hs with rfl | hs
    · exact ⟨hj, List.mem_cons_self ..⟩
    · obtain ⟨k1, hk1, rfl⟩ := List.mem_map.1 hs
      exact ⟨hj, List.mem_cons_of_mem _ hk1⟩

theorem Rest.next {jstart jend kend : Int} {ch : Chunks} (hp : ch.Pos) {st : Option TState} (h : Rest jstart jend kend ch st)
    {done r : List TState} {s : TState} (hs : pairs jstart jend kend ch.j ch.k st = done ++ s :: r) :
    pairs jstart jend kend ch.j ch.k (some s) = s :: r ∧ Rest jstart jend kend ch (some s) := by
  obtain ⟨d, h⟩ := h
  rw [hs, ← List.append_assoc] at h
  have e : pairs jstart jend kend ch.j ch.k (some s) = s :: r := by
    rw [pairs_none] at h
    exact pairs_resume hp.2.1 hp.2.2 s r _ _ (fun pre x post e => starts_suffix hp.2.1 pre _ x post e) h
  exact ⟨e, d ++ done, by rw [e]; exact h⟩

theorem regDo_sound {c : Call V} {A B : Arr V} {d0 d1 m n k istart iend jstart jend : Int} {ch : Chunks}
    (hg : Good c A B d0 d1 m n k) (hp : ch.Pos)
    (hbl : 0 ≤ istart ∧ iend ≤ m - 1 ∧ 0 ≤ jstart ∧ jend ≤ n - 1) (scaled : Bool) (old : Int → V) :
    ∀ (fuel : Nat) (st : Option TState) (out : List (CAct V)), Rest jstart jend (k - 1) ch st →
      regDo c A B d0 d1 istart iend jstart jend (k - 1) ch scaled old fuel st = some out →
      out = (pairs jstart jend (k - 1) ch.j ch.k st).flatMap (pairActs c A B scaled istart iend jend (k - 1) ch)
  | 0, st, out, _, h => by simp [regDo] at h
  | fuel + 1, st, out, hr, h => by
    rw [regDo] at h
    cases ht : getTaskList istart iend jstart jend (k - 1) ch st with
    | none => simp [ht] at h
    | some r =>
      obtain ⟨ta, tb, more⟩ := r
      obtain ⟨done, g1, g2, _⟩ := getTaskList_ok hg hp hbl scaled old st hr.mem ht
      simp only [ht, g2] at h
      cases more with
      | none =>
        simp only [Option.some.injEq] at h
        dsimp only at g1
        rw [← h, g1]
      | some s =>
        obtain ⟨r, e⟩ := g1
        obtain ⟨n1, n2⟩ := hr.next hp e
        simp only [Option.map_eq_some_iff] at h
        obtain ⟨o, ho, rfl⟩ := h
        rw [regDo_sound hg hp hbl scaled old fuel (some s) o n2 ho, n1, e, List.flatMap_append]

theorem regDo_ends {c : Call V} {A B : Arr V} {d0 d1 m n k istart iend jstart jend : Int} {ch : Chunks}
    (hg : Good c A B d0 d1 m n k) (hp : ch.Pos)
    (hbl : 0 ≤ istart ∧ iend ≤ m - 1 ∧ 0 ≤ jstart ∧ jend ≤ n - 1) (scaled : Bool) (old : Int → V)
    (hn : nChunks istart iend ch.i < maxChunks) :
    ∀ (fuel : Nat) (st : Option TState), Rest jstart jend (k - 1) ch st →
      (pairs jstart jend (k - 1) ch.j ch.k st).length < fuel →
      ∃ out, regDo c A B d0 d1 istart iend jstart jend (k - 1) ch scaled old fuel st = some out
  | 0, st, _, h => by omega
  | fuel + 1, st, hr, h => by
    rw [regDo]
    have ht : ∃ ta tb more, getTaskList istart iend jstart jend (k - 1) ch st = some (ta, tb, more) := by
      unfold getTaskList
      simp only
      rw [if_neg (by unfold nChunks at hn; omega)]
      exact ⟨_, _, _, rfl⟩
    obtain ⟨ta, tb, more, ht⟩ := ht
    obtain ⟨done, g1, g2, g3⟩ := getTaskList_ok hg hp hbl scaled old st hr.mem ht
    simp only [ht, g2]
    cases more with
    | none => exact ⟨_, rfl⟩
    | some s =>
      obtain ⟨r, e⟩ := g1
      obtain ⟨n1, n2⟩ := hr.next hp e
      have hd : done ≠ [] := g3 hn (by rw [e]; simp)
      have : 0 < done.length := List.length_pos_iff.2 hd
      rw [e, List.length_append] at h
      obtain ⟨o, ho⟩ := regDo_ends hg hp hbl scaled old hn fuel (some s) n2 (by rw [n1]; omega)
      exact ⟨_, by simp only [ho, Option.map_some]; rfl⟩

/-- more passes do not change the result -/
theorem regDo_mono {c : Call V} {A B : Arr V} {d0 d1 istart iend jstart jend kend : Int} {ch : Chunks} {scaled : Bool}
    {old : Int → V} : ∀ (fuel : Nat) (st : Option TState) (out : List (CAct V)),
      regDo c A B d0 d1 istart iend jstart jend kend ch scaled old fuel st = some out →
      regDo c A B d0 d1 istart iend jstart jend kend ch scaled old (fuel + 1) st = some out
  | 0, st, out, h => by simp [regDo] at h
  | fuel + 1, st, out, h => by
    rw [regDo] at h ⊢
    cases ht : getTaskList istart iend jstart jend kend ch st with
    | none => simp [ht] at h
    | some r =>
      obtain ⟨ta, tb, more⟩ := r
      simp only [ht] at h ⊢
      cases hq : regPass c A B d0 d1 scaled ta tb old with
      | none => simp [hq] at h
      | some o =>
        simp only [hq] at h ⊢
        cases more with
        | none => exact h
        | some s =>
          simp only [Option.map_eq_some_iff] at h ⊢
          obtain ⟨o', ho', e⟩ := h
          exact ⟨o', regDo_mono fuel (some s) o' ho', e⟩

/-- with as many chunks of rows as the list has entries, no pass does anything -/
theorem regDo_stuck {c : Call V} {A B : Arr V} {d0 d1 istart iend jstart jend kend : Int} {ch : Chunks} (hp : ch.Pos)
    {scaled : Bool} {old : Int → V} (hn : nChunks istart iend ch.i = maxChunks) :
    ∀ (fuel : Nat) (st : Option TState), Rest jstart jend kend ch st → pairs jstart jend kend ch.j ch.k st ≠ [] →
      regDo c A B d0 d1 istart iend jstart jend kend ch scaled old fuel st = none
  | 0, st, _, _ => rfl
  | fuel + 1, st, hr, hne => by
    obtain ⟨s, r, e⟩ := List.exists_cons_of_ne_nil hne
    obtain ⟨n1, n2⟩ := hr.next hp (done := []) (by rw [e]; rfl)
    have ht : getTaskList istart iend jstart jend kend ch st = some ([], [], some s) := by
      unfold getTaskList
      unfold nChunks at hn
      simp only
      rw [hn, if_neg (lt_irrefl _), e, taskLoop, if_pos (by omega)]
    rw [regDo]
    simp only [ht, regPass]
    rw [regDo_stuck hp hn fuel (some s) n2 (by rw [n1]; simp)]
    rfl

end

end GA.Matmul
