import Verif.Lemmas.MatmulReg

/-! # Lemmas: the result of all processes together -/

namespace GA.Matmul
open GA.Model GA.Spec

section
variable {V : Type} [Semiring V]

/-! ## interleavings -/

theorem exec_exists {n : Nat} {acts : Nat → Option (List (CAct V))} (h : ∀ p, p < n → ∃ l, acts p = some l) (C : Mat V) :
    ∃ C', Exec n acts C C' := by
  have : ∃ l : Nat → List (CAct V), ∀ p, p < n → acts p = some (l p) := by
    refine ⟨fun p => (acts p).getD [], fun p hp => ?_⟩
    obtain ⟨l, e⟩ := h p hp
    simp [e]
  obtain ⟨l, hl⟩ := this
  refine ⟨_, (List.range n).flatMap (fun p => (l p).map fun a => (p, a)), ?_, ?_, rfl⟩
  · intro e he
    obtain ⟨p, hp, he⟩ := List.mem_flatMap.1 he
    obtain ⟨a, _, rfl⟩ := List.mem_map.1 he
    exact List.mem_range.1 hp
  · intro p hp
    rw [hl p hp]
    congr 1
    rw [List.filter_flatMap, flatMap_one List.nodup_range _ p, if_pos (List.mem_range.2 hp)]
    · rw [List.filter_eq_self.2, List.map_map]
      · exact (List.map_id _).symm
      · intro e he
        obtain ⟨a, _, rfl⟩ := List.mem_map.1 he
        simp
    · intro q _ hq
      rw [List.filter_eq_nil_iff]
      intro e he
      obtain ⟨a, _, rfl⟩ := List.mem_map.1 he
      simpa using hq

/-- only process `p0` acts on the element -/
theorem exec_owner {n : Nat} {acts : Nat → Option (List (CAct V))} {l : Nat → List (CAct V)} {C C' : Mat V}
    (h : Exec n acts C C') (hl : ∀ p, p < n → acts p = some (l p)) (x y : Int) (p0 : Nat) (hp0 : p0 < n)
    (ho : ∀ p, p < n → p ≠ p0 → (l p).filter (onEl x y) = []) :
    C' x y = ((l p0).filter (onEl x y)).foldl appV (C x y) := by
  obtain ⟨s, h1, h2, rfl⟩ := h
  rw [foldl_app]
  congr 1
  have e0 : l p0 = (s.filter fun e => e.1 == p0).map (·.2) := by
    have := h2 p0 hp0
    rw [hl p0 hp0] at this
    simpa using this
  rw [e0, List.filter_map, List.filter_map, List.filter_filter]
  congr 1
  refine List.filter_congr ?_
  intro e he
  simp only [Function.comp]
  by_cases hq : e.1 = p0
  · simp [hq]
  · have := ho e.1 (h1 e he) hq
    rw [List.filter_eq_nil_iff] at this
    have e1 : l e.1 = (s.filter fun e' => e'.1 == e.1).map (·.2) := by
      have := h2 e.1 (h1 e he)
      rw [hl e.1 (h1 e he)] at this
      simpa using this
    have := this e.2 (by rw [e1]; exact List.mem_map.2 ⟨e, List.mem_filter.2 ⟨he, by simp⟩, rfl⟩)
    simp [this, hq]

theorem exec_none {n : Nat} {acts : Nat → Option (List (CAct V))} {l : Nat → List (CAct V)} {C C' : Mat V}
    (h : Exec n acts C C') (hl : ∀ p, p < n → acts p = some (l p)) (x y : Int)
    (ho : ∀ p, p < n → (l p).filter (onEl x y) = []) : C' x y = C x y := by
  obtain ⟨s, h1, h2, rfl⟩ := h
  rw [foldl_app]
  have : (s.map (·.2)).filter (onEl x y) = [] := by
    rw [List.filter_eq_nil_iff]
    intro a ha
    obtain ⟨e, he, rfl⟩ := List.mem_map.1 ha
    have := ho e.1 (h1 e he)
    rw [List.filter_eq_nil_iff] at this
    have e1 : l e.1 = (s.filter fun e' => e'.1 == e.1).map (·.2) := by
      have := h2 e.1 (h1 e he)
      rw [hl e.1 (h1 e he)] at this
      simpa using this
    exact this e.2 (by rw [e1]; exact List.mem_map.2 ⟨e, List.mem_filter.2 ⟨he, by simp⟩, rfl⟩)
  rw [this]
  rfl

/-- what an accumulate adds to the element -/
def wAt (x y : Int) (a : CAct V) : V := if onEl x y a then a.v else 0

theorem foldl_acc (x y : Int) : ∀ (s : List (CAct V)) (v : V), (∀ a ∈ s, a.put = false) →
    (s.filter (onEl x y)).foldl appV v = v + (s.map (wAt x y)).sum
  | [], v, _ => by simp
  | a :: s, v, h => by
    have ih := fun v => foldl_acc x y s v fun b hb => h b (List.mem_cons_of_mem _ hb)
    rw [List.filter_cons, List.map_cons, List.sum_cons, ← add_assoc]
    by_cases ho : onEl x y a = true
    · rw [if_pos ho, List.foldl_cons, ih]
      simp [appV, wAt, ho, h a (List.mem_cons_self ..)]
    · rw [if_neg ho, ih]
      simp [wAt, ho]

theorem sum_tags {n : Nat} (w : CAct V → V) : ∀ s : List (Nat × CAct V), (∀ e ∈ s, e.1 < n) →
    (s.map fun e => w e.2).sum = ((List.range n).map fun p => (((s.filter fun e => e.1 == p).map (·.2)).map w).sum).sum
  | [], _ => by simp
  | e :: s, h => by
    have ih := sum_tags w s fun e he => h e (List.mem_cons_of_mem _ he)
    have he := h e (List.mem_cons_self ..)
    rw [List.map_cons, List.sum_cons, ih]
    have : ∀ p, ((((e :: s).filter fun e => e.1 == p).map (·.2)).map w).sum =
        (if e.1 = p then w e.2 else 0) + (((s.filter fun e => e.1 == p).map (·.2)).map w).sum := by
      intro p
      rw [List.filter_cons]
      by_cases hp : e.1 = p
      · simp [hp]
      · simp [hp]
    simp only [this]
    rw [List.sum_map_add]
    congr 1
    clear ih this
    induction n with
    | zero => omega
    | succ n ihn =>
      rw [List.range_succ, List.map_append, List.sum_append]
      by_cases hn : e.1 = n
      · have : ((List.range n).map fun p => if e.1 = p then w e.2 else 0).sum = 0 := by
          refine List.sum_eq_zero ?_
          intro v hv
          obtain ⟨p, hp, rfl⟩ := List.mem_map.1 hv
          have := List.mem_range.1 hp
          rw [if_neg (by omega)]
        rw [this]
        simp [hn]
      · rcases Nat.lt_succ_iff_lt_or_eq.1 he with hlt | heq
        · have hs : ((List.range n).map fun p => if e.1 = p then w e.2 else 0).sum = w e.2 := by
            have : ∀ m, e.1 < m → ((List.range m).map fun p => if e.1 = p then w e.2 else 0).sum = w e.2 := by
              intro m
              induction m with
              | zero => omega
              | succ m ihm =>
                intro hm
                rw [List.range_succ, List.map_append, List.sum_append]
                by_cases hq : e.1 = m
                · have : ((List.range m).map fun p => if e.1 = p then w e.2 else 0).sum = 0 := by
                    refine List.sum_eq_zero ?_
                    intro v hv
                    obtain ⟨p, hp, rfl⟩ := List.mem_map.1 hv
                    have := List.mem_range.1 hp
                    rw [if_neg (by omega)]
                  rw [this]; simp [hq]
                · rw [ihm (by omega)]; simp [hq]
            exact this n hlt
          rw [hs]
          simp [hn]
        · exact absurd heq hn

/-- all processes accumulate -/
theorem exec_acc {n : Nat} {acts : Nat → Option (List (CAct V))} {l : Nat → List (CAct V)} {C C' : Mat V}
    (h : Exec n acts C C') (hl : ∀ p, p < n → acts p = some (l p)) (hacc : ∀ p, p < n → ∀ a ∈ l p, a.put = false) (x y : Int) :
    C' x y = C x y + ((List.range n).map fun p => ((l p).map (wAt x y)).sum).sum := by
  obtain ⟨s, h1, h2, rfl⟩ := h
  have e1 : ∀ p, p < n → l p = (s.filter fun e' => e'.1 == p).map (·.2) := by
    intro p hp
    have := h2 p hp
    rw [hl p hp] at this
    simpa using this
  rw [foldl_app, foldl_acc]
  · congr 1
    rw [List.map_map]
    rw [show ((wAt x y ∘ fun x : Nat × CAct V => x.2)) = fun e : Nat × CAct V => wAt x y e.2 from rfl, sum_tags (wAt x y) s h1]
    congr 1
    refine List.map_congr_left ?_
    intro p hp
    rw [e1 p (List.mem_range.1 hp)]
  · intro a ha
    obtain ⟨e, he, rfl⟩ := List.mem_map.1 ha
    refine hacc e.1 (h1 e he) e.2 ?_
    rw [e1 e.1 (h1 e he)]
    exact List.mem_map.2 ⟨e, List.mem_filter.2 ⟨he, by simp⟩, rfl⟩

/-! ## the process that owns the element -/

theorem pairActs_at (c : Call V) (A B : Arr V) (scaled : Bool) (istart iend jend kend : Int) (ch : Chunks) (hp : ch.Pos) (s : TState)
    (i j : Int) :
    (pairActs c A B scaled istart iend jend kend ch s).filter (onEl (c.cilo + i) (c.cjlo + j)) =
      if (istart ≤ i ∧ i ≤ iend) ∧ s.jlo ≤ j ∧ j ≤ chunkEnd jend s.jlo ch.j then
        [⟨!scaled && s.put, c.cilo + i, c.cjlo + j, taskVal c A B s.klo (chunkEnd kend s.klo ch.k) i j⟩] else [] := by
  unfold pairActs
  rw [List.filter_flatMap]
  simp only [taskActs_at]
  by_cases hi : istart ≤ i ∧ i ≤ iend
  · rw [flatMap_one (starts_nodup hp.1) _ (home istart ch.i i)]
    · rw [if_pos (home_mem hp.1 hi.1 hi.2)]
      have := (home_iff hp.1 hi.1 hi.2 (home_mem hp.1 hi.1 hi.2)).2 rfl
      simp only [this, hi, and_self, true_and]
    · intro b hb hne
      rw [if_neg]
      intro q
      exact hne ((home_iff hp.1 hi.1 hi.2 hb).1 q.1)
  · rw [if_neg (fun q => hi q.1), List.flatMap_eq_nil_iff]
    intro b hb
    have := chunk_bounds hp.1 hb
    rw [if_neg]
    intro q
    exact hi ⟨by omega, by omega⟩

theorem ownActs_at (c : Call V) (A B : Arr V) (scaled : Bool) (istart iend jstart jend kend : Int) (ch : Chunks) (hp : ch.Pos)
    (i j : Int) :
    (ownActs c A B scaled istart iend jstart jend kend ch).filter (onEl (c.cilo + i) (c.cjlo + j)) =
      if (istart ≤ i ∧ i ≤ iend) ∧ jstart ≤ j ∧ j ≤ jend then
        (pairsK (home jstart ch.j j) true (starts 0 kend ch.k)).map fun s =>
          ⟨!scaled && s.put, c.cilo + i, c.cjlo + j, taskVal c A B s.klo (chunkEnd kend s.klo ch.k) i j⟩ else [] := by
  unfold ownActs
  rw [List.filter_flatMap]
  simp only [pairActs_at _ _ _ _ _ _ _ _ _ hp]
  rw [List.flatMap_assoc]
  have hjlo : ∀ (b : Int) (s : TState), s ∈ pairsK b true (starts 0 kend ch.k) → s.jlo = b := by
    intro b s hs
    unfold pairsK at hs
    split at hs
    · simp at hs
    · rcases List.mem_cons.1 hs with rfl | hs
      · rfl
      · obtain ⟨_, _, rfl⟩ := List.mem_map.1 hs; rfl
  by_cases hj : jstart ≤ j ∧ j ≤ jend
  · rw [flatMap_one (starts_nodup hp.2.1) _ (home jstart ch.j j)]
    · rw [if_pos (home_mem hp.2.1 hj.1 hj.2)]
      have hh := (home_iff hp.2.1 hj.1 hj.2 (home_mem hp.2.1 hj.1 hj.2)).2 rfl
      by_cases hi : istart ≤ i ∧ i ≤ iend
      · rw [if_pos ⟨hi, hj⟩]
        have : ∀ l : List TState, (∀ s ∈ l, s.jlo = home jstart ch.j j) → (l.flatMap fun s =>
            if (istart ≤ i ∧ i ≤ iend) ∧ s.jlo ≤ j ∧ j ≤ chunkEnd jend s.jlo ch.j then
              [(⟨!scaled && s.put, c.cilo + i, c.cjlo + j, taskVal c A B s.klo (chunkEnd kend s.klo ch.k) i j⟩ : CAct V)] else []) =
            l.map fun s => ⟨!scaled && s.put, c.cilo + i, c.cjlo + j, taskVal c A B s.klo (chunkEnd kend s.klo ch.k) i j⟩ := by
          intro l hl
          induction l with
          | nil => rfl
          | cons s l ih =>
            rw [List.flatMap_cons, ih fun s hs => hl s (List.mem_cons_of_mem _ hs), hl s (List.mem_cons_self ..),
              if_pos ⟨hi, hh⟩, List.map_cons]
            rfl
        exact this _ (fun s hs => hjlo _ s hs)
      · rw [if_neg (fun q => hi q.1), List.flatMap_eq_nil_iff]
        intro s _
        rw [if_neg (fun q => hi q.1)]
    · intro b hb hne
      rw [List.flatMap_eq_nil_iff]
      intro s hs
      rw [if_neg]
      intro q
      rw [hjlo b s hs] at q
      exact hne ((home_iff hp.2.1 hj.1 hj.2 hb).1 q.2)
  · rw [if_neg (fun q => hj q.2), List.flatMap_eq_nil_iff]
    intro b hb
    have := chunk_bounds hp.2.1 hb
    rw [List.flatMap_eq_nil_iff]
    intro s hs
    rw [if_neg]
    intro q
    rw [hjlo b s hs] at q
    exact hj ⟨by omega, by omega⟩

theorem foldl_acc_map {x y : Int} (g : Int → V) : ∀ (l : List Int) (v : V),
    (l.map fun k => (⟨false, x, y, g k⟩ : CAct V)).foldl appV v = v + (l.map g).sum
  | [], v => by simp
  | k :: l, v => by
    rw [List.map_cons, List.foldl_cons, foldl_acc_map g l, List.map_cons, List.sum_cons, ← add_assoc]
    simp [appV]

theorem ownActs_val (c : Call V) (A B : Arr V) (scaled : Bool) (istart iend jstart jend k : Int) (ch : Chunks) (hp : ch.Pos)
    (hk : 1 ≤ k) (i j : Int) (hij : (istart ≤ i ∧ i ≤ iend) ∧ jstart ≤ j ∧ j ≤ jend) (v : V) :
    ((ownActs c A B scaled istart iend jstart jend (k - 1) ch).filter (onEl (c.cilo + i) (c.cjlo + j))).foldl appV v =
      (if scaled then v else 0) + taskVal c A B 0 (k - 1) i j := by
  rw [ownActs_at _ _ _ _ _ _ _ _ _ _ hp, if_pos hij, ← sum_chunks hp.2.2]
  have hne : starts 0 (k - 1) ch.k ≠ [] := by
    intro h
    have : (0 : Int) ∈ starts 0 (k - 1) ch.k := (mem_starts hp.2.2).2 ⟨0, by simp, by omega⟩
    rw [h] at this
    simp at this
  obtain ⟨k0, ks, e⟩ := List.exists_cons_of_ne_nil hne
  rw [e]
  simp only [pairsK, List.map_cons, List.map_map, List.foldl_cons, List.sum_cons, Function.comp_def, Bool.and_false, Bool.and_true]
  rw [foldl_acc_map (fun k1 => taskVal c A B k1 (chunkEnd (k - 1) k1 ch.k) i j), ← add_assoc]
  congr 1
  cases scaled <;> simp [appV]

/-! ## tasks that are dealt out -/

theorem sum_flatMap {α β : Type} (f : α → List β) (w : β → V) : ∀ l : List α,
    ((l.flatMap f).map w).sum = (l.map fun a => ((f a).map w).sum).sum
  | [] => rfl
  | a :: l => by rw [List.flatMap_cons, List.map_append, List.sum_append, sum_flatMap f w l, List.map_cons, List.sum_cons]

theorem sum_one {α : Type} [DecidableEq α] {l : List α} (hl : l.Nodup) (g : α → V) (a : α) (h : ∀ b ∈ l, b ≠ a → g b = 0) :
    (l.map g).sum = if a ∈ l then g a else 0 := by
  induction l with
  | nil => simp
  | cons b l ih =>
    rw [List.nodup_cons] at hl
    have ih := ih hl.2 fun b hb => h b (List.mem_cons_of_mem _ hb)
    rw [List.map_cons, List.sum_cons, ih]
    by_cases hb : b = a
    · subst hb
      simp [hl.1]
    · rw [h b (List.mem_cons_self ..) hb]
      simp [Ne.symm hb]

theorem sum_own {τ : Type} {nproc : Nat} (hn : 0 < nproc) (g : τ → List (CAct V)) (w : CAct V → V) : ∀ (l : List τ) (n0 : Nat),
    ((List.range nproc).map fun p => ((own nproc p g n0 l).map w).sum).sum = (l.map fun t => ((g t).map w).sum).sum
  | [], n0 => by simp [own]
  | t :: l, n0 => by
    have ih := sum_own hn g w l (n0 + 1)
    simp only [own, List.map_append, List.sum_append]
    rw [List.sum_map_add, ih, List.map_cons, List.sum_cons]
    congr 1
    rw [sum_one List.nodup_range _ (n0 % nproc), if_pos (List.mem_range.2 (Nat.mod_lt _ hn))]
    · simp
    · intro p _ hp
      rw [if_neg (fun q => hp q.symm)]
      rfl

theorem own_put {c : Call V} {A B : Arr V} {m n k : Int} {ch : Chunks} {nproc p : Nat} : ∀ (l : List T3) (n0 : Nat),
    ∀ a ∈ own nproc p (accActs c A B m n k ch) n0 l, a.put = false
  | [], _ => by simp [own]
  | t :: l, n0 => by
    intro a ha
    rw [own, List.mem_append] at ha
    rcases ha with ha | ha
    · split at ha
      · unfold accActs taskActs at ha
        obtain ⟨y, _, ha⟩ := List.mem_flatMap.1 ha
        obtain ⟨x, _, rfl⟩ := List.mem_map.1 ha
        rfl
      · simp at ha
    · exact own_put l _ a ha

theorem sum_filter_at (x y : Int) : ∀ s : List (CAct V), (s.map (wAt x y)).sum = ((s.filter (onEl x y)).map (·.v)).sum
  | [] => rfl
  | a :: s => by
    rw [List.map_cons, List.sum_cons, sum_filter_at x y s, List.filter_cons]
    by_cases h : onEl x y a = true
    · simp [wAt, h]
    · simp [wAt, h]

theorem sum_acc (c : Call V) (A B : Arr V) (m n k : Int) (ch : Chunks) (hp : ch.Pos) (i j : Int) :
    ((allTasks m n k ch).map fun t => ((accActs c A B m n k ch t).map (wAt (c.cilo + i) (c.cjlo + j))).sum).sum =
      if (0 ≤ i ∧ i ≤ m - 1) ∧ 0 ≤ j ∧ j ≤ n - 1 then taskVal c A B 0 (k - 1) i j else 0 := by
  have e : ∀ t : T3, ((accActs c A B m n k ch t).map (wAt (c.cilo + i) (c.cjlo + j))).sum =
      if (t.2.2 ≤ i ∧ i ≤ chunkEnd (m - 1) t.2.2 ch.i) ∧ t.1 ≤ j ∧ j ≤ chunkEnd (n - 1) t.1 ch.j then
        taskVal c A B t.2.1 (chunkEnd (k - 1) t.2.1 ch.k) i j else 0 := by
    intro t
    rw [sum_filter_at]
    unfold accActs
    rw [taskActs_at]
    split <;> simp
  simp only [e]
  unfold allTasks
  rw [sum_flatMap]
  simp only [sum_flatMap, List.map_cons, List.map_nil, List.sum_cons, List.sum_nil, add_zero]
  -- one chunk of rows
  have hi : ∀ (jlo kl : Int), ((starts 0 (m - 1) ch.i).map fun a =>
      if (a ≤ i ∧ i ≤ chunkEnd (m - 1) a ch.i) ∧ jlo ≤ j ∧ j ≤ chunkEnd (n - 1) jlo ch.j then
        taskVal c A B kl (chunkEnd (k - 1) kl ch.k) i j else 0).sum =
      if (0 ≤ i ∧ i ≤ m - 1) ∧ jlo ≤ j ∧ j ≤ chunkEnd (n - 1) jlo ch.j then
        taskVal c A B kl (chunkEnd (k - 1) kl ch.k) i j else 0 := by
    intro jlo kl
    by_cases h : 0 ≤ i ∧ i ≤ m - 1
    · rw [sum_one (starts_nodup hp.1) _ (home 0 ch.i i), if_pos (home_mem hp.1 h.1 h.2)]
      · have := (home_iff hp.1 h.1 h.2 (home_mem hp.1 h.1 h.2)).2 rfl
        simp only [this, h, and_self, true_and]
      · intro b hb hne
        rw [if_neg]
        intro q
        exact hne ((home_iff hp.1 h.1 h.2 hb).1 q.1)
    · rw [if_neg (fun q => h q.1)]
      refine List.sum_eq_zero ?_
      intro v hv
      obtain ⟨b, hb, rfl⟩ := List.mem_map.1 hv
      have := chunk_bounds hp.1 hb
      rw [if_neg]
      intro q
      exact h ⟨by omega, by omega⟩
  simp only [hi]
  by_cases h : 0 ≤ j ∧ j ≤ n - 1
  · rw [sum_one (starts_nodup hp.2.1) _ (home 0 ch.j j), if_pos (home_mem hp.2.1 h.1 h.2)]
    · have := (home_iff hp.2.1 h.1 h.2 (home_mem hp.2.1 h.1 h.2)).2 rfl
      simp only [this, h, and_self, and_true]
      by_cases h' : 0 ≤ i ∧ i ≤ m - 1
      · simp only [if_pos h']
        exact sum_chunks hp.2.2
      · simp [if_neg h']
    · intro b hb hne
      refine List.sum_eq_zero ?_
      intro v hv
      obtain ⟨kl, _, rfl⟩ := List.mem_map.1 hv
      rw [if_neg]
      intro q
      exact hne ((home_iff hp.2.1 h.1 h.2 hb).1 q.2)
  · rw [if_neg (fun q => h q.2)]
    refine List.sum_eq_zero ?_
    intro v hv
    obtain ⟨b, hb, rfl⟩ := List.mem_map.1 hv
    have := chunk_bounds hp.2.1 hb
    refine List.sum_eq_zero ?_
    intro v hv
    obtain ⟨kl, _, rfl⟩ := List.mem_map.1 hv
    rw [if_neg]
    intro q
    exact h ⟨by omega, by omega⟩

/-- the result of tasks that are dealt out -/
theorem exec_dealt {c : Call V} {A B : Arr V} {m n k : Int} {ch : Chunks} (hp : ch.Pos) {np nproc : Nat} (hn : 0 < nproc)
    (he : np = nproc) {acts : Nat → Option (List (CAct V))}
    (hl : ∀ p, p < np → acts p = some (own nproc p (accActs c A B m n k ch) 0 (allTasks m n k ch))) {C C' : Mat V}
    (h : Exec np acts C C') (i j : Int) :
    C' (c.cilo + i) (c.cjlo + j) = C (c.cilo + i) (c.cjlo + j) +
      if (0 ≤ i ∧ i ≤ m - 1) ∧ 0 ≤ j ∧ j ≤ n - 1 then taskVal c A B 0 (k - 1) i j else 0 := by
  subst he
  rw [exec_acc h hl (fun p _ => own_put _ _), sum_own hn, sum_acc _ _ _ _ _ _ _ hp]

end

end GA.Matmul
