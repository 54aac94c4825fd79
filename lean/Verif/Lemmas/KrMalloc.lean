import Verif.Model.KrMalloc
import Mathlib.Data.List.Basic
import Mathlib.Data.List.Perm.Basic
import Mathlib.Data.List.Perm.Subperm

/-! # Lemmas: the circular list of free blocks -/

namespace GA.Kr

/-- the addresses increase around the circle -/
def CS (l : List Nat) : Prop := ∃ A B, l = A ++ B ∧ (B ++ A).Pairwise (· < ·)

theorem cs_nodup {l : List Nat} (h : CS l) : l.Nodup := by
  obtain ⟨A, B, rfl, h⟩ := h
  have : (B ++ A).Nodup := h.imp (fun h => Nat.ne_of_lt h)
  exact (List.perm_append_comm.nodup_iff).1 this

theorem cs_sub {l l' : List Nat} (h : CS l) (hs : l'.Sublist l) : CS l' := by
  obtain ⟨A, B, rfl, h⟩ := h
  obtain ⟨A', B', rfl, ha, hb⟩ := List.sublist_append_iff.1 hs
  exact ⟨A', B', rfl, h.sublist (hb.append ha)⟩

theorem cs_rot {x : Nat} {l : List Nat} (h : CS (x :: l)) : CS (l ++ [x]) := by
  obtain ⟨A, B, he, h⟩ := h
  cases A with
  | nil =>
    rw [List.nil_append] at he
    subst he
    rw [List.append_nil] at h
    exact ⟨l, [x], rfl, h⟩
  | cons a A =>
    rw [List.cons_append] at he
    injection he with h1 h2
    subst h1 h2
    refine ⟨A, B ++ [x], by simp, ?_⟩
    simpa using h

theorem cs_pair {x y : Nat} (h : x ≠ y) : CS [x, y] := by
  rcases Nat.lt_or_gt_of_ne h with h | h
  · exact ⟨[], [x, y], rfl, by simp [h]⟩
  · exact ⟨[x], [y], rfl, by simpa using h⟩

/-- the successor is the next larger address, if there is a larger one -/
theorem cs_next {x q : Nat} {r : List Nat} (h : CS (x :: q :: r)) {y : Nat} (hy : y ∈ x :: q :: r) (hxy : x < y) : x < q ∧ q ≤ y := by
  obtain ⟨A, B, he, h⟩ := h
  rcases A with _ | ⟨a, _ | ⟨a', A⟩⟩
  · rw [List.nil_append] at he
    subst he
    rw [List.append_nil, List.pairwise_cons, List.pairwise_cons] at h
    refine ⟨h.1 q (by simp), ?_⟩
    rcases List.mem_cons.1 hy with rfl | hy
    · omega
    · rcases List.mem_cons.1 hy with rfl | hy
      · exact Nat.le_refl _
      · exact Nat.le_of_lt (h.2.1 y hy)
  · simp only [List.cons_append, List.cons.injEq, List.nil_append] at he
    obtain ⟨rfl, rfl⟩ := he
    rw [List.pairwise_append] at h
    rcases List.mem_cons.1 hy with rfl | hy
    · omega
    · have := h.2.2 y hy x (by simp)
      omega
  · simp only [List.cons_append, List.cons.injEq] at he
    obtain ⟨rfl, rfl, rfl⟩ := he
    rw [List.pairwise_append, List.pairwise_cons, List.pairwise_cons] at h
    obtain ⟨_, ⟨h1, h2, _⟩, h3⟩ := h
    refine ⟨h1 q (by simp), ?_⟩
    simp only [List.mem_cons, List.mem_append] at hy
    rcases hy with rfl | rfl | hy | hy
    · omega
    · exact Nat.le_refl _
    · exact Nat.le_of_lt (h2 y hy)
    · have := h3 y hy x (by simp)
      omega

/-- the predecessor is the next smaller address, if there is a smaller one -/
theorem cs_prev {p b : Nat} {r : List Nat} (h : CS (p :: b :: r)) {y : Nat} (hy : y ∈ p :: b :: r) (hyb : y < b) : p < b ∧ y ≤ p := by
  obtain ⟨A, B, he, h⟩ := h
  rcases A with _ | ⟨a, _ | ⟨a', A⟩⟩
  · rw [List.nil_append] at he
    subst he
    rw [List.append_nil, List.pairwise_cons, List.pairwise_cons] at h
    refine ⟨h.1 b (by simp), ?_⟩
    rcases List.mem_cons.1 hy with rfl | hy
    · exact Nat.le_refl _
    · rcases List.mem_cons.1 hy with rfl | hy
      · omega
      · have := h.2.1 y hy
        omega
  · simp only [List.cons_append, List.cons.injEq, List.nil_append] at he
    obtain ⟨rfl, rfl⟩ := he
    rw [List.cons_append, List.pairwise_cons] at h
    have hp := h.1 p (by simp)
    rcases List.mem_cons.1 hy with rfl | hy
    · omega
    · rcases List.mem_cons.1 hy with rfl | hy
      · omega
      · have := h.1 y (by simp [hy])
        omega
  · simp only [List.cons_append, List.cons.injEq] at he
    obtain ⟨rfl, rfl, rfl⟩ := he
    rw [List.pairwise_append, List.pairwise_cons, List.pairwise_cons] at h
    obtain ⟨_, ⟨h1, h2, _⟩, h3⟩ := h
    refine ⟨h1 b (by simp), ?_⟩
    simp only [List.mem_cons, List.mem_append] at hy
    rcases hy with rfl | rfl | hy | hy
    · exact Nat.le_refl _
    · omega
    · have := h2 y hy
      omega
    · exact Nat.le_of_lt (h3 y hy p (by simp))

/-- inserting at the place where the search ends -/
theorem cs_place {p b : Nat} {r : List Nat} (h : CS (p :: r)) (hp : b ≠ p) (q : Nat) (hq : q = (r ++ [p]).head (by simp))
    (hc : (p < b ∧ b < q) ∨ (q ≤ p ∧ (p < b ∨ b < q))) : CS (p :: b :: r) := by
  cases r with
  | nil => exact cs_pair (Ne.symm hp)
  | cons q' r =>
    have hq : q = q' := hq
    subst hq
    obtain ⟨A, B, he, h⟩ := h
    rcases A with _ | ⟨a, _ | ⟨a', A⟩⟩
    · rw [List.nil_append] at he
      subst he
      rw [List.append_nil] at h
      have h' := h
      rw [List.pairwise_cons, List.pairwise_cons] at h'
      have hpq := h'.1 q (by simp)
      have hb : p < b ∧ b < q := by omega
      refine ⟨[], p :: b :: q :: r, rfl, ?_⟩
      rw [List.append_nil, List.pairwise_cons, List.pairwise_cons]
      refine ⟨?_, ?_, h'.2.1 |> fun h1 => List.pairwise_cons.2 ⟨h1, h'.2.2⟩⟩
      · intro y hy
        rcases List.mem_cons.1 hy with rfl | hy
        · exact hb.1
        · exact h'.1 y hy
      · intro y hy
        rcases List.mem_cons.1 hy with rfl | hy
        · exact hb.2
        · exact Nat.lt_trans hb.2 (h'.2.1 y hy)
    · simp only [List.cons_append, List.cons.injEq, List.nil_append] at he
      obtain ⟨rfl, rfl⟩ := he
      have h' := h
      rw [List.pairwise_append] at h'
      have hqp := h'.2.2 q (by simp) p (by simp)
      by_cases hb : p < b
      · refine ⟨[p, b], q :: r, rfl, ?_⟩
        rw [show q :: r ++ [p, b] = (q :: r ++ [p]) ++ [b] by simp, List.pairwise_append]
        refine ⟨h, by simp, ?_⟩
        intro y hy z hz
        rw [List.mem_singleton] at hz
        subst hz
        rcases List.mem_append.1 hy with hy | hy
        · exact Nat.lt_trans (h'.2.2 y hy p (by simp)) hb
        · rw [List.mem_singleton] at hy
          subst hy
          exact hb
      · have hb : b < q := by omega
        refine ⟨[p], b :: q :: r, rfl, ?_⟩
        rw [List.cons_append, List.pairwise_cons]
        refine ⟨?_, h⟩
        intro y hy
        rw [List.cons_append, List.pairwise_cons] at h
        rcases List.mem_cons.1 hy with rfl | hy
        · exact hb
        · exact Nat.lt_trans hb (h.1 y hy)
    · simp only [List.cons_append, List.cons.injEq] at he
      obtain ⟨rfl, rfl, rfl⟩ := he
      have h' := h
      rw [List.pairwise_append, List.pairwise_cons, List.pairwise_cons] at h'
      obtain ⟨g0, ⟨g1, g2, g4⟩, g3⟩ := h'
      have hpq := g1 q (by simp)
      have hb : p < b ∧ b < q := by omega
      refine ⟨p :: b :: q :: A, B, by simp, ?_⟩
      rw [List.pairwise_append, List.pairwise_cons, List.pairwise_cons, List.pairwise_cons]
      refine ⟨g0, ⟨?_, ?_, g2, g4⟩, ?_⟩
      · intro y hy
        rcases List.mem_cons.1 hy with rfl | hy
        · exact hb.1
        · exact g1 y hy
      · intro y hy
        rcases List.mem_cons.1 hy with rfl | hy
        · exact hb.2
        · exact Nat.lt_trans hb.2 (g2 y hy)
      · intro y hy z hz
        rcases List.mem_cons.1 hz with rfl | hz
        · exact g3 y hy z (by simp)
        · rcases List.mem_cons.1 hz with rfl | hz
          · exact Nat.lt_trans (g3 y hy p (by simp)) hb.1
          · exact g3 y hy z (List.mem_cons_of_mem _ hz)

/-! ## walking around the list -/

theorem next_map (p : Blk) (r : List Blk) : (next (p :: r)).addr = (r.map Blk.addr ++ [p.addr]).head (by simp) := by
  cases r with
  | nil => rfl
  | cons q r => rfl

theorem next_mem (p : Blk) (r : List Blk) : next (p :: r) ∈ p :: r := by
  cases r with
  | nil => simp [next]
  | cons q r => simp [next]

/-- what the walk returns is the same circle -/
theorem walk_some {ok : Blk → Blk → Bool} {k : Nat} {L L' : List Blk} (h : walk ok k L = some L') :
    ∃ p r, L' = p :: r ∧ ok p (next L') = true ∧ L'.Perm L ∧ (CS (L.map Blk.addr) → CS (L'.map Blk.addr)) := by
  induction k generalizing L with
  | zero =>
    cases L <;> nomatch h
  | succ k ih =>
    cases L with
    | nil => nomatch h
    | cons p r =>
      unfold walk at h
      by_cases hc : ok p (next (p :: r)) = true
      · rw [if_pos hc] at h
        injection h with h
        exact ⟨p, r, h.symm, h ▸ hc, h ▸ List.Perm.refl _, fun hcs => h ▸ hcs⟩
      · rw [if_neg hc] at h
        obtain ⟨p', r', h1, h2, h3, h4⟩ := ih h
        refine ⟨p', r', h1, h2, h3.trans ?_, fun hcs => h4 ?_⟩
        · exact List.perm_append_singleton p r
        · show CS ((r ++ [p]).map Blk.addr)
          rw [List.map_append]
          exact cs_rot hcs

/-- a walk that fails has seen every node -/
theorem walk_none {ok : Blk → Blk → Bool} {k : Nat} {L : List Blk} (h : walk ok k L = none) {A B : List Blk} {p : Blk} (hL : L = A ++ p :: B)
    (hk : A.length < k) : ok p (next (p :: (B ++ A))) = false := by
  induction k generalizing L A B with
  | zero => omega
  | succ k ih =>
    cases A with
    | nil =>
      rw [List.nil_append] at hL
      subst hL
      unfold walk at h
      by_cases hc : ok p (next (p :: B)) = true
      · rw [if_pos hc] at h
        nomatch h
      · rw [List.append_nil]
        exact Bool.eq_false_iff.2 hc
    | cons a A =>
      rw [List.cons_append] at hL
      subst hL
      unfold walk at h
      by_cases hc : ok a (next (a :: (A ++ p :: B))) = true
      · rw [if_pos hc] at h
        nomatch h
      · rw [if_neg hc] at h
        have := ih (A := A) (B := B ++ [a]) h (by simp [rot]) (by simp at hk; omega)
        simpa using this

theorem fits_none {nu : Nat} {L : List Blk} (h : walk (fits nu) L.length L = none) : ∀ b ∈ L, b.size < nu := by
  intro b hb
  obtain ⟨A, B, rfl⟩ := List.append_of_mem hb
  have key : ∀ A' q B', A ++ b :: B = A' ++ q :: B' → next (q :: (B' ++ A')) = b → b.size < nu := by
    intro A' q B' he hn
    have := walk_none h he (by rw [he]; simp)
    rw [hn] at this
    simpa [fits] using this
  rcases List.eq_nil_or_concat A with rfl | ⟨A', q, rfl⟩
  · rcases List.eq_nil_or_concat B with rfl | ⟨B', q, rfl⟩
    · exact key [] b [] rfl rfl
    · exact key (b :: B') q [] (by simp) rfl
  · exact key A' q (b :: B) (by simp) rfl

theorem place_iff {b p q : Blk} : place b p q = true ↔
    (p.addr < b.addr ∧ b.addr < q.addr) ∨ (q.addr ≤ p.addr ∧ (p.addr < b.addr ∨ b.addr < q.addr)) := by
  simp [place]

/-- the search of `kr_free` ends -/
theorem place_some {b : Blk} {L : List Blk} (hL : L ≠ []) (hcs : CS (L.map Blk.addr)) (hb : ∀ x ∈ L, x.addr ≠ b.addr) :
    ∃ L', walk (place b) L.length L = some L' := by
  cases hw : walk (place b) L.length L with
  | some L' => exact ⟨L', rfl⟩
  | none =>
    exfalso
    obtain ⟨A0, B0, he, hs⟩ := hcs
    obtain ⟨A, B, rfl, hA, hB⟩ := List.map_eq_append_iff.1 he
    subst hA hB
    rw [← List.map_append] at hs
    -- every node in the order of the addresses has been seen
    have key : ∀ A' p B', B ++ A = A' ++ p :: B' → place b p (next (p :: (B' ++ A'))) = false := by
      intro A' p B' h
      rcases List.append_eq_append_iff.1 h with ⟨C, h1, h2⟩ | ⟨C, h1, h2⟩
      · have := walk_none hw (A := C) (B := B' ++ B) (p := p) (by rw [h2]; simp) (by rw [h2]; simp)
        rw [h1]
        simpa using this
      · cases C with
        | nil =>
          rw [List.nil_append] at h2
          rw [List.append_nil] at h1
          have := walk_none hw (A := []) (B := B' ++ B) (p := p) (by rw [← h2]; simp) (by rw [← h2]; simp)
          rw [h1] at this
          simpa using this
        | cons c C =>
          rw [List.cons_append] at h2
          injection h2 with h3 h4
          subst h3 h4
          have := walk_none hw (A := A ++ A') (B := C) (p := p) (by rw [h1]; simp) (by rw [h1]; simp)
          simpa using this
    have hne : B ++ A ≠ [] := by
      intro h
      apply hL
      have := List.append_eq_nil_iff.1 h
      rw [this.1, this.2]
      rfl
    have hmem : ∀ x ∈ B ++ A, x.addr ≠ b.addr := fun x hx => hb x (by
      rw [List.mem_append] at hx ⊢
      exact hx.symm)
    clear hw he hb hL
    generalize B ++ A = S at key hne hmem hs
    -- the first node above `b`
    by_cases hex : ∃ A' q B', S = A' ++ q :: B' ∧ b.addr < q.addr ∧ ∀ x ∈ A', x.addr < b.addr
    · obtain ⟨A', q, B', hS, hq, hA'⟩ := hex
      rcases List.eq_nil_or_concat A' with rfl | ⟨A'', p, rfl⟩
      · rw [List.nil_append] at hS
        rcases List.eq_nil_or_concat B' with rfl | ⟨B'', p, rfl⟩
        · have := key [] q [] hS
          rw [Bool.eq_false_iff, ne_eq, place_iff] at this
          simp only [next, List.append_nil] at this
          omega
        · have := key (q :: B'') p [] (by rw [hS]; simp)
          have hqp : q.addr < p.addr := by
            rw [hS] at hs
            simp only [List.map_cons, List.pairwise_cons] at hs
            exact hs.1 _ (by simp)
          rw [Bool.eq_false_iff, ne_eq, place_iff] at this
          simp only [next, List.nil_append] at this
          omega
      · have := key A'' p (q :: B') (by rw [hS]; simp)
        have hpb := hA' p (by simp)
        rw [Bool.eq_false_iff, ne_eq, place_iff] at this
        simp only [next, List.cons_append] at this
        omega
    · -- all nodes are below `b`
      have hall : ∀ x ∈ S, x.addr < b.addr := by
        intro x hx
        by_contra hxb
        apply hex
        have hxb : b.addr < x.addr := by
          have := hmem x hx
          omega
        -- the first of them
        clear key hs
        induction S with
        | nil => simp at hx
        | cons s S ih =>
          by_cases hsb : b.addr < s.addr
          · exact ⟨[], s, S, rfl, hsb, by simp⟩
          · have hx' : x ∈ S := by
              rcases List.mem_cons.1 hx with rfl | h
              · omega
              · exact h
            obtain ⟨A', q, B', h1, h2, h3⟩ := ih (fun h => by simp [h] at hx') (fun y hy => hmem y (by simp [hy]))
              (fun ⟨A', q, B', h1, h2, h3⟩ => hex ⟨s :: A', q, B', by rw [h1]; rfl, h2, fun y hy => by
                rcases List.mem_cons.1 hy with rfl | hy
                · have := hmem y (by simp)
                  omega
                · exact h3 y hy⟩) hx'
            refine ⟨s :: A', q, B', by rw [h1]; rfl, h2, fun y hy => ?_⟩
            rcases List.mem_cons.1 hy with rfl | hy
            · have := hmem y (by simp)
              omega
            · exact h3 y hy
      rcases List.eq_nil_or_concat S with rfl | ⟨S', p, rfl⟩
      · exact hne rfl
      · have := key S' p [] (by simp)
        have hp := hall p (by simp)
        cases S' with
        | nil =>
          rw [Bool.eq_false_iff, ne_eq, place_iff] at this
          simp only [next, List.append_nil] at this
          omega
        | cons q S'' =>
          have hqp : q.addr < p.addr := by
            simp only [List.concat_eq_append, List.cons_append, List.map_cons, List.pairwise_cons] at hs
            exact hs.1 _ (by simp)
          rw [Bool.eq_false_iff, ne_eq, place_iff] at this
          simp only [next, List.nil_append] at this
          omega

end GA.Kr
