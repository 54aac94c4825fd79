import Verif.Lemmas.SprsSum

/-!
# C71: sparse arrays are assembled from the elements added by all processes
-/

namespace GA
open Spec Model Spec.Sprs
open GA.Sprs

/-- **C71, adding elements.** A process may add any number of elements; they are all kept, in order, also when the buffer has to grow. -/
theorem C71_add {V : Type} (raw0 raw : Nat → Entry V) (es : List (Entry V)) : ∃ b, addAll raw es (create raw0) = some b ∧ b.items = es := by
  have key : ∀ (es : List (Entry V)) (b : Buf V), b.nval ≤ b.maxval → 0 < b.maxval → ∃ b', addAll raw es b = some b' ∧ b'.items = b.items ++ es := by
    intro es
    induction es with
    | nil =>
      intro b _ _
      exact ⟨b, rfl, by simp⟩
    | cons e es ih =>
      intro b h1 h2
      have hstep : ∃ b1, addElement raw b e = some b1 ∧ b1.nval ≤ b1.maxval ∧ 0 < b1.maxval ∧ b1.items = b.items ++ [e] := by
        by_cases hg : b.nval ≥ b.maxval
        · have hl : b.nval < 2 * b.maxval := by omega
          refine ⟨⟨b.nval + 1, 2 * b.maxval, upd (fun k => if k < b.nval then b.data k else raw k) b.nval e⟩, ?_, by dsimp only; omega, by dsimp only; omega, ?_⟩
          · simp [addElement, hg, hl]
          · simp only [Buf.items, List.range_succ, List.map_append, List.map_cons, List.map_nil]
            congr 1
            · apply List.map_congr_left
              intro k hk
              have := List.mem_range.1 hk
              rw [upd, if_neg (by omega), if_pos this]
            · simp [upd]
        · have hl : b.nval < b.maxval := by omega
          refine ⟨⟨b.nval + 1, b.maxval, upd b.data b.nval e⟩, ?_, by dsimp only; omega, by dsimp only; omega, ?_⟩
          · simp [addElement, hg, hl]
          · simp only [Buf.items, List.range_succ, List.map_append, List.map_cons, List.map_nil]
            congr 1
            · apply List.map_congr_left
              intro k hk
              have := List.mem_range.1 hk
              rw [upd, if_neg (by omega)]
            · simp [upd]
      obtain ⟨b1, g1, g2, g3, g4⟩ := hstep
      obtain ⟨b', g5, g6⟩ := ih b1 g2 g3
      refine ⟨b', by simp [addAll, g1, g5], ?_⟩
      rw [g6, g4, List.append_assoc]
      rfl
  obtain ⟨b, h1, h2⟩ := key es (create raw0) (Nat.zero_le _) (by simp [create, initBuf])
  exact ⟨b, h1, by rw [h2]; rfl⟩

/-- the buffer grows twice -/
example : ∃ b, addAll (fun _ => ⟨7, 7, 7⟩) ((List.range 3000).map fun k : Nat => (⟨k, 0, 1⟩ : Entry Int)) (create fun _ => ⟨5, 5, 5⟩) = some b ∧
    b.items = (List.range 3000).map fun k : Nat => (⟨k, 0, 1⟩ : Entry Int) := C71_add _ _ _

/-- **C71, distribution.** With no more processes than rows, the row ranges of the processes are non-empty parts of the matrix, every row is in the range of
exactly one process, and every process gets the same answer. -/
theorem C71_rows_partial {idim : Int} {n : Nat} (hn : 0 < n) (hi : (n : Int) ≤ idim) :
    (∀ p me, p < n → 0 ≤ (rowDistribution idim n me p).1 ∧ (rowDistribution idim n me p).1 ≤ (rowDistribution idim n me p).2 ∧
      (rowDistribution idim n me p).2 < idim) ∧
    (∀ i, 0 ≤ i → i < idim → ∃! p, p < n ∧ ∀ me, (rowDistribution idim n me p).1 ≤ i ∧ i ≤ (rowDistribution idim n me p).2) ∧
    ∀ p me me', rowDistribution idim n me p = rowDistribution idim n me' p := by
  have he : ∀ p me, rowDistribution idim n me p = (bound idim n p, limHi idim n p) := by
    intro p me
    unfold rowDistribution
    split
    · next h => rw [← h, ownLo_eq hn hi]
    · rfl
  simp only [he]
  refine ⟨fun p _ hp => ⟨bound_nonneg hn hi, limits_nonempty hp hi, limHi_lt hp hi⟩, ?_, fun _ _ _ => trivial⟩
  intro i h0 h1
  refine ⟨owner idim n i, ⟨owner_lt hn, fun _ => (owner_iff hi (owner_lt hn) h0 h1).1 rfl⟩, ?_⟩
  rintro q ⟨hq, hr⟩
  exact ((owner_iff hi hq h0 h1).2 (hr 0)).symm

example : rowDistribution 10 4 0 2 = (5, 7) ∧ rowDistribution 10 4 2 2 = (5, 7) := by decide

/-- **C71, column blocks.** With no more processes than columns, the column blocks are non-empty parts of the matrix and every column is in exactly one. -/
theorem C71_columns_partial {jdim : Int} {n : Nat} (hn : 0 < n) (hj : (n : Int) ≤ jdim) :
    (∀ c, c < n → 0 ≤ (colDistribution jdim n c).1 ∧ (colDistribution jdim n c).1 ≤ (colDistribution jdim n c).2 ∧ (colDistribution jdim n c).2 < jdim) ∧
    ∀ j, 0 ≤ j → j < jdim → ∃! c, c < n ∧ (colDistribution jdim n c).1 ≤ j ∧ j ≤ (colDistribution jdim n c).2 := by
  refine ⟨fun c hc => ⟨bound_nonneg hn hj, limits_nonempty hc hj, limHi_lt hc hj⟩, ?_⟩
  intro j h0 h1
  refine ⟨owner jdim n j, ⟨owner_lt hn, (owner_iff hj (owner_lt hn) h0 h1).1 rfl⟩, ?_⟩
  rintro q ⟨hq, hr⟩
  exact ((owner_iff hj hq h0 h1).2 hr).symm

example : colDistribution 10 4 2 = (5, 7) := by decide

/-- block `c` of the columns has an entry in the rows of process `p` -/
def C71_has {V : Type} (idim jdim : Int) (n : Nat) (M : List (Entry V)) (p c : Nat) : Prop :=
  ∃ e ∈ M, (rowDistribution idim n p p).1 ≤ e.row ∧ e.row ≤ (rowDistribution idim n p p).2 ∧
    (colDistribution jdim n c).1 ≤ e.col ∧ e.col ≤ (colDistribution jdim n c).2

instance {V : Type} (idim jdim : Int) (n : Nat) (M : List (Entry V)) (p c : Nat) : Decidable (C71_has idim jdim n M p c) := by
  unfold C71_has; infer_instance

/-- the processes see the matrix `M`: a block of columns without entries in the rows of the process gives null pointers; otherwise the pointers give, in
compressed row format, for every row exactly the entries of that row in these columns -/
def C71_Shows {V : Type} (idim jdim : Int) (n : Nat) (loc : Nat → Loc V) (M : List (Entry V)) : Prop :=
  ∀ p c, p < n → c < n → match accessColBlock (loc p) c with
    | none => ¬ C71_has idim jdim n M p c
    | some w => C71_has idim jdim n M p c ∧ w.idx 0 = 0 ∧
        ∀ r : Nat, (rowDistribution idim n p p).1 + r ≤ (rowDistribution idim n p p).2 → w.idx r ≤ w.idx (r + 1) ∧
          (csrRow w.idx w.jdx w.val r).Perm
            (rowPart M ((rowDistribution idim n p p).1 + r) (colDistribution jdim n c).1 (colDistribution jdim n c).2)

/-- there are enough entries: at least one per process, and at least one row pointer per process. A process has, for each of its blocks that is not empty, a
row pointer for every one of its rows and one more. -/
def C71_enough {V : Type} (idim jdim : Int) (n : Nat) (M : List (Entry V)) : Prop :=
  n ≤ M.length ∧
  n ≤ ((List.range n).map fun p => (((rowDistribution idim n p p).2 - (rowDistribution idim n p p).1 + 1).toNat + 1) *
    ((List.range n).filter fun c => C71_has idim jdim n M p c).length).sum

instance {V : Type} (idim jdim : Int) (n : Nat) (M : List (Entry V)) : Decidable (C71_enough idim jdim n M) := by unfold C71_enough; infer_instance

theorem C71_dist {idim : Int} {n : Nat} (hn : 0 < n) (hi : (n : Int) ≤ idim) (p : Nat) : rowDistribution idim n p p = (bound idim n p, limHi idim n p) := by
  simp [rowDistribution, ownLo_eq hn hi]

theorem C71_shows_of_good {V : Type} {idim jdim : Int} {n : Nat} (hi : (n : Int) ≤ idim) {loc : Nat → Loc V} {M : List (Entry V)}
    (h : Good n idim jdim loc M) : C71_Shows idim jdim n loc M := by
  intro p c hp hc
  have hn : 0 < n := by omega
  obtain ⟨B, h1, h2, h3, h4, h5⟩ := h p hp
  have hd := C71_dist hn hi p
  have hh : ∀ r : Nat, bound idim n p + r ≤ limHi idim n p ↔ r < (loc p).nrows := by
    intro r
    simp only [Loc.nrows, h2, h3]
    omega
  cases hw : accessColBlock (loc p) c with
  | none =>
    have hf : findBlock (loc p).blkidx c = none := by simpa [accessColBlock] using hw
    simp only [C71_has, hd, colDistribution]
    rintro ⟨e, he, e1, e2, e3, e4⟩
    have hr := (hh (e.row - bound idim n p).toNat).1 (by omega)
    have hp5 := h5 c _ hc hr
    rw [show rowIn (loc p).blkidx B c (e.row - bound idim n p).toNat = [] by simp [rowIn, hf]] at hp5
    have hm : (e.col, e.val) ∈ rowPart M ((loc p).ilo + ((e.row - bound idim n p).toNat : Nat)) (bound jdim n c) (limHi jdim n c) := by
      refine List.mem_map.2 ⟨e, List.mem_filter.2 ⟨he, ?_⟩, rfl⟩
      simp only [decide_eq_true_eq]
      rw [h2]
      omega
    rw [← hp5.mem_iff] at hm
    simp at hm
  | some w =>
    cases hf : findBlock (loc p).blkidx c with
    | none => simp [accessColBlock, hf] at hw
    | some x =>
      obtain ⟨b, hb⟩ := h1.block hf
      have hbl := h1.hrows b (List.mem_of_getElem? hb)
      have hw2 := hw
      rw [h1.access hf] at hw2
      cases hw2
      simp only [hd, colDistribution]
      refine ⟨?_, ?_, ?_⟩
      · have hne := h1.hne b (List.mem_of_getElem? hb)
        obtain ⟨jv, hjv⟩ := List.exists_mem_of_ne_nil _ hne
        obtain ⟨row, hrow, hjv⟩ := List.mem_flatten.1 hjv
        obtain ⟨r, hr, rfl⟩ := List.mem_iff_getElem.1 hrow
        have hr' : r < (loc p).nrows := by omega
        have hin : jv ∈ rowIn (loc p).blkidx B c r := by
          simp only [rowIn, hf, hb, Option.bind_some, List.getElem?_eq_getElem hr, Option.getD_some]
          exact hjv
        rw [(h5 c r hc hr').mem_iff] at hin
        obtain ⟨e, he, -⟩ := List.mem_map.1 hin
        obtain ⟨he1, he2⟩ := List.mem_filter.1 he
        simp only [decide_eq_true_eq] at he2
        have hr2 := (hh r).2 hr'
        simp only [C71_has, hd, colDistribution]
        rw [h2] at he2
        exact ⟨e, he1, by omega, by omega, he2.2⟩
      · have := h1.hgi x b hb 0 (Nat.zero_le _)
        simpa using this
      · intro r hr
        have hr' := (hh r).1 hr
        have hrow : b[r]? = some b[r] := List.getElem?_eq_getElem (by omega)
        refine ⟨?_, ?_⟩
        · have e1 := h1.hgi x b hb r (by omega)
          have e2 := h1.hgi x b hb (r + 1) (by omega)
          show (loc p).gi _ ≤ (loc p).gi _
          rw [e1, e2]
          rw [List.take_succ_eq_append_getElem (by omega), List.flatten_append, List.length_append]
          omega
        · rw [csr_rowIn h1 hw hr', ← h2]
          exact h5 c r hc hr'

/-- the matrix of the elements added by all processes -/
def C71_all {V : Type} (n : Nat) (es : Nat → List (Entry V)) : List (Entry V) := (List.range n).flatMap es

/-- **C71, assembly.** For every number of processes not larger than the dimensions, all elements the processes have added, and every order in which the
processes reserve room on the owners (`s1`) and put the elements there (`s2`): if there are enough elements, the assembled array shows the matrix of all added
elements, on every process and for every block of columns; an element added several times is there several times. If there are not enough, the call
aborts. Missing: more processes than rows or columns (see below). -/
theorem C71_assemble_partial {V : Type} {n : Nat} {idim jdim : Int} (hn : 0 < n) (hi : (n : Int) ≤ idim) (hj : (n : Int) ≤ jdim) (es : Nat → List (Entry V))
    (hin : ∀ p, p < n → ∀ e ∈ es p, e.In idim jdim) (raw0 raw1 : Nat → Nat → Entry V) (b : Nat → Buf V)
    (hb : ∀ p, p < n → addAll (raw1 p) (es p) (create (raw0 p)) = some (b p)) (raw : Nat → Raw V) (g0 : Nat → Entry V) (s1 s2 : List (Nat × Nat))
    (h1 : Interleaving n (program (fun p => (raw p).list) idim n fun p => (b p).items) s1)
    (h2 : Interleaving n (program (fun p => (raw p).list) idim n fun p => (b p).items) s2) :
    if C71_enough idim jdim n (C71_all n es) then
      ∃ loc : Nat → Option (Loc V), assemble raw g0 idim jdim n (fun p => (b p).items) s1 s2 = some loc ∧
        ∃ l : Nat → Loc V, (∀ p, p < n → loc p = some (l p)) ∧ C71_Shows idim jdim n l (C71_all n es)
    else assemble raw g0 idim jdim n (fun p => (b p).items) s1 s2 = none := by
  have hes : ∀ p, p < n → (b p).items = es p := by
    intro p hp
    obtain ⟨b', g1, g2⟩ := C71_add (raw0 p) (raw1 p) (es p)
    rw [hb p hp] at g1
    cases g1
    exact g2
  have hall : C71_all n es = (List.range n).flatMap fun p => (b p).items := by
    rw [C71_all, List.flatMap_def, List.flatMap_def]
    congr 1
    apply List.map_congr_left
    intro p hp
    exact (hes p (List.mem_range.1 hp)).symm
  have hin' : ∀ p, p < n → ∀ e ∈ (b p).items, e.In idim jdim := by
    intro p hp e he
    rw [hes p hp] at he
    exact hin p hp e he
  obtain ⟨loc, g1, g2, g3, g4⟩ := assemble_good (g0 := g0) hn hi hj hin' h1 h2
  have hM : ∀ e ∈ (List.range n).flatMap (fun p => (b p).items), e.In idim jdim := by
    intro e he
    obtain ⟨p, hp, he⟩ := List.mem_flatMap.1 he
    exact hin' p (List.mem_range.1 hp) e he
  rw [hall]
  have hcond : C71_enough idim jdim n ((List.range n).flatMap fun p => (b p).items) ↔
      n ≤ ((List.range n).flatMap fun p => (b p).items).length ∧ n ≤ ((List.range n).map fun p => ((loc p).nrows + 1) * (loc p).blkidx.length).sum := by
    rw [C71_enough]
    refine and_congr Iff.rfl (iff_of_eq (congrArg (n ≤ ·) (congrArg List.sum (List.map_congr_left fun p hp => ?_))))
    have hp := List.mem_range.1 hp
    obtain ⟨B, -, e2, e3, -⟩ := g1 p hp
    rw [g2 p hp]
    have hd := C71_dist hn hi p
    congr 1
    · rw [hd, Loc.nrows, e2, e3]
    · congr 1
      apply List.filter_congr
      intro c hc
      have hc := List.mem_range.1 hc
      rw [decide_eq_decide]
      simp only [C71_has, hd, colDistribution, owned, List.mem_filter, decide_eq_true_eq]
      constructor
      · rintro ⟨e, he, f1, f2, f3, f4⟩
        obtain ⟨m1, m2, m3, m4⟩ := hM e he
        exact ⟨e, ⟨he, (owner_iff hi hp m1 m2).2 ⟨f1, f2⟩⟩, (owner_iff hj hc m3 m4).2 ⟨f3, f4⟩⟩
      · rintro ⟨e, ⟨he, f1⟩, f2⟩
        obtain ⟨m1, m2, m3, m4⟩ := hM e he
        have a := (owner_iff hi hp m1 m2).1 f1
        have b := (owner_iff hj hc m3 m4).1 f2
        exact ⟨e, he, a.1, a.2, b.1, b.2⟩
  split
  · next hc =>
    rw [if_pos (hcond.1 hc)] at g3
    exact ⟨_, g3, loc, g4, C71_shows_of_good hi g1⟩
  · next hc => rw [g3, if_neg fun h => hc (hcond.2 h)]

/-! ## a concrete case, and cases that abort -/

/-- two processes add elements of a 3 x 4 matrix; one position is added twice -/
def C71_ex (p : Nat) : List (Entry Int) := if p = 0 then [⟨2, 3, 5⟩, ⟨0, 0, 1⟩, ⟨0, 1, 2⟩] else [⟨0, 1, 7⟩, ⟨2, 3, 9⟩]

/-- the buffers of the two processes -/
def C71_exBuf (p : Nat) : Buf Int := (addAll (fun _ => ⟨7, 7, 7⟩) (C71_ex p) (create fun _ => ⟨5, 5, 5⟩)).getD (create fun _ => ⟨5, 5, 5⟩)

/-- memory with arbitrary content -/
def C71_exRaw (p : Nat) : Raw Int := ⟨fun _ => p, fun _ => 77, fun _ => -3, fun _ => -4⟩

instance {α : Type} [DecidableEq α] (n : Nat) (prog : Nat → List α) (s : List (Nat × α)) : Decidable (Interleaving n prog s) := by
  unfold Interleaving; infer_instance

/-- the hypotheses hold -/
example : (∀ p, p < 2 → (C71_exBuf p).items = C71_ex p) ∧ (∀ p, p < 2 → ∀ e ∈ C71_ex p, e.In 3 4) ∧
    Interleaving 2 (program (fun p => (C71_exRaw p).list) 3 2 fun p => (C71_exBuf p).items) [(1, 1), (0, 0), (1, 0), (0, 1)] ∧
    Interleaving 2 (program (fun p => (C71_exRaw p).list) 3 2 fun p => (C71_exBuf p).items) [(0, 0), (1, 1), (0, 1), (1, 0)] ∧
    C71_enough 3 4 2 (C71_all 2 C71_ex) := by
  unfold Entry.In
  decide +kernel

/-- what process 0 sees in the columns 0 and 1 -/
example : ((assemble C71_exRaw (fun _ => ⟨9, 9, 9⟩) 3 4 2 (fun p => (C71_exBuf p).items) [(1, 1), (0, 0), (1, 0), (0, 1)]
      [(0, 0), (1, 1), (0, 1), (1, 0)]).bind fun loc => (loc 0).bind fun l => (accessColBlock l 0).map fun w => csrRow w.idx w.jdx w.val 0)
    = some [(1, 2), (0, 1), (1, 7)] := by decide +kernel

/-- what process 0 sees in the columns 2 and 3: null pointers -/
example : ((assemble C71_exRaw (fun _ => ⟨9, 9, 9⟩) 3 4 2 (fun p => (C71_exBuf p).items) [(1, 1), (0, 0), (1, 0), (0, 1)]
      [(0, 0), (1, 1), (0, 1), (1, 0)]).bind fun loc => (loc 0).map fun l => (accessColBlock l 1).isNone) = some true := by decide +kernel

/-- **C71, negation: too few elements.** A matrix with fewer elements than processes cannot be assembled: the call aborts. -/
theorem C71_fewer_elements {V : Type} {n : Nat} {idim jdim : Int} (hn : 0 < n) (hi : (n : Int) ≤ idim) (hj : (n : Int) ≤ jdim) (es : Nat → List (Entry V))
    (hin : ∀ p, p < n → ∀ e ∈ es p, e.In idim jdim) (hfew : (C71_all n es).length < n) (raw0 raw1 : Nat → Nat → Entry V) (b : Nat → Buf V)
    (hb : ∀ p, p < n → addAll (raw1 p) (es p) (create (raw0 p)) = some (b p)) (raw : Nat → Raw V) (g0 : Nat → Entry V) (s1 s2 : List (Nat × Nat))
    (h1 : Interleaving n (program (fun p => (raw p).list) idim n fun p => (b p).items) s1)
    (h2 : Interleaving n (program (fun p => (raw p).list) idim n fun p => (b p).items) s2) :
    assemble raw g0 idim jdim n (fun p => (b p).items) s1 s2 = none := by
  have h := C71_assemble_partial hn hi hj es hin raw0 raw1 b hb raw g0 s1 s2 h1 h2
  rwa [if_neg fun hc => by have := hc.1; omega] at h

/-- a diagonal matrix with two elements on three processes -/
example : (C71_all 3 fun p => if p = 1 then [(⟨0, 0, 4⟩ : Entry Int), ⟨2, 2, 6⟩] else []).length < 3 := by decide

/-- **C71, negation: one block.** Also three elements on three processes abort if they are all in one row. -/
theorem C71_one_block : assemble C71_exRaw (fun _ => ⟨9, 9, 9⟩) 3 3 3 (fun p => if p = 0 then [⟨0, 0, 4⟩, ⟨0, 0, 5⟩, ⟨0, 0, 6⟩] else [])
    [(0, 0)] [(0, 0)] = none := by decide +kernel

/-- **C71, negation: more processes than rows.** A matrix with two rows on four processes: the first row is in the range of no process. Process 0
receives the elements of this row, but computes the empty range 0 to -1 for itself, and stores outside its arrays. -/
theorem C71_more_processes : (∀ p, p < 4 → ¬ ((rowDistribution 2 4 p p).1 ≤ 0 ∧ 0 ≤ (rowDistribution 2 4 p p).2)) ∧ owner 2 4 0 = 0 ∧
    rowDistribution 2 4 0 0 = (0, -1) ∧
    assemble C71_exRaw (fun _ => ⟨9, 9, 9⟩) 2 4 4 (fun p => if p = 0 then [⟨0, 0, 4⟩, ⟨0, 1, 5⟩, ⟨0, 3, 6⟩, ⟨1, 1, 7⟩] else [])
      [(0, 0), (0, 2)] [(0, 0), (0, 2)] = none := by decide +kernel

end GA
