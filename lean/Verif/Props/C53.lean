import Verif.Lemmas.Copy
import Verif.Lemmas.Faces

/-!
# C53: copies (`NGA_Copy_patch`), and C35 for `GA_Copy`

`m`, `m'`: memory of all arrays before and after, `Par` all interleavings of the moves of the
processes.
-/

namespace GA
open Spec Model

section
variable {V : Type}

/-- content of the array with handle `a` -/
def HoldsAt (a : Nat) (A : GArr) (m : Loc → V) (f : List Int → V) : Prop := Holds A (fun x => m (a, x)) f

/-- A legal call of `NGA_Copy_patch`: two arrays with working pointers, patches inside the arrays with the
same number of elements, which do not overlap if the arrays are the same; block-cyclic arrays
only without transposition and change of shape. -/
structure CopyCall (tr : Bool) (a : Nat) (A : GArr) (alo ahi : List Int) (b : Nat) (B : GArr)
    (blo bhi : List Int) : Prop where
  sA : Sound A
  sB : Sound B
  pA : PtrOK A
  pB : PtrOK B
  same : a = b → A = B
  inA : PatchOK A.dims alo ahi
  inB : PatchOK B.dims blo bhi
  cap : numElems alo ahi = numElems blo bhi
  apart : a = b → ∀ x, ¬ (InPatch alo ahi x ∧ InPatch blo bhi x)
  blk : A.isBlk = true ∨ B.isBlk = true → tr = false ∧ edgeLens alo ahi = edgeLens blo bhi

/-- the array that the one-sided calls access -/
def remoteArr (A B : GArr) : GArr := if A.nproc ≤ B.nproc then B else A

theorem compPatch_refl {alo ahi blo bhi : List Int} (h1 : ahi.length = alo.length)
    (h2 : bhi.length = blo.length) (hl : blo.length = alo.length)
    (h : compPatch alo ahi blo bhi = true) : alo = blo ∧ ahi = bhi := by
  induction alo generalizing ahi blo bhi with
  | nil =>
    match ahi, blo, bhi, h1, hl, h2 with
    | [], [], [], _, _, _ => exact ⟨rfl, rfl⟩
  | cons l alo ih =>
    match ahi, blo, bhi, h1, hl, h2 with
    | k :: ahi, b :: blo, c :: bhi, h1, hl, h2 =>
      simp only [compPatch, Bool.and_eq_true, decide_eq_true_eq] at h
      obtain ⟨e1, e2⟩ := ih (by simpa using h1) (by simpa using h2) (by simpa using hl) h.2
      rw [h.1.1, h.1.2, e1, e2]
      exact ⟨rfl, rfl⟩

theorem inRange {dims lo hi : List Int} (h : PatchOK dims lo hi) : outOfRange lo hi dims = false := by
  have h1 := h.1
  have h2 := h.2.1
  clear h
  induction dims generalizing lo hi with
  | nil => cases lo <;> cases hi <;> simp [outOfRange]
  | cons d ds ih =>
    match lo, hi, h1, h2 with
    | l :: lo, k :: hi, h1, h2 =>
      have e1 : (1 : Int) ≤ l ∧ l ≤ d := h1.1
      have e2 : (1 : Int) ≤ k ∧ k ≤ d := h2.1
      simp only [outOfRange, ih h1.2 h2.2, Bool.or_false, Bool.or_eq_false_iff, decide_eq_false_iff_not]
      constructor <;> omega

variable {tr : Bool} {a b : Nat} {A B : GArr} {alo ahi blo bhi : List Int}

/-- a legal call passes the checks -/
private theorem copy_checks (c : CopyCall tr a A alo ahi b B blo bhi) {E : Nat → List Int → Env}
    {cand cand' : Nat → Nat → List Nat} (p : Nat) :
    copyPatchActs E cand cand' tr a A alo ahi b B blo bhi p =
      if A.nproc ≤ B.nproc then patchPut E cand cand' tr a A alo ahi b B blo bhi p
      else patchGet E tr a A alo ahi b B blo bhi p := by
  have hcap : prodI (edges alo ahi) = prodI (edges blo bhi) := by
    rw [prodI_edges, prodI_edges]; exact c.cap
  have la := inPatch_lengths c.inA.2.2
  have lb := inPatch_lengths c.inB.2.2
  unfold copyPatchActs
  rw [if_neg, if_neg, if_neg, if_neg, if_neg]
  · intro h
    simp only [Bool.and_eq_true, Bool.or_eq_true, Bool.not_eq_true'] at h
    obtain ⟨t1, t2⟩ := c.blk h.1
    rcases h.2 with h | h
    · rw [t1] at h; cases h
    · have := (testShape_iff (alo := alo) (ahi := ahi) (blo := blo) (bhi := bhi) la.1 lb.1).2
        (by rw [edges_eq, edges_eq]; exact t2)
      rw [this] at h; cases h
  · rw [extents_eq, extents_eq]; exact fun h => h hcap
  · rw [inRange c.inA, inRange c.inB]; simp
  · rintro ⟨h1, h2⟩
    obtain ⟨⟨los, his⟩, hr⟩ := Option.isSome_iff_exists.1 h2
    have hAB := c.same h1
    have l1 := c.inA.1.length
    have l2 := c.inB.1.length
    rw [← hAB] at l2
    obtain ⟨k1, k2⟩ := patchIntersect_some la.1 (by omega) (by omega) hr
    exact c.apart h1 los ((k2 los).1 k1)
  · rintro ⟨h1, h2⟩
    have hAB := c.same h1
    have l1 := c.inA.1.length
    have l2 := c.inB.1.length
    rw [← hAB] at l2
    obtain ⟨e1, e2⟩ := compPatch_refl la.1 lb.1 (by omega) h2
    exact c.apart h1 alo ⟨c.inA.2.2, by rw [← e1, ← e2]; exact c.inA.2.2⟩

/-- all the moves of a legal call; `put` or no change of shape -/
theorem copy_acts (c : CopyCall tr a A alo ahi b B blo bhi)
    (hok : A.nproc ≤ B.nproc ∨ (tr = false ∧ edgeLens alo ahi = edgeLens blo bhi))
    {E : Nat → List Int → Env} (hE : ∀ p l, EnvG (E p l) (remoteArr A B))
    {cand cand' : Nat → Nat → List Nat} (hc : ∀ p k, CandG B (cand p k)) (hc' : ∀ p k, CandG B (cand' p k)) :
    (∀ l, mapOpt (copyPatchActs E cand cand' tr a A alo ahi b B blo bhi) (List.range (copyProcs A B)) = some l →
      l.flatten.Perm ((box alo ahi).map fun x => cpAct a A b B x (tgt tr alo ahi blo bhi x))) ∧
    ((∀ p l, 0 ≤ (E p l).elemsize ∧ (E p l).elemsize * numElems alo ahi ≤ (E p l).maxInt) →
      ∃ l, mapOpt (copyPatchActs E cand cand' tr a A alo ahi b B blo bhi) (List.range (copyProcs A B)) = some l) := by
  have hcap : prodI (edges alo ahi) = prodI (edges blo bhi) := by
    rw [prodI_edges, prodI_edges]; exact c.cap
  have la := inPatch_lengths c.inA.2.2
  have lb := inPatch_lengths c.inB.2.2
  by_cases hput : A.nproc ≤ B.nproc
  · have hn : copyProcs A B = A.nproc := by simp [copyProcs, hput]
    have hr : remoteArr A B = B := by simp [remoteArr, hput]
    rw [hr] at hE
    obtain ⟨parts, v⟩ := partView c.sA c.pA c.inA
    -- one process
    have hproc : ∀ p, p < A.nproc →
        (∀ l, copyPatchActs E cand cand' tr a A alo ahi b B blo bhi p = some l →
          l.Perm (((parts p).flatMap fun it => box it.lo it.hi).map fun x =>
            cpAct a A b B x (tgt tr alo ahi blo bhi x))) ∧
        ((∀ p l, 0 ≤ (E p l).elemsize ∧ (E p l).elemsize * numElems alo ahi ≤ (E p l).maxInt) →
          ∃ l, copyPatchActs E cand cand' tr a A alo ahi b B blo bhi p = some l) := by
      intro p hp
      rw [copy_checks c, if_pos hput]
      simp only [patchPut, v.eq p hp]
      by_cases hst : (!tr && testShape alo ahi blo bhi) = true
      · rw [if_pos hst]
        simp only [Bool.and_eq_true, Bool.not_eq_true'] at hst
        obtain ⟨ht, hs⟩ := hst
        have hs' := (testShape_iff la.1 lb.1).1 hs
        have hidx : ∀ it ∈ parts p,
            destIndices it.lo alo (extents alo ahi) blo (extents blo bhi) = shiftL alo blo it.lo ∧
            destIndices it.hi alo (extents alo ahi) blo (extents blo bhi) = shiftL alo blo it.hi := by
          intro it hit
          obtain ⟨s1, s2, s3⟩ := v.shape p hp it hit
          exact ⟨(destIndices_eq (s3 _ s2) lb.1 hs').1, (destIndices_eq (s3 _ (inPatch_upper s2)) lb.1 hs').1⟩
        constructor
        · intro l hl
          obtain ⟨ls, hls, rfl⟩ := Option.map_eq_some_iff.1 hl
          refine flatten_perm _ hls ?_
          intro it hit bs hbs
          obtain ⟨s1, s2, s3⟩ := v.shape p hp it hit
          rw [(hidx it hit).1, (hidx it hit).2] at hbs
          refine (put_part c.sB (hE p _) c.inB hs' s2 s3 s1 (v.cell p hp it hit) hbs).trans
            (List.Perm.of_eq ?_)
          apply List.map_congr_left
          intro x hx
          subst ht
          rw [(destIndices_eq (s3 x (mem_box.1 hx)) lb.1 hs').2]
          rfl
        · intro hfit
          obtain ⟨ls, hls⟩ := mapOpt_some (f := fun it : LItem =>
              let lod := destIndices it.lo alo (extents alo ahi) blo (extents blo bhi)
              let hid := destIndices it.hi alo (extents alo ahi) blo (extents blo bhi)
              (B.xfers (E p lod) lod hid it.ld).map (putActs a b p it.off)) (as := parts p) (by
            intro it hit
            obtain ⟨s1, s2, s3⟩ := v.shape p hp it hit
            simp only
            rw [(hidx it hit).1, (hidx it hit).2]
            obtain ⟨ts, hts⟩ := shift_some c.sB (hE p (shiftL alo blo it.lo)) c.inB hs' s2 s3
              (by rw [prodI_edges]; exact (hfit _ _).2) (hfit _ _).1
            exact ⟨_, by rw [hts]; rfl⟩)
          exact ⟨_, by rw [hls]; rfl⟩
      · rw [if_neg hst]
        constructor
        · intro l hl
          obtain ⟨ls, hls, rfl⟩ := Option.map_eq_some_iff.1 hl
          refine flatten_perm _ hls ?_
          intro it hit bs hbs
          obtain ⟨s1, s2, s3⟩ := v.shape p hp it hit
          obtain ⟨l', e1, e2⟩ := scatter_part (a := a) (b := b) tr c.sB c.pB (hc p) (hc' p) c.inB s2 s3 s1
            (v.cell p hp it hit)
          rw [hbs, Option.some.injEq] at e1
          rw [e1]; exact e2
        · intro _
          obtain ⟨ls, hls⟩ := mapOpt_some
            (f := scatterActs (cand p) (cand' p) tr a alo ahi b B blo bhi p) (as := parts p) (by
            intro it hit
            obtain ⟨s1, s2, s3⟩ := v.shape p hp it hit
            obtain ⟨l', e1, _⟩ := scatter_part (a := a) (b := b) tr c.sB c.pB (hc p) (hc' p) c.inB s2 s3 s1
              (v.cell p hp it hit)
            exact ⟨l', e1⟩)
          exact ⟨_, by rw [hls]; rfl⟩
    rw [hn]
    constructor
    · intro l hl
      refine (flatten_perm _ hl fun p hp bs hbs => (hproc p (List.mem_range.1 hp)).1 bs hbs).trans ?_
      exact v.cover.map _
    · intro hfit
      exact mapOpt_some fun p hp => (hproc p (List.mem_range.1 hp)).2 hfit
  · have hn : copyProcs A B = B.nproc := by simp [copyProcs, hput]
    have hr : remoteArr A B = A := by simp [remoteArr, hput]
    rw [hr] at hE
    obtain ⟨ht, hs0⟩ := hok.resolve_left hput
    subst ht
    have hs' : edges alo ahi = edges blo bhi := by rw [edges_eq, edges_eq]; exact hs0
    have hs := (testShape_iff la.1 lb.1).2 hs'
    obtain ⟨parts, v⟩ := partView c.sB c.pB c.inB
    have hproc : ∀ p, p < B.nproc →
        (∀ l, copyPatchActs E cand cand' false a A alo ahi b B blo bhi p = some l →
          l.Perm (((parts p).flatMap fun it => box it.lo it.hi).map fun y =>
            cpAct a A b B (shiftL blo alo y) y)) ∧
        ((∀ p l, 0 ≤ (E p l).elemsize ∧ (E p l).elemsize * numElems alo ahi ≤ (E p l).maxInt) →
          ∃ l, copyPatchActs E cand cand' false a A alo ahi b B blo bhi p = some l) := by
      intro p hp
      rw [copy_checks c, if_neg hput]
      simp only [patchGet, v.eq p hp]
      rw [if_pos (by simp [hs])]
      have hidx : ∀ it ∈ parts p,
          destIndices it.lo blo (extents blo bhi) alo (extents alo ahi) = shiftL blo alo it.lo ∧
          destIndices it.hi blo (extents blo bhi) alo (extents alo ahi) = shiftL blo alo it.hi := by
        intro it hit
        obtain ⟨s1, s2, s3⟩ := v.shape p hp it hit
        exact ⟨(destIndices_eq (s3 _ s2) la.1 hs'.symm).1, (destIndices_eq (s3 _ (inPatch_upper s2)) la.1 hs'.symm).1⟩
      constructor
      · intro l hl
        obtain ⟨ls, hls, rfl⟩ := Option.map_eq_some_iff.1 hl
        refine flatten_perm _ hls ?_
        intro it hit bs hbs
        obtain ⟨s1, s2, s3⟩ := v.shape p hp it hit
        rw [(hidx it hit).1, (hidx it hit).2] at hbs
        exact get_part c.sA (hE p _) c.inA hs'.symm s2 s3 s1 (v.cell p hp it hit) hbs
      · intro hfit
        obtain ⟨ls, hls⟩ := mapOpt_some (f := fun it : LItem =>
            let lod := destIndices it.lo blo (extents blo bhi) alo (extents alo ahi)
            let hid := destIndices it.hi blo (extents blo bhi) alo (extents alo ahi)
            (A.xfers (E p lod) lod hid it.ld).map (getActs a b p it.off)) (as := parts p) (by
          intro it hit
          obtain ⟨s1, s2, s3⟩ := v.shape p hp it hit
          simp only
          rw [(hidx it hit).1, (hidx it hit).2]
          obtain ⟨ts, hts⟩ := shift_some c.sA (hE p (shiftL blo alo it.lo)) c.inA hs'.symm s2 s3
            (by rw [← hs', prodI_edges]; exact (hfit _ _).2) (hfit _ _).1
          exact ⟨_, by rw [hts]; rfl⟩)
        exact ⟨_, by rw [hls]; rfl⟩
    rw [hn]
    constructor
    · intro l hl
      refine (flatten_perm _ hl fun p hp bs hbs => (hproc p (List.mem_range.1 hp)).1 bs hbs).trans ?_
      refine (v.cover.map _).trans ?_
      refine ((box_tgt false c.inA.2.2 c.inB.2.2 hcap).map _).symm.trans (List.Perm.of_eq ?_)
      rw [List.map_map]
      apply List.map_congr_left
      intro x hx
      have hx' := mem_box.1 hx
      have lx := inPatch_lengths hx'
      have hlc : alo.length = blo.length := by
        have e1 := edges_len (lo := alo) (hi := ahi) la.1
        have e2 := edges_len (lo := blo) (hi := bhi) lb.1
        rw [hs'] at e1; omega
      simp only [Function.comp_apply]
      have e := (destIndices_eq hx' lb.1 hs').2
      rw [e]
      rw [show shiftL blo alo (addL blo (subL x alo)) = x from
        shiftL_back (a := alo) (b := blo) (by omega) (by omega)]
    · intro hfit
      exact mapOpt_some fun p hp => (hproc p (List.mem_range.1 hp)).2 hfit


/-- independent moves from patch to patch, in any order -/
private theorem moves_effect [Inhabited V] {t : List Int → List Int} {xs : List (List Int)} (hn : xs.Nodup)
    (sB : Sound B) (hin : ∀ x ∈ xs, InArray B.dims (t x)) (hinj : ∀ x ∈ xs, ∀ y ∈ xs, t x = t y → x = y)
    (hapart : a = b → ∀ x ∈ xs, ∀ y ∈ xs, cellG B (t x) ≠ cellG A y) {sched : List LAct}
    (hs : sched.Perm (xs.map fun x => cpAct a A b B x (t x))) (m : Loc → V) :
    (∀ x ∈ xs, runActs moveVal sched m (b, cellG B (t x)) = m (a, cellG A x)) ∧
    ∀ l, (∀ x ∈ xs, (b, cellG B (t x)) ≠ l) → runActs moveVal sched m l = m l := by
  have hind : Indep (xs.map fun x => cpAct a A b B x (t x)) := by
    constructor
    · rw [List.map_map]
      refine List.Nodup.map_on ?_ hn
      intro x hx y hy e
      simp only [Function.comp_apply, cpAct, Prod.mk.injEq, true_and] at e
      exact hinj x hx y hy (cellG_inj sB (hin x hx) (hin y hy) e)
    · intro u hu v hv h
      obtain ⟨x, hx, rfl⟩ := List.mem_map.1 hu
      obtain ⟨y, hy, rfl⟩ := List.mem_map.1 hv
      simp only [cpAct, List.mem_singleton, Prod.mk.injEq] at h
      exact absurd h.2 (hapart h.1.symm x hx y hy)
  obtain ⟨h1, h2⟩ := runActs_spec (V := V) moveVal (Indep.perm hs hind) m
  constructor
  · intro x hx
    have := h1 (cpAct a A b B x (t x)) (hs.mem_iff.2 (List.mem_map.2 ⟨x, hx, rfl⟩))
    simpa [cpAct, moveVal] using this
  · intro l hl
    apply h2
    intro u hu
    obtain ⟨x, hx, rfl⟩ := List.mem_map.1 (hs.mem_iff.1 hu)
    exact hl x hx

/-- **C53, partial.** `NGA_Copy_patch` puts every element of the source patch at the same place of
the destination patch (counted in column order, or in row order in the source when transposing)
and changes nothing else in any array; this holds for every interleaving, and the call does not
fail if the patch fits into one message. Also for two patches of one array. Missing: a change of
shape or a transposition when the group of the destination is smaller than that of the source
(`C53_smaller_group_noop`), tiled arrays with wrong block pointers (C48). -/
theorem C53_copy_patch_partial [Inhabited V] (c : CopyCall tr a A alo ahi b B blo bhi)
    (hok : A.nproc ≤ B.nproc ∨ (tr = false ∧ edgeLens alo ahi = edgeLens blo bhi))
    (E : Nat → List Int → Env) (hE : ∀ p l, EnvG (E p l) (remoteArr A B))
    (cand cand' : Nat → Nat → List Nat) (hc : ∀ p k, CandG B (cand p k)) (hc' : ∀ p k, CandG B (cand' p k))
    (m : Loc → V) (fa fb : List Int → V) (ha : HoldsAt a A m fa) (hb : HoldsAt b B m fb) :
    ((∀ p l, 0 ≤ (E p l).elemsize ∧ (E p l).elemsize * numElems alo ahi ≤ (E p l).maxInt) →
      ∃ m', Par (copyProcs A B) (copyPatchActs E cand cand' tr a A alo ahi b B blo bhi) moveVal m m') ∧
    ∀ m', Par (copyProcs A B) (copyPatchActs E cand cand' tr a A alo ahi b B blo bhi) moveVal m m' →
      (∃ fb', HoldsAt b B m' fb' ∧ CopyResult tr alo ahi blo bhi fa fb fb') ∧
      ∀ l, (l.1 = b → ∀ y, InPatch blo bhi y → cellG B y ≠ l.2) → m' l = m l := by
  obtain ⟨s1, s2⟩ := copy_acts c hok hE hc hc'
  have hcap : prodI (edges alo ahi) = prodI (edges blo bhi) := by
    rw [prodI_edges, prodI_edges]; exact c.cap
  constructor
  · intro hfit
    obtain ⟨l, hl⟩ := s2 hfit
    exact ⟨_, l, _, hl, List.Perm.refl _, rfl⟩
  rintro m' ⟨l, sched, e1, e2, rfl⟩
  have hsp := e2.trans (s1 l e1)
  obtain ⟨r1, r2⟩ := moves_effect (V := V) (nodup_box alo ahi) c.sB
    (fun x hx => c.inB.inArray (tgt_in tr (mem_box.1 hx) c.inB.2.2))
    (fun x hx y hy e => tgt_inj tr (mem_box.1 hx) (mem_box.1 hy) c.inB.2.2 hcap e)
    (by
      intro e x hx y hy h
      have hAB := c.same e
      subst hAB
      have hy' := mem_box.1 hy
      have := cellG_inj c.sA (c.inB.inArray (tgt_in tr (mem_box.1 hx) c.inB.2.2)) (c.inA.inArray hy') h
      exact c.apart e y ⟨hy', this ▸ tgt_in tr (mem_box.1 hx) c.inB.2.2⟩) hsp m
  have hmem := (holds_iff c.sA).1 ha
  have hmem' := (holds_iff c.sB).1 hb
  refine ⟨⟨fun y => if InArray B.dims y then runActs moveVal sched m (b, cellG B y) else fb y,
    (holds_iff c.sB).2 fun y hy => by simp only [if_pos hy], ?_, ?_⟩, ?_⟩
  · intro x y hx hy hs
    have := r1 x (mem_box.2 hx)
    rw [tgt_unique tr hx hy hcap hs] at this
    simp only [if_pos (c.inB.inArray hy), this]
    exact hmem x (c.inA.inArray hx)
  · intro y hy
    by_cases hin : InArray B.dims y
    · simp only [if_pos hin]
      rw [r2, ← hmem' y hin]
      intro x hx e
      simp only [Prod.mk.injEq, true_and] at e
      have ht := tgt_in tr (mem_box.1 hx) c.inB.2.2
      exact hy (cellG_inj c.sB (c.inB.inArray ht) hin e ▸ ht)
    · simp only [if_neg hin]
  · intro l hl
    apply r2
    intro x hx e
    subst e
    exact hl rfl _ (tgt_in tr (mem_box.1 hx) c.inB.2.2) rfl

/-- The specification of C53 determines the result: every element of the destination patch is at the
same place as exactly one element of the source patch. -/
theorem C53_same_place (tr : Bool) (alo ahi blo bhi : List Int) (ha : InPatch alo ahi alo)
    (hc : numElems alo ahi = numElems blo bhi) (y : List Int) (hy : InPatch blo bhi y) :
    ∃ x, InPatch alo ahi x ∧ SamePlace tr alo ahi blo bhi x y ∧
      ∀ x', InPatch alo ahi x' → SamePlace tr alo ahi blo bhi x' y → x' = x := by
  have hcap : prodI (edges alo ahi) = prodI (edges blo bhi) := by
    rw [prodI_edges, prodI_edges]; exact hc
  obtain ⟨x, h1, h2⟩ := tgt_surj tr ha hy hcap
  refine ⟨x, h1, h2, fun x' h3 h4 => srcRank_inj tr h3 h1 ?_⟩
  unfold SamePlace at h2 h4
  exact h4.trans h2.symm

/-- In two dimensions, transposing a patch with itself as target shape means swapping the
subscripts. -/
theorem C53_transpose_2d (l1 h1 l2 h2 k1 e1 k2 e2 i j : Int) (h : InPatch [l1, l2] [h1, h2] [i, j])
    (s1 : e1 - k1 = h2 - l2) (_s2 : e2 - k2 = h1 - l1) :
    SamePlace true [l1, l2] [h1, h2] [k1, k2] [e1, e2] [i, j] [k1 + (j - l2), k2 + (i - l1)] := by
  simp only [SamePlace, if_true, rowRank, List.reverse_cons, List.reverse_nil, List.nil_append,
    List.cons_append, colRank]
  rw [s1]
  ring

/-- **C53 fails** when the destination lives on a smaller group than the source and the copy
transposes or changes the shape (same number of dimensions): the call returns normally and moves
nothing. -/
theorem C53_smaller_group_noop [Inhabited V] (c : CopyCall tr a A alo ahi b B blo bhi)
    (hg : B.nproc < A.nproc) (hs : tr = true ∨ edgeLens alo ahi ≠ edgeLens blo bhi)
    (hl : alo.length = blo.length) (E : Nat → List Int → Env) (cand cand' : Nat → Nat → List Nat)
    (m : Loc → V) :
    Par (copyProcs A B) (copyPatchActs E cand cand' tr a A alo ahi b B blo bhi) moveVal m m ∧
    ∀ m', Par (copyProcs A B) (copyPatchActs E cand cand' tr a A alo ahi b B blo bhi) moveVal m m' →
      m' = m := by
  have la := inPatch_lengths c.inA.2.2
  have lb := inPatch_lengths c.inB.2.2
  obtain ⟨parts, v⟩ := partView c.sB c.pB c.inB
  have hn : copyProcs A B = B.nproc := by simp [copyProcs, Nat.not_le.2 hg]
  have hp : ∀ p ∈ List.range (copyProcs A B), copyPatchActs E cand cand' tr a A alo ahi b B blo bhi p =
      some ((fun _ : Nat => ([] : List LAct)) p) := by
    intro p hp
    rw [hn] at hp
    rw [copy_checks c, if_neg (by omega)]
    simp only [patchGet, v.eq p (List.mem_range.1 hp)]
    rw [if_neg, if_pos hl]
    simp only [Bool.and_eq_true, Bool.not_eq_true', not_and]
    intro ht hts
    rcases hs with h | h
    · rw [h] at ht; cases ht
    · have := (testShape_iff la.1 lb.1).1 hts
      rw [edges_eq, edges_eq] at this
      exact h this
  have hm := mapOpt_map hp
  have hfl : (((List.range (copyProcs A B)).map fun _ : Nat => ([] : List LAct)).flatten) = [] := by simp
  constructor
  · exact ⟨_, [], hm, by rw [hfl], rfl⟩
  · rintro m' ⟨l, sched, e1, e2, rfl⟩
    rw [hm, Option.some.injEq] at e1
    subst e1
    rw [hfl, List.perm_nil] at e2
    subst e2
    rfl


/-! ## GA_Copy -/

private theorem shiftL_self {a x : List Int} (h : x.length = a.length) : shiftL a a x = x := by
  unfold shiftL; exact addL_subL h

/-- the array whose blocks the processes walk through -/
def localArr (A B : GArr) : GArr := if A.nproc ≤ B.nproc then A else B

theorem view_nonempty {G : GArr} (hG : Sound G) (hp : PtrOK G) (hf : FullBlocks G)
    {items : Nat → List LItem} {cl : List Int → Addr} (v : View G items cl) {p : Nat} (hpn : p < G.nproc)
    {it : LItem} (hit : it ∈ items p) : InPatch it.lo it.hi it.lo := by
  cases G with
  | reg A n =>
    have := v.iter p hpn
    simp only [GArr.localIter, Option.some.injEq] at this
    rw [← this] at hit
    rcases regItems hG.1 p with ⟨e, _⟩ | ⟨q1, q2, e⟩
    · rw [e] at hit; cases hit
    · rw [e, List.mem_singleton] at hit
      subst hit
      exact q2
  | blk A =>
    have hok := hG.1.ok
    have e1 := v.iter p hpn
    have e2 := (blk_view hok hG.2 hp).iter p hpn
    rw [e1, Option.some.injEq] at e2
    rw [e2] at hit
    obtain ⟨k, hk', rfl⟩ := List.mem_map.1 hit
    obtain ⟨v1, v2, v3⟩ := vis_ok hok hpn (List.mem_range.1 hk')
    obtain ⟨off, ld, e, _⟩ := itemC_spec hok hp v1 v2
    rw [e]
    exact cLo_full hok hf v1

theorem item_in {G : GArr} {items : Nat → List LItem} {cl : List Int → Addr} (v : View G items cl)
    {p : Nat} (hpn : p < G.nproc) {it : LItem} (hit : it ∈ items p) {x : List Int}
    (hx : InPatch it.lo it.hi x) : InPatch (onesL G.dims) G.dims x := by
  rw [← mem_box, ← v.cover.mem_iff]
  exact List.mem_flatMap.2 ⟨p, List.mem_range.2 hpn, List.mem_flatMap.2 ⟨it, hit, mem_box.2 hx⟩⟩

private theorem copy_all (hne : a ≠ b) (hd : A.dims = B.dims) (sA : Sound A) (sB : Sound B)
    (hp : PtrOK (localArr A B)) (hf : FullBlocks (localArr A B))
    {E : Nat → List Int → Env} (hE : ∀ p l, EnvG (E p l) (remoteArr A B)) :
    (∀ l, mapOpt (copyActs E a A b B) (List.range (copyProcs A B)) = some l →
      l.flatten.Perm ((box (onesL A.dims) A.dims).map fun x => cpAct a A b B x x)) ∧
    ((∀ p l, 0 ≤ (E p l).elemsize ∧ (E p l).elemsize * numElems (onesL A.dims) A.dims ≤ (E p l).maxInt) →
      ∃ l, mapOpt (copyActs E a A b B) (List.range (copyProcs A B)) = some l) := by
  by_cases hput : A.nproc ≤ B.nproc
  · have hn : copyProcs A B = A.nproc := by simp [copyProcs, hput]
    rw [remoteArr, if_pos hput] at hE
    rw [localArr, if_pos hput] at hp hf
    obtain ⟨items, v⟩ := view_of sA hp
    rw [hn]
    have hproc : ∀ p, p < A.nproc → copyActs E a A b B p =
        (mapOpt (fun it : LItem => (B.xfers (E p it.lo) it.lo it.hi it.ld).map (putActs a b p it.off))
          (items p)).map List.flatten := by
      intro p hp
      simp only [copyActs, if_neg hne, hd, ne_eq, not_true, if_false, if_pos hput, v.iter p hp]
    have hshift : ∀ p, p < A.nproc → ∀ it ∈ items p, ∀ x, InPatch it.lo it.hi x →
        shiftL (onesL A.dims) (onesL A.dims) x = x := by
      intro p hp' it hit x hx
      exact shiftL_self (inPatch_lengths (item_in v hp' hit hx)).2
    have hok : ∀ p, p < A.nproc → ∀ it ∈ items p, PatchOK B.dims (onesL A.dims) A.dims := by
      intro p hp' it hit
      have h0 := inPatch_lower (item_in v hp' hit (view_nonempty sA hp hf v hp' hit))
      rw [← hd]
      exact ⟨h0, inPatch_upper h0, h0⟩
    constructor
    · intro l hl
      refine (flatten_perm (h := fun p => (items p).flatMap fun it => box it.lo it.hi) _ hl ?_).trans (v.cover.map _)
      intro p hp' bs hbs
      have hp' := List.mem_range.1 hp'
      rw [hproc p hp'] at hbs
      obtain ⟨ls, hls, rfl⟩ := Option.map_eq_some_iff.1 hbs
      refine flatten_perm _ hls ?_
      intro it hit bs hbs
      obtain ⟨s1, s2, s3, s4⟩ := v.shape p hp' it hit
      have hne' := view_nonempty sA hp hf v hp' hit
      have h1 := hshift p hp' it hit _ hne'
      have h2 := hshift p hp' it hit _ (inPatch_upper hne')
      rw [show B.xfers (E p it.lo) it.lo it.hi it.ld = B.xfers (E p it.lo)
        (shiftL (onesL A.dims) (onesL A.dims) it.lo) (shiftL (onesL A.dims) (onesL A.dims) it.hi) it.ld by
        rw [h1, h2]] at hbs
      refine (put_part sB (hE p _) (hok p hp' it hit) rfl hne' (fun x hx => item_in v hp' hit hx)
        (by simp [onesL, s4]) (v.cell p hp' it hit) hbs).trans (List.Perm.of_eq ?_)
      apply List.map_congr_left
      intro x hx
      rw [hshift p hp' it hit x (mem_box.1 hx)]
    · intro hfit
      apply mapOpt_some
      intro p hp'
      have hp' := List.mem_range.1 hp'
      rw [hproc p hp']
      obtain ⟨ls, hls⟩ := mapOpt_some (f := fun it : LItem => (B.xfers (E p it.lo) it.lo it.hi it.ld).map
          (putActs a b p it.off)) (as := items p) (by
        intro it hit
        have hne' := view_nonempty sA hp hf v hp' hit
        have h1 := hshift p hp' it hit _ hne'
        have h2 := hshift p hp' it hit _ (inPatch_upper hne')
        obtain ⟨ts, hts⟩ := shift_some sB (hE p it.lo) (hok p hp' it hit) rfl hne'
          (fun x hx => item_in v hp' hit hx) (by rw [prodI_edges]; exact (hfit _ _).2) (hfit _ _).1
        rw [h1, h2] at hts
        exact ⟨_, by rw [hts]; rfl⟩)
      exact ⟨_, by rw [hls]; rfl⟩
  · have hn : copyProcs A B = B.nproc := by simp [copyProcs, hput]
    rw [remoteArr, if_neg hput] at hE
    rw [localArr, if_neg hput] at hp hf
    obtain ⟨items, v⟩ := view_of sB hp
    rw [hn, hd]
    have hproc : ∀ p, p < B.nproc → copyActs E a A b B p =
        (mapOpt (fun it : LItem => (A.xfers (E p it.lo) it.lo it.hi it.ld).map (getActs a b p it.off))
          (items p)).map List.flatten := by
      intro p hp
      simp only [copyActs, if_neg hne, hd, ne_eq, not_true, if_false, if_neg hput, v.iter p hp]
    have hshift : ∀ p, p < B.nproc → ∀ it ∈ items p, ∀ x, InPatch it.lo it.hi x →
        shiftL (onesL B.dims) (onesL B.dims) x = x := by
      intro p hp' it hit x hx
      exact shiftL_self (inPatch_lengths (item_in v hp' hit hx)).2
    have hok : ∀ p, p < B.nproc → ∀ it ∈ items p, PatchOK A.dims (onesL B.dims) B.dims := by
      intro p hp' it hit
      have h0 := inPatch_lower (item_in v hp' hit (view_nonempty sB hp hf v hp' hit))
      rw [hd]
      exact ⟨h0, inPatch_upper h0, h0⟩
    constructor
    · intro l hl
      refine (flatten_perm (h := fun p => (items p).flatMap fun it => box it.lo it.hi) _ hl ?_).trans (v.cover.map _)
      intro p hp' bs hbs
      have hp' := List.mem_range.1 hp'
      rw [hproc p hp'] at hbs
      obtain ⟨ls, hls, rfl⟩ := Option.map_eq_some_iff.1 hbs
      refine flatten_perm _ hls ?_
      intro it hit bs hbs
      obtain ⟨s1, s2, s3, s4⟩ := v.shape p hp' it hit
      have hne' := view_nonempty sB hp hf v hp' hit
      have h1 := hshift p hp' it hit _ hne'
      have h2 := hshift p hp' it hit _ (inPatch_upper hne')
      rw [show A.xfers (E p it.lo) it.lo it.hi it.ld = A.xfers (E p it.lo)
        (shiftL (onesL B.dims) (onesL B.dims) it.lo) (shiftL (onesL B.dims) (onesL B.dims) it.hi) it.ld by
        rw [h1, h2]] at hbs
      refine (get_part sA (hE p _) (hok p hp' it hit) rfl hne' (fun x hx => item_in v hp' hit hx)
        (by simp [onesL, s4]) (v.cell p hp' it hit) hbs).trans (List.Perm.of_eq ?_)
      apply List.map_congr_left
      intro x hx
      rw [hshift p hp' it hit x (mem_box.1 hx)]
    · intro hfit
      apply mapOpt_some
      intro p hp'
      have hp' := List.mem_range.1 hp'
      rw [hproc p hp']
      obtain ⟨ls, hls⟩ := mapOpt_some (f := fun it : LItem => (A.xfers (E p it.lo) it.lo it.hi it.ld).map
          (getActs a b p it.off)) (as := items p) (by
        intro it hit
        have hne' := view_nonempty sB hp hf v hp' hit
        have h1 := hshift p hp' it hit _ hne'
        have h2 := hshift p hp' it hit _ (inPatch_upper hne')
        obtain ⟨ts, hts⟩ := shift_some sA (hE p it.lo) (hok p hp' it hit) rfl hne'
          (fun x hx => item_in v hp' hit hx) (by rw [prodI_edges]; exact (hfit _ _).2) (hfit _ _).1
        rw [h1, h2] at hts
        exact ⟨_, by rw [hts]; rfl⟩)
      exact ⟨_, by rw [hls]; rfl⟩

/-- **C35 (copy), partial.** After `GA_Copy` of an array to another one of the same dimensions, with
any two distributions and groups, the destination has the content of the source, and nothing else
has changed, whatever the interleaving; the call does not fail if the array fits into one message.
Missing: tiled arrays with wrong block pointers (C48) or empty blocks, arrays with too few blocks
(C09), mirrored arrays. -/
theorem C35_copy_partial [Inhabited V] (hne : a ≠ b) (hd : A.dims = B.dims) (sA : Sound A) (sB : Sound B)
    (hp : PtrOK (localArr A B)) (hf : FullBlocks (localArr A B))
    (E : Nat → List Int → Env) (hE : ∀ p l, EnvG (E p l) (remoteArr A B)) (m : Loc → V)
    (f : List Int → V) (hm : HoldsAt a A m f) :
    ((∀ p l, 0 ≤ (E p l).elemsize ∧ (E p l).elemsize * numElems (onesL A.dims) A.dims ≤ (E p l).maxInt) →
      ∃ m', Par (copyProcs A B) (copyActs E a A b B) moveVal m m') ∧
    ∀ m', Par (copyProcs A B) (copyActs E a A b B) moveVal m m' →
      HoldsAt b B m' f ∧ HoldsAt a A m' f ∧
      ∀ l, (l.1 = b → ∀ y, InArray B.dims y → cellG B y ≠ l.2) → m' l = m l := by
  obtain ⟨s1, s2⟩ := copy_all (a := a) (b := b) hne hd sA sB hp hf hE
  constructor
  · intro hfit
    obtain ⟨l, hl⟩ := s2 hfit
    exact ⟨_, l, _, hl, List.Perm.refl _, rfl⟩
  rintro m' ⟨l, sched, e1, e2, rfl⟩
  have hsp := e2.trans (s1 l e1)
  have hinA : ∀ x ∈ box (onesL A.dims) A.dims, InArray B.dims x := by
    intro x hx
    rw [← hd]
    exact mem_ones_box.1 hx
  obtain ⟨r1, r2⟩ := moves_effect (V := V) (t := fun x => x) (nodup_box (onesL A.dims) A.dims) sB hinA
    (fun x _ y _ e => e) (fun e => absurd e hne) hsp m
  have hmem := (holds_iff sA).1 hm
  refine ⟨(holds_iff sB).2 ?_, (holds_iff sA).2 ?_, ?_⟩
  · intro x hx
    have hx' : x ∈ box (onesL A.dims) A.dims := mem_ones_box.2 (by rw [hd]; exact hx)
    exact (r1 x hx').trans (hmem x (mem_ones_box.1 hx'))
  · intro x hx
    rw [← hmem x hx]
    apply r2
    intro y _ e
    exact hne (congrArg Prod.fst e).symm
  · intro l hl
    apply r2
    intro x hx e
    subst e
    exact hl rfl x (hinA x hx) rfl

end

/-! ## Negative result -/

/-- **C35 fails for GA_Copy** from a tiled irregular array with an empty block (`exIrr`, created by
the API): the process that holds the block calls a put with `lo > hi`, which is an error. -/
theorem C35_copy_empty_block :
    Sound (.blk exIrr) ∧ PtrOK (.blk exIrr) ∧ Sound (.reg ⟨[7, 5], [2, 2], [1, 4, 1, 3], [0, 0]⟩ 4) ∧
    mapOpt (copyActs (fun _ _ => exE) 0 (.blk exIrr) 1 (.reg ⟨[7, 5], [2, 2], [1, 4, 1, 3], [0, 0]⟩ 4))
      (List.range (copyProcs (.blk exIrr) (.reg ⟨[7, 5], [2, 2], [1, 4, 1, 3], [0, 0]⟩ 4))) = none :=
  ⟨⟨exIrr_created, by decide⟩, by simp only [PtrOK]; decide, ⟨⟨by decide, by decide, by decide⟩, by decide⟩,
    by decide +kernel⟩

/-! ## Non-vacuity -/

/-- 8 x 12 on 8 processes -/
def exT : RegArray := ⟨[8, 12], [2, 4], [1, 4, 1, 3, 7, 9], [0, 1]⟩

private theorem exG_sound : Sound (.reg exG 7) := ⟨⟨by decide, by decide, by decide⟩, by decide⟩
private theorem exT_sound : Sound (.reg exT 8) := ⟨⟨by decide, by decide, by decide⟩, by decide⟩
private theorem exScl_sound : Sound (.blk exScl) := ⟨exScl_created, by decide⟩
private theorem exScl_ptr : PtrOK (.blk exScl) := by simp only [PtrOK]; decide

/-- a transposition of a 5 x 4 patch -/
example : CopyCall true 0 (.reg exG 7) [3, 2] [7, 5] 1 (.reg exT 8) [2, 3] [5, 7] :=
  ⟨exG_sound, exT_sound, trivial, trivial, fun h => absurd h (by decide), by simp [PatchOK, InArray, InPatch, onesL, GArr.dims, exG, exT], by simp [PatchOK, InArray, InPatch, onesL, GArr.dims, exG, exT],
    by decide, fun h => absurd h (by decide), fun h => absurd h (by decide)⟩
/-- 5 x 4 to 2 x 10 -/
example : CopyCall false 0 (.reg exG 7) [3, 2] [7, 5] 1 (.reg exT 8) [2, 1] [3, 10] :=
  ⟨exG_sound, exT_sound, trivial, trivial, fun h => absurd h (by decide), by simp [PatchOK, InArray, InPatch, onesL, GArr.dims, exG, exT], by simp [PatchOK, InArray, InPatch, onesL, GArr.dims, exG, exT],
    by decide, fun h => absurd h (by decide), fun h => absurd h (by decide)⟩
/-- two patches of one array -/
example : CopyCall false 0 (.reg exG 7) [1, 2] [4, 5] 0 (.reg exG 7) [5, 4] [8, 7] :=
  ⟨exG_sound, exG_sound, trivial, trivial, fun _ => rfl, by simp [PatchOK, InArray, InPatch, onesL, GArr.dims, exG, exT], by simp [PatchOK, InArray, InPatch, onesL, GArr.dims, exG, exT],
    by decide, fun _ x h => by
      obtain ⟨x1, r, rfl⟩ := List.exists_cons_of_length_eq_add_one (inPatch_lengths h.1).2
      have h1 : (1 : Int) ≤ x1 ∧ x1 ≤ 4 := h.1.1
      have h2 : (5 : Int) ≤ x1 ∧ x1 ≤ 8 := h.2.1
      omega, fun h => absurd h (by decide)⟩
/-- from a block-cyclic array to a regular one on more processes, and back -/
example : CopyCall false 0 (.blk exScl) [3, 2] [7, 5] 1 (.reg exG 7) [2, 3] [6, 6] ∧
    CopyCall false 1 (.reg exG 7) [2, 3] [6, 6] 0 (.blk exScl) [3, 2] [7, 5] :=
  ⟨⟨exScl_sound, exG_sound, exScl_ptr, trivial, fun h => absurd h (by decide),
    by simp [PatchOK, InArray, InPatch, onesL, GArr.dims, exG, exScl], by simp [PatchOK, InArray, InPatch, onesL, GArr.dims, exG, exScl], by decide, fun h => absurd h (by decide), fun _ => ⟨rfl, by decide⟩⟩,
   ⟨exG_sound, exScl_sound, trivial, exScl_ptr, fun h => absurd h (by decide),
    by simp [PatchOK, InArray, InPatch, onesL, GArr.dims, exG, exScl], by simp [PatchOK, InArray, InPatch, onesL, GArr.dims, exG, exScl], by decide, fun h => absurd h (by decide), fun _ => ⟨rfl, by decide⟩⟩⟩
/-- the case of `C53_smaller_group_noop`: a transposition from 8 processes to 7 -/
example : CopyCall true 1 (.reg exT 8) [2, 3] [5, 7] 0 (.reg exG 7) [3, 2] [7, 5] :=
  ⟨exT_sound, exG_sound, trivial, trivial, fun h => absurd h (by decide), by simp [PatchOK, InArray, InPatch, onesL, GArr.dims, exG, exT], by simp [PatchOK, InArray, InPatch, onesL, GArr.dims, exG, exT],
    by decide, fun h => absurd h (by decide), fun h => absurd h (by decide)⟩
/-- environments and guesses -/
example : EnvG exE (.reg exG 7) ∧ EnvG exE2 (.reg exT 8) ∧ CandG (.reg exT 8) [1, 3] ∧ CandG (.reg exG 7) [2, 0] ∧
    8 * numElems [3, 2] [7, 5] ≤ exE.maxInt := by
  refine ⟨exE_ok.1, ⟨by simp [CandOK, exT, exE2], by simp [CandOK, exT, exE2], by decide, by decide⟩,
    by simp [CandG, CandOK, exT], by simp [CandG, CandOK, exG], by decide⟩
/-- `GA_Copy` from a block-cyclic array to a regular one of the same dimensions -/
example : localArr (.blk exScl) (.reg ⟨[7, 5], [3, 2], [1, 3, 6, 1, 4], [1, 2]⟩ 6) = .blk exScl ∧
    FullBlocks (.blk exScl) ∧ PtrOK (.blk exScl) :=
  ⟨rfl, fun h => absurd h (by decide), exScl_ptr⟩

end GA
