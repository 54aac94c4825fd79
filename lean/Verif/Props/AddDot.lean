import Verif.Lemmas.AddDot

/-!
# C51 (`NGA_Add_patch`, `NGA_Dot_patch`) and C35 (`GA_Add`, `GA_Dot`)

`m`, `m'`: memory of all arrays before and after the call, for any interleaving. Arithmetic is that
of a commutative semiring.
-/

namespace GA
open Spec Model

/-- Two REGULAR arrays that are accessed at the same bounds (`pnga_comp_patch`: the same up to
additional dimensions of extent 1) have the same ghost widths and so the same number of dimensions. -/
def Alike (A : GArr) (alo ahi : List Int) (C : GArr) (clo chi : List Int) : Prop :=
  match A, C with
  | .reg A _, .reg C _ => compPatch alo ahi clo chi = true → A.width = C.width
  | _, _ => True

/-- A legal call of `NGA_Add_patch` on arrays of the same group: patches inside the arrays with the same
number of elements. If `A` is also the result array, its patch is the result patch or does not
overlap it; `B` may overlap the result in any way. Patches of block-cyclic arrays have the same
shape. `t1`, `t2` are the fresh handles of temporary arrays. -/
structure AddCall (a : Nat) (A : GArr) (alo ahi : List Int) (b : Nat) (B : GArr) (blo bhi : List Int)
    (c : Nat) (C : GArr) (clo chi : List Int) (t1 t2 : Nat) : Prop where
  sA : Sound A
  sB : Sound B
  sC : Sound C
  pA : PtrOK A
  pB : PtrOK B
  pC : PtrOK C
  nA : A.nproc = C.nproc
  nB : B.nproc = C.nproc
  sameA : a = c → A = C
  sameB : b = c → B = C
  inA : PatchOK A.dims alo ahi
  inB : PatchOK B.dims blo bhi
  inC : PatchOK C.dims clo chi
  capA : numElems alo ahi = numElems clo chi
  capB : numElems blo bhi = numElems clo chi
  apart : a = c → A.isBlk = false → B.isBlk = false →
    (alo = clo ∧ ahi = chi) ∨ ∀ x, ¬ (InPatch alo ahi x ∧ InPatch clo chi x)
  shapeA : A.isBlk = true ∨ C.isBlk = true → edgeLens alo ahi = edgeLens clo chi
  shapeB : B.isBlk = true ∨ C.isBlk = true → edgeLens blo bhi = edgeLens clo chi
  likeA : Alike A alo ahi C clo chi
  likeB : Alike B blo bhi C clo chi
  fresh1 : t1 ≠ a ∧ t1 ≠ b ∧ t1 ≠ c
  fresh2 : t2 ≠ a ∧ t2 ≠ b ∧ t2 ≠ c
  fresh12 : t1 ≠ t2

/-- the one-sided calls of a copy of `lo..hi` fit into one message -/
def Fits (K : CopyEnv) (lo hi : List Int) : Prop :=
  ∀ p l, 0 ≤ (K.E p l).elemsize ∧ (K.E p l).elemsize * numElems lo hi ≤ (K.E p l).maxInt

section
variable {V : Type} [CommSemiring V] [Inhabited V]
variable {a b c t1 t2 : Nat} {A B C : GArr} {alo ahi blo bhi clo chi : List Int}

theorem samePlace_self {lo hi x z : List Int} (hx : InPatch lo hi x) (hz : InPatch lo hi z)
    (h : SamePlace false lo hi lo hi x z) : x = z :=
  srcRank_inj false hx hz (by simpa [SamePlace, srcRank] using h)

theorem sound_pos {A : RegArray} {n : Nat} (hA : Sound (.reg A n)) {lo hi : List Int}
    (h : PatchOK A.dims lo hi) : 0 < n := by
  obtain ⟨q, b1, b2, _⟩ := reg_bounds hA.1 hA.2 h.1
  have := hA.2
  omega

theorem compPatch_self (lo hi : List Int) (h : hi.length = lo.length) : compPatch lo hi lo hi = true := by
  induction lo generalizing hi with
  | nil => cases hi <;> simp_all [compPatch]
  | cons l lo ih =>
    cases hi with
    | nil => simp at h
    | cons k hi => simp only [compPatch, ih hi (by simpa using h)]; simp

theorem compatible_self {C : RegArray} {n : Nat} (hC : ArrOK C) {lo hi : List Int}
    (h : hi.length = lo.length) : compatible n C lo hi C lo hi = true := by
  unfold compatible
  rw [List.all_eq_true]
  intro p _
  have := owns_len hC p
  rw [compPatch_self _ _ (by omega), compPatch_self _ _ h]
  rfl

/-- the computation on the own parts, with operands that have the blocks of `C` -/
private theorem local_effect {n : Nat} {A B C : RegArray} {lo hi : List Int} (alpha beta : V)
    (hA : Sound (.reg A n)) (hB : Sound (.reg B n)) (hC : Sound (.reg C n)) (pA : PatchOK A.dims lo hi)
    (pB : PatchOK B.dims lo hi) (pC : PatchOK C.dims lo hi) (oA : ∀ p, p < n → owns A p = owns C p)
    (oB : ∀ p, p < n → owns B p = owns C p) (wA : A.width = C.width) (wB : B.width = C.width)
    (sa : a = c → A = C) (sb : b = c → B = C) (m : Loc → V) :
    (∃ m', Par n (addLocal a A b B c C lo hi) (axpby alpha beta) m m') ∧
    ∀ m', Par n (addLocal a A b B c C lo hi) (axpby alpha beta) m m' →
      (∀ z, InPatch lo hi z → m' (c, cell C z) = alpha * m (a, cell A z) + beta * m (b, cell B z)) ∧
      ∀ l, (∀ z, InPatch lo hi z → (c, cell C z) ≠ l) → m' l = m l := by
  have hl := addLocal_acts (a := a) (b := b) (c := c) hA hB hC pA pB pC oA oB wA wB
  refine ⟨par_exists hl _ m, fun m' hm => ?_⟩
  have hs : ∀ z z', InPatch lo hi z → InPatch lo hi z' →
      (c, cellG (.reg C n) z') ∈ (comb2 a (.reg A n) b (.reg B n) c (.reg C n) z).srcs → z' = z := by
    intro z z' hz hz' h
    simp only [comb2, List.mem_cons, List.not_mem_nil, or_false, Prod.mk.injEq] at h
    rcases h with ⟨h1, h2⟩ | ⟨h1, h2⟩
    · rw [sa h1.symm] at h2
      exact cellG_inj hC (pC.inArray hz') (pC.inArray hz) h2
    · rw [sb h1.symm] at h2
      exact cellG_inj hC (pC.inArray hz') (pC.inArray hz) h2
  obtain ⟨r1, r2⟩ := comb_effect hC pC _ (fun _ => rfl) hs hl (axpby alpha beta) hm
  exact ⟨fun z hz => r1 z hz, r2⟩

/-- effect of a run in terms of memory -/
private def Effect (alpha beta : V) (a : Nat) (A : GArr) (alo ahi : List Int) (b : Nat) (B : GArr)
    (blo bhi : List Int) (c : Nat) (C : GArr) (clo chi : List Int) (t1 t2 : Nat) (m m' : Loc → V) : Prop :=
  (∀ x y z, InPatch alo ahi x → InPatch blo bhi y → InPatch clo chi z →
    SamePlace false alo ahi clo chi x z → SamePlace false blo bhi clo chi y z →
    m' (c, cellG C z) = alpha * m (a, cellG A x) + beta * m (b, cellG B y)) ∧
  ∀ l, l.1 ≠ t1 → l.1 ≠ t2 → (∀ z, InPatch clo chi z → (c, cellG C z) ≠ l) → m' l = m l

/-- copy to a temporary array with the layout of `C` -/
theorem copyT {t : Nat} (sA : Sound A) (sC : Sound C) (pA : PtrOK A) (pC : PtrOK C) (inA : PatchOK A.dims alo ahi)
    (inC : PatchOK C.dims clo chi) (cap : numElems alo ahi = numElems clo chi)
    (shape : A.isBlk = true ∨ C.isBlk = true → edgeLens alo ahi = edgeLens clo chi) (ht : t ≠ a) :
    CopyCall false a A alo ahi t C clo chi :=
  ⟨sA, sC, pA, pC, fun h => absurd h.symm ht, inA, inC, cap, fun h => absurd h.symm ht, fun h => ⟨rfl, shape h⟩⟩

private theorem add_reg {n : Nat} {A B C : RegArray} {na nb : Nat}
    (h : AddCall a (.reg A na) alo ahi b (.reg B nb) blo bhi c (.reg C n) clo chi t1 t2) {K1 K2 : CopyEnv}
    (hK1 : EnvsOK K1 (.reg C n)) (hK2 : EnvsOK K2 (.reg C n)) (alpha beta : V) (m : Loc → V) :
    (Fits K1 clo chi → Fits K2 clo chi →
      ∃ m', addReg K1 K2 alpha beta n a A alo ahi b B blo bhi c C clo chi t1 t2 m m') ∧
    ∀ m', addReg K1 K2 alpha beta n a A alo ahi b B blo bhi c C clo chi t1 t2 m m' →
      Effect alpha beta a (.reg A n) alo ahi b (.reg B n) blo bhi c (.reg C n) clo chi t1 t2 m m' := by
  have e1 : na = n := h.nA
  have e2 : nb = n := h.nB
  subst e1
  subst e2
  obtain ⟨sA, sB, sC, pA, pB, pC, nA, nB, sameA, sameB, inA, inB, inC, capA, capB, apart, shapeA, shapeB, likeA, likeB,
    ⟨f1, f2, f3⟩, ⟨f4, f5, f6⟩, f7⟩ := h
  have hn := sound_pos sC inC
  have sA' : a = c → A = C := fun h => by have := sameA h; cases this; rfl
  have sB' : b = c → B = C := fun h => by have := sameB h; cases this; rfl
  have lC := (inPatch_lengths inC.2.2).1
  have fit1 : Fits K1 clo chi → Fits K1 alo ahi := by unfold Fits; rw [capA]; exact id
  have fit2 : Fits K2 clo chi → Fits K2 blo bhi := by unfold Fits; rw [capB]; exact id
  -- the copies
  have CT1 := fun m : Loc → V => copy_effect (copyT (t := t1) sA sC pA pC inA inC capA shapeA f1) nA hK1 m
  have CT2 := fun m : Loc → V => copy_effect (copyT (t := t2) sB sC pB pC inB inC capB shapeB f5) nB hK2 m
  have CC : compatible nb A alo ahi C clo chi = false →
      CopyCall false a (.reg A nb) alo ahi c (.reg C nb) clo chi := by
    intro hf
    refine ⟨sA, sC, pA, pC, sameA, inA, inC, capA, fun e => ?_, fun h => ⟨rfl, shapeA h⟩⟩
    rcases apart e rfl rfl with ⟨h1, h2⟩ | h
    · rw [sA' e, h1, h2, compatible_self sC.1 lC] at hf; cases hf
    · exact h
  have inz : ∀ z, InPatch clo chi z → InArray C.dims z := fun z hz => inC.inArray hz
  unfold addReg
  cases hca : compatible nb A alo ahi C clo chi with
  | true =>
    obtain ⟨a1, a2, a3, a4, a5⟩ := compatible_same sA sC inA inC likeA hca hn
    subst a1 a2
    cases hcb : compatible nb B blo bhi C alo ahi with
    | true =>
      obtain ⟨b1, b2, b3, b4, b5⟩ := compatible_same sB sC inB inC likeB hcb hn
      subst b1 b2
      simp only
      obtain ⟨r1, r2⟩ := local_effect (a := a) (b := b) (c := c) alpha beta sA sB sC inA inB inC a5 b5 a3 b3 sA' sB' m
      refine ⟨fun _ _ => r1, fun m' hm => ?_⟩
      obtain ⟨r3, r4⟩ := r2 m' hm
      refine ⟨?_, fun l _ _ h => r4 l h⟩
      intro x y z hx hy hz h1 h2
      rw [samePlace_self hx hz h1, samePlace_self hy hz h2]
      exact r3 z hz
    | false =>
      simp only
      have fin := fun m1 : Loc → V => local_effect (a := a) (b := t2) (c := c) alpha beta sA sC sC inA inC inC a5
        (fun _ _ => rfl) a3 rfl sA' (fun e => absurd e f6) m1
      constructor
      · intro _ k2
        obtain ⟨m1, h1⟩ := (CT2 m).1 (fit2 k2)
        obtain ⟨m', h2⟩ := (fin m1).1
        exact ⟨m', m1, h1, h2⟩
      · rintro m' ⟨m1, h1, h2⟩
        obtain ⟨c1, c2⟩ := (CT2 m).2 m1 h1
        obtain ⟨r3, r4⟩ := (fin m1).2 m' h2
        constructor
        · intro x y z hx hy hz p1 p2
          rw [samePlace_self hx hz p1]
          have q1 := r3 z hz
          have q2 := c1 y z hy hz p2
          have q3 := c2 (a, cell A z) fun w _ e => f4 (congrArg Prod.fst e)
          simp only [cellG] at q1 q2 ⊢
          rw [q1, q2, q3]
        · intro l _ l2 h
          rw [r4 l h]
          exact c2 l fun w _ e => l2 (by rw [← e])
  | false =>
    cases hcb : compatible nb B blo bhi C clo chi with
    | true =>
      obtain ⟨b1, b2, b3, b4, b5⟩ := compatible_same sB sC inB inC likeB hcb hn
      subst b1 b2
      simp only
      by_cases hbc : b ≠ c
      · simp only [if_pos hbc]
        have CT := fun m : Loc → V => copy_effect (CC hca) nA hK1 m
        have fin := fun m1 : Loc → V => local_effect (a := c) (b := b) (c := c) alpha beta sC sB sC inC inB inC
          (fun _ _ => rfl) b5 rfl b3 (fun _ => rfl) sB' m1
        constructor
        · intro k1 _
          obtain ⟨m1, h1⟩ := (CT m).1 (fit1 k1)
          obtain ⟨m', h2⟩ := (fin m1).1
          exact ⟨m', m1, h1, h2⟩
        · rintro m' ⟨m1, h1, h2⟩
          obtain ⟨c1, c2⟩ := (CT m).2 m1 h1
          obtain ⟨r3, r4⟩ := (fin m1).2 m' h2
          constructor
          · intro x y z hx hy hz p1 p2
            rw [samePlace_self hy hz p2]
            have q1 := r3 z hz
            have q2 := c1 x z hx hz p1
            have q3 := c2 (b, cell B z) fun w _ e => hbc (congrArg Prod.fst e).symm
            simp only [cellG] at q1 q2 ⊢
            rw [q1, q2, q3]
          · intro l _ _ h
            rw [r4 l h]
            exact c2 l h
      · simp only [if_neg hbc]
        have fin := fun m1 : Loc → V => local_effect (a := t1) (b := b) (c := c) alpha beta sC sB sC inC inB inC
          (fun _ _ => rfl) b5 rfl b3 (fun e => absurd e f3) sB' m1
        constructor
        · intro k1 _
          obtain ⟨m1, h1⟩ := (CT1 m).1 (fit1 k1)
          obtain ⟨m', h2⟩ := (fin m1).1
          exact ⟨m', m1, h1, h2⟩
        · rintro m' ⟨m1, h1, h2⟩
          obtain ⟨c1, c2⟩ := (CT1 m).2 m1 h1
          obtain ⟨r3, r4⟩ := (fin m1).2 m' h2
          constructor
          · intro x y z hx hy hz p1 p2
            rw [samePlace_self hy hz p2]
            have q1 := r3 z hz
            have q2 := c1 x z hx hz p1
            have q3 := c2 (b, cell B z) fun w _ e => f2 (congrArg Prod.fst e)
            simp only [cellG] at q1 q2 ⊢
            rw [q1, q2, q3]
          · intro l l1 _ h
            rw [r4 l h]
            exact c2 l fun w _ e => l1 (by rw [← e])
    | false =>
      simp only
      have CT := fun m : Loc → V => copy_effect (CC hca) nA hK1 m
      have SL := scaleActs_acts (c := c) sC pC inC
      have AL := accLocal_acts (b := t2) (c := c) sC inC
      constructor
      · intro k1 k2
        obtain ⟨m1, h1⟩ := (CT2 m).1 (fit2 k2)
        obtain ⟨m2, h2⟩ := (CT m1).1 (fit1 k1)
        obtain ⟨m3, h3⟩ := par_exists SL (scaleVal alpha) m2
        obtain ⟨m', h4⟩ := par_exists AL (accVal beta) m3
        exact ⟨m', m1, m2, m3, h1, h2, h3, h4⟩
      · rintro m' ⟨m1, m2, m3, h1, h2, h3, h4⟩
        obtain ⟨c1, c2⟩ := (CT2 m).2 m1 h1
        obtain ⟨d1, d2⟩ := (CT m1).2 m2 h2
        obtain ⟨s1, s2⟩ := comb_effect sC inC _ (fun _ => rfl) (fun z z' hz hz' e => by
          simp only [scale1, List.mem_singleton, Prod.mk.injEq, true_and] at e
          exact cellG_inj sC (inz _ hz') (inz _ hz) e) SL (scaleVal alpha) h3
        obtain ⟨u1, u2⟩ := comb_effect sC inC _ (fun _ => rfl) (fun z z' hz hz' e => by
          simp only [acc2, List.mem_cons, List.not_mem_nil, or_false, Prod.mk.injEq, true_and] at e
          rcases e with e | e
          · exact cellG_inj sC (inz _ hz') (inz _ hz) e
          · exact absurd e.1.symm f6) AL (accVal beta) h4
        constructor
        · intro x y z hx hy hz p1 p2
          have q1 := u1 z hz
          have q2 := s1 z hz
          have q3 := d1 x z hx hz p1
          have q4 := c1 y z hy hz p2
          have q5 := c2 (a, cellG (.reg A nb) x) fun w _ e => f4 (congrArg Prod.fst e)
          have q6 := s2 (t2, cellG (.reg C nb) z) fun w _ e => f6 (congrArg Prod.fst e).symm
          have q7 := d2 (t2, cellG (.reg C nb) z) fun w _ e => f6 (congrArg Prod.fst e).symm
          simp only [acc2, scale1, List.map_cons, List.map_nil, accVal, scaleVal] at q1 q2
          rw [q1, q2, q3, q5, q6, q7, q4, mul_comm]
        · intro l _ l2 h
          rw [u2 l h, s2 l h, d2 l h]
          exact c2 l fun w _ e => l2 (by rw [← e])

private theorem add_blk (h : AddCall a A alo ahi b B blo bhi c C clo chi t1 t2) {K1 K2 : CopyEnv}
    (hK1 : EnvsOK K1 C) (hK2 : EnvsOK K2 C) (alpha beta : V) (m : Loc → V) :
    (Fits K1 clo chi → Fits K2 clo chi →
      ∃ m', addBlk K1 K2 alpha beta a A alo ahi b B blo bhi c C clo chi t1 t2 m m') ∧
    ∀ m', addBlk K1 K2 alpha beta a A alo ahi b B blo bhi c C clo chi t1 t2 m m' →
      Effect alpha beta a A alo ahi b B blo bhi c C clo chi t1 t2 m m' := by
  obtain ⟨sA, sB, sC, pA, pB, pC, nA, nB, sameA, sameB, inA, inB, inC, capA, capB, apart, shapeA, shapeB, likeA, likeB,
    ⟨f1, f2, f3⟩, ⟨f4, f5, f6⟩, f7⟩ := h
  have fit1 : Fits K1 clo chi → Fits K1 alo ahi := by unfold Fits; rw [capA]; exact id
  have fit2 : Fits K2 clo chi → Fits K2 blo bhi := by unfold Fits; rw [capB]; exact id
  have CT1 := fun m : Loc → V => copy_effect (copyT (t := t1) sA sC pA pC inA inC capA shapeA f1) nA hK1 m
  have CT2 := fun m : Loc → V => copy_effect (copyT (t := t2) sB sC pB pC inB inC capB shapeB f5) nB hK2 m
  have AL := addItems_acts (a := t1) (b := t2) (c := c) sC pC inC
  unfold addBlk
  constructor
  · intro k1 k2
    obtain ⟨m1, h1⟩ := (CT1 m).1 (fit1 k1)
    obtain ⟨m2, h2⟩ := (CT2 m1).1 (fit2 k2)
    obtain ⟨m', h3⟩ := par_exists AL (axpby alpha beta) m2
    exact ⟨m', m1, m2, h1, h2, h3⟩
  · rintro m' ⟨m1, m2, h1, h2, h3⟩
    obtain ⟨c1, c2⟩ := (CT1 m).2 m1 h1
    obtain ⟨d1, d2⟩ := (CT2 m1).2 m2 h2
    obtain ⟨u1, u2⟩ := comb_effect sC inC _ (fun _ => rfl) (fun z z' hz hz' e => by
      simp only [comb2, List.mem_cons, List.not_mem_nil, or_false, Prod.mk.injEq] at e
      rcases e with e | e
      · exact absurd e.1.symm f3
      · exact absurd e.1.symm f6) AL (axpby alpha beta) h3
    constructor
    · intro x y z hx hy hz p1 p2
      have q1 := u1 z hz
      have q3 := c1 x z hx hz p1
      have q4 := d1 y z hy hz p2
      have q5 := c2 (b, cellG B y) fun w _ e => f2 (congrArg Prod.fst e)
      have q6 := d2 (t1, cellG C z) fun w _ e => f7 (congrArg Prod.fst e).symm
      simp only [comb2, List.map_cons, List.map_nil, axpby] at q1
      rw [q1, q6, q3, q4, q5]
    · intro l l1 l2 h
      rw [u2 l h, d2 l fun w _ e => l2 (by rw [← e])]
      exact c2 l fun w _ e => l1 (by rw [← e])

private theorem add_patch_effect (h : AddCall a A alo ahi b B blo bhi c C clo chi t1 t2) {K1 K2 : CopyEnv}
    (hK1 : EnvsOK K1 C) (hK2 : EnvsOK K2 C) (alpha beta : V) (m : Loc → V) :
    (Fits K1 clo chi → Fits K2 clo chi →
      ∃ m', addPatchRun K1 K2 alpha beta a A alo ahi b B blo bhi c C clo chi t1 t2 m m') ∧
    ∀ m', addPatchRun K1 K2 alpha beta a A alo ahi b B blo bhi c C clo chi t1 t2 m m' →
      Effect alpha beta a A alo ahi b B blo bhi c C clo chi t1 t2 m m' := by
  have capA : prodI (edges alo ahi) = prodI (edges clo chi) := by
    rw [prodI_edges, prodI_edges]; exact h.capA
  have capB : prodI (edges blo bhi) = prodI (edges clo chi) := by
    rw [prodI_edges, prodI_edges]; exact h.capB
  have hb := add_blk h hK1 hK2 alpha beta m
  unfold addPatchRun
  rw [inRange h.inA, inRange h.inB, inRange h.inC, extents_eq, extents_eq, extents_eq]
  simp only [Bool.or_self, Bool.false_eq_true, if_false, capA, capB, ne_eq, not_true_eq_false, or_self]
  cases C with
  | blk C => cases A <;> cases B <;> exact hb
  | reg C n =>
    cases A with
    | blk A => cases B <;> exact hb
    | reg A na =>
      cases B with
      | blk B => exact hb
      | reg B nb =>
        have e1 : na = n := h.nA
        have e2 : nb = n := h.nB
        subst e1 e2
        exact add_reg h hK1 hK2 alpha beta m

private theorem effect_holds (sA : Sound A) (sB : Sound B) (sC : Sound C) (inA : PatchOK A.dims alo ahi)
    (inB : PatchOK B.dims blo bhi) (inC : PatchOK C.dims clo chi) {alpha beta : V} {m m' : Loc → V}
    (f3 : t1 ≠ c) (f6 : t2 ≠ c)
    (he : Effect alpha beta a A alo ahi b B blo bhi c C clo chi t1 t2 m m') {fa fb fc : List Int → V}
    (ha : HoldsAt a A m fa) (hb : HoldsAt b B m fb) (hc : HoldsAt c C m fc) :
    (∃ fc', HoldsAt c C m' fc' ∧ AddResult alpha beta alo ahi blo bhi clo chi fa fb fc fc') ∧
    ∀ l : Loc, l.1 ≠ t1 → l.1 ≠ t2 → (l.1 = c → ∀ z, InPatch clo chi z → cellG C z ≠ l.2) → m' l = m l := by
  obtain ⟨h1, h2⟩ := he
  have ha := (holds_iff sA).1 ha
  have hb := (holds_iff sB).1 hb
  have hc := (holds_iff sC).1 hc
  refine ⟨⟨fun z => if InPatch clo chi z then m' (c, cellG C z) else fc z, (holds_iff sC).2 ?_, ?_, ?_⟩, ?_⟩
  · intro z hz
    by_cases hp : InPatch clo chi z
    · simp only [if_pos hp]
    · simp only [if_neg hp]
      rw [← hc z hz]
      apply h2 _ f3.symm f6.symm
      intro w hw e
      have := cellG_inj sC (inC.inArray hw) hz (congrArg Prod.snd e)
      exact hp (this ▸ hw)
  · intro x y z hx hy hz p1 p2
    simp only [if_pos hz]
    rw [h1 x y z hx hy hz p1 p2]
    have := ha x (inA.inArray hx)
    have := hb y (inB.inArray hy)
    simp_all
  · intro z hz
    simp only [if_neg hz]
  · intro l l1 l2 h
    apply h2 l l1 l2
    intro z hz e
    subst e
    exact h rfl z hz rfl

/-- **C51 (add_patch), partial.** `NGA_Add_patch` computes every element of the result patch from the
elements of the operands at the same place and changes nothing else in any array but its own
temporary ones; this holds for every distribution, interleaving, change of shape and overlap of `B` with the result,
and the call does not fail if the patches fit into one message. Missing: REGULAR arrays
that are accessed at the same bounds and differ in their ghost widths (`C51_add_ghost_widths`),
processor groups and tiled arrays with wrong block pointers (C48). -/
theorem C51_add_patch_partial (h : AddCall a A alo ahi b B blo bhi c C clo chi t1 t2) (K1 K2 : CopyEnv)
    (hK1 : EnvsOK K1 C) (hK2 : EnvsOK K2 C) (alpha beta : V) (m : Loc → V) (fa fb fc : List Int → V)
    (ha : HoldsAt a A m fa) (hb : HoldsAt b B m fb) (hc : HoldsAt c C m fc) :
    (Fits K1 clo chi → Fits K2 clo chi →
      ∃ m', addPatchRun K1 K2 alpha beta a A alo ahi b B blo bhi c C clo chi t1 t2 m m') ∧
    ∀ m', addPatchRun K1 K2 alpha beta a A alo ahi b B blo bhi c C clo chi t1 t2 m m' →
      (∃ fc', HoldsAt c C m' fc' ∧ AddResult alpha beta alo ahi blo bhi clo chi fa fb fc fc') ∧
      ∀ l : Loc, l.1 ≠ t1 → l.1 ≠ t2 → (l.1 = c → ∀ z, InPatch clo chi z → cellG C z ≠ l.2) → m' l = m l := by
  obtain ⟨r1, r2⟩ := add_patch_effect h hK1 hK2 alpha beta m
  exact ⟨r1, fun m' hm => effect_holds h.sA h.sB h.sC h.inA h.inB h.inC h.fresh1.2.2 h.fresh2.2.2 (r2 m' hm) ha hb hc⟩

/-! ## GA_Add -/

/-- no process of the grid of a REGULAR array owns an empty block -/
def Dense : GArr → Prop
  | .reg A _ => DenseMap A.nblock A.dims A.mapc
  | .blk _ => True

/-- both arrays have the same ghost widths if they are REGULAR -/
def SameWidth : GArr → GArr → Prop
  | .reg A _, .reg B _ => A.width = B.width
  | _, _ => True

/-- A legal call of `GA_Add` on arrays of the same group and the same dimensions. The result array may
be one of the operands, not both. -/
structure AddAll (a : Nat) (A : GArr) (b : Nat) (B : GArr) (c : Nat) (C : GArr) (t1 t2 : Nat) : Prop where
  sA : Sound A
  sB : Sound B
  sC : Sound C
  pA : PtrOK A
  pB : PtrOK B
  pC : PtrOK C
  nA : A.nproc = C.nproc
  nB : B.nproc = C.nproc
  dimA : A.dims = C.dims
  dimB : B.dims = C.dims
  sameA : a = c → A = C
  sameB : b = c → B = C
  notBoth : ¬ (a = c ∧ b = c)
  dA : Dense A
  dB : Dense B
  dC : Dense C
  wA : SameWidth A C
  wB : SameWidth B C
  fresh1 : t1 ≠ a ∧ t1 ≠ b ∧ t1 ≠ c
  fresh2 : t2 ≠ a ∧ t2 ≠ b ∧ t2 ≠ c
  fresh12 : t1 ≠ t2

private theorem map_ones {ns : List Nat} {ds m : List Int} (h : MapOK ns ds m) :
    InPatch (onesL ds) ds (onesL ds) ∧ InPatch (onesL ds) ds ds := by
  induction ns generalizing ds m with
  | nil =>
    match ds, h with
    | [], _ => exact ⟨trivial, trivial⟩
  | cons n ns ih =>
    match ds, h with
    | d :: ds, h =>
      obtain ⟨⟨_, _, h3, _⟩, h5⟩ := h
      obtain ⟨i1, i2⟩ := ih h5
      exact ⟨⟨⟨le_refl _, h3⟩, i1⟩, ⟨⟨h3, le_refl _⟩, i2⟩⟩

theorem patch_all {G : GArr} (hG : Sound G) : PatchOK G.dims (onesL G.dims) G.dims := by
  cases G with
  | reg A n =>
    obtain ⟨h1, h2⟩ := map_ones hG.1.map
    exact ⟨h1, h2, h1⟩
  | blk A =>
    obtain ⟨h1, h2⟩ := map_ones hG.1.ok.map
    exact ⟨h1, h2, h1⟩

private theorem AddAll.call (h : AddAll a A b B c C t1 t2) :
    AddCall a A (onesL A.dims) A.dims b B (onesL B.dims) B.dims c C (onesL B.dims) B.dims t1 t2 := by
  have iA := patch_all h.sA
  have iB := patch_all h.sB
  have iC := patch_all h.sC
  refine ⟨h.sA, h.sB, h.sC, h.pA, h.pB, h.pC, h.nA, h.nB, h.sameA, h.sameB, iA, iB, by rw [h.dimB]; exact iC,
    by rw [h.dimA, h.dimB], rfl, fun _ _ _ => Or.inl (by rw [h.dimA, h.dimB]; exact ⟨rfl, rfl⟩),
    fun _ => by rw [h.dimA, h.dimB], fun _ => rfl, ?_, ?_, h.fresh1, h.fresh2, h.fresh12⟩
  · have := h.wA
    cases A <;> cases C <;> first | trivial | exact fun _ => this
  · have := h.wB
    cases B <;> cases C <;> first | trivial | exact fun _ => this

/-- **C35 (add), partial.** `GA_Add` computes `C = alpha*A + beta*B` element by element, also when `C` is
`A` or `B`, for every combination of distributions and every interleaving, and changes no other
array but its own temporary ones. Missing: both operands and the result are the same array
(`C35_add_same_array`), arrays with different ghost widths (`C35_add_ghost_widths`), REGULAR
arrays with empty blocks, processor groups. -/
theorem C35_add_partial (h : AddAll a A b B c C t1 t2) (K1 K2 : CopyEnv) (hK1 : EnvsOK K1 C) (hK2 : EnvsOK K2 C)
    (alpha beta : V) (m : Loc → V) (fa fb : List Int → V) (ha : HoldsAt a A m fa) (hb : HoldsAt b B m fb) :
    (Fits K1 (onesL C.dims) C.dims → Fits K2 (onesL C.dims) C.dims →
      ∃ m', addRun K1 K2 alpha beta a A b B c C t1 t2 m m') ∧
    ∀ m', addRun K1 K2 alpha beta a A b B c C t1 t2 m m' →
      HoldsAt c C m' (fun x => alpha * fa x + beta * fb x) ∧
      ∀ l : Loc, l.1 ≠ t1 → l.1 ≠ t2 → (l.1 = c → ∀ z, InArray C.dims z → cellG C z ≠ l.2) → m' l = m l := by
  have hc := h.call
  obtain ⟨r1, r2⟩ := add_patch_effect hc hK1 hK2 alpha beta m
  rw [h.dimB] at r1
  have ha' := (holds_iff h.sA).1 ha
  have hb' := (holds_iff h.sB).1 hb
  -- from the patches to the arrays
  have conv : ∀ m', Effect alpha beta a A (onesL A.dims) A.dims b B (onesL B.dims) B.dims c C (onesL B.dims) B.dims t1 t2 m m' →
      HoldsAt c C m' (fun x => alpha * fa x + beta * fb x) ∧
      ∀ l : Loc, l.1 ≠ t1 → l.1 ≠ t2 → (l.1 = c → ∀ z, InArray C.dims z → cellG C z ≠ l.2) → m' l = m l := by
    intro m' he
    obtain ⟨h1, h2⟩ := he
    rw [h.dimA, h.dimB] at h1
    rw [h.dimB] at h2
    constructor
    · refine (holds_iff h.sC).2 fun z hz => ?_
      rw [h1 z z z hz hz hz rfl rfl]
      have q1 := ha' z (by rw [h.dimA]; exact hz)
      have q2 := hb' z (by rw [h.dimB]; exact hz)
      rw [q1, q2]
    · intro l l1 l2 hl
      apply h2 l l1 l2
      intro z hz e
      subst e
      exact hl rfl z hz rfl
  have slow : (Fits K1 (onesL C.dims) C.dims → Fits K2 (onesL C.dims) C.dims →
      ∃ m', addPatchRun K1 K2 alpha beta a A (onesL A.dims) A.dims b B (onesL B.dims) B.dims
        c C (onesL B.dims) B.dims t1 t2 m m') ∧ _ := ⟨by rw [h.dimB]; exact r1, fun m' hm => conv m' (r2 m' hm)⟩
  unfold addRun
  cases C with
  | blk C => cases A <;> cases B <;> exact slow
  | reg C n =>
    cases A with
    | blk A => cases B <;> exact slow
    | reg A na =>
      cases B with
      | blk B => exact slow
      | reg B nb =>
        have e1 : na = n := h.nA
        have e2 : nb = n := h.nB
        subst e1 e2
        simp only
        by_cases hs : addSame A B C = true
        · simp only [if_pos hs]
          simp only [addSame, Bool.and_eq_true, Bool.not_eq_true'] at hs
          obtain ⟨⟨⟨⟨s1, s2⟩, s3⟩, s4⟩, s5⟩ := hs
          have stA := dense_strict h.sA.1.map h.dA
          have stB := dense_strict h.sB.1.map h.dB
          have stC := dense_strict h.sC.1.map h.dC
          have lA := mapOK_length h.sA.1.map
          have lB := mapOK_length h.sB.1.map
          have lC := mapOK_length h.sC.1.map
          have o1 := (compare_owns A B stA stB lA lB s1).2
          have o2 := (compare_owns A C stA stC lA lC s2).2
          have hl := addOwn_acts (a := a) (b := b) (c := c) h.sA h.sB h.sC s3 s4 s5 h.dA h.dB h.dC (fun p => o2 p)
            (fun p => by rw [← o1, o2]) h.notBoth
          refine ⟨fun _ _ => par_exists hl _ m, fun m' hm => ?_⟩
          have iC := patch_all h.sC
          have hs : ∀ z z', InPatch (onesL C.dims) C.dims z → InPatch (onesL C.dims) C.dims z' →
              (c, cellG (.reg C nb) z') ∈ (comb2 a (.reg A nb) b (.reg B nb) c (.reg C nb) z).srcs → z' = z := by
            intro z z' hz hz' e
            simp only [comb2, List.mem_cons, List.not_mem_nil, or_false, Prod.mk.injEq] at e
            rcases e with ⟨e1, e2⟩ | ⟨e1, e2⟩
            · rw [h.sameA e1.symm] at e2
              exact cellG_inj h.sC hz' hz e2
            · rw [h.sameB e1.symm] at e2
              exact cellG_inj h.sC hz' hz e2
          obtain ⟨u1, u2⟩ := comb_effect h.sC iC _ (fun _ => rfl) hs hl (axpby alpha beta) hm
          constructor
          · refine (holds_iff h.sC).2 fun z hz => ?_
            have q := u1 z hz
            have q1 := ha' z (by rw [h.dimA]; exact hz)
            have q2 := hb' z (by rw [h.dimB]; exact hz)
            simp only [comb2, List.map_cons, List.map_nil, axpby] at q q1 q2
            rw [q, q1, q2]
          · intro l _ _ hl'
            apply u2
            intro z hz e
            subst e
            exact hl' rfl z hz rfl
        · simp only [if_neg hs]
          exact slow

/-! ## NGA_Dot_patch -/

/-- A legal call of `NGA_Dot_patch` on arrays of the same group: patches inside the arrays with the same
number of elements. Block-cyclic arrays only without transposition and with patches of the same
shape. `t` is the fresh handle of the temporary array. -/
structure DotCall (ta tb : Bool) (a : Nat) (A : GArr) (alo ahi : List Int) (b : Nat) (B : GArr) (blo bhi : List Int)
    (t : Nat) : Prop where
  sA : Sound A
  sB : Sound B
  pA : PtrOK A
  pB : PtrOK B
  n : B.nproc = A.nproc
  inA : PatchOK A.dims alo ahi
  inB : PatchOK B.dims blo bhi
  cap : numElems blo bhi = numElems alo ahi
  blk : A.isBlk = true ∨ B.isBlk = true → ta = false ∧ tb = false ∧ edgeLens blo bhi = edgeLens alo ahi
  like : ta = tb → Alike A alo ahi B blo bhi
  fresh : t ≠ a ∧ t ≠ b

private theorem dot_effect {ta tb : Bool} {t : Nat} (h : DotCall ta tb a A alo ahi b B blo bhi t) {K : CopyEnv}
    (hK : EnvsOK K A) (m : Loc → V) :
    (Fits K alo ahi → ∃ m' v, dotPatchRun K ta tb a A alo ahi b B blo bhi t m m' v) ∧
    ∀ m' v, dotPatchRun K ta tb a A alo ahi b B blo bhi t m m' v →
      (∃ mate : List Int → List Int, (∀ x, InPatch alo ahi x → InPatch blo bhi (mate x) ∧
        SamePlace (ta != tb) blo bhi alo ahi (mate x) x) ∧
        v = patchSum alo ahi fun x => m (a, cellG A x) * m (b, cellG B (mate x))) ∧
      ∀ l : Loc, l.1 ≠ t → m' l = m l := by
  have hcap : prodI (edges blo bhi) = prodI (edges alo ahi) := by
    rw [prodI_edges, prodI_edges]; exact h.cap
  have fit : Fits K alo ahi → Fits K blo bhi := by unfold Fits; rw [h.cap]; exact id
  have hcc : CopyCall (ta != tb) b B blo bhi t A alo ahi :=
    ⟨h.sB, h.sA, h.pB, h.pA, fun e => absurd e.symm h.fresh.2, h.inB, h.inA, h.cap,
      fun e => absurd e.symm h.fresh.2, fun hb => by
        obtain ⟨b1, b2, b3⟩ := h.blk hb.symm
        subst b1 b2
        exact ⟨rfl, b3⟩⟩
  have CT := copy_effect hcc h.n hK m
  -- products with the copy
  have viaCopy : ∀ (n : Nat) (pairs : Nat → Option (List (Loc × Loc))),
      (∃ l, mapOpt pairs (List.range n) = some l ∧ l.flatten.Perm ((box alo ahi).map (pair2 a A t A))) →
      (Fits K alo ahi → ∃ m' v, copyRun K (ta != tb) b B blo bhi t A alo ahi m m' ∧ dotSum n pairs m' v) ∧
      ∀ m' v, copyRun K (ta != tb) b B blo bhi t A alo ahi m m' ∧ dotSum n pairs m' v →
        (∃ mate : List Int → List Int, (∀ x, InPatch alo ahi x → InPatch blo bhi (mate x) ∧
          SamePlace (ta != tb) blo bhi alo ahi (mate x) x) ∧
          v = patchSum alo ahi fun x => m (a, cellG A x) * m (b, cellG B (mate x))) ∧
        ∀ l : Loc, l.1 ≠ t → m' l = m l := by
    intro n pairs hl
    constructor
    · intro k
      obtain ⟨m', h1⟩ := CT.1 (fit k)
      obtain ⟨v, h2⟩ := (dot_value hl m').1
      exact ⟨m', v, h1, h2⟩
    · rintro m' v ⟨h1, h2⟩
      obtain ⟨c1, c2⟩ := CT.2 m' h1
      have hv := (dot_value hl m').2 v h2
      refine ⟨?_, fun l hl => c2 l fun y _ e => hl (by rw [← e])⟩
      have hex : ∀ x, ∃ y, InPatch alo ahi x → InPatch blo bhi y ∧ SamePlace (ta != tb) blo bhi alo ahi y x := by
        intro x
        by_cases hx : InPatch alo ahi x
        · obtain ⟨y, y1, y2⟩ := tgt_surj (ta != tb) h.inB.2.2 hx hcap
          exact ⟨y, fun _ => ⟨y1, y2⟩⟩
        · exact ⟨[], fun h => absurd h hx⟩
      refine ⟨fun x => (hex x).choose, fun x => (hex x).choose_spec, ?_⟩
      rw [hv, patchSum_eq, patchSum_eq]
      congr 1
      apply List.map_congr_left
      intro x hx
      have hx := mem_box.1 hx
      obtain ⟨y1, y2⟩ := (hex x).choose_spec hx
      rw [c1 _ x y1 hx y2, c2 (a, cellG A x) fun w _ e => h.fresh.1 (congrArg Prod.fst e)]
  unfold dotPatchRun
  have hnt : ¬ ((A.isBlk || B.isBlk) && (ta || tb)) = true := by
    simp only [Bool.and_eq_true, Bool.or_eq_true]
    rintro ⟨h1, h2⟩
    obtain ⟨b1, b2, _⟩ := h.blk h1
    subst b1 b2
    simp at h2
  rw [inRange h.inA, inRange h.inB, extents_eq, extents_eq, hcap]
  simp only [Bool.or_self, Bool.false_eq_true, if_false, ne_eq, not_true_eq_false, if_neg hnt]
  have slow := viaCopy A.nproc (dotItems a t A alo ahi) (dotItems_pairs h.sA h.pA h.inA)
  cases A with
  | blk A => exact slow
  | reg A n =>
    cases B with
    | blk B => exact slow
    | reg B nb =>
      have e : nb = n := h.n
      subst e
      simp only
      by_cases hc : (compatible nb A alo ahi B blo bhi && (ta == tb)) = true
      · simp only [if_pos hc]
        simp only [Bool.and_eq_true, beq_iff_eq] at hc
        obtain ⟨hc1, hc2⟩ := hc
        obtain ⟨a1, a2, a3, a4, a5⟩ := compatible_same h.sA h.sB h.inA h.inB (h.like hc2) hc1 (sound_pos h.sA h.inA)
        subst a1 a2
        have hl := dotLocal_pairs (a := a) (b := b) h.sA h.sB h.inA h.inB (fun p hp => (a5 p hp).symm) a3.symm
        refine ⟨fun _ => ?_, ?_⟩
        · obtain ⟨v, hv⟩ := (dot_value hl m).1
          exact ⟨m, v, rfl, hv⟩
        · rintro m' v ⟨rfl, hv⟩
          refine ⟨⟨id, fun x hx => ⟨hx, ?_⟩, (dot_value hl m').2 v hv⟩, fun _ _ => rfl⟩
          subst hc2
          simp [SamePlace]
      · simp only [if_neg hc]
        exact viaCopy nb (dotLocal a A t A alo ahi) (dotLocal_pairs h.sA h.sA h.inA h.inA (fun _ _ => rfl) rfl)

/-- **C51 (dot_patch), partial.** `NGA_Dot_patch` returns the sum of the products of the elements at the
same place of both patches (those of `B` counted in row order if exactly one transposition flag is
set) and changes no array but its own temporary one. Missing: as for `C51_add_patch_partial`; the
negative result is `C51_dot_ghost_widths`. -/
theorem C51_dot_patch_partial {ta tb : Bool} {t : Nat} (h : DotCall ta tb a A alo ahi b B blo bhi t) (K : CopyEnv)
    (hK : EnvsOK K A) (m : Loc → V) (fa fb : List Int → V) (ha : HoldsAt a A m fa) (hb : HoldsAt b B m fb) :
    (Fits K alo ahi → ∃ m' v, dotPatchRun K ta tb a A alo ahi b B blo bhi t m m' v) ∧
    ∀ m' v, dotPatchRun K ta tb a A alo ahi b B blo bhi t m m' v →
      DotResult (ta != tb) alo ahi blo bhi fa fb v ∧ ∀ l : Loc, l.1 ≠ t → m' l = m l := by
  obtain ⟨r1, r2⟩ := dot_effect h hK m
  refine ⟨r1, fun m' v hm => ?_⟩
  obtain ⟨⟨mate, m1, m2⟩, m3⟩ := r2 m' v hm
  refine ⟨⟨mate, m1, ?_⟩, m3⟩
  rw [m2, patchSum_eq, patchSum_eq]
  congr 1
  apply List.map_congr_left
  intro x hx
  have hx := mem_box.1 hx
  have q1 := (holds_iff h.sA).1 ha x (h.inA.inArray hx)
  have q2 := (holds_iff h.sB).1 hb (mate x) (h.inB.inArray (m1 x hx).1)
  rw [q1, q2]

/-! ## GA_Dot -/

/-- A legal call of `GA_Dot` on arrays of the same group and the same dimensions -/
structure DotAll (a : Nat) (A : GArr) (b : Nat) (B : GArr) (t : Nat) : Prop where
  sA : Sound A
  sB : Sound B
  pA : PtrOK A
  pB : PtrOK B
  n : B.nproc = A.nproc
  dims : B.dims = A.dims
  dA : Dense A
  dB : Dense B
  w : SameWidth A B
  fresh : t ≠ a ∧ t ≠ b

/-- **C35 (dot), partial.** `GA_Dot` returns the sum over all elements of the products, for every
combination of distributions. Missing: as for `C35_add_partial`. -/
theorem C35_dot_partial {t : Nat} (h : DotAll a A b B t) (K : CopyEnv) (hK : EnvsOK K A) (m : Loc → V)
    (fa fb : List Int → V) (ha : HoldsAt a A m fa) (hb : HoldsAt b B m fb) :
    (Fits K (onesL A.dims) A.dims → ∃ m' v, dotRun K a A b B t m m' v) ∧
    ∀ m' v, dotRun K a A b B t m m' v →
      v = patchSum (onesL A.dims) A.dims (fun x => fa x * fb x) ∧ ∀ l : Loc, l.1 ≠ t → m' l = m l := by
  have hc : DotCall false false a A (onesL A.dims) A.dims b B (onesL B.dims) B.dims t := by
    refine ⟨h.sA, h.sB, h.pA, h.pB, h.n, patch_all h.sA, patch_all h.sB, by rw [h.dims],
      fun _ => ⟨rfl, rfl, by rw [h.dims]⟩, fun _ => ?_, h.fresh⟩
    have := h.w
    cases A <;> cases B <;> first | trivial | exact fun _ => this
  obtain ⟨r1, r2⟩ := C51_dot_patch_partial hc K hK m fa fb ha hb
  have slow : (Fits K (onesL A.dims) A.dims → ∃ m' v, dotPatchRun K false false a A (onesL A.dims) A.dims b B
      (onesL B.dims) B.dims t m m' v) ∧ ∀ m' v, dotPatchRun K false false a A (onesL A.dims) A.dims b B
      (onesL B.dims) B.dims t m m' v →
      v = patchSum (onesL A.dims) A.dims (fun x => fa x * fb x) ∧ ∀ l : Loc, l.1 ≠ t → m' l = m l := by
    refine ⟨r1, fun m' v hm => ?_⟩
    obtain ⟨⟨mate, m1, m2⟩, m3⟩ := r2 m' v hm
    refine ⟨?_, m3⟩
    rw [m2, patchSum_eq, patchSum_eq]
    congr 1
    apply List.map_congr_left
    intro x hx
    have hx := mem_box.1 hx
    obtain ⟨q1, q2⟩ := m1 x hx
    rw [h.dims] at q1 q2
    rw [samePlace_self q1 hx q2]
  unfold dotRun
  cases A with
  | blk A => exact slow
  | reg A n =>
    cases B with
    | blk B => exact slow
    | reg B nb =>
      have e : nb = n := h.n
      subst e
      simp only
      by_cases hs : (compareDistr ⟨.regular A, [], 0⟩ ⟨.regular B, [], 0⟩ && !hasGhosts A && !hasGhosts B) = true
      · simp only [if_pos hs]
        simp only [Bool.and_eq_true, Bool.not_eq_true'] at hs
        obtain ⟨⟨s1, s3⟩, s4⟩ := hs
        have o1 := (compare_owns A B (dense_strict h.sA.1.map h.dA) (dense_strict h.sB.1.map h.dB)
          (mapOK_length h.sA.1.map) (mapOK_length h.sB.1.map) s1).2
        have hl := dotOwn_pairs (a := a) (b := b) h.sA h.sB s3 s4 h.dA h.dB fun p => (o1 p).symm
        refine ⟨fun _ => ?_, ?_⟩
        · obtain ⟨v, hv⟩ := (dot_value hl m).1
          exact ⟨m, v, rfl, hv⟩
        · rintro m' v ⟨rfl, hv⟩
          refine ⟨?_, fun _ _ => rfl⟩
          rw [(dot_value hl m').2 v hv, patchSum_eq, patchSum_eq]
          congr 1
          apply List.map_congr_left
          intro x hx
          have hx := mem_box.1 hx
          have q1 := (holds_iff h.sA).1 ha x hx
          have q2 := (holds_iff h.sB).1 hb x (by rw [h.dims]; exact hx)
          simp only [cellG] at q1 q2 ⊢
          rw [q1, q2]
      · simp only [if_neg hs]
        exact slow

end

/-! ## Negative results -/

/-- **C35 fails for `GA_Add(alpha, g, beta, g, g)`**: on a REGULAR array without ghost cells the type
variable that selects the loop is never set, so that no result is defined. -/
theorem C35_add_same_array {V : Type} [CommSemiring V] [Inhabited V] (A : RegArray) (n : Nat) (hn : 0 < n)
    (h : addSame A A A = true) (K1 K2 : CopyEnv) (alpha beta : V) (a t1 t2 : Nat) (m : Loc → V) :
    ¬ ∃ m', addRun K1 K2 alpha beta a (.reg A n) a (.reg A n) a (.reg A n) t1 t2 m m' := by
  rintro ⟨m', hm⟩
  unfold addRun at hm
  simp only [if_pos h] at hm
  obtain ⟨l, _, e, _⟩ := hm
  obtain ⟨n, rfl⟩ := Nat.exists_eq_succ_of_ne_zero (by omega : n ≠ 0)
  rw [List.range_succ_eq_map, mapOpt] at e
  simp [addOwn] at e

/-- 2 x 2 on one process, a ghost layer in the first dimension -/
def exW : RegArray := ⟨[2, 2], [1, 1], [1, 1], [1, 0]⟩
/-- the same without ghost cells -/
def exN : RegArray := ⟨[2, 2], [1, 1], [1, 1], [0, 0]⟩

private theorem exW_owns : owns exW 0 = ([1, 1], [2, 2]) := by decide +kernel
private theorem exN_owns : owns exN 0 = ([1, 1], [2, 2]) := by decide +kernel
private theorem exWN : compatible 1 exW [1, 1] [2, 2] exN [1, 1] [2, 2] = true := by
  simp [compatible, compPatch, exW_owns, exN_owns]
private theorem exNN : compatible 1 exN [1, 1] [2, 2] exN [1, 1] [2, 2] = true := by
  simp [compatible, compPatch, exN_owns]
private theorem exNW : compatible 1 exN [1, 1] [2, 2] exW [1, 1] [2, 2] = true := by
  simp [compatible, compPatch, exW_owns, exN_owns]

private def exAdd : List LAct :=
  ((mapOpt (addLocal 0 exW 1 exN 2 exN [1, 1] [2, 2]) (List.range 1)).getD []).flatten

/-- `1` in the elements of the array 0 (with ghost cells), `0` elsewhere -/
private def exM : Loc → Int := fun l =>
  if l ∈ [(0, cell exW [1, 1]), (0, cell exW [2, 1]), (0, cell exW [1, 2]), (0, cell exW [2, 2])] then 1 else 0

/-- **C51 fails for `NGA_Add_patch`** on arrays with the same blocks and different ghost widths: the
offsets in `A` and `B` are computed with the leading dimensions of `C`. Here all elements of `A` are 1 and
those of `B` 0, and the copy `1*A + 0*B` has an element that is not 1. -/
theorem C51_add_ghost_widths (K1 K2 : CopyEnv) :
    Sound (.reg exW 1) ∧ Sound (.reg exN 1) ∧
    ∃ m m' : Loc → Int, HoldsAt 0 (.reg exW 1) m (fun _ => 1) ∧ HoldsAt 1 (.reg exN 1) m (fun _ => 0) ∧
      addPatchRun K1 K2 (1 : Int) 0 0 (.reg exW 1) [1, 1] [2, 2] 1 (.reg exN 1) [1, 1] [2, 2]
        2 (.reg exN 1) [1, 1] [2, 2] 3 4 m m' ∧
      ¬ HoldsAt 2 (.reg exN 1) m' (fun _ => 1) := by
  have s1 : Sound (.reg exW 1) := ⟨⟨by decide, by decide, by decide⟩, by decide⟩
  have s2 : Sound (.reg exN 1) := ⟨⟨by decide, by decide, by decide⟩, by decide⟩
  refine ⟨s1, s2, exM, runActs (axpby 1 0) exAdd exM, (holds_iff s1).2 ?_, (holds_iff s2).2 ?_, ?_, fun h => ?_⟩
  · intro x hx
    have : ∀ x ∈ box (onesL exW.dims) exW.dims, exM (0, cell exW x) = 1 := by decide +kernel
    exact this x (mem_ones_box.2 hx)
  · intro x hx
    simp [exM]
  · unfold addPatchRun
    rw [if_neg (by decide +kernel), if_neg (by decide +kernel)]
    simp only [addReg, exWN, exNN]
    exact ⟨(mapOpt (addLocal 0 exW 1 exN 2 exN [1, 1] [2, 2]) (List.range 1)).getD [], exAdd, by decide +kernel,
      List.Perm.refl _, rfl⟩
  · have := (holds_iff s2).1 h [1, 2] (by decide)
    revert this
    decide +kernel

/-- **C35 fails for `GA_Add`** in the same way. -/
theorem C35_add_ghost_widths (K1 K2 : CopyEnv) :
    ∃ m m' : Loc → Int, HoldsAt 0 (.reg exW 1) m (fun _ => 1) ∧ HoldsAt 1 (.reg exN 1) m (fun _ => 0) ∧
      addRun K1 K2 (1 : Int) 0 0 (.reg exW 1) 1 (.reg exN 1) 2 (.reg exN 1) 3 4 m m' ∧
      ¬ HoldsAt 2 (.reg exN 1) m' (fun _ => 1) := by
  obtain ⟨_, _, m, m', h1, h2, h3, h4⟩ := C51_add_ghost_widths K1 K2
  refine ⟨m, m', h1, h2, ?_, h4⟩
  unfold addRun
  simp only [show addSame exW exN exN = false by decide +kernel, Bool.false_eq_true, if_false]
  exact h3

/-- **C51 and C35 fail for `NGA_Dot_patch` and `GA_Dot`** in the same way: all elements of both arrays are
1, and the result is not 4. -/
theorem C51_dot_ghost_widths (K : CopyEnv) :
    ∃ (m : Loc → Int) (v : Int), HoldsAt 0 (.reg exN 1) m (fun _ => 1) ∧ HoldsAt 1 (.reg exW 1) m (fun _ => 1) ∧
      dotPatchRun K false false 0 (.reg exN 1) [1, 1] [2, 2] 1 (.reg exW 1) [1, 1] [2, 2] 2 m m v ∧
      dotRun K 0 (.reg exN 1) 1 (.reg exW 1) 2 m m v ∧
      v ≠ patchSum [1, 1] [2, 2] fun _ => (1 : Int) * 1 := by
  have s1 : Sound (.reg exW 1) := ⟨⟨by decide, by decide, by decide⟩, by decide⟩
  have s2 : Sound (.reg exN 1) := ⟨⟨by decide, by decide, by decide⟩, by decide⟩
  have key : dotPatchRun K false false 0 (.reg exN 1) [1, 1] [2, 2] 1 (.reg exW 1) [1, 1] [2, 2] 2
      (fun l => if l.1 = 0 then 1 else exM (0, l.2)) (fun l => if l.1 = 0 then 1 else exM (0, l.2)) 2 := by
    unfold dotPatchRun
    rw [if_neg (by decide +kernel), if_neg (by decide +kernel), if_neg (by decide +kernel)]
    simp only [exNW, beq_self_eq_true, Bool.and_self, if_true]
    exact ⟨trivial, (mapOpt (dotLocal 0 exN 1 exW [1, 1] [2, 2]) (List.range 1)).getD [], rfl, by decide +kernel⟩
  refine ⟨fun l => if l.1 = 0 then 1 else exM (0, l.2), 2, (holds_iff s2).2 ?_, (holds_iff s1).2 ?_, key, ?_, by decide +kernel⟩
  · intro x hx; simp
  · intro x hx
    have : ∀ x ∈ box (onesL exW.dims) exW.dims, exM (0, cell exW x) = 1 := by decide +kernel
    exact this x (mem_ones_box.2 hx)
  · unfold dotRun
    simp only [show (compareDistr ⟨.regular exN, [], 0⟩ ⟨.regular exW, [], 0⟩ && !hasGhosts exN && !hasGhosts exW) = false by
      decide +kernel, Bool.false_eq_true, if_false]
    exact key

/-! ## Non-vacuity -/

/-- 8 x 12 on 7 processes, other blocks and no ghost cells -/
def exH : RegArray := ⟨[8, 12], [3, 2], [1, 3, 6, 1, 8], [0, 0]⟩

private theorem exG_s : Sound (.reg exG 7) := ⟨⟨by decide, by decide, by decide⟩, by decide⟩
private theorem exH_s : Sound (.reg exH 7) := ⟨⟨by decide, by decide, by decide⟩, by decide⟩

/-- patches of three shapes; the second operand overlaps the result -/
example : AddCall 0 (.reg exG 7) [3, 2] [7, 5] 1 (.reg exH 7) [2, 1] [3, 10] 1 (.reg exH 7) [1, 3] [4, 7] 2 3 :=
  ⟨exG_s, exH_s, exH_s, trivial, trivial, trivial, rfl, rfl, fun h => absurd h (by decide), fun _ => rfl,
    by simp [PatchOK, InArray, InPatch, GArr.dims, exG], by simp [PatchOK, InArray, InPatch, GArr.dims, exH],
    by simp [PatchOK, InArray, InPatch, GArr.dims, exH], by decide, by decide, fun h => absurd h (by decide),
    fun h => absurd h (by decide), fun h => absurd h (by decide), fun h => by simp [compPatch] at h, fun _ => rfl,
    by decide, by decide, by decide⟩
/-- in place, all operands with the same blocks -/
example : AddCall 0 (.reg exH 7) [1, 3] [4, 7] 1 (.reg exH 7) [1, 3] [4, 7] 0 (.reg exH 7) [1, 3] [4, 7] 2 3 :=
  ⟨exH_s, exH_s, exH_s, trivial, trivial, trivial, rfl, rfl, fun _ => rfl, fun _ => rfl,
    by simp [PatchOK, InArray, InPatch, GArr.dims, exH], by simp [PatchOK, InArray, InPatch, GArr.dims, exH],
    by simp [PatchOK, InArray, InPatch, GArr.dims, exH], by decide, by decide, fun _ _ _ => Or.inl ⟨rfl, rfl⟩,
    fun h => absurd h (by decide), fun h => absurd h (by decide), fun _ => rfl, fun _ => rfl,
    by decide, by decide, by decide⟩
/-- `GA_Add` in place; the arrays pass the test for the local loop -/
example : AddAll 0 (.reg exH 7) 1 (.reg exH 7) 0 (.reg exH 7) 2 3 ∧ addSame exH exH exH = true :=
  ⟨⟨exH_s, exH_s, exH_s, trivial, trivial, trivial, rfl, rfl, rfl, rfl, fun _ => rfl, fun _ => rfl, by decide,
    by simp only [Dense]; decide, by simp only [Dense]; decide, by simp only [Dense]; decide, rfl, rfl, by decide,
    by decide, by decide⟩, by decide +kernel⟩
/-- `GA_Add` of arrays with other blocks, and of a block-cyclic array -/
example : AddAll 0 (.reg ⟨[7, 5], [2, 2], [1, 4, 1, 3], [0, 0]⟩ 4) 1 (.blk exScl) 2
    (.reg ⟨[7, 5], [1, 4], [1, 1, 2, 3, 5], [0, 0]⟩ 4) 3 4 :=
  ⟨⟨⟨by decide, by decide, by decide⟩, by decide⟩, ⟨exScl_created, by decide⟩, ⟨⟨by decide, by decide, by decide⟩, by decide⟩,
    trivial, by simp only [PtrOK]; decide, trivial, rfl, rfl, rfl, rfl, fun h => absurd h (by decide),
    fun h => absurd h (by decide), by decide, by simp only [Dense]; decide, trivial, by simp only [Dense]; decide, rfl,
    trivial, by decide, by decide, by decide⟩
/-- transposed inner product -/
example : DotCall true false 0 (.reg exG 7) [3, 2] [7, 5] 1 (.reg exH 7) [1, 3] [4, 7] 2 :=
  ⟨exG_s, exH_s, trivial, trivial, rfl, by simp [PatchOK, InArray, InPatch, GArr.dims, exG],
    by simp [PatchOK, InArray, InPatch, GArr.dims, exH], by decide, fun h => absurd h (by decide),
    fun h => absurd h (by decide), by decide⟩
/-- `GA_Dot` of an array with itself -/
example : DotAll 0 (.reg exH 7) 0 (.reg exH 7) 1 :=
  ⟨exH_s, exH_s, trivial, trivial, rfl, rfl, by simp only [Dense]; decide, by simp only [Dense]; decide, rfl, by decide⟩
/-- environments -/
example : EnvsOK ⟨fun _ _ => ⟨[1, 1], [2, 1], fun i => i + 1, fun _ => false, 8, 400⟩, fun _ _ => [2, 0], fun _ _ => [0, 1]⟩
      (.reg exH 7) ∧
    Fits ⟨fun _ _ => ⟨[1, 1], [2, 1], fun i => i + 1, fun _ => false, 8, 400⟩, fun _ _ => [2, 0], fun _ _ => [0, 1]⟩
      [1, 3] [4, 7] :=
  ⟨⟨fun _ _ => ⟨by simp [CandOK, exH], by simp [CandOK, exH], by simp, by simp⟩, fun _ _ => by simp [CandG, CandOK, exH],
    fun _ _ => by simp [CandG, CandOK, exH]⟩, fun _ _ => by simp [numElems]⟩
/-- the hypothesis of `C35_add_same_array` -/
example : addSame exN exN exN = true := by decide +kernel

end GA
