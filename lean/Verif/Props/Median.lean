import Verif.Props.Elem

/-!
# C58 (`GA_Median`, `GA_Median_patch`)

`m`, `m'`: memory of all arrays before and after the call, for any interleaving. Real numbers are compared by
their value, complex numbers by their norm (`key`).
-/

namespace GA
open Spec Model

section
variable {V : Type} [Inhabited V]
variable {a b c r t1 t2 t3 : Nat} {A B C M : GArr} {alo ahi blo bhi clo chi mlo mhi : List Int}

/-- A legal call of `GA_Median_patch` on arrays of the same group: patches inside the arrays with the same number of
elements. The arrays may be the same and the patches may overlap in any way. Patches of block-cyclic arrays have the same
shape. `t1`, `t2`, `t3` are the fresh handles of temporary arrays. -/
structure MedianCall (a : Nat) (A : GArr) (alo ahi : List Int) (b : Nat) (B : GArr) (blo bhi : List Int)
    (c : Nat) (C : GArr) (clo chi : List Int) (r : Nat) (M : GArr) (mlo mhi : List Int) (t1 t2 t3 : Nat) : Prop where
  sA : Sound A
  sB : Sound B
  sC : Sound C
  sM : Sound M
  pA : PtrOK A
  pB : PtrOK B
  pC : PtrOK C
  pM : PtrOK M
  nA : A.nproc = M.nproc
  nB : B.nproc = M.nproc
  nC : C.nproc = M.nproc
  inA : PatchOK A.dims alo ahi
  inB : PatchOK B.dims blo bhi
  inC : PatchOK C.dims clo chi
  inM : PatchOK M.dims mlo mhi
  capA : numElems alo ahi = numElems mlo mhi
  capB : numElems blo bhi = numElems mlo mhi
  capC : numElems clo chi = numElems mlo mhi
  shapeA : A.isBlk = true ∨ M.isBlk = true → edgeLens alo ahi = edgeLens mlo mhi
  shapeB : B.isBlk = true ∨ M.isBlk = true → edgeLens blo bhi = edgeLens mlo mhi
  shapeC : C.isBlk = true ∨ M.isBlk = true → edgeLens clo chi = edgeLens mlo mhi
  fresh1 : t1 ≠ a ∧ t1 ≠ b ∧ t1 ≠ c ∧ t1 ≠ r
  fresh2 : t2 ≠ a ∧ t2 ≠ b ∧ t2 ≠ c ∧ t2 ≠ r
  fresh3 : t3 ≠ a ∧ t3 ≠ b ∧ t3 ≠ c ∧ t3 ≠ r
  distinct : t1 ≠ t2 ∧ t1 ≠ t3 ∧ t2 ≠ t3

/-- one of the arrays is block-cyclic -/
def AnyBlk (A B C M : GArr) : Prop := A.isBlk = true ∨ B.isBlk = true ∨ C.isBlk = true ∨ M.isBlk = true

/-- some process owns the same block of both REGULAR arrays -/
def Shares : GArr → GArr → Prop
  | .reg A _, .reg M n => ∃ p, p < n ∧ owns A p = owns M p
  | _, _ => False

private theorem comp_comm (alo ahi blo bhi : List Int) : compPatch alo ahi blo bhi = compPatch blo bhi alo ahi := by
  induction alo, ahi, blo, bhi using compPatch.induct with
  | case1 => rfl
  | case2 al alo ah ahi ih => simp only [compPatch, ih]
  | case3 bl blo bh bhi ih => simp only [compPatch, ih]
  | case4 al alo ah ahi bl blo bh bhi ih => simp only [compPatch, ih, eq_comm (a := al), eq_comm (a := ah)]
  | case5 alo ahi blo bhi h1 h2 h3 h4 =>
    have e1 : compPatch alo ahi blo bhi = false := by
      unfold compPatch
      split <;> first | rfl | exact (h1 rfl rfl rfl rfl).elim | exact (h2 _ _ _ _ rfl rfl rfl rfl).elim |
        exact (h3 _ _ _ _ rfl rfl rfl rfl).elim | exact (h4 _ _ _ _ _ _ _ _ rfl rfl rfl rfl).elim
    have e2 : compPatch blo bhi alo ahi = false := by
      unfold compPatch
      split <;> first | rfl | exact (h1 rfl rfl rfl rfl).elim | exact (h2 _ _ _ _ rfl rfl rfl rfl).elim |
        exact (h3 _ _ _ _ rfl rfl rfl rfl).elim | exact (h4 _ _ _ _ _ _ _ _ rfl rfl rfl rfl).elim
    rw [e1, e2]

/-- effect of a run in terms of memory -/
private def Eff3 (f : V → V → V → V) (a : Nat) (A : GArr) (alo ahi : List Int) (b : Nat) (B : GArr)
    (blo bhi : List Int) (c : Nat) (C : GArr) (clo chi : List Int) (r : Nat) (M : GArr) (mlo mhi : List Int)
    (t1 t2 t3 : Nat) (m m' : Loc → V) : Prop :=
  (∀ x y w z, InPatch alo ahi x → InPatch blo bhi y → InPatch clo chi w → InPatch mlo mhi z →
    SamePlace false alo ahi mlo mhi x z → SamePlace false blo bhi mlo mhi y z → SamePlace false clo chi mlo mhi w z →
    m' (r, cellG M z) = f (m (a, cellG A x)) (m (b, cellG B y)) (m (c, cellG C w))) ∧
  ∀ l, l.1 ≠ t1 → l.1 ≠ t2 → l.1 ≠ t3 → (∀ z, InPatch mlo mhi z → (r, cellG M z) ≠ l) → m' l = m l

/-- three copies and the computation on the result patch -/
private theorem med_effect (h : MedianCall a A alo ahi b B blo bhi c C clo chi r M mlo mhi t1 t2 t3) {K1 K2 K3 : CopyEnv}
    (hK1 : EnvsOK K1 M) (hK2 : EnvsOK K2 M) (hK3 : EnvsOK K3 M) (f : V → V → V → V) {n : Nat}
    {acts : Nat → Option (List LAct)}
    (hl : ∃ l, mapOpt acts (List.range n) = some l ∧ l.flatten.Perm ((box mlo mhi).map (comb3 t1 t2 t3 r M)))
    (m : Loc → V) :
    (Fits K1 mlo mhi → Fits K2 mlo mhi → Fits K3 mlo mhi →
      ∃ m1 m2 m3 m', copyRun K1 false a A alo ahi t1 M mlo mhi m m1 ∧ copyRun K2 false b B blo bhi t2 M mlo mhi m1 m2 ∧
        copyRun K3 false c C clo chi t3 M mlo mhi m2 m3 ∧ Par n acts (med f) m3 m') ∧
    ∀ m1 m2 m3 m', copyRun K1 false a A alo ahi t1 M mlo mhi m m1 → copyRun K2 false b B blo bhi t2 M mlo mhi m1 m2 →
      copyRun K3 false c C clo chi t3 M mlo mhi m2 m3 → Par n acts (med f) m3 m' →
      Eff3 f a A alo ahi b B blo bhi c C clo chi r M mlo mhi t1 t2 t3 m m' := by
  obtain ⟨a1, a2, a3, a4⟩ := h.fresh1
  obtain ⟨b1, b2, b3, b4⟩ := h.fresh2
  obtain ⟨c1, c2, c3, c4⟩ := h.fresh3
  obtain ⟨d1, d2, d3⟩ := h.distinct
  have fit1 : Fits K1 mlo mhi → Fits K1 alo ahi := by unfold Fits; rw [h.capA]; exact id
  have fit2 : Fits K2 mlo mhi → Fits K2 blo bhi := by unfold Fits; rw [h.capB]; exact id
  have fit3 : Fits K3 mlo mhi → Fits K3 clo chi := by unfold Fits; rw [h.capC]; exact id
  have CT1 := fun m : Loc → V => copy_effect (copyT (t := t1) h.sA h.sM h.pA h.pM h.inA h.inM h.capA h.shapeA a1) h.nA hK1 m
  have CT2 := fun m : Loc → V => copy_effect (copyT (t := t2) h.sB h.sM h.pB h.pM h.inB h.inM h.capB h.shapeB b2) h.nB hK2 m
  have CT3 := fun m : Loc → V => copy_effect (copyT (t := t3) h.sC h.sM h.pC h.pM h.inC h.inM h.capC h.shapeC c3) h.nC hK3 m
  constructor
  · intro k1 k2 k3
    obtain ⟨m1, h1⟩ := (CT1 m).1 (fit1 k1)
    obtain ⟨m2, h2⟩ := (CT2 m1).1 (fit2 k2)
    obtain ⟨m3, h3⟩ := (CT3 m2).1 (fit3 k3)
    obtain ⟨m', h4⟩ := par_exists hl (med f) m3
    exact ⟨m1, m2, m3, m', h1, h2, h3, h4⟩
  · intro m1 m2 m3 m' h1 h2 h3 h4
    obtain ⟨p1, p2⟩ := (CT1 m).2 m1 h1
    obtain ⟨q1, q2⟩ := (CT2 m1).2 m2 h2
    obtain ⟨s1, s2⟩ := (CT3 m2).2 m3 h3
    obtain ⟨u1, u2⟩ := comb_effect h.sM h.inM _ (fun _ => rfl) (fun z z' hz hz' e => by
      simp only [comb3, List.mem_cons, List.not_mem_nil, or_false, Prod.mk.injEq] at e
      rcases e with e | e | e
      · exact absurd e.1.symm a4
      · exact absurd e.1.symm b4
      · exact absurd e.1.symm c4) hl (med f) h4
    constructor
    · intro x y w z hx hy hw hz px py pw
      have e0 := u1 z hz
      simp only [comb3, List.map_cons, List.map_nil, med] at e0
      rw [e0]
      rw [s2 (t1, cellG M z) fun _ _ e => d2 (congrArg Prod.fst e).symm,
        q2 (t1, cellG M z) fun _ _ e => d1 (congrArg Prod.fst e).symm, p1 x z hx hz px,
        s2 (t2, cellG M z) fun _ _ e => d3 (congrArg Prod.fst e).symm, q1 y z hy hz py,
        p2 (b, cellG B y) fun _ _ e => a2 (congrArg Prod.fst e), s1 w z hw hz pw,
        q2 (c, cellG C w) fun _ _ e => b3 (congrArg Prod.fst e), p2 (c, cellG C w) fun _ _ e => a3 (congrArg Prod.fst e)]
    · intro l l1 l2 l3 hl'
      rw [u2 l hl', s2 l fun _ _ e => l3 (by rw [← e]), q2 l fun _ _ e => l2 (by rw [← e]), p2 l fun _ _ e => l1 (by rw [← e])]

private theorem keep_false {n : Nat} {A M : RegArray} (h : Shares (.reg A n) (.reg M n)) (hM : ArrOK M) :
    medianKeep n A M = false := by
  obtain ⟨p, hp, e⟩ := h
  have := owns_len hM p
  unfold medianKeep
  rw [List.all_eq_false]
  exact ⟨p, List.mem_range.2 hp, by rw [e, compPatch_self _ _ (by omega)]; simp⟩

private theorem match_self {n : Nat} {M : RegArray} (hM : ArrOK M) : medianMatch n M M = true := by
  unfold medianMatch
  rw [List.all_eq_true]
  intro p _
  have := owns_len hM p
  exact compPatch_self _ _ (by omega)

private theorem keep_match {n : Nat} {A M : RegArray} (hn : 0 < n) (h : medianKeep n A M = true) :
    medianMatch n M A = false := by
  unfold medianKeep at h
  unfold medianMatch
  rw [List.all_eq_true] at h
  rw [List.all_eq_false]
  have h0 := List.mem_range.2 hn
  refine ⟨0, h0, ?_⟩
  have := h 0 h0
  rw [comp_comm]
  simpa using this

private theorem median_effect (h : MedianCall a A alo ahi b B blo bhi c C clo chi r M mlo mhi t1 t2 t3) {K1 K2 K3 : CopyEnv}
    (hK1 : EnvsOK K1 M) (hK2 : EnvsOK K2 M) (hK3 : EnvsOK K3 M)
    (hw : AnyBlk A B C M → mlo = onesL M.dims ∧ mhi = M.dims) (f : V → V → V → V) (m : Loc → V) :
    ((¬ AnyBlk A B C M → Shares A M ∧ Shares B M ∧ Shares C M) → Fits K1 mlo mhi → Fits K2 mlo mhi → Fits K3 mlo mhi →
      ∃ m', medianRun f K1 K2 K3 a A alo ahi b B blo bhi c C clo chi r M mlo mhi t1 t2 t3 m m') ∧
    ∀ m', medianRun f K1 K2 K3 a A alo ahi b B blo bhi c C clo chi r M mlo mhi t1 t2 t3 m m' →
      Eff3 f a A alo ahi b B blo bhi c C clo chi r M mlo mhi t1 t2 t3 m m' := by
  have cA : prodI (edges mlo mhi) = prodI (edges alo ahi) := by rw [prodI_edges, prodI_edges]; exact h.capA.symm
  have cB : prodI (edges mlo mhi) = prodI (edges blo bhi) := by rw [prodI_edges, prodI_edges]; exact h.capB.symm
  have cC : prodI (edges mlo mhi) = prodI (edges clo chi) := by rw [prodI_edges, prodI_edges]; exact h.capC.symm
  have hb : AnyBlk A B C M →
      ((¬ AnyBlk A B C M → Shares A M ∧ Shares B M ∧ Shares C M) → Fits K1 mlo mhi → Fits K2 mlo mhi → Fits K3 mlo mhi →
        ∃ m', medianBlk f K1 K2 K3 a A alo ahi b B blo bhi c C clo chi r M mlo mhi t1 t2 t3 m m') ∧
      ∀ m', medianBlk f K1 K2 K3 a A alo ahi b B blo bhi c C clo chi r M mlo mhi t1 t2 t3 m m' →
        Eff3 f a A alo ahi b B blo bhi c C clo chi r M mlo mhi t1 t2 t3 m m' := by
    intro hany
    obtain ⟨w1, w2⟩ := hw hany
    have := med_effect h hK1 hK2 hK3 f (n := M.nproc) (acts := medItems t1 t2 t3 r M)
      (by rw [w1, w2]; exact medItems_acts h.sM h.pM) m
    constructor
    · intro _ k1 k2 k3
      obtain ⟨m1, m2, m3, m', e1, e2, e3, e4⟩ := this.1 k1 k2 k3
      exact ⟨m', m1, m2, m3, e1, e2, e3, e4⟩
    · rintro m' ⟨m1, m2, m3, e1, e2, e3, e4⟩
      exact this.2 m1 m2 m3 m' e1 e2 e3 e4
  unfold medianRun
  rw [inRange h.inA, inRange h.inB, inRange h.inC, inRange h.inM, extents_eq, extents_eq, extents_eq, extents_eq]
  simp only [Bool.or_self, Bool.false_eq_true, if_false, ← cA, ← cB, ← cC, ne_eq, not_true_eq_false, or_self]
  cases M with
  | blk M => cases A <;> cases B <;> cases C <;> exact hb (by simp [AnyBlk, GArr.isBlk])
  | reg M n =>
    cases A with
    | blk A => cases B <;> cases C <;> exact hb (by simp [AnyBlk, GArr.isBlk])
    | reg A na =>
      cases B with
      | blk B => cases C <;> exact hb (by simp [AnyBlk, GArr.isBlk])
      | reg B nb =>
        cases C with
        | blk C => exact hb (by simp [AnyBlk, GArr.isBlk])
        | reg C nc =>
          have e1 : na = n := h.nA
          have e2 : nb = n := h.nB
          have e3 : nc = n := h.nC
          subst e1 e2 e3
          simp only
          have hn := sound_pos h.sM h.inM
          have := med_effect h hK1 hK2 hK3 f (medLocal_acts (a := t1) (b := t2) (c := t3) (r := r) h.sM h.inM) m
          unfold medianReg
          constructor
          · intro hsh k1 k2 k3
            obtain ⟨s1, s2, s3⟩ := hsh (by simp [AnyBlk, GArr.isBlk])
            simp only [keep_false s1 h.sM.1, keep_false s2 h.sM.1, keep_false s3 h.sM.1, Bool.false_eq_true, if_false,
              match_self h.sM.1]
            obtain ⟨m1, m2, m3, m', e1, e2, e3, e4⟩ := this.1 k1 k2 k3
            exact ⟨m', m1, m2, m3, e1, e2, e3, ⟨trivial, trivial, trivial⟩, e4⟩
          · rintro m' ⟨m1, m2, m3, e1, e2, e3, ⟨k1, k2, k3⟩, e4⟩
            have no : ∀ {X : RegArray} {x t : Nat}, medianMatch nc M
                (if medianKeep nc X M = true then (x, X) else (t, M)).2 = true → medianKeep nc X M = false := by
              intro X x t hk
              by_contra hc
              rw [Bool.not_eq_false] at hc
              rw [if_pos hc, keep_match hn hc] at hk
              cases hk
            have n1 := no k1
            have n2 := no k2
            have n3 := no k3
            simp only [n1, n2, n3, Bool.false_eq_true, if_false] at e1 e2 e3 e4
            exact this.2 m1 m2 m3 m' e1 e2 e3 e4

/-- **C58, partial.** Every execution of `GA_Median_patch` stores in every element of the result patch the median of the
three elements at the same place and changes nothing else in any array but its own temporary ones, for every
distribution, interleaving, change of shape and overlap. There is an execution if, for REGULAR arrays, each operand has the
same block as the result on at least one process, and the patches fit into one message. Missing: patches that are
not the whole result array if one of the arrays is block-cyclic (`C58_median_patch_outside`); operands whose
blocks all differ from those of the result are refused (`C58_median_refused`); processor groups. -/
theorem C58_median_patch_partial {K : Type} [LinearOrder K] (key : V → K)
    (h : MedianCall a A alo ahi b B blo bhi c C clo chi r M mlo mhi t1 t2 t3) (K1 K2 K3 : CopyEnv)
    (hK1 : EnvsOK K1 M) (hK2 : EnvsOK K2 M) (hK3 : EnvsOK K3 M)
    (hw : AnyBlk A B C M → mlo = onesL M.dims ∧ mhi = M.dims) (m : Loc → V) (fa fb fc fm : List Int → V)
    (ha : HoldsAt a A m fa) (hb : HoldsAt b B m fb) (hc : HoldsAt c C m fc) (hm : HoldsAt r M m fm) :
    ((¬ AnyBlk A B C M → Shares A M ∧ Shares B M ∧ Shares C M) → Fits K1 mlo mhi → Fits K2 mlo mhi → Fits K3 mlo mhi →
      ∃ m', medianRun (median3 key) K1 K2 K3 a A alo ahi b B blo bhi c C clo chi r M mlo mhi t1 t2 t3 m m') ∧
    ∀ m', medianRun (median3 key) K1 K2 K3 a A alo ahi b B blo bhi c C clo chi r M mlo mhi t1 t2 t3 m m' →
      (∃ fm', HoldsAt r M m' fm' ∧
        Elem3Result (IsMedian key) alo ahi blo bhi clo chi mlo mhi fa fb fc fm fm') ∧
      ∀ l : Loc, l.1 ≠ t1 → l.1 ≠ t2 → l.1 ≠ t3 → (l.1 = r → ∀ z, InPatch mlo mhi z → cellG M z ≠ l.2) → m' l = m l := by
  obtain ⟨e1, e2⟩ := median_effect h hK1 hK2 hK3 hw (median3 key) m
  refine ⟨e1, fun m' hm' => ?_⟩
  obtain ⟨h1, h2⟩ := e2 m' hm'
  have ha := (holds_iff h.sA).1 ha
  have hb := (holds_iff h.sB).1 hb
  have hc := (holds_iff h.sC).1 hc
  have hm := (holds_iff h.sM).1 hm
  refine ⟨⟨fun z => if InPatch mlo mhi z then m' (r, cellG M z) else fm z, (holds_iff h.sM).2 ?_, ?_, ?_⟩, ?_⟩
  · intro z hz
    by_cases hp : InPatch mlo mhi z
    · simp only [if_pos hp]
    · simp only [if_neg hp]
      rw [← hm z hz]
      apply h2 _ h.fresh1.2.2.2.symm h.fresh2.2.2.2.symm h.fresh3.2.2.2.symm
      intro w hw e
      have := cellG_inj h.sM (h.inM.inArray hw) hz (congrArg Prod.snd e)
      exact hp (this ▸ hw)
  · intro x y w z hx hy hw hz px py pw
    simp only [if_pos hz]
    rw [h1 x y w z hx hy hw hz px py pw]
    have q1 : m (a, cellG A x) = fa x := ha x (h.inA.inArray hx)
    have q2 : m (b, cellG B y) = fb y := hb y (h.inB.inArray hy)
    have q3 : m (c, cellG C w) = fc w := hc w (h.inC.inArray hw)
    rw [q1, q2, q3]
    exact C58_median3 key _ _ _
  · intro z hz
    simp only [if_neg hz]
  · intro l l1 l2 l3 h
    apply h2 l l1 l2 l3
    intro z hz e
    subst e
    exact h rfl z hz rfl

/-- A legal call of `GA_Median` on arrays of the same group with the same dimensions; they may be the same. -/
structure MedianAll (a : Nat) (A : GArr) (b : Nat) (B : GArr) (c : Nat) (C : GArr) (r : Nat) (M : GArr)
    (t1 t2 t3 : Nat) : Prop where
  sA : Sound A
  sB : Sound B
  sC : Sound C
  sM : Sound M
  pA : PtrOK A
  pB : PtrOK B
  pC : PtrOK C
  pM : PtrOK M
  nA : A.nproc = M.nproc
  nB : B.nproc = M.nproc
  nC : C.nproc = M.nproc
  dimA : A.dims = M.dims
  dimB : B.dims = M.dims
  dimC : C.dims = M.dims
  fresh1 : t1 ≠ a ∧ t1 ≠ b ∧ t1 ≠ c ∧ t1 ≠ r
  fresh2 : t2 ≠ a ∧ t2 ≠ b ∧ t2 ≠ c ∧ t2 ≠ r
  fresh3 : t3 ≠ a ∧ t3 ≠ b ∧ t3 ≠ c ∧ t3 ≠ r
  distinct : t1 ≠ t2 ∧ t1 ≠ t3 ∧ t2 ≠ t3

private theorem MedianAll.call (h : MedianAll a A b B c C r M t1 t2 t3) :
    MedianCall a A (onesL A.dims) A.dims b B (onesL B.dims) B.dims c C (onesL C.dims) C.dims r M (onesL M.dims) M.dims
      t1 t2 t3 :=
  ⟨h.sA, h.sB, h.sC, h.sM, h.pA, h.pB, h.pC, h.pM, h.nA, h.nB, h.nC, patch_all h.sA, patch_all h.sB, patch_all h.sC,
    patch_all h.sM, by rw [h.dimA], by rw [h.dimB], by rw [h.dimC], fun _ => by rw [h.dimA], fun _ => by rw [h.dimB],
    fun _ => by rw [h.dimC], h.fresh1, h.fresh2, h.fresh3, h.distinct⟩

/-- **C58 (whole arrays), partial.** Every execution of `GA_Median` stores the medians of the elements with the same subscript. There is an execution if one
of the arrays is block-cyclic, or each operand has the same block as the result on at least one process. Missing: REGULAR operands whose blocks all
differ from those of the result (`C58_median_refused`), processor groups. -/
theorem C58_median_partial {K : Type} [LinearOrder K] (key : V → K) (h : MedianAll a A b B c C r M t1 t2 t3)
    (K1 K2 K3 : CopyEnv) (hK1 : EnvsOK K1 M) (hK2 : EnvsOK K2 M) (hK3 : EnvsOK K3 M) (m : Loc → V)
    (fa fb fc : List Int → V) (ha : HoldsAt a A m fa) (hb : HoldsAt b B m fb) (hc : HoldsAt c C m fc) :
    ((¬ AnyBlk A B C M → Shares A M ∧ Shares B M ∧ Shares C M) → Fits K1 (onesL M.dims) M.dims →
      Fits K2 (onesL M.dims) M.dims → Fits K3 (onesL M.dims) M.dims →
      ∃ m', medianAll (median3 key) K1 K2 K3 a A b B c C r M t1 t2 t3 m m') ∧
    ∀ m', medianAll (median3 key) K1 K2 K3 a A b B c C r M t1 t2 t3 m m' →
      (∃ fm', HoldsAt r M m' fm' ∧ ∀ z, InArray M.dims z → IsMedian key (fa z) (fb z) (fc z) (fm' z)) ∧
      ∀ l : Loc, l.1 ≠ t1 → l.1 ≠ t2 → l.1 ≠ t3 → (l.1 = r → ∀ z, InArray M.dims z → cellG M z ≠ l.2) → m' l = m l := by
  obtain ⟨e1, e2⟩ := C58_median_patch_partial key h.call K1 K2 K3 hK1 hK2 hK3 (fun _ => ⟨rfl, rfl⟩) m fa fb fc
    (fun z => m (r, cellG M z)) ha hb hc ((holds_iff h.sM).2 fun _ _ => rfl)
  refine ⟨e1, fun m' hm => ?_⟩
  obtain ⟨⟨fm', q1, q2⟩, q3⟩ := e2 m' hm
  refine ⟨⟨fm', q1, fun z hz => ?_⟩, q3⟩
  have := q2.inside z z z z
  rw [h.dimA, h.dimB, h.dimC] at this
  exact this hz hz hz hz rfl rfl rfl

/-- **C58 fails for operands with other blocks**: if the blocks of one REGULAR operand differ from those of the result on
every process (and all arrays are REGULAR), the operand is taken to be aligned with the result, is not copied,
and the call stops with "patches mismatch", although the arguments are legal. -/
theorem C58_median_refused {n : Nat} {A B C M : RegArray} (hA : ArrOK A) (hM : ArrOK M) (hn : 0 < n)
    (hl : A.dims.length = M.dims.length) (hd : ∀ p, p < n → owns A p ≠ owns M p) (f : V → V → V → V)
    (K1 K2 K3 : CopyEnv) (nb nc : Nat) (m m' : Loc → V) :
    ¬ medianRun f K1 K2 K3 a (.reg A n) alo ahi b (.reg B nb) blo bhi c (.reg C nc) clo chi r (.reg M n) mlo mhi
      t1 t2 t3 m m' := by
  have hk : medianKeep n A M = true := by
    unfold medianKeep
    rw [List.all_eq_true]
    intro p hp
    by_contra hc
    simp only [Bool.not_eq_true', Bool.not_eq_false] at hc
    have q1 := owns_len hA p
    have q2 := owns_len hM p
    obtain ⟨f1, f2⟩ := compPatch_refl (by omega) (by omega) (by omega) hc
    exact hd p (List.mem_range.1 hp) (Prod.ext f1 f2)
  intro h
  unfold medianRun at h
  split at h
  · cases h
  split at h
  · cases h
  obtain ⟨m1, m2, m3, _, _, _, ⟨k1, _, _⟩, _⟩ := h
  rw [if_pos hk, keep_match hn hk] at k1
  cases k1

/-- **C58 refused.** `GA_Median_patch` only returns if the patches lie inside their arrays and have the same number of elements. -/
theorem C58_refused (f : V → V → V → V) (l1 : alo.length = A.dims.length) (l2 : ahi.length = A.dims.length)
    (l3 : blo.length = B.dims.length) (l4 : bhi.length = B.dims.length) (l5 : clo.length = C.dims.length)
    (l6 : chi.length = C.dims.length) (l7 : mlo.length = M.dims.length) (l8 : mhi.length = M.dims.length)
    (K1 K2 K3 : CopyEnv) (m m' : Loc → V)
    (h : medianRun f K1 K2 K3 a A alo ahi b B blo bhi c C clo chi r M mlo mhi t1 t2 t3 m m') :
    Inside A.dims alo ahi ∧ Inside B.dims blo bhi ∧ Inside C.dims clo chi ∧ Inside M.dims mlo mhi ∧
      prodI (extents mlo mhi) = prodI (extents alo ahi) ∧ prodI (extents mlo mhi) = prodI (extents blo bhi) ∧
      prodI (extents mlo mhi) = prodI (extents clo chi) := by
  unfold medianRun at h
  by_cases c1 : (outOfRange alo ahi A.dims || outOfRange blo bhi B.dims || outOfRange clo chi C.dims ||
      outOfRange mlo mhi M.dims) = true
  · rw [if_pos c1] at h; cases h
  rw [if_neg c1] at h
  by_cases c2 : prodI (extents mlo mhi) ≠ prodI (extents alo ahi) ∨ prodI (extents mlo mhi) ≠ prodI (extents blo bhi) ∨
      prodI (extents mlo mhi) ≠ prodI (extents clo chi)
  · rw [if_pos c2] at h; cases h
  simp only [Bool.or_eq_true, not_or, Bool.not_eq_true] at c1
  rw [not_or, not_or, not_not, not_not, not_not] at c2
  exact ⟨inside_of l1 l2 c1.1.1.1, inside_of l3 l4 c1.1.1.2, inside_of l5 l6 c1.1.2, inside_of l7 l8 c1.2, c2⟩

end

/-! ## a patch of a block-cyclic array -/

section
variable {V : Type} [Inhabited V]
variable {a b c r t1 t2 t3 : Nat} {A B C M : GArr} {alo ahi blo bhi clo chi mlo mhi : List Int}

/-- **C58 fails for a patch if one of the arrays is block-cyclic**: every execution overwrites the elements of the
result array outside the patch with the median of the contents of the temporary arrays there (which are
arbitrary: nothing was stored in them). -/
theorem C58_median_patch_outside (h : MedianCall a A alo ahi b B blo bhi c C clo chi r M mlo mhi t1 t2 t3)
    (K1 K2 K3 : CopyEnv) (hK1 : EnvsOK K1 M) (hK2 : EnvsOK K2 M) (hK3 : EnvsOK K3 M) (hb : AnyBlk A B C M)
    (f : V → V → V → V) (m m' : Loc → V)
    (hm : medianRun f K1 K2 K3 a A alo ahi b B blo bhi c C clo chi r M mlo mhi t1 t2 t3 m m') :
    ∀ z, InArray M.dims z → ¬ InPatch mlo mhi z →
      m' (r, cellG M z) = f (m (t1, cellG M z)) (m (t2, cellG M z)) (m (t3, cellG M z)) := by
  have run : medianBlk f K1 K2 K3 a A alo ahi b B blo bhi c C clo chi r M mlo mhi t1 t2 t3 m m' := by
    unfold medianRun at hm
    split at hm
    · cases hm
    split at hm
    · cases hm
    cases A <;> cases B <;> cases C <;> cases M <;> first | exact hm | simp [AnyBlk, GArr.isBlk] at hb
  obtain ⟨m1, m2, m3, h1, h2, h3, h4⟩ := run
  obtain ⟨a1, a2, a3, a4⟩ := h.fresh1
  obtain ⟨b1, b2, b3, b4⟩ := h.fresh2
  obtain ⟨c1, c2, c3, c4⟩ := h.fresh3
  obtain ⟨d1, d2, d3⟩ := h.distinct
  obtain ⟨_, p2⟩ := (copy_effect (copyT (t := t1) h.sA h.sM h.pA h.pM h.inA h.inM h.capA h.shapeA a1) h.nA hK1 m).2 m1 h1
  obtain ⟨_, q2⟩ := (copy_effect (copyT (t := t2) h.sB h.sM h.pB h.pM h.inB h.inM h.capB h.shapeB b2) h.nB hK2 m1).2 m2 h2
  obtain ⟨_, s2⟩ := (copy_effect (copyT (t := t3) h.sC h.sM h.pC h.pM h.inC h.inM h.capC h.shapeC c3) h.nC hK3 m2).2 m3 h3
  obtain ⟨u1, u2⟩ := comb_effect h.sM (patch_all h.sM) _ (fun _ => rfl) (fun z z' hz hz' e => by
    simp only [comb3, List.mem_cons, List.not_mem_nil, or_false, Prod.mk.injEq] at e
    rcases e with e | e | e
    · exact absurd e.1.symm a4
    · exact absurd e.1.symm b4
    · exact absurd e.1.symm c4) (medItems_acts h.sM h.pM) (med f) h4
  intro z hz hp
  have out : ∀ t, ∀ y, InPatch mlo mhi y → (t, cellG M y) ≠ ((t, cellG M z) : Loc) := by
    intro t y hy e
    exact hp (cellG_inj h.sM (h.inM.inArray hy) hz (congrArg Prod.snd e) ▸ hy)
  have e0 := u1 z hz
  simp only [comb3, List.map_cons, List.map_nil, med] at e0
  rw [e0, s2 (t1, cellG M z) fun _ _ e => d2 (congrArg Prod.fst e).symm,
    q2 (t1, cellG M z) fun _ _ e => d1 (congrArg Prod.fst e).symm, p2 _ (out t1),
    s2 (t2, cellG M z) fun _ _ e => d3 (congrArg Prod.fst e).symm, q2 _ (out t2),
    p2 (t2, cellG M z) fun _ _ e => d1 (congrArg Prod.fst e), s2 _ (out t3),
    q2 (t3, cellG M z) fun _ _ e => d3 (congrArg Prod.fst e), p2 (t3, cellG M z) fun _ _ e => d2 (congrArg Prod.fst e)]

end

/-! ## Non-vacuity -/

private theorem exG_s : Sound (.reg exG 7) := ⟨⟨by decide, by decide, by decide⟩, by decide⟩
private theorem exH_s : Sound (.reg exH 7) := ⟨⟨by decide, by decide, by decide⟩, by decide⟩

/-- patches of several shapes; two operands are the result array -/
example : MedianCall 0 (.reg exG 7) [3, 2] [7, 5] 1 (.reg exH 7) [2, 1] [3, 10] 1 (.reg exH 7) [1, 2] [4, 6]
    1 (.reg exH 7) [1, 3] [4, 7] 2 3 4 :=
  ⟨exG_s, exH_s, exH_s, exH_s, trivial, trivial, trivial, trivial, rfl, rfl, rfl,
    by simp [PatchOK, InArray, InPatch, GArr.dims, exG], by simp [PatchOK, InArray, InPatch, GArr.dims, exH],
    by simp [PatchOK, InArray, InPatch, GArr.dims, exH], by simp [PatchOK, InArray, InPatch, GArr.dims, exH],
    by decide, by decide, by decide, fun h => absurd h (by decide), fun h => absurd h (by decide),
    fun h => absurd h (by decide), by decide, by decide, by decide, by decide⟩
/-- the operands share a block with the result -/
example : Shares (.reg exH 7) (.reg exH 7) ∧ Shares (.reg exG 7) (.reg exH 7) :=
  ⟨⟨0, by decide, rfl⟩, ⟨6, by decide, by decide +kernel⟩⟩
/-- whole arrays, one of them block-cyclic -/
example : MedianAll 0 (.reg ⟨[7, 5], [2, 2], [1, 4, 1, 3], [0, 0]⟩ 4) 1 (.blk exScl) 1 (.blk exScl) 2
    (.reg ⟨[7, 5], [1, 4], [1, 1, 2, 3, 5], [0, 0]⟩ 4) 3 4 5 :=
  ⟨⟨⟨by decide, by decide, by decide⟩, by decide⟩, ⟨exScl_created, by decide⟩, ⟨exScl_created, by decide⟩,
    ⟨⟨by decide, by decide, by decide⟩, by decide⟩, trivial, by simp only [PtrOK]; decide, by simp only [PtrOK]; decide,
    trivial, rfl, rfl, rfl, rfl, rfl, rfl, by decide, by decide, by decide, by decide⟩
/-- the blocks of two arrays of the same dimensions differ on all four processes -/
example : ∀ p ∈ List.range 4,
    owns ⟨[7, 5], [2, 2], [1, 4, 1, 3], [0, 0]⟩ p ≠ owns ⟨[7, 5], [1, 4], [1, 1, 2, 3, 5], [0, 0]⟩ p := by
  decide +kernel
/-- a patch of a block-cyclic array -/
example : MedianCall 0 (.blk exScl) [1, 1] [3, 2] 1 (.blk exScl) [1, 1] [3, 2] 2 (.blk exScl) [1, 1] [3, 2] 3 (.blk exScl) [1, 1] [3, 2]
    4 5 6 ∧ AnyBlk (.blk exScl) (.blk exScl) (.blk exScl) (.blk exScl) := by
  have s : Sound (.blk exScl) := ⟨exScl_created, by decide⟩
  have p : PtrOK (.blk exScl) := by simp only [PtrOK]; decide
  have i : PatchOK (GArr.blk exScl).dims [1, 1] [3, 2] := by simp [PatchOK, InArray, InPatch, GArr.dims, exScl]
  exact ⟨⟨s, s, s, s, p, p, p, p, rfl, rfl, rfl, i, i, i, i, rfl, rfl, rfl, fun _ => rfl, fun _ => rfl, fun _ => rfl,
    by decide, by decide, by decide, by decide⟩, Or.inl rfl⟩

end GA
