import Verif.Props.ElemVal
import Verif.Props.Refused

/-!
# C56 (`GA_Abs_value`, `GA_Recip`, `GA_Add_constant`) and C57 (`GA_Elem_multiply`, `GA_Elem_divide`, `GA_Elem_maximum`,
`GA_Elem_minimum`), whole arrays and patches

`m`, `m'`: memory of all arrays before and after the call, for any interleaving.
-/

namespace GA
open Spec Model

section
variable {V : Type} [Inhabited V]
variable {a b c t1 t2 : Nat} {A B C : GArr} {alo ahi blo bhi clo chi : List Int}

/-! ## one array -/

/-- **C56, partial.** An operation `f` on the elements `lo..hi` of an array: the call succeeds exactly if `f` is
defined for every element, replaces every element by its image and changes nothing else, for every
distribution and interleaving. Bounds outside the array are cut. Missing: processor
groups, tiled arrays with wrong block pointers (C48). -/
theorem C56_unary_partial (f : V → Option V) {lo hi : List Int} (sC : Sound C) (pC : PtrOK C)
    (l1 : lo.length = C.dims.length) (l2 : hi.length = C.dims.length) (m : Loc → V) (fc : List Int → V)
    (hc : HoldsAt c C m fc) :
    ((∃ m', operRun f c C lo hi m m') ↔ ∀ z, InArray C.dims z → InPatch lo hi z → ∃ v, f (fc z) = some v) ∧
    ∀ m', operRun f c C lo hi m m' →
      (∃ fc', HoldsAt c C m' fc' ∧ MapResult (fun x y => f x = some y) C.dims lo hi fc fc') ∧
      ∀ l : Loc, (l.1 = c → ∀ z, InArray C.dims z → InPatch lo hi z → cellG C z ≠ l.2) → m' l = m l := by
  have hc := (holds_iff sC).1 hc
  have hm := fun z => List.mem_filter (p := fun x => decide (InPatch lo hi x)) (x := z) (as := box (onesL C.dims) C.dims)
  simp only [decide_eq_true_eq, mem_ones_box] at hm
  obtain ⟨e1, e2⟩ := comb_effectO sC ((nodup_box (onesL C.dims) C.dims).filter fun x => decide (InPatch lo hi x))
    (fun z hz => ((hm z).1 hz).1) (scale1 c C) (fun _ => rfl) (fun z hz z' hz' e => by
      simp only [scale1, List.mem_singleton, Prod.mk.injEq, true_and] at e
      exact cellG_inj sC ((hm z').1 hz').1 ((hm z).1 hz).1 e) (scaleActs_any sC pC l1 l2) (un f) m
  have val : ∀ z, InArray C.dims z → un f ((scale1 c C z).srcs.map m) = f (fc z) := by
    intro z hz
    have := hc z hz
    simp only [scale1, List.map_cons, List.map_nil, un]
    rw [← this]
  refine ⟨⟨?_, ?_⟩, ?_⟩
  · rintro ⟨m', h⟩ z hz hp
    have := (e2 m' h).1 z ((hm z).2 ⟨hz, hp⟩)
    rw [val z hz] at this
    exact ⟨_, this.symm⟩
  · intro h
    apply e1
    intro z hz
    obtain ⟨h1, h2⟩ := (hm z).1 hz
    obtain ⟨v, hv⟩ := h z h1 h2
    rw [val z h1, hv]
    rfl
  · intro m' h
    obtain ⟨u1, u2⟩ := e2 m' h
    refine ⟨⟨fun z => if InPatch lo hi z then m' (c, cellG C z) else fc z, (holds_iff sC).2 ?_, ?_, ?_⟩, ?_⟩
    · intro z hz
      by_cases hp : InPatch lo hi z
      · simp only [if_pos hp]
      · simp only [if_neg hp]
        rw [← hc z hz]
        apply u2
        intro w hw e
        have := cellG_inj sC ((hm w).1 hw).1 hz (congrArg Prod.snd e)
        exact hp (this ▸ ((hm w).1 hw).2)
    · intro z hz hp
      simp only [if_pos hp]
      rw [u1 z ((hm z).2 ⟨hz, hp⟩), val z hz]
    · intro z hp
      simp only [if_neg hp]
    · intro l hl
      apply u2
      intro z hz e
      subst e
      exact hl rfl z ((hm z).1 hz).1 ((hm z).1 hz).2 rfl

/-- **C56 (add_constant), partial.** `GA_Add_constant` and its patch version never fail and add the constant to every element of
the patch. Missing as in `C56_unary_partial`. -/
theorem C56_add_constant_partial [Add V] (k : V) {lo hi : List Int} (sC : Sound C) (pC : PtrOK C)
    (l1 : lo.length = C.dims.length) (l2 : hi.length = C.dims.length) (m : Loc → V) (fc : List Int → V)
    (hc : HoldsAt c C m fc) :
    (∃ m', operRun (fun x => some (x + k)) c C lo hi m m') ∧
    ∀ m', operRun (fun x => some (x + k)) c C lo hi m m' →
      (∃ fc', HoldsAt c C m' fc' ∧ MapResult (fun x y => y = x + k) C.dims lo hi fc fc') ∧
      ∀ l : Loc, (l.1 = c → ∀ z, InArray C.dims z → InPatch lo hi z → cellG C z ≠ l.2) → m' l = m l := by
  obtain ⟨h1, h2⟩ := C56_unary_partial (fun x => some (x + k)) sC pC l1 l2 m fc hc
  refine ⟨h1.2 fun z _ _ => ⟨_, rfl⟩, fun m' h => ?_⟩
  obtain ⟨⟨fc', q1, q2⟩, q3⟩ := h2 m' h
  exact ⟨⟨fc', q1, fun z hz hp => (Option.some.inj (q2.inside z hz hp)).symm, q2.outside⟩, q3⟩

/-- **C56 (absolute value), partial.** `GA_Abs_value` and its patch version of integer and real arrays. Missing as in
`C56_unary_partial`. -/
theorem C56_abs_partial [Ring V] [LinearOrder V] [IsStrictOrderedRing V] {lo hi : List Int} (sC : Sound C) (pC : PtrOK C)
    (l1 : lo.length = C.dims.length) (l2 : hi.length = C.dims.length) (m : Loc → V) (fc : List Int → V)
    (hc : HoldsAt c C m fc) :
    (∃ m', operRun (fun x => some (gaAbs x)) c C lo hi m m') ∧
    ∀ m', operRun (fun x => some (gaAbs x)) c C lo hi m m' →
      (∃ fc', HoldsAt c C m' fc' ∧ MapResult (fun x y => y = |x|) C.dims lo hi fc fc') ∧
      ∀ l : Loc, (l.1 = c → ∀ z, InArray C.dims z → InPatch lo hi z → cellG C z ≠ l.2) → m' l = m l := by
  obtain ⟨h1, h2⟩ := C56_unary_partial (fun x => some (gaAbs x)) sC pC l1 l2 m fc hc
  refine ⟨h1.2 fun z _ _ => ⟨_, rfl⟩, fun m' h => ?_⟩
  obtain ⟨⟨fc', q1, q2⟩, q3⟩ := h2 m' h
  exact ⟨⟨fc', q1, fun z hz hp => by rw [← gaAbs_eq]; exact (Option.some.inj (q2.inside z hz hp)).symm, q2.outside⟩, q3⟩

/-- **C56 (reciprocal), partial.** `GA_Recip` and its patch version of a real array fail exactly if an element of the
patch is zero. Missing as in `C56_unary_partial`. -/
theorem C56_recip_partial [Field V] [LinearOrder V] [IsStrictOrderedRing V] {lo hi : List Int} (sC : Sound C)
    (pC : PtrOK C) (l1 : lo.length = C.dims.length) (l2 : hi.length = C.dims.length) (m : Loc → V) (fc : List Int → V)
    (hc : HoldsAt c C m fc) :
    ((∃ m', operRun recipReal c C lo hi m m') ↔ ∀ z, InArray C.dims z → InPatch lo hi z → fc z ≠ 0) ∧
    ∀ m', operRun recipReal c C lo hi m m' →
      (∃ fc', HoldsAt c C m' fc' ∧ MapResult (fun x y => y * x = 1) C.dims lo hi fc fc') ∧
      ∀ l : Loc, (l.1 = c → ∀ z, InArray C.dims z → InPatch lo hi z → cellG C z ≠ l.2) → m' l = m l := by
  obtain ⟨h1, h2⟩ := C56_unary_partial recipReal sC pC l1 l2 m fc hc
  constructor
  · rw [h1]
    refine forall_congr' fun z => forall_congr' fun _ => forall_congr' fun _ => ?_
    rw [← Option.isSome_iff_exists, Option.isSome_iff_ne_none, ne_eq, (C56_recip_real (fc z)).1]
  · intro m' h
    obtain ⟨⟨fc', q1, q2⟩, q3⟩ := h2 m' h
    exact ⟨⟨fc', q1, fun z hz hp => (C56_recip_real _).2 _ (q2.inside z hz hp), q2.outside⟩, q3⟩

/-! ## two arrays -/

/-- the first operand is read from the result array -/
private def aliasA (a : Nat) (A : GArr) (alo ahi : List Int) (b : Nat) (B : GArr) (c : Nat) (C : GArr)
    (clo chi : List Int) : Bool :=
  match A, B, C with
  | .reg A _, .reg _ _, .reg C n => if compatible n A alo ahi C clo chi then a == c else b != c
  | _, _, _ => false

/-- the second operand is read from the result array -/
private def aliasB (A : GArr) (b : Nat) (B : GArr) (blo bhi : List Int) (c : Nat) (C : GArr)
    (clo chi : List Int) : Bool :=
  match A, B, C with
  | .reg _ _, .reg B _, .reg C n => compatible n B blo bhi C clo chi && b == c
  | _, _, _ => false

/-- effect of a run in terms of memory -/
private def EffO (f : V → V → Option V) (a : Nat) (A : GArr) (alo ahi : List Int) (b : Nat) (B : GArr)
    (blo bhi : List Int) (c : Nat) (C : GArr) (clo chi : List Int) (t1 t2 : Nat) (m m' : Loc → V) : Prop :=
  (∀ x y z, InPatch alo ahi x → InPatch blo bhi y → InPatch clo chi z →
    SamePlace false alo ahi clo chi x z → SamePlace false blo bhi clo chi y z →
    f (m (a, cellG A x)) (m (b, cellG B y)) = some (m' (c, cellG C z))) ∧
  ∀ l, l.1 ≠ t1 → l.1 ≠ t2 → (∀ z, InPatch clo chi z → (c, cellG C z) ≠ l) → m' l = m l

/-- the function is defined for all pairs of elements -/
private def AllDef (f : V → V → Option V) (a : Nat) (A : GArr) (alo ahi : List Int) (b : Nat) (B : GArr)
    (blo bhi : List Int) (clo chi : List Int) (m : Loc → V) : Prop :=
  ∀ x y z, InPatch alo ahi x → InPatch blo bhi y → InPatch clo chi z →
    SamePlace false alo ahi clo chi x z → SamePlace false blo bhi clo chi y z →
    (f (m (a, cellG A x)) (m (b, cellG B y))).isSome

private theorem elem_reg {n : Nat} {A B C : RegArray}
    (h : AddCall a (.reg A n) alo ahi b (.reg B n) blo bhi c (.reg C n) clo chi t1 t2) {K1 K2 : CopyEnv}
    (hK1 : EnvsOK K1 (.reg C n)) (hK2 : EnvsOK K2 (.reg C n)) (op : Bool → Bool → V → V → Option V) (f : V → V → Option V)
    (hf : f = op (aliasA a (.reg A n) alo ahi b (.reg B n) c (.reg C n) clo chi)
      (aliasB (.reg A n) b (.reg B n) blo bhi c (.reg C n) clo chi)) (m : Loc → V) :
    (Fits K1 clo chi → Fits K2 clo chi → AllDef f a (.reg A n) alo ahi b (.reg B n) blo bhi clo chi m →
      ∃ m', elem2Reg op K1 K2 n a A alo ahi b B blo bhi c C clo chi t1 t2 m m') ∧
    ∀ m', elem2Reg op K1 K2 n a A alo ahi b B blo bhi c C clo chi t1 t2 m m' →
      EffO f a (.reg A n) alo ahi b (.reg B n) blo bhi c (.reg C n) clo chi t1 t2 m m' := by
  obtain ⟨sA, sB, sC, pA, pB, pC, nA, nB, sameA, sameB, inA, inB, inC, capA, capB, apart, shapeA, shapeB, likeA, likeB,
    ⟨f1, f2, f3⟩, ⟨f4, f5, f6⟩, f7⟩ := h
  have hn := sound_pos sC inC
  have sA' : a = c → A = C := fun h => by have := sameA h; cases this; rfl
  have sB' : b = c → B = C := fun h => by have := sameB h; cases this; rfl
  have lC := (inPatch_lengths inC.2.2).1
  have fit1 : Fits K1 clo chi → Fits K1 alo ahi := by unfold Fits; rw [capA]; exact id
  have fit2 : Fits K2 clo chi → Fits K2 blo bhi := by unfold Fits; rw [capB]; exact id
  have cA : prodI (edges alo ahi) = prodI (edges clo chi) := by rw [prodI_edges, prodI_edges]; exact capA
  have cB : prodI (edges blo bhi) = prodI (edges clo chi) := by rw [prodI_edges, prodI_edges]; exact capB
  have CT1 := fun m : Loc → V => copy_effect (copyT (t := t1) sA sC pA pC inA inC capA shapeA f1) nA hK1 m
  have CT2 := fun m : Loc → V => copy_effect (copyT (t := t2) sB sC pB pC inB inC capB shapeB f5) nB hK2 m
  have CC : compatible n A alo ahi C clo chi = false →
      CopyCall false a (.reg A n) alo ahi c (.reg C n) clo chi := by
    intro hf
    refine ⟨sA, sC, pA, pC, sameA, inA, inC, capA, fun e => ?_, fun h => ⟨rfl, shapeA h⟩⟩
    rcases apart e rfl rfl with ⟨h1, h2⟩ | h
    · rw [sA' e, h1, h2, compatible_self sC.1 lC] at hf; cases hf
    · exact h
  -- the first operand
  have side1 : ∃ ga : Nat × RegArray,
      ga = (if compatible n A alo ahi C clo chi then (a, A) else if b ≠ c then (c, C) else (t1, C)) ∧
      (ga.1 == c) = aliasA a (.reg A n) alo ahi b (.reg B n) c (.reg C n) clo chi ∧ ga.1 ≠ t2 ∧
      Sound (.reg ga.2 n) ∧ PatchOK ga.2.dims clo chi ∧ (∀ p, p < n → owns ga.2 p = owns C p) ∧
      ga.2.width = C.width ∧ (ga.1 = c → ga.2 = C) ∧
      ∀ m : Loc → V,
        (Fits K1 clo chi → ∃ m1, if compatible n A alo ahi C clo chi then m1 = m else
          copyRun K1 false a (.reg A n) alo ahi ga.1 (.reg C n) clo chi m m1) ∧
        ∀ m1, (if compatible n A alo ahi C clo chi then m1 = m else
          copyRun K1 false a (.reg A n) alo ahi ga.1 (.reg C n) clo chi m m1) →
          (∀ x z, InPatch alo ahi x → InPatch clo chi z → SamePlace false alo ahi clo chi x z →
            m1 (ga.1, cell ga.2 z) = m (a, cell A x)) ∧
          ∀ l, l.1 ≠ t1 → (b = c ∨ ∀ z, InPatch clo chi z → (c, cell C z) ≠ l) → m1 l = m l := by
    by_cases hca : compatible n A alo ahi C clo chi = true
    · obtain ⟨a1, a2, a3, a4, a5⟩ := compatible_same sA sC inA inC likeA hca hn
      subst a1 a2
      refine ⟨(a, A), by simp only [if_pos hca], by simp only [aliasA, if_pos hca], f4.symm, sA, inA, a5, a3, sA', ?_⟩
      intro m
      simp only [if_pos hca]
      refine ⟨fun _ => ⟨m, rfl⟩, ?_⟩
      rintro m1 rfl
      exact ⟨fun x z hx hz p => by rw [samePlace_self hx hz p], fun _ _ _ => rfl⟩
    · rw [Bool.not_eq_true] at hca
      have g0 : ¬ compatible n A alo ahi C clo chi = true := by rw [hca]; decide
      by_cases hbc : b ≠ c
      · refine ⟨(c, C), by simp only [if_neg g0, if_pos hbc],
          by simp only [aliasA, if_neg g0, beq_self_eq_true, bne_iff_ne.2 hbc], f6.symm, sC, inC, fun _ _ => rfl, rfl,
          fun _ => rfl, ?_⟩
        intro m
        simp only [if_neg g0]
        obtain ⟨c1, c2⟩ := copy_effect (CC hca) nA hK1 m
        refine ⟨fun k => c1 (fit1 k), fun m1 hm => ?_⟩
        obtain ⟨d1, d2⟩ := c2 m1 hm
        exact ⟨fun x z hx hz p => d1 x z hx hz p, fun l _ h => d2 l (h.resolve_left hbc)⟩
      · refine ⟨(t1, C), by simp only [if_neg g0, if_neg hbc], ?_, f7, sC, inC, fun _ _ => rfl, rfl,
          fun e => absurd e f3, ?_⟩
        · simp only [aliasA, if_neg g0]
          rw [beq_eq_false_iff_ne.2 f3, bne_eq_false_iff_eq.2 (not_not.1 hbc)]
        · intro m
          simp only [if_neg g0]
          obtain ⟨c1, c2⟩ := CT1 m
          refine ⟨fun k => c1 (fit1 k), fun m1 hm => ?_⟩
          obtain ⟨d1, d2⟩ := c2 m1 hm
          exact ⟨fun x z hx hz p => d1 x z hx hz p, fun l h _ => d2 l fun w _ e => h (by rw [← e])⟩
  -- the second operand
  have side2 : ∃ gb : Nat × RegArray,
      gb = (if compatible n B blo bhi C clo chi then (b, B) else (t2, C)) ∧
      (gb.1 == c) = aliasB (.reg A n) b (.reg B n) blo bhi c (.reg C n) clo chi ∧
      Sound (.reg gb.2 n) ∧ PatchOK gb.2.dims clo chi ∧ (∀ p, p < n → owns gb.2 p = owns C p) ∧
      gb.2.width = C.width ∧ (gb.1 = c → gb.2 = C) ∧
      ∀ m : Loc → V,
        (Fits K2 clo chi → ∃ m1, if compatible n B blo bhi C clo chi then m1 = m else
          copyRun K2 false b (.reg B n) blo bhi gb.1 (.reg C n) clo chi m m1) ∧
        ∀ m1, (if compatible n B blo bhi C clo chi then m1 = m else
          copyRun K2 false b (.reg B n) blo bhi gb.1 (.reg C n) clo chi m m1) →
          (∀ y z, InPatch blo bhi y → InPatch clo chi z → SamePlace false blo bhi clo chi y z →
            m1 (gb.1, cell gb.2 z) = m (b, cell B y)) ∧
          ∀ l, l.1 ≠ t2 → m1 l = m l := by
    by_cases hcb : compatible n B blo bhi C clo chi = true
    · obtain ⟨a1, a2, a3, a4, a5⟩ := compatible_same sB sC inB inC likeB hcb hn
      subst a1 a2
      refine ⟨(b, B), by simp only [if_pos hcb], by simp only [aliasB, hcb, Bool.true_and], sB, inB, a5, a3, sB', ?_⟩
      intro m
      simp only [if_pos hcb]
      refine ⟨fun _ => ⟨m, rfl⟩, ?_⟩
      rintro m1 rfl
      exact ⟨fun x z hx hz p => by rw [samePlace_self hx hz p], fun _ _ => rfl⟩
    · refine ⟨(t2, C), by simp only [if_neg hcb], ?_, sC, inC, fun _ _ => rfl, rfl, fun e => absurd e f6, ?_⟩
      · simp only [aliasB]
        rw [beq_eq_false_iff_ne.2 f6, eq_false_of_ne_true hcb, Bool.false_and]
      · intro m
        simp only [if_neg hcb]
        obtain ⟨c1, c2⟩ := CT2 m
        refine ⟨fun k => c1 (fit2 k), fun m1 hm => ?_⟩
        obtain ⟨d1, d2⟩ := c2 m1 hm
        exact ⟨fun x z hx hz p => d1 x z hx hz p, fun l h => d2 l fun w _ e => h (by rw [← e])⟩
  obtain ⟨ga, ea, aa, ta, sa, ia, oa, wa, ca, runA⟩ := side1
  obtain ⟨gb, eb, ab, sb, ib, ob, wb, cb, runB⟩ := side2
  have hl := addLocal_acts (a := ga.1) (b := gb.1) (c := c) sa sb sC ia ib inC oa ob wa wb
  have hs : ∀ z ∈ box clo chi, ∀ z' ∈ box clo chi,
      (c, cellG (.reg C n) z') ∈ (comb2 ga.1 (.reg ga.2 n) gb.1 (.reg gb.2 n) c (.reg C n) z).srcs → z' = z := by
    intro z hz z' hz' h
    have hz := mem_box.1 hz
    have hz' := mem_box.1 hz'
    simp only [comb2, List.mem_cons, List.not_mem_nil, or_false, Prod.mk.injEq] at h
    rcases h with ⟨h1, h2⟩ | ⟨h1, h2⟩
    · rw [ca h1.symm] at h2
      exact cellG_inj sC (inC.inArray hz') (inC.inArray hz) h2
    · rw [cb h1.symm] at h2
      exact cellG_inj sC (inC.inArray hz') (inC.inArray hz) h2
  have fin := fun m2 : Loc → V => comb_effectO sC (nodup_box clo chi) (fun z hz => inC.inArray (mem_box.1 hz)) _ (fun _ => rfl)
    hs hl (bin (op (ga.1 == c) (gb.1 == c))) m2
  rw [aa, ab, ← hf] at fin
  -- values of the operands after the copies
  have vals : ∀ m1 m2 : Loc → V, (if compatible n A alo ahi C clo chi then m1 = m else
        copyRun K1 false a (.reg A n) alo ahi ga.1 (.reg C n) clo chi m m1) →
      (if compatible n B blo bhi C clo chi then m2 = m1 else
        copyRun K2 false b (.reg B n) blo bhi gb.1 (.reg C n) clo chi m1 m2) →
      ∀ x y z, InPatch alo ahi x → InPatch blo bhi y → InPatch clo chi z →
        SamePlace false alo ahi clo chi x z → SamePlace false blo bhi clo chi y z →
        bin f ((comb2 ga.1 (.reg ga.2 n) gb.1 (.reg gb.2 n) c (.reg C n) z).srcs.map m2) =
          f (m (a, cell A x)) (m (b, cell B y)) := by
    intro m1 m2 h1 h2 x y z hx hy hz p1 p2
    obtain ⟨u1, u2⟩ := (runA m).2 m1 h1
    obtain ⟨w1, w2⟩ := (runB m1).2 m2 h2
    simp only [comb2, List.map_cons, List.map_nil, bin, cellG]
    rw [w1 y z hy hz p2, w2 _ ta, u1 x z hx hz p1, u2 (b, cell B y) f2.symm]
    by_cases hbc : b = c
    · exact Or.inl hbc
    · exact Or.inr fun w _ e => hbc (congrArg Prod.fst e).symm
  unfold elem2Reg
  simp only [← ea, ← eb]
  rw [aa, ab, ← hf]
  constructor
  · intro k1 k2 hd
    obtain ⟨m1, h1⟩ := (runA m).1 k1
    obtain ⟨m2, h2⟩ := (runB m1).1 k2
    obtain ⟨m', h3⟩ := (fin m2).1 (by
      intro z hz
      have hz := mem_box.1 hz
      obtain ⟨x, hx, px⟩ := tgt_surj false inA.2.2 hz cA
      obtain ⟨y, hy, py⟩ := tgt_surj false inB.2.2 hz cB
      rw [vals m1 m2 h1 h2 x y z hx hy hz px py]
      exact hd x y z hx hy hz px py)
    exact ⟨m', m1, m2, h1, h2, h3⟩
  · rintro m' ⟨m1, m2, h1, h2, h3⟩
    obtain ⟨r1, r2⟩ := (fin m2).2 m' h3
    constructor
    · intro x y z hx hy hz px py
      have := r1 z (mem_box.2 hz)
      rw [vals m1 m2 h1 h2 x y z hx hy hz px py] at this
      exact this.symm
    · intro l l1 l2 h
      obtain ⟨u1, u2⟩ := (runA m).2 m1 h1
      obtain ⟨w1, w2⟩ := (runB m1).2 m2 h2
      rw [r2 l fun z hz => h z (mem_box.1 hz), w2 l l2, u2 l l1 (Or.inr h)]

private theorem elem_blk (h : AddCall a A alo ahi b B blo bhi c C clo chi t1 t2) {K1 K2 : CopyEnv}
    (hK1 : EnvsOK K1 C) (hK2 : EnvsOK K2 C) (op : Bool → Bool → V → V → Option V) (f : V → V → Option V)
    (hf : f = op false false) (m : Loc → V) :
    (Fits K1 clo chi → Fits K2 clo chi → AllDef f a A alo ahi b B blo bhi clo chi m →
      ∃ m', elem2Blk op K1 K2 a A alo ahi b B blo bhi c C clo chi t1 t2 m m') ∧
    ∀ m', elem2Blk op K1 K2 a A alo ahi b B blo bhi c C clo chi t1 t2 m m' →
      EffO f a A alo ahi b B blo bhi c C clo chi t1 t2 m m' := by
  obtain ⟨sA, sB, sC, pA, pB, pC, nA, nB, sameA, sameB, inA, inB, inC, capA, capB, apart, shapeA, shapeB, likeA, likeB,
    ⟨f1, f2, f3⟩, ⟨f4, f5, f6⟩, f7⟩ := h
  have fit1 : Fits K1 clo chi → Fits K1 alo ahi := by unfold Fits; rw [capA]; exact id
  have fit2 : Fits K2 clo chi → Fits K2 blo bhi := by unfold Fits; rw [capB]; exact id
  have cA : prodI (edges alo ahi) = prodI (edges clo chi) := by rw [prodI_edges, prodI_edges]; exact capA
  have cB : prodI (edges blo bhi) = prodI (edges clo chi) := by rw [prodI_edges, prodI_edges]; exact capB
  have CT1 := fun m : Loc → V => copy_effect (copyT (t := t1) sA sC pA pC inA inC capA shapeA f1) nA hK1 m
  have CT2 := fun m : Loc → V => copy_effect (copyT (t := t2) sB sC pB pC inB inC capB shapeB f5) nB hK2 m
  have AL := addItems_acts (a := t1) (b := t2) (c := c) sC pC inC
  have fin := fun m2 : Loc → V => comb_effectO sC (nodup_box clo chi) (fun z hz => inC.inArray (mem_box.1 hz)) _ (fun _ => rfl)
    (fun z hz z' hz' e => by
      simp only [comb2, List.mem_cons, List.not_mem_nil, or_false, Prod.mk.injEq] at e
      rcases e with e | e
      · exact absurd e.1.symm f3
      · exact absurd e.1.symm f6) AL (bin (op (t1 == c) (t2 == c))) m2
  rw [beq_eq_false_iff_ne.2 f3, beq_eq_false_iff_ne.2 f6, ← hf] at fin
  have vals : ∀ m1 m2 : Loc → V, copyRun K1 false a A alo ahi t1 C clo chi m m1 →
      copyRun K2 false b B blo bhi t2 C clo chi m1 m2 →
      ∀ x y z, InPatch alo ahi x → InPatch blo bhi y → InPatch clo chi z →
        SamePlace false alo ahi clo chi x z → SamePlace false blo bhi clo chi y z →
        bin f ((comb2 t1 C t2 C c C z).srcs.map m2) = f (m (a, cellG A x)) (m (b, cellG B y)) := by
    intro m1 m2 h1 h2 x y z hx hy hz p1 p2
    obtain ⟨c1, c2⟩ := (CT1 m).2 m1 h1
    obtain ⟨d1, d2⟩ := (CT2 m1).2 m2 h2
    have q3 := c1 x z hx hz p1
    have q4 := d1 y z hy hz p2
    have q5 := c2 (b, cellG B y) fun w _ e => f2 (congrArg Prod.fst e)
    have q6 := d2 (t1, cellG C z) fun w _ e => f7 (congrArg Prod.fst e).symm
    simp only [comb2, List.map_cons, List.map_nil, bin]
    rw [q6, q3, q4, q5]
  unfold elem2Blk
  rw [beq_eq_false_iff_ne.2 f3, beq_eq_false_iff_ne.2 f6, ← hf]
  constructor
  · intro k1 k2 hd
    obtain ⟨m1, h1⟩ := (CT1 m).1 (fit1 k1)
    obtain ⟨m2, h2⟩ := (CT2 m1).1 (fit2 k2)
    obtain ⟨m', h3⟩ := (fin m2).1 (by
      intro z hz
      have hz := mem_box.1 hz
      obtain ⟨x, hx, px⟩ := tgt_surj false inA.2.2 hz cA
      obtain ⟨y, hy, py⟩ := tgt_surj false inB.2.2 hz cB
      rw [vals m1 m2 h1 h2 x y z hx hy hz px py]
      exact hd x y z hx hy hz px py)
    exact ⟨m', m1, m2, h1, h2, h3⟩
  · rintro m' ⟨m1, m2, h1, h2, h3⟩
    obtain ⟨r1, r2⟩ := (fin m2).2 m' h3
    constructor
    · intro x y z hx hy hz px py
      have := r1 z (mem_box.2 hz)
      rw [vals m1 m2 h1 h2 x y z hx hy hz px py] at this
      exact this.symm
    · intro l l1 l2 h
      obtain ⟨c1, c2⟩ := (CT1 m).2 m1 h1
      obtain ⟨d1, d2⟩ := (CT2 m1).2 m2 h2
      rw [r2 l fun z hz => h z (mem_box.1 hz), d2 l fun w _ e => l2 (by rw [← e])]
      exact c2 l fun w _ e => l1 (by rw [← e])

private theorem elem_effect (h : AddCall a A alo ahi b B blo bhi c C clo chi t1 t2) {K1 K2 : CopyEnv}
    (hK1 : EnvsOK K1 C) (hK2 : EnvsOK K2 C) (op : Bool → Bool → V → V → Option V) (f : V → V → Option V)
    (hf : f = op (aliasA a A alo ahi b B c C clo chi) (aliasB A b B blo bhi c C clo chi)) (m : Loc → V) :
    (Fits K1 clo chi → Fits K2 clo chi → AllDef f a A alo ahi b B blo bhi clo chi m →
      ∃ m', elem2Run op K1 K2 a A alo ahi b B blo bhi c C clo chi t1 t2 m m') ∧
    ∀ m', elem2Run op K1 K2 a A alo ahi b B blo bhi c C clo chi t1 t2 m m' →
      EffO f a A alo ahi b B blo bhi c C clo chi t1 t2 m m' := by
  have capA : prodI (edges alo ahi) = prodI (edges clo chi) := by
    rw [prodI_edges, prodI_edges]; exact h.capA
  have capB : prodI (edges blo bhi) = prodI (edges clo chi) := by
    rw [prodI_edges, prodI_edges]; exact h.capB
  have hb := fun hf => elem_blk h hK1 hK2 op f hf m
  unfold elem2Run
  rw [inRange h.inA, inRange h.inB, inRange h.inC, extents_eq, extents_eq, extents_eq]
  simp only [Bool.or_self, Bool.false_eq_true, if_false, capA, capB, ne_eq, not_true_eq_false, or_self]
  cases C with
  | blk C => cases A <;> cases B <;> exact hb hf
  | reg C n =>
    cases A with
    | blk A => cases B <;> exact hb hf
    | reg A na =>
      cases B with
      | blk B => exact hb hf
      | reg B nb =>
        have e1 : na = n := h.nA
        have e2 : nb = n := h.nB
        subst e1 e2
        exact elem_reg h hK1 hK2 op f hf m

/-- legal operands: `f` is defined for every pair of elements at the same place -/
def Defined (f : V → V → Option V) (alo ahi blo bhi clo chi : List Int) (fa fb : List Int → V) : Prop :=
  ∀ x y z, InPatch alo ahi x → InPatch blo bhi y → InPatch clo chi z →
    SamePlace false alo ahi clo chi x z → SamePlace false blo bhi clo chi y z → ∃ v, f (fa x) (fb y) = some v

private theorem elem_holds (h : AddCall a A alo ahi b B blo bhi c C clo chi t1 t2) {K1 K2 : CopyEnv}
    (hK1 : EnvsOK K1 C) (hK2 : EnvsOK K2 C) (op : Bool → Bool → V → V → Option V) (f : V → V → Option V)
    (hf : f = op (aliasA a A alo ahi b B c C clo chi) (aliasB A b B blo bhi c C clo chi)) (m : Loc → V)
    (fa fb fc : List Int → V) (ha : HoldsAt a A m fa) (hb : HoldsAt b B m fb) (hc : HoldsAt c C m fc) :
    (Fits K1 clo chi → Fits K2 clo chi → Defined f alo ahi blo bhi clo chi fa fb →
      ∃ m', elem2Run op K1 K2 a A alo ahi b B blo bhi c C clo chi t1 t2 m m') ∧
    ∀ m', elem2Run op K1 K2 a A alo ahi b B blo bhi c C clo chi t1 t2 m m' →
      (∃ fc', HoldsAt c C m' fc' ∧
        ElemResult (fun x y z => f x y = some z) alo ahi blo bhi clo chi fa fb fc fc') ∧
      ∀ l : Loc, l.1 ≠ t1 → l.1 ≠ t2 → (l.1 = c → ∀ z, InPatch clo chi z → cellG C z ≠ l.2) → m' l = m l := by
  obtain ⟨e1, e2⟩ := elem_effect h hK1 hK2 op f hf m
  have ha := (holds_iff h.sA).1 ha
  have hb := (holds_iff h.sB).1 hb
  have hc := (holds_iff h.sC).1 hc
  have va : ∀ x, InPatch alo ahi x → m (a, cellG A x) = fa x := fun x hx => ha x (h.inA.inArray hx)
  have vb : ∀ x, InPatch blo bhi x → m (b, cellG B x) = fb x := fun x hx => hb x (h.inB.inArray hx)
  constructor
  · intro k1 k2 hd
    refine e1 k1 k2 fun x y z hx hy hz px py => ?_
    rw [va x hx, vb y hy]
    exact Option.isSome_iff_exists.2 (hd x y z hx hy hz px py)
  intro m' hm
  obtain ⟨h1, h2⟩ := e2 m' hm
  refine ⟨⟨fun z => if InPatch clo chi z then m' (c, cellG C z) else fc z, (holds_iff h.sC).2 ?_, ?_, ?_⟩, ?_⟩
  · intro z hz
    by_cases hp : InPatch clo chi z
    · simp only [if_pos hp]
    · simp only [if_neg hp]
      rw [← hc z hz]
      apply h2 _ h.fresh1.2.2.symm h.fresh2.2.2.symm
      intro w hw e
      have := cellG_inj h.sC (h.inC.inArray hw) hz (congrArg Prod.snd e)
      exact hp (this ▸ hw)
  · intro x y z hx hy hz p1 p2
    have := h1 x y z hx hy hz p1 p2
    rw [va x hx, vb y hy] at this
    simpa only [if_pos hz] using this
  · intro z hz
    simp only [if_neg hz]
  · intro l l1 l2 h
    apply h2 l l1 l2
    intro z hz e
    subst e
    exact h rfl z hz rfl

/-- **C57, partial.** An elementwise operation `f` on two patches (`NGA_Elem_multiply_patch`, `NGA_Elem_divide_patch`,
`NGA_Elem_maximum_patch`, `NGA_Elem_minimum_patch`; not the product of complex numbers): every element of the result patch is
`f` of the elements of the operands at the same place, nothing else changes in any array but the call's
own temporary ones, for every distribution, interleaving, change of shape and overlap of `B` with the result. The call
succeeds if `f` is defined for all pairs and the patches fit into one message. Missing as for
`C51_add_patch_partial`. -/
theorem C57_elem_partial (h : AddCall a A alo ahi b B blo bhi c C clo chi t1 t2) (K1 K2 : CopyEnv)
    (hK1 : EnvsOK K1 C) (hK2 : EnvsOK K2 C) (f : V → V → Option V) (m : Loc → V) (fa fb fc : List Int → V)
    (ha : HoldsAt a A m fa) (hb : HoldsAt b B m fb) (hc : HoldsAt c C m fc) :
    (Fits K1 clo chi → Fits K2 clo chi → Defined f alo ahi blo bhi clo chi fa fb →
      ∃ m', elem2Run (fun _ _ => f) K1 K2 a A alo ahi b B blo bhi c C clo chi t1 t2 m m') ∧
    ∀ m', elem2Run (fun _ _ => f) K1 K2 a A alo ahi b B blo bhi c C clo chi t1 t2 m m' →
      (∃ fc', HoldsAt c C m' fc' ∧
        ElemResult (fun x y z => f x y = some z) alo ahi blo bhi clo chi fa fb fc fc') ∧
      ∀ l : Loc, l.1 ≠ t1 → l.1 ≠ t2 → (l.1 = c → ∀ z, InPatch clo chi z → cellG C z ≠ l.2) → m' l = m l :=
  elem_holds h hK1 hK2 (fun _ _ => f) f rfl m fa fb fc ha hb hc

/-- every pair of elements of the operands has a place in the result -/
private theorem mates (h : AddCall a A alo ahi b B blo bhi c C clo chi t1 t2) {y : List Int} (hy : InPatch blo bhi y) :
    ∃ x z, InPatch alo ahi x ∧ InPatch clo chi z ∧ SamePlace false alo ahi clo chi x z ∧
      SamePlace false blo bhi clo chi y z := by
  have cA : prodI (edges alo ahi) = prodI (edges clo chi) := by rw [prodI_edges, prodI_edges]; exact h.capA
  have cB : prodI (edges blo bhi) = prodI (edges clo chi) := by rw [prodI_edges, prodI_edges]; exact h.capB
  obtain ⟨z, hz, pz⟩ := tgt_surj false h.inC.2.2 hy cB.symm
  obtain ⟨x, hx, px⟩ := tgt_surj false h.inA.2.2 hz cA
  refine ⟨x, z, hx, hz, px, ?_⟩
  unfold SamePlace at pz ⊢
  exact pz.symm

/-- **C57 (product), partial.** `NGA_Elem_multiply_patch` of integer and real arrays. Missing as in `C57_elem_partial`. -/
theorem C57_multiply_partial [Mul V] (h : AddCall a A alo ahi b B blo bhi c C clo chi t1 t2) (K1 K2 : CopyEnv)
    (hK1 : EnvsOK K1 C) (hK2 : EnvsOK K2 C) (m : Loc → V) (fa fb fc : List Int → V)
    (ha : HoldsAt a A m fa) (hb : HoldsAt b B m fb) (hc : HoldsAt c C m fc) :
    (Fits K1 clo chi → Fits K2 clo chi →
      ∃ m', elem2Run (fun _ _ x y => some (x * y)) K1 K2 a A alo ahi b B blo bhi c C clo chi t1 t2 m m') ∧
    ∀ m', elem2Run (fun _ _ x y => some (x * y)) K1 K2 a A alo ahi b B blo bhi c C clo chi t1 t2 m m' →
      (∃ fc', HoldsAt c C m' fc' ∧ ElemResult (fun x y z => z = x * y) alo ahi blo bhi clo chi fa fb fc fc') ∧
      ∀ l : Loc, l.1 ≠ t1 → l.1 ≠ t2 → (l.1 = c → ∀ z, InPatch clo chi z → cellG C z ≠ l.2) → m' l = m l := by
  obtain ⟨e1, e2⟩ := C57_elem_partial h K1 K2 hK1 hK2 (fun x y => some (x * y)) m fa fb fc ha hb hc
  refine ⟨fun k1 k2 => e1 k1 k2 fun _ _ _ _ _ _ _ _ => ⟨_, rfl⟩, fun m' hm => ?_⟩
  obtain ⟨⟨fc', q1, q2⟩, q3⟩ := e2 m' hm
  exact ⟨⟨fc', q1, fun x y z hx hy hz p1 p2 => (Option.some.inj (q2.inside x y z hx hy hz p1 p2)).symm, q2.outside⟩, q3⟩

/-- **C57 (maximum and minimum), partial.** `NGA_Elem_maximum_patch` and `NGA_Elem_minimum_patch` of integer and real arrays.
Missing as in `C57_elem_partial`. -/
theorem C57_max_min_partial [LinearOrder V] (h : AddCall a A alo ahi b B blo bhi c C clo chi t1 t2) (K1 K2 : CopyEnv)
    (hK1 : EnvsOK K1 C) (hK2 : EnvsOK K2 C) (m : Loc → V) (fa fb fc : List Int → V)
    (ha : HoldsAt a A m fa) (hb : HoldsAt b B m fb) (hc : HoldsAt c C m fc) :
    (∀ m', elem2Run (fun _ _ x y => some (gaMax x y)) K1 K2 a A alo ahi b B blo bhi c C clo chi t1 t2 m m' →
      (∃ fc', HoldsAt c C m' fc' ∧ ElemResult (fun x y z => z = max x y) alo ahi blo bhi clo chi fa fb fc fc') ∧
      ∀ l : Loc, l.1 ≠ t1 → l.1 ≠ t2 → (l.1 = c → ∀ z, InPatch clo chi z → cellG C z ≠ l.2) → m' l = m l) ∧
    (∀ m', elem2Run (fun _ _ x y => some (gaMin x y)) K1 K2 a A alo ahi b B blo bhi c C clo chi t1 t2 m m' →
      (∃ fc', HoldsAt c C m' fc' ∧ ElemResult (fun x y z => z = min x y) alo ahi blo bhi clo chi fa fb fc fc') ∧
      ∀ l : Loc, l.1 ≠ t1 → l.1 ≠ t2 → (l.1 = c → ∀ z, InPatch clo chi z → cellG C z ≠ l.2) → m' l = m l) ∧
    (Fits K1 clo chi → Fits K2 clo chi →
      (∃ m', elem2Run (fun _ _ x y => some (gaMax x y)) K1 K2 a A alo ahi b B blo bhi c C clo chi t1 t2 m m') ∧
      ∃ m', elem2Run (fun _ _ x y => some (gaMin x y)) K1 K2 a A alo ahi b B blo bhi c C clo chi t1 t2 m m') := by
  obtain ⟨e1, e2⟩ := C57_elem_partial h K1 K2 hK1 hK2 (fun x y => some (gaMax x y)) m fa fb fc ha hb hc
  obtain ⟨e3, e4⟩ := C57_elem_partial h K1 K2 hK1 hK2 (fun x y => some (gaMin x y)) m fa fb fc ha hb hc
  refine ⟨fun m' hm => ?_, fun m' hm => ?_, fun k1 k2 => ⟨e1 k1 k2 fun _ _ _ _ _ _ _ _ => ⟨_, rfl⟩,
    e3 k1 k2 fun _ _ _ _ _ _ _ _ => ⟨_, rfl⟩⟩⟩
  · obtain ⟨⟨fc', q1, q2⟩, q3⟩ := e2 m' hm
    exact ⟨⟨fc', q1, fun x y z hx hy hz p1 p2 => by
      rw [← gaMax_eq]; exact (Option.some.inj (q2.inside x y z hx hy hz p1 p2)).symm, q2.outside⟩, q3⟩
  · obtain ⟨⟨fc', q1, q2⟩, q3⟩ := e4 m' hm
    exact ⟨⟨fc', q1, fun x y z hx hy hz p1 p2 => by
      rw [← gaMin_eq]; exact (Option.some.inj (q2.inside x y z hx hy hz p1 p2)).symm, q2.outside⟩, q3⟩

/-- **C57 (quotient), partial.** `NGA_Elem_divide_patch` succeeds exactly if no element of the patch of the divisor is zero
(`div`: the division of the element type, `zero`: the elements it refuses, `R`: its result). Instances below. Missing as in `C57_elem_partial`. -/
private theorem divide_gen (div : V → V → Option V) (zero : V → Prop) (R : V → V → V → Prop)
    (hz : ∀ x y, div x y = none ↔ zero y) (hR : ∀ x y q, div x y = some q → R x y q)
    (h : AddCall a A alo ahi b B blo bhi c C clo chi t1 t2) (K1 K2 : CopyEnv)
    (hK1 : EnvsOK K1 C) (hK2 : EnvsOK K2 C) (m : Loc → V) (fa fb fc : List Int → V)
    (ha : HoldsAt a A m fa) (hb : HoldsAt b B m fb) (hc : HoldsAt c C m fc) :
    (Fits K1 clo chi → Fits K2 clo chi →
      ((∃ m', elem2Run (fun _ _ => div) K1 K2 a A alo ahi b B blo bhi c C clo chi t1 t2 m m') ↔
        ∀ y, InPatch blo bhi y → ¬ zero (fb y))) ∧
    ∀ m', elem2Run (fun _ _ => div) K1 K2 a A alo ahi b B blo bhi c C clo chi t1 t2 m m' →
      (∃ fc', HoldsAt c C m' fc' ∧ ElemResult R alo ahi blo bhi clo chi fa fb fc fc') ∧
      ∀ l : Loc, l.1 ≠ t1 → l.1 ≠ t2 → (l.1 = c → ∀ z, InPatch clo chi z → cellG C z ≠ l.2) → m' l = m l := by
  obtain ⟨e1, e2⟩ := C57_elem_partial h K1 K2 hK1 hK2 div m fa fb fc ha hb hc
  refine ⟨fun k1 k2 => ⟨?_, fun hy => ?_⟩, fun m' hm => ?_⟩
  · rintro ⟨m', hm⟩ y hy h0
    obtain ⟨⟨fc', q1, q2⟩, q3⟩ := e2 m' hm
    obtain ⟨x, z, hx, hz', px, py⟩ := mates h hy
    have := q2.inside x y z hx hy hz' px py
    rw [(hz (fa x) (fb y)).2 h0] at this
    cases this
  · refine e1 k1 k2 fun x y z hx hy' hz' px py => ?_
    rw [← Option.isSome_iff_exists, Option.isSome_iff_ne_none, ne_eq, hz]
    exact hy y hy'
  · obtain ⟨⟨fc', q1, q2⟩, q3⟩ := e2 m' hm
    exact ⟨⟨fc', q1, fun x y z hx hy hz p1 p2 => hR _ _ _ (q2.inside x y z hx hy hz p1 p2), q2.outside⟩, q3⟩

/-- **C57 (quotient of real numbers), partial.** `NGA_Elem_divide_patch` succeeds exactly if no element of the patch of
the divisor is zero. Missing as in `C57_elem_partial`. -/
theorem C57_divide_real_partial [Field V] [LinearOrder V] [IsStrictOrderedRing V]
    (h : AddCall a A alo ahi b B blo bhi c C clo chi t1 t2) (K1 K2 : CopyEnv)
    (hK1 : EnvsOK K1 C) (hK2 : EnvsOK K2 C) (m : Loc → V) (fa fb fc : List Int → V)
    (ha : HoldsAt a A m fa) (hb : HoldsAt b B m fb) (hc : HoldsAt c C m fc) :
    (Fits K1 clo chi → Fits K2 clo chi →
      ((∃ m', elem2Run (fun _ _ => divReal) K1 K2 a A alo ahi b B blo bhi c C clo chi t1 t2 m m') ↔
        ∀ y, InPatch blo bhi y → ¬ fb y = 0)) ∧
    ∀ m', elem2Run (fun _ _ => divReal) K1 K2 a A alo ahi b B blo bhi c C clo chi t1 t2 m m' →
      (∃ fc', HoldsAt c C m' fc' ∧ ElemResult (fun x y z => z * y = x) alo ahi blo bhi clo chi fa fb fc fc') ∧
      ∀ l : Loc, l.1 ≠ t1 → l.1 ≠ t2 → (l.1 = c → ∀ z, InPatch clo chi z → cellG C z ≠ l.2) → m' l = m l :=
  divide_gen divReal (fun y => y = 0) (fun x y z => z * y = x) (fun x y => (C57_div_real x y).1)
    (fun x y => (C57_div_real x y).2) h K1 K2 hK1 hK2 m fa fb fc ha hb hc

end

section
variable {a b c t1 t2 : Nat} {A B C : GArr} {alo ahi blo bhi clo chi : List Int}

/-- **C57 (quotient of integers), partial.** The quotients are truncated towards zero. Missing as in `C57_elem_partial`; overflow. -/
theorem C57_divide_int_partial (h : AddCall a A alo ahi b B blo bhi c C clo chi t1 t2) (K1 K2 : CopyEnv)
    (hK1 : EnvsOK K1 C) (hK2 : EnvsOK K2 C) (m : Loc → Int) (fa fb fc : List Int → Int)
    (ha : HoldsAt a A m fa) (hb : HoldsAt b B m fb) (hc : HoldsAt c C m fc) :
    (Fits K1 clo chi → Fits K2 clo chi →
      ((∃ m', elem2Run (fun _ _ => divInt) K1 K2 a A alo ahi b B blo bhi c C clo chi t1 t2 m m') ↔
        ∀ y, InPatch blo bhi y → ¬ fb y = 0)) ∧
    ∀ m', elem2Run (fun _ _ => divInt) K1 K2 a A alo ahi b B blo bhi c C clo chi t1 t2 m m' →
      (∃ fc', HoldsAt c C m' fc' ∧ ElemResult TruncQuot alo ahi blo bhi clo chi fa fb fc fc') ∧
      ∀ l : Loc, l.1 ≠ t1 → l.1 ≠ t2 → (l.1 = c → ∀ z, InPatch clo chi z → cellG C z ≠ l.2) → m' l = m l :=
  divide_gen divInt (fun y => y = 0) TruncQuot (fun x y => (C57_div_int x y).1)
    (fun x y => (C57_div_int x y).2) h K1 K2 hK1 hK2 m fa fb fc ha hb hc

variable {K : Type} [Inhabited K] [Field K] [LinearOrder K] [IsStrictOrderedRing K]

/-- **C57 (quotient of complex numbers), partial.** Missing as in `C57_elem_partial`. -/
theorem C57_divide_cpl_partial (h : AddCall a A alo ahi b B blo bhi c C clo chi t1 t2) (K1 K2 : CopyEnv)
    (hK1 : EnvsOK K1 C) (hK2 : EnvsOK K2 C) (m : Loc → Cx K) (fa fb fc : List Int → Cx K)
    (ha : HoldsAt a A m fa) (hb : HoldsAt b B m fb) (hc : HoldsAt c C m fc) :
    (Fits K1 clo chi → Fits K2 clo chi →
      ((∃ m', elem2Run (fun _ _ => divCpl) K1 K2 a A alo ahi b B blo bhi c C clo chi t1 t2 m m') ↔
        ∀ y, InPatch blo bhi y → ¬ ((fb y).re = 0 ∧ (fb y).im = 0))) ∧
    ∀ m', elem2Run (fun _ _ => divCpl) K1 K2 a A alo ahi b B blo bhi c C clo chi t1 t2 m m' →
      (∃ fc', HoldsAt c C m' fc' ∧ ElemResult (fun x y z => cmulRe z.re z.im y.re y.im = x.re ∧
        cmulIm z.re z.im y.re y.im = x.im) alo ahi blo bhi clo chi fa fb fc fc') ∧
      ∀ l : Loc, l.1 ≠ t1 → l.1 ≠ t2 → (l.1 = c → ∀ z, InPatch clo chi z → cellG C z ≠ l.2) → m' l = m l :=
  divide_gen divCpl (fun y => y.re = 0 ∧ y.im = 0) (fun x y z => cmulRe z.re z.im y.re y.im = x.re ∧
    cmulIm z.re z.im y.re y.im = x.im) (fun x y => (C57_div_cpl x y).1)
    (fun x y => (C57_div_cpl x y).2) h K1 K2 hK1 hK2 m fa fb fc ha hb hc

/-! ## the product of complex numbers -/

/-- two REGULAR arrays are distributed alike and accessed at the same bounds -/
def SameBlocks (A : GArr) (alo ahi : List Int) (C : GArr) (clo chi : List Int) : Prop :=
  match A, C with
  | .reg A _, .reg C n => (∀ p, p < n → owns A p = owns C p) ∧ alo = clo ∧ ahi = chi
  | _, _ => False

/-- **C57 (product of complex numbers), partial.** Right if the result array is neither operand and the first operand
has the blocks and bounds of the result, or if one of the arrays is block-cyclic. Missing: all other
calls (`C57_multiply_cpl_wrong`). -/
theorem C57_multiply_cpl_partial (h : AddCall a A alo ahi b B blo bhi c C clo chi t1 t2) (K1 K2 : CopyEnv)
    (hK1 : EnvsOK K1 C) (hK2 : EnvsOK K2 C) (m : Loc → Cx K) (fa fb fc : List Int → Cx K)
    (ha : HoldsAt a A m fa) (hb : HoldsAt b B m fb) (hc : HoldsAt c C m fc)
    (hs : A.isBlk = true ∨ B.isBlk = true ∨ C.isBlk = true ∨ (a ≠ c ∧ b ≠ c ∧ SameBlocks A alo ahi C clo chi)) :
    (Fits K1 clo chi → Fits K2 clo chi →
      ∃ m', elem2Run mulCpl K1 K2 a A alo ahi b B blo bhi c C clo chi t1 t2 m m') ∧
    ∀ m', elem2Run mulCpl K1 K2 a A alo ahi b B blo bhi c C clo chi t1 t2 m m' →
      (∃ fc', HoldsAt c C m' fc' ∧ ElemResult (fun x y z => z.re = cmulRe x.re x.im y.re y.im ∧
        z.im = cmulIm x.re x.im y.re y.im) alo ahi blo bhi clo chi fa fb fc fc') ∧
      ∀ l : Loc, l.1 ≠ t1 → l.1 ≠ t2 → (l.1 = c → ∀ z, InPatch clo chi z → cellG C z ≠ l.2) → m' l = m l := by
  have al : aliasA a A alo ahi b B c C clo chi = false ∧ aliasB A b B blo bhi c C clo chi = false := by
    cases A with
    | blk A => exact ⟨rfl, rfl⟩
    | reg A na =>
      cases B with
      | blk B => exact ⟨rfl, rfl⟩
      | reg B nb =>
        cases C with
        | blk C => exact ⟨rfl, rfl⟩
        | reg C n =>
          simp only [GArr.isBlk, Bool.false_eq_true, false_or] at hs
          obtain ⟨ac, bc, s1, s2, s3⟩ := hs
          have : compatible n A alo ahi C clo chi = true := by
            subst s2 s3
            unfold compatible
            rw [List.all_eq_true]
            intro p hp
            have := owns_len h.sC.1 p
            rw [s1 p (List.mem_range.1 hp), compPatch_self _ _ (by omega),
              compPatch_self _ _ (inPatch_lengths h.inC.2.2).1]
            rfl
          simp only [aliasA, aliasB, this, if_true, beq_eq_false_iff_ne.2 ac, beq_eq_false_iff_ne.2 bc, Bool.and_false,
            and_self]
  obtain ⟨e1, e2⟩ := elem_holds h hK1 hK2 mulCpl (mulCpl false false) (by rw [al.1, al.2]) m fa fb fc ha hb hc
  refine ⟨fun k1 k2 => e1 k1 k2 fun _ _ _ _ _ _ _ _ => ⟨_, rfl⟩, fun m' hm => ?_⟩
  obtain ⟨⟨fc', q1, q2⟩, q3⟩ := e2 m' hm
  refine ⟨⟨fc', q1, fun x y z hx hy hz p1 p2 => ?_, q2.outside⟩, q3⟩
  rw [← Option.some.inj (q2.inside x y z hx hy hz p1 p2)]
  exact ⟨rfl, rfl⟩

/-- **C57 fails for the product of complex numbers**, for all other REGULAR operands with `B` and `C` different arrays: if `A` is
the result array, or has other blocks or bounds than the result, then every imaginary part is computed
from the new real part instead of the real part of `A`. -/
theorem C57_multiply_cpl_wrong (h : AddCall a A alo ahi b B blo bhi c C clo chi t1 t2) (K1 K2 : CopyEnv)
    (hK1 : EnvsOK K1 C) (hK2 : EnvsOK K2 C) (m : Loc → Cx K) (fa fb fc : List Int → Cx K)
    (ha : HoldsAt a A m fa) (hb : HoldsAt b B m fb) (hc : HoldsAt c C m fc)
    (rA : A.isBlk = false) (rB : B.isBlk = false) (rC : C.isBlk = false) (bc : b ≠ c)
    (hs : a = c ∨ ¬ SameBlocks A alo ahi C clo chi) :
    ∀ m', elem2Run mulCpl K1 K2 a A alo ahi b B blo bhi c C clo chi t1 t2 m m' →
      ∃ fc', HoldsAt c C m' fc' ∧ ElemResult (fun x y z => z.re = cmulRe x.re x.im y.re y.im ∧
        z.im = cmulIm (cmulRe x.re x.im y.re y.im) x.im y.re y.im) alo ahi blo bhi clo chi fa fb fc fc' := by
  have al : aliasA a A alo ahi b B c C clo chi = true ∧ aliasB A b B blo bhi c C clo chi = false := by
    cases A with
    | blk A => simp [GArr.isBlk] at rA
    | reg A na =>
      cases B with
      | blk B => simp [GArr.isBlk] at rB
      | reg B nb =>
        cases C with
        | blk C => simp [GArr.isBlk] at rC
        | reg C n =>
          simp only [aliasA, aliasB, beq_eq_false_iff_ne.2 bc, Bool.and_false, and_true]
          by_cases hca : compatible n A alo ahi C clo chi = true
          · have e1 : na = n := h.nA
            subst e1
            obtain ⟨a1, a2, a3, a4, a5⟩ := compatible_same h.sA h.sC h.inA h.inC h.likeA hca (sound_pos h.sC h.inC)
            rw [if_pos hca]
            rcases hs with hs | hs
            · exact beq_iff_eq.2 hs
            · exact absurd ⟨a5, a1, a2⟩ hs
          · rw [if_neg hca]
            exact bne_iff_ne.2 bc
  obtain ⟨e1, e2⟩ := elem_holds h hK1 hK2 mulCpl (mulCpl true false) (by rw [al.1, al.2]) m fa fb fc ha hb hc
  intro m' hm
  obtain ⟨⟨fc', q1, q2⟩, q3⟩ := e2 m' hm
  refine ⟨fc', q1, fun x y z hx hy hz p1 p2 => ?_, q2.outside⟩
  rw [← Option.some.inj (q2.inside x y z hx hy hz p1 p2)]
  exact ⟨rfl, rfl⟩

end

/-! ## whole arrays -/

section
variable {V : Type} [Inhabited V] {a b c t1 t2 : Nat} {A B C : GArr}

/-- A legal call of `GA_Elem_multiply` etc. on arrays of the same group and the same dimensions. Any of the arrays may be the
same. -/
structure ElemAll (a : Nat) (A : GArr) (b : Nat) (B : GArr) (c : Nat) (C : GArr) (t1 t2 : Nat) : Prop where
  sA : Sound A
  sB : Sound B
  sC : Sound C
  pA : PtrOK A
  pB : PtrOK B
  pC : PtrOK C
  nA : A.nproc = C.nproc
  nB : B.nproc = C.nproc
  dimA : A.dims = C.dims
  dimB : B.dims = C.dims
  sameA : a = c → A = C
  sameB : b = c → B = C
  wA : SameWidth A C
  wB : SameWidth B C
  fresh1 : t1 ≠ a ∧ t1 ≠ b ∧ t1 ≠ c
  fresh2 : t2 ≠ a ∧ t2 ≠ b ∧ t2 ≠ c
  fresh12 : t1 ≠ t2

private theorem ElemAll.call (h : ElemAll a A b B c C t1 t2) :
    AddCall a A (onesL A.dims) A.dims b B (onesL B.dims) B.dims c C (onesL C.dims) C.dims t1 t2 := by
  have iA := patch_all h.sA
  have iB := patch_all h.sB
  have iC := patch_all h.sC
  refine ⟨h.sA, h.sB, h.sC, h.pA, h.pB, h.pC, h.nA, h.nB, h.sameA, h.sameB, iA, iB, iC,
    by rw [h.dimA], by rw [h.dimB], fun _ _ _ => Or.inl (by rw [h.dimA]; exact ⟨rfl, rfl⟩),
    fun _ => by rw [h.dimA], fun _ => by rw [h.dimB], ?_, ?_, h.fresh1, h.fresh2, h.fresh12⟩
  · have := h.wA
    cases A <;> cases C <;> first | trivial | exact fun _ => this
  · have := h.wB
    cases B <;> cases C <;> first | trivial | exact fun _ => this

/-- **C57 (whole arrays), partial.** `GA_Elem_multiply`, `GA_Elem_divide`, `GA_Elem_maximum` and `GA_Elem_minimum` with an operation `f` other
than the product of complex numbers: every element of `C` is `f` of the elements of `A` and `B` with the same subscript, also when the
arrays are the same. The call succeeds exactly if `f` is defined for all elements. Missing as in `C57_elem_partial`. -/
theorem C57_elem_all_partial (h : ElemAll a A b B c C t1 t2) (K1 K2 : CopyEnv) (hK1 : EnvsOK K1 C) (hK2 : EnvsOK K2 C)
    (f : V → V → Option V) (m : Loc → V) (fa fb : List Int → V) (ha : HoldsAt a A m fa) (hb : HoldsAt b B m fb) :
    (Fits K1 (onesL C.dims) C.dims → Fits K2 (onesL C.dims) C.dims →
      ((∃ m', elem2All (fun _ _ => f) K1 K2 a A b B c C t1 t2 m m') ↔
        ∀ z, InArray C.dims z → ∃ v, f (fa z) (fb z) = some v)) ∧
    ∀ m', elem2All (fun _ _ => f) K1 K2 a A b B c C t1 t2 m m' →
      (∃ fc', HoldsAt c C m' fc' ∧ ∀ z, InArray C.dims z → f (fa z) (fb z) = some (fc' z)) ∧
      ∀ l : Loc, l.1 ≠ t1 → l.1 ≠ t2 → (l.1 = c → ∀ z, InArray C.dims z → cellG C z ≠ l.2) → m' l = m l := by
  obtain ⟨e1, e2⟩ := C57_elem_partial h.call K1 K2 hK1 hK2 f m fa fb (fun z => m (c, cellG C z)) ha hb
    ((holds_iff h.sC).2 fun _ _ => rfl)
  have hd : ¬ (A.dims.length ≠ B.dims.length ∨ A.dims.length ≠ C.dims.length) := by
    rw [h.dimA, h.dimB]; simp
  have un : ∀ m', elem2All (fun _ _ => f) K1 K2 a A b B c C t1 t2 m m' ↔
      elem2Run (fun _ _ => f) K1 K2 a A (onesL A.dims) A.dims b B (onesL B.dims) B.dims c C (onesL C.dims) C.dims t1 t2 m m' := by
    intro m'
    unfold elem2All
    rw [if_neg hd]
    rfl
  simp only [un]
  have val : ∀ m', elem2Run (fun _ _ => f) K1 K2 a A (onesL A.dims) A.dims b B (onesL B.dims) B.dims c C (onesL C.dims) C.dims t1 t2 m m' →
      ∃ fc', HoldsAt c C m' fc' ∧ ∀ z, InArray C.dims z → f (fa z) (fb z) = some (fc' z) := by
    intro m' hm
    obtain ⟨⟨fc', q1, q2⟩, _⟩ := e2 m' hm
    refine ⟨fc', q1, fun z hz => ?_⟩
    have := q2.inside z z z
    rw [h.dimA, h.dimB] at this
    exact this hz hz hz rfl rfl
  refine ⟨fun k1 k2 => ⟨?_, fun hz => ?_⟩, fun m' hm => ⟨val m' hm, (e2 m' hm).2⟩⟩
  · rintro ⟨m', hm⟩ z hz
    obtain ⟨fc', _, q⟩ := val m' hm
    exact ⟨_, q z hz⟩
  · refine e1 k1 k2 fun x y z hx hy hz' px py => ?_
    rw [h.dimA] at hx px
    rw [h.dimB] at hy py
    rw [samePlace_self hx hz' px, samePlace_self hy hz' py]
    exact hz z hz'

/-- **C57 refused.** An elementwise operation on patches only returns if the patches lie inside their arrays and have the
same number of elements; one on whole arrays only if the arrays have the same number of dimensions. -/
theorem C57_refused {alo ahi blo bhi clo chi : List Int} (op : Bool → Bool → V → V → Option V)
    (l1 : alo.length = A.dims.length) (l2 : ahi.length = A.dims.length)
    (l3 : blo.length = B.dims.length) (l4 : bhi.length = B.dims.length) (l5 : clo.length = C.dims.length)
    (l6 : chi.length = C.dims.length) (K1 K2 : CopyEnv) (m m' : Loc → V) :
    (elem2Run op K1 K2 a A alo ahi b B blo bhi c C clo chi t1 t2 m m' →
      Inside A.dims alo ahi ∧ Inside B.dims blo bhi ∧ Inside C.dims clo chi ∧
      prodI (extents alo ahi) = prodI (extents clo chi) ∧ prodI (extents blo bhi) = prodI (extents clo chi)) ∧
    (elem2All op K1 K2 a A b B c C t1 t2 m m' →
      A.dims.length = B.dims.length ∧ A.dims.length = C.dims.length) := by
  constructor
  · intro h
    unfold elem2Run at h
    by_cases c1 : (outOfRange alo ahi A.dims || outOfRange blo bhi B.dims || outOfRange clo chi C.dims) = true
    · rw [if_pos c1] at h; cases h
    rw [if_neg c1] at h
    by_cases c2 : prodI (extents alo ahi) ≠ prodI (extents clo chi) ∨ prodI (extents blo bhi) ≠ prodI (extents clo chi)
    · rw [if_pos c2] at h; cases h
    simp only [Bool.or_eq_true, not_or, Bool.not_eq_true] at c1
    rw [not_or, not_not, not_not] at c2
    exact ⟨inside_of l1 l2 c1.1.1, inside_of l3 l4 c1.1.2, inside_of l5 l6 c1.2, c2.1, c2.2⟩
  · intro h
    unfold elem2All at h
    by_cases c1 : A.dims.length ≠ B.dims.length ∨ A.dims.length ≠ C.dims.length
    · rw [if_pos c1] at h; cases h
    rwa [not_or, not_not, not_not] at c1

end

/-! ## Non-vacuity -/

private theorem exG_s : Sound (.reg exG 7) := ⟨⟨by decide, by decide, by decide⟩, by decide⟩
private theorem exH_s : Sound (.reg exH 7) := ⟨⟨by decide, by decide, by decide⟩, by decide⟩

/-- memory with the value 2 everywhere; `0` in one element of the divisor -/
example : HoldsAt 0 (.reg exH 7) (fun _ => (2 : Int)) (fun _ => 2) := (holds_iff exH_s).2 fun _ _ => rfl
/-- whole arrays, all three the same -/
example : ElemAll 0 (.reg exH 7) 0 (.reg exH 7) 0 (.reg exH 7) 2 3 :=
  ⟨exH_s, exH_s, exH_s, trivial, trivial, trivial, rfl, rfl, rfl, rfl, fun _ => rfl, fun _ => rfl, rfl, rfl, by decide,
    by decide, by decide⟩
/-- a call to which `C57_multiply_cpl_partial` applies and one to which `C57_multiply_cpl_wrong` applies -/
example : SameBlocks (.reg exH 7) [1, 3] [4, 7] (.reg exH 7) [1, 3] [4, 7] := ⟨fun _ _ => rfl, rfl, rfl⟩
example : ¬ SameBlocks (.reg exG 7) [3, 2] [7, 5] (.reg exH 7) [1, 3] [4, 7] := fun h => by simp [SameBlocks] at h
/-- the wrong result: `i * i` in place is `-1 - i` -/
example : (mulCpl false false (⟨0, 1⟩ : Cx Int) ⟨0, 1⟩ = some ⟨-1, 0⟩) ∧
    (mulCpl true false (⟨0, 1⟩ : Cx Int) ⟨0, 1⟩ = some ⟨-1, -1⟩) := by decide

end GA
