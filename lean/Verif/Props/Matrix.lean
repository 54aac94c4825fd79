import Verif.Spec.Matrix
import Verif.Lemmas.Symmetrize
import Verif.Props.AddDot

/-!
# C54 (transpose, symmetrize) and C55 (diagonals, rows and columns)

`m`, `m'`: memory of all arrays before and after the call, for any interleaving.
-/

namespace GA
open Spec Model

/-- the one-sided calls to an array fit into one message -/
def FitsAll (E : Nat → List Int → Env) (G : GArr) : Prop :=
  ∀ p l, 0 ≤ (E p l).elemsize ∧ (E p l).elemsize * numElems (onesL G.dims) G.dims ≤ (E p l).maxInt

section
variable {V : Type}
variable {a b v : Nat} {A B Vc : GArr}

private theorem sub_fits {E : Nat → List Int → Env} {G : GArr} (h : FitsAll E G) {lo hi : List Int}
    (hp : PatchOK G.dims lo hi) (p : Nat) (l : List Int) :
    (E p l).elemsize * prodI (edges lo hi) ≤ (E p l).maxInt := by
  obtain ⟨h1, h2⟩ := h p l
  refine le_trans (Int.mul_le_mul_of_nonneg_left ?_ h1) h2
  rw [← prodI_edges]
  exact prodI_edges_mono hp.2.2 fun x hx => hp.inArray hx

/-- steps of all processes, chosen by `P` from the elements of the array -/
private theorem each_effect {items : Nat → List LItem} (vw : View A items (cellG A))
    {f : Nat → LItem → Option (List LAct)} (P : List Int → Bool) (F : List Int → LAct)
    (hf : ∀ p, p < A.nproc → ∀ it ∈ items p, ∀ bs, f p it = some bs → bs.Perm (((box it.lo it.hi).filter P).map F))
    {acts : Nat → Option (List LAct)} (hacts : acts = fun p => eachItem A (f p) p) {g : List V → V} {m m' : Loc → V}
    (hm : Par A.nproc acts g m m')
    (hinj : ∀ x y, InArray A.dims x → InArray A.dims y → P x = true → P y = true → (F x).dst = (F y).dst → x = y)
    (hsep : ∀ x y, InArray A.dims x → InArray A.dims y → P x = true → P y = true → (F x).dst ∈ (F y).srcs → x = y) :
    (∀ x, InArray A.dims x → P x = true → m' (F x).dst = g ((F x).srcs.map m)) ∧
    ∀ l, (∀ x, InArray A.dims x → P x = true → (F x).dst ≠ l) → m' l = m l := by
  subst hacts
  have mem : ∀ x, x ∈ (box (onesL A.dims) A.dims).filter P ↔ InArray A.dims x ∧ P x = true := by
    intro x; rw [List.mem_filter, mem_ones_box]
  obtain ⟨r1, r2⟩ := phase_effect hm (xs := (box (onesL A.dims) A.dims).filter P) (F := F) ((nodup_box _ _).filter _)
    (fun l hl => eachItem_perm vw P F hf hl)
    (fun x hx y hy e => hinj x y ((mem x).1 hx).1 ((mem y).1 hy).1 ((mem x).1 hx).2 ((mem y).1 hy).2 e)
    (fun x hx y hy e => hsep x y ((mem x).1 hx).1 ((mem y).1 hy).1 ((mem x).1 hx).2 ((mem y).1 hy).2 e)
  exact ⟨fun x h1 h2 => r1 x ((mem x).2 ⟨h1, h2⟩), fun l hl => r2 l fun x hx => hl x ((mem x).1 hx).1 ((mem x).1 hx).2⟩

private theorem each_exists {items : Nat → List LItem} (vw : View A items (cellG A))
    {f : Nat → LItem → Option (List LAct)} {acts : Nat → Option (List LAct)} (hacts : acts = fun p => eachItem A (f p) p)
    (hf : ∀ p, p < A.nproc → ∀ it ∈ items p, ∃ bs, f p it = some bs) (g : List V → V) (m : Loc → V) :
    ∃ m', Par A.nproc acts g m m' := by
  subst hacts
  obtain ⟨l, hl⟩ := eachItem_some vw hf
  exact ⟨_, l, _, hl, List.Perm.refl _, rfl⟩

/-! ## GA_Transpose -/

/-- A legal call of `GA_Transpose` from a `d1 x d2` matrix to another array with at least `d2` rows and
`d1` columns -/
structure TransposeCall (d1 d2 : Int) (a : Nat) (A : GArr) (b : Nat) (B : GArr) : Prop where
  sA : Sound A
  sB : Sound B
  pA : PtrOK A
  full : FullBlocks A
  ne : a ≠ b
  dA : A.dims = [d1, d2]
  dB : ∃ e1 e2, B.dims = [e1, e2] ∧ d2 ≤ e1 ∧ d1 ≤ e2

private theorem rev_in {d1 d2 e1 e2 : Int} (h1 : d2 ≤ e1) (h2 : d1 ≤ e2) {x : List Int} (h : InArray [d1, d2] x) :
    InArray [e1, e2] x.reverse := by
  obtain ⟨i, j, rfl, c⟩ := inArray2.1 h
  exact inArray2.2 ⟨j, i, rfl, by omega, by omega, by omega, by omega⟩

/-- **C54 (transpose), partial.** After `GA_Transpose`, `B[j][i] = A[i][j]`, and nothing else in any array has changed, for any
two distributions and every interleaving; the call does not fail if the matrix fits into one message.
Missing: tiled arrays with wrong block pointers (C48) or empty blocks, arrays with too few blocks
(C09), arrays on processor groups. -/
theorem C54_transpose_partial [Inhabited V] {d1 d2 : Int} (c : TransposeCall d1 d2 a A b B)
    (E : Nat → List Int → Env) (hE : ∀ p l, EnvG (E p l) B) (m : Loc → V) (fa fb : List Int → V)
    (ha : HoldsAt a A m fa) (hb : HoldsAt b B m fb) :
    (FitsAll E B → ∃ m', Par A.nproc (transposeActs E a A b B) moveVal m m') ∧
    ∀ m', Par A.nproc (transposeActs E a A b B) moveVal m m' →
      (∃ fb', HoldsAt b B m' fb' ∧ TransposeResult d1 d2 fa fb fb') ∧ HoldsAt a A m' fa ∧
      ∀ l : Loc, (l.1 = b → ∀ y, InArray B.dims y → cellG B y ≠ l.2) → m' l = m l := by
  obtain ⟨sA, sB, pA, full, ne, dA, e1, e2, dB, g1, g2⟩ := c
  obtain ⟨items, vw⟩ := view_of sA pA
  have hacts : transposeActs E a A b B = fun p => eachItem A (fun it => transItem (E p it.lo) a b B p it) p := by
    funext p
    simp only [transposeActs, if_neg ne, dA, dB, List.length_cons, List.length_nil, ne_eq, not_true_eq_false, or_self,
      if_false, eachItem]
  have hblk : ∀ p, p < A.nproc → ∀ it ∈ items p, PatchOK B.dims it.lo.reverse it.hi.reverse := by
    intro p hp it hit
    have hne := view_nonempty sA pA full vw hp hit
    have i1 := item_in vw hp hit hne
    have i2 := item_in vw hp hit (inPatch_upper hne)
    rw [dA] at i1 i2
    rw [dB]
    refine ⟨rev_in g1 g2 i1, rev_in g1 g2 i2, ?_⟩
    obtain ⟨l1, l2, q1, _⟩ := inArray2.1 i1
    obtain ⟨h1, h2, q2, _⟩ := inArray2.1 i2
    rw [q1, q2] at hne ⊢
    obtain ⟨i, j, q3, c3⟩ := inPatch2.1 hne
    simp only [List.cons.injEq, and_true] at q3
    exact inPatch2.2 ⟨l2, l1, rfl, le_refl _, by omega, le_refl _, by omega⟩
  have spec := fun p hp it hit =>
    let I := view_item (p := p) (it := it) vw (by rw [dA]; rfl) hp hit
    transItem_spec (E := E p it.lo) (a := a) (b := b) (p := p) (A := A) sB (hE p it.lo) I.lo I.hi I.ld I.cell
      (hblk p hp it hit)
  constructor
  · intro hf
    exact each_exists vw hacts (fun p hp it hit => (spec p hp it hit).2 (sub_fits hf (hblk p hp it hit) p it.lo)) _ m
  intro m' hm
  have revA : ∀ x, InArray A.dims x → InArray B.dims x.reverse := by
    intro x hx
    rw [dA] at hx
    rw [dB]
    exact rev_in g1 g2 hx
  obtain ⟨r1, r2⟩ := each_effect vw (fun _ => true) (trAct a A b B)
    (fun p hp it hit bs hbs => by
      rw [List.filter_eq_self.2 fun _ _ => rfl]; exact (spec p hp it hit).1 bs hbs) hacts hm
    (by
      intro x y hx hy _ _ e
      simp only [trAct, Prod.mk.injEq, true_and] at e
      have := cellG_inj sB (revA x hx) (revA y hy) e
      exact List.reverse_injective this)
    (by
      intro x y _ _ _ _ e
      simp only [trAct, List.mem_singleton, Prod.mk.injEq] at e
      exact absurd e.1.symm ne)
  have ha' := (holds_iff sA).1 ha
  have hb' := (holds_iff sB).1 hb
  refine ⟨⟨fun y => if InArray B.dims y then m' (b, cellG B y) else fb y,
    (holds_iff sB).2 fun y hy => by simp only [if_pos hy], ?_, ?_⟩, (holds_iff sA).2 ?_, ?_⟩
  · intro i j c1 c2 c3 c4
    have hin : InArray A.dims [i, j] := by rw [dA]; exact inArray2.2 ⟨i, j, rfl, c1, c2, c3, c4⟩
    have q := r1 [i, j] hin rfl
    have hr := revA _ hin
    simp only [trAct, List.reverse_cons, List.reverse_nil, List.nil_append, List.cons_append, List.map_cons, List.map_nil,
      moveVal] at q hr
    simp only [if_pos hr]
    rw [q]
    exact ha' _ hin
  · intro i j hout
    split
    · next hin =>
      rw [r2]
      · exact hb' _ hin
      · intro x hx _ e
        simp only [trAct, Prod.mk.injEq, true_and] at e
        have := cellG_inj sB (revA x hx) hin e
        rw [dA] at hx
        obtain ⟨i', j', rfl, c⟩ := inArray2.1 hx
        simp only [List.reverse_cons, List.reverse_nil, List.nil_append, List.cons_append, List.cons.injEq, and_true] at this
        omega
    · rfl
  · intro x hx
    rw [← ha' x hx]
    apply r2
    intro y _ _ e
    exact ne (congrArg Prod.fst e).symm
  · intro l hl
    apply r2
    intro x hx _ e
    subst e
    exact hl rfl _ (revA x hx) rfl

/-! ## Diagonals -/

/-- A legal call with a `d1 x d2` matrix and a vector as long as its diagonal -/
structure DiagCall (d1 d2 : Int) (a : Nat) (A : GArr) (v : Nat) (Vc : GArr) : Prop where
  sA : Sound A
  sV : Sound Vc
  pA : PtrOK A
  ne : a ≠ v
  dA : A.dims = [d1, d2]
  dV : Vc.dims = [min d1 d2]

private theorem onDiag_iff {x : List Int} : onDiag x = true ↔ ∃ i, x = [i, i] := by
  constructor
  · intro h
    match x, h with
    | [i, j], h =>
      simp only [onDiag, decide_eq_true_eq] at h
      exact ⟨i, by rw [h]⟩
  · rintro ⟨i, rfl⟩
    simp [onDiag]

private theorem diag_vec {d1 d2 : Int} (dA : A.dims = [d1, d2]) (dV : Vc.dims = [min d1 d2]) {x : List Int}
    (hx : InArray A.dims x) (hd : onDiag x = true) : InArray Vc.dims (x.take 1) := by
  obtain ⟨i, rfl⟩ := onDiag_iff.1 hd
  rw [dA] at hx
  obtain ⟨_, _, e, c⟩ := inArray2.1 hx
  simp only [List.cons.injEq, and_true] at e
  rw [dV]
  exact inArray1.2 ⟨i, rfl, by omega, by omega⟩

/-- from the effect on the diagonal to the content of the array -/
private theorem diag_result {d1 d2 : Int} (sA : Sound A) (dA : A.dims = [d1, d2]) {m m' : Loc → V} {fa : List Int → V}
    (ha : HoldsAt a A m fa) {new : Int → V} (r1 : ∀ i, InArray A.dims [i, i] → m' (a, cellG A [i, i]) = new i)
    (r2 : ∀ l, (∀ x, InArray A.dims x → onDiag x = true → (a, cellG A x) ≠ l) → m' l = m l) :
    (∃ fa', HoldsAt a A m' fa' ∧ DiagResult d1 d2 fa new fa') ∧
    ∀ l : Loc, (l.1 = a → ∀ i, InArray A.dims [i, i] → cellG A [i, i] ≠ l.2) → m' l = m l := by
  have ha' := (holds_iff sA).1 ha
  refine ⟨⟨fun y => if InArray A.dims y then m' (a, cellG A y) else fa y,
    (holds_iff sA).2 fun y hy => by simp only [if_pos hy], ?_, ?_⟩, ?_⟩
  · intro i c1 c2 c3
    have hin : InArray A.dims [i, i] := by rw [dA]; exact inArray2.2 ⟨i, i, rfl, c1, c2, c1, c3⟩
    simp only [if_pos hin]
    exact r1 i hin
  · intro i j hij
    split
    · next hin =>
      rw [r2]
      · exact ha' _ hin
      · intro x hx hd e
        simp only [Prod.mk.injEq, true_and] at e
        have := cellG_inj sA hx hin e
        subst this
        simp only [onDiag, decide_eq_true_eq] at hd
        exact hij hd
    · rfl
  · intro l hl
    apply r2
    intro x hx hd e
    subst e
    obtain ⟨i, rfl⟩ := onDiag_iff.1 hd
    exact hl rfl i hx rfl

section
variable {d1 d2 : Int}

private theorem diag_checks (c : DiagCall d1 d2 a A v Vc) : diagChecks A Vc = true := by
  simp only [diagChecks, c.dA, c.dV, decide_true]

/-- **C55 (get_diag), partial.** After `GA_Get_diag`, `v[i] = A[i][i]`; nothing but the elements of `v` changes. The call does not fail
if the vector fits into one message. Missing: as for `C54_transpose_partial`; blocks may be empty. -/
theorem C55_get_diag_partial [Inhabited V] (c : DiagCall d1 d2 a A v Vc) (E : Nat → List Int → Env)
    (hE : ∀ p l, EnvG (E p l) Vc) (m : Loc → V) (fa : List Int → V) (ha : HoldsAt a A m fa) :
    (FitsAll E Vc → ∃ m', Par A.nproc (getDiagActs E a A v Vc) moveVal m m') ∧
    ∀ m', Par A.nproc (getDiagActs E a A v Vc) moveVal m m' →
      (∃ fv', HoldsAt v Vc m' fv' ∧ DiagonalOf d1 d2 fa fv') ∧ HoldsAt a A m' fa ∧
      ∀ l : Loc, (l.1 = v → ∀ y, InArray Vc.dims y → cellG Vc y ≠ l.2) → m' l = m l := by
  have hck := diag_checks c
  obtain ⟨sA, sV, pA, ne, dA, dV⟩ := c
  obtain ⟨items, vw⟩ := view_of sA pA
  have hacts : getDiagActs E a A v Vc = fun p => eachItem A (fun it => getDiagItem (E p it.lo) a v Vc p it) p := by
    funext p
    simp only [getDiagActs, hck, if_true]
  have spec := fun p hp it hit => getDiagItem_spec (a := a) (v := v) (E := E p it.lo) dA dV sV (hE p it.lo)
    (view_item (p := p) (it := it) vw (by rw [dA]; rfl) hp hit)
  constructor
  · intro hf
    exact each_exists vw hacts (fun p hp it hit => (spec p hp it hit).2 fun x y h => sub_fits hf h p it.lo) _ m
  intro m' hm
  obtain ⟨r1, r2⟩ := each_effect vw onDiag (getDiagAct a A v Vc) (fun p hp it hit bs hbs => (spec p hp it hit).1 bs hbs)
    hacts hm
    (by
      intro x y hx hy dx dy e
      simp only [getDiagAct, Prod.mk.injEq, true_and] at e
      have := cellG_inj sV (diag_vec dA dV hx dx) (diag_vec dA dV hy dy) e
      obtain ⟨i, rfl⟩ := onDiag_iff.1 dx
      obtain ⟨j, rfl⟩ := onDiag_iff.1 dy
      simp only [List.take_succ_cons, List.take_zero, List.cons.injEq, and_true] at this
      rw [this])
    (by
      intro x y _ _ _ _ e
      simp only [getDiagAct, List.mem_singleton, Prod.mk.injEq] at e
      exact absurd e.1.symm ne)
  have ha' := (holds_iff sA).1 ha
  refine ⟨⟨fun y => m' (v, cellG Vc y), (holds_iff sV).2 fun y _ => rfl, ?_⟩, (holds_iff sA).2 ?_, ?_⟩
  · intro i c1 c2 c3
    have hin : InArray A.dims [i, i] := by rw [dA]; exact inArray2.2 ⟨i, i, rfl, c1, c2, c1, c3⟩
    have q := r1 [i, i] hin (by simp [onDiag])
    simp only [getDiagAct, List.take_succ_cons, List.take_zero, List.map_cons, List.map_nil, moveVal] at q
    simp only
    rw [q]
    exact ha' _ hin
  · intro x hx
    rw [← ha' x hx]
    apply r2
    intro y _ _ e
    exact ne (congrArg Prod.fst e).symm
  · intro l hl
    apply r2
    intro x hx hd e
    subst e
    exact hl rfl _ (diag_vec dA dV hx hd) rfl

private theorem put_diag (self : Bool) (c : DiagCall d1 d2 a A v Vc) {E : Nat → List Int → Env}
    (hE : ∀ p l, EnvG (E p l) Vc) {m : Loc → V} {fa fv : List Int → V} (ha : HoldsAt a A m fa) (hv : HoldsAt v Vc m fv)
    (g : List V → V) (new : Int → V)
    (hg : ∀ i, g ((if self then [fa [i, i]] else []) ++ [fv [i]]) = new i) :
    (FitsAll E Vc → ∃ m', Par A.nproc (putDiagActs self E a A v Vc) g m m') ∧
    ∀ m', Par A.nproc (putDiagActs self E a A v Vc) g m m' →
      (∃ fa', HoldsAt a A m' fa' ∧ DiagResult d1 d2 fa new fa') ∧
      ∀ l : Loc, (l.1 = a → ∀ i, InArray A.dims [i, i] → cellG A [i, i] ≠ l.2) → m' l = m l := by
  have hck := diag_checks c
  obtain ⟨sA, sV, pA, ne, dA, dV⟩ := c
  obtain ⟨items, vw⟩ := view_of sA pA
  have hacts : putDiagActs self E a A v Vc =
      fun p => eachItem A (fun it => putDiagItem self (E p it.lo) a v Vc p it) p := by
    funext p
    simp only [putDiagActs, hck, if_true]
  have spec := fun p hp it hit => putDiagItem_spec (a := a) (v := v) (E := E p it.lo) self dA dV sV (hE p it.lo)
    (view_item (p := p) (it := it) vw (by rw [dA]; rfl) hp hit)
  constructor
  · intro hf
    exact each_exists vw hacts (fun p hp it hit => (spec p hp it hit).2 fun x y h => sub_fits hf h p it.lo) _ m
  intro m' hm
  obtain ⟨r1, r2⟩ := each_effect vw onDiag (putDiagAct self a A v Vc)
    (fun p hp it hit bs hbs => (spec p hp it hit).1 bs hbs) hacts hm
    (by
      intro x y hx hy dx dy e
      simp only [putDiagAct, Prod.mk.injEq, true_and] at e
      exact cellG_inj sA hx hy e)
    (by
      intro x y hx hy _ _ e
      simp only [putDiagAct, List.mem_append, List.mem_singleton, Prod.mk.injEq] at e
      rcases e with e | e
      · cases self with
        | false => simp at e
        | true =>
          simp only [if_true, List.mem_singleton, Prod.mk.injEq, true_and] at e
          exact cellG_inj sA hx hy e
      · exact absurd e.1 ne)
  have ha' := (holds_iff sA).1 ha
  have hv' := (holds_iff sV).1 hv
  refine diag_result sA dA ha (fun i hin => ?_) r2
  have hd : onDiag [i, i] = true := by simp [onDiag]
  have q := r1 [i, i] hin hd
  have q1 := ha' _ hin
  have q2 := hv' _ (diag_vec dA dV hin hd)
  simp only [putDiagAct, List.take_succ_cons, List.take_zero] at q q2
  rw [q, ← hg i]
  cases self <;> simp [q1, q2]

/-- **C55 (add_diagonal), partial.** `GA_Add_diagonal` adds `v[i]` to `A[i][i]` and changes nothing else. Missing: as for
`C55_get_diag_partial`. -/
theorem C55_add_diagonal_partial [CommSemiring V] [Inhabited V] (c : DiagCall d1 d2 a A v Vc) (E : Nat → List Int → Env)
    (hE : ∀ p l, EnvG (E p l) Vc) (m : Loc → V) (fa fv : List Int → V) (ha : HoldsAt a A m fa) (hv : HoldsAt v Vc m fv) :
    (FitsAll E Vc → ∃ m', Par A.nproc (putDiagActs true E a A v Vc) addVal m m') ∧
    ∀ m', Par A.nproc (putDiagActs true E a A v Vc) addVal m m' →
      (∃ fa', HoldsAt a A m' fa' ∧ DiagResult d1 d2 fa (fun i => fa [i, i] + fv [i]) fa') ∧
      ∀ l : Loc, (l.1 = a → ∀ i, InArray A.dims [i, i] → cellG A [i, i] ≠ l.2) → m' l = m l :=
  put_diag true c hE ha hv addVal _ fun _ => rfl

/-- **C55 (set_diagonal), partial.** `GA_Set_diagonal` sets `A[i][i]` to `v[i]` and changes nothing else. Missing: as for
`C55_get_diag_partial`. -/
theorem C55_set_diagonal_partial [Inhabited V] (c : DiagCall d1 d2 a A v Vc) (E : Nat → List Int → Env)
    (hE : ∀ p l, EnvG (E p l) Vc) (m : Loc → V) (fa fv : List Int → V) (ha : HoldsAt a A m fa) (hv : HoldsAt v Vc m fv) :
    (FitsAll E Vc → ∃ m', Par A.nproc (putDiagActs false E a A v Vc) moveVal m m') ∧
    ∀ m', Par A.nproc (putDiagActs false E a A v Vc) moveVal m m' →
      (∃ fa', HoldsAt a A m' fa' ∧ DiagResult d1 d2 fa (fun i => fv [i]) fa') ∧
      ∀ l : Loc, (l.1 = a → ∀ i, InArray A.dims [i, i] → cellG A [i, i] ≠ l.2) → m' l = m l :=
  put_diag false c hE ha hv moveVal _ fun _ => rfl

/-- **C55 (shift_diagonal), partial.** `GA_Shift_diagonal` adds a constant to `A[i][i]`, changes nothing else and does not fail.
Missing: as for `C55_get_diag_partial`. -/
theorem C55_shift_diagonal_partial [CommSemiring V] [Inhabited V] (sA : Sound A) (pA : PtrOK A) (dA : A.dims = [d1, d2])
    (k : V) (m : Loc → V) (fa : List Int → V) (ha : HoldsAt a A m fa) :
    (∃ m', Par A.nproc (shiftDiagActs a A) (shiftVal k) m m') ∧
    ∀ m', Par A.nproc (shiftDiagActs a A) (shiftVal k) m m' →
      (∃ fa', HoldsAt a A m' fa' ∧ DiagResult d1 d2 fa (fun i => fa [i, i] + k) fa') ∧
      ∀ l : Loc, (l.1 = a → ∀ i, InArray A.dims [i, i] → cellG A [i, i] ≠ l.2) → m' l = m l := by
  obtain ⟨items, vw⟩ := view_of sA pA
  have hacts : shiftDiagActs a A = fun p => eachItem A (shiftDiagItem a p) p := by
    funext p
    simp only [shiftDiagActs, dA, List.length_cons, List.length_nil, if_true]
  have spec := fun p hp it hit => shiftDiagItem_spec (a := a)
    (view_item (p := p) (it := it) vw (by rw [dA]; rfl) hp hit)
  constructor
  · exact each_exists vw hacts (fun p hp it hit => ⟨_, (spec p hp it hit).choose_spec.1⟩) _ m
  intro m' hm
  obtain ⟨r1, r2⟩ := each_effect vw onDiag (selfAct a A)
    (fun p hp it hit bs hbs => by
      obtain ⟨bs', e1, e2⟩ := spec p hp it hit
      rw [hbs, Option.some.injEq] at e1
      rw [e1]; exact e2) hacts hm
    (by
      intro x y hx hy _ _ e
      simp only [selfAct, Prod.mk.injEq, true_and] at e
      exact cellG_inj sA hx hy e)
    (by
      intro x y hx hy _ _ e
      simp only [selfAct, List.mem_singleton, Prod.mk.injEq, true_and] at e
      exact cellG_inj sA hx hy e)
  have ha' := (holds_iff sA).1 ha
  refine diag_result sA dA ha (fun i hin => ?_) r2
  have q := r1 [i, i] hin (by simp [onDiag])
  have q1 := ha' _ hin
  simp only [selfAct, List.map_cons, List.map_nil, shiftVal] at q
  rw [q, q1]

/-- **C55 (zero_diagonal), partial.** `GA_Zero_diagonal` sets `A[i][i]` to 0 and changes nothing else, if every block that meets
the diagonal begins on it. Missing: all other distributions, where it clears other elements
(`C55_zero_diagonal_wrong`). -/
theorem C55_zero_diagonal_partial [CommSemiring V] [Inhabited V] (sA : Sound A) (pA : PtrOK A) (dA : A.dims = [d1, d2])
    (hsq : ∀ p items, p < A.nproc → A.localIter p = some items → ∀ it ∈ items,
      (∃ i, InPatch it.lo it.hi [i, i]) → ∃ k, it.lo = [k, k])
    (m : Loc → V) (fa : List Int → V) (ha : HoldsAt a A m fa) :
    (∃ m', Par A.nproc (zeroDiagActs a A) zeroVal m m') ∧
    ∀ m', Par A.nproc (zeroDiagActs a A) zeroVal m m' →
      (∃ fa', HoldsAt a A m' fa' ∧ DiagResult d1 d2 fa (fun _ => 0) fa') ∧
      ∀ l : Loc, (l.1 = a → ∀ i, InArray A.dims [i, i] → cellG A [i, i] ≠ l.2) → m' l = m l := by
  obtain ⟨items, vw⟩ := view_of sA pA
  have hacts : zeroDiagActs a A = fun p => eachItem A (zeroDiagItem a p) p := rfl
  have spec := fun p hp it hit => zeroDiagItem_spec (a := a)
    (view_item (p := p) (it := it) vw (by rw [dA]; rfl) hp hit) (hsq p _ hp (vw.iter p hp) it hit)
  constructor
  · exact each_exists vw hacts (fun p hp it hit => ⟨_, (spec p hp it hit).choose_spec.1⟩) _ m
  intro m' hm
  obtain ⟨r1, r2⟩ := each_effect vw onDiag (fun x => ⟨(a, cellG A x), []⟩)
    (fun p hp it hit bs hbs => by
      obtain ⟨bs', e1, e2⟩ := spec p hp it hit
      rw [hbs, Option.some.injEq] at e1
      rw [e1]; exact e2) hacts hm
    (by
      intro x y hx hy _ _ e
      simp only [Prod.mk.injEq, true_and] at e
      exact cellG_inj sA hx hy e)
    (by
      intro x y hx hy _ _ e
      cases e)
  exact diag_result sA dA ha (fun i hin => r1 [i, i] hin (by simp [onDiag])) r2

/-! ## Rows and columns -/

/-- A legal call with a `d1 x d2` matrix and a vector with an element for each row or column -/
structure RCCall (row : Bool) (d1 d2 : Int) (a : Nat) (A : GArr) (v : Nat) (Vc : GArr) : Prop where
  sA : Sound A
  sV : Sound Vc
  pA : PtrOK A
  full : FullBlocks A
  ne : a ≠ v
  dA : A.dims = [d1, d2]
  dV : Vc.dims = [if row then d1 else d2]

private theorem scale_rc [CommSemiring V] [Inhabited V] (row : Bool) (c : RCCall row d1 d2 a A v Vc) {E : Nat → List Int → Env}
    (hE : ∀ p l, EnvG (E p l) Vc) {m : Loc → V} {fa fv : List Int → V} (ha : HoldsAt a A m fa) (hv : HoldsAt v Vc m fv) :
    (FitsAll E Vc → ∃ m', Par A.nproc (scaleRCActs row E a A v Vc) mulVal m m') ∧
    ∀ m', Par A.nproc (scaleRCActs row E a A v Vc) mulVal m m' →
      HoldsAt a A m' (fun x => fa x * fv (if row then x.take 1 else x.drop 1)) ∧
      ∀ l : Loc, (l.1 = a → ∀ x, InArray A.dims x → cellG A x ≠ l.2) → m' l = m l := by
  obtain ⟨sA, sV, pA, full, ne, dA, dV⟩ := c
  obtain ⟨items, vw⟩ := view_of sA pA
  have hacts : scaleRCActs row E a A v Vc =
      fun p => eachItem A (fun it => scaleRCItem row (E p it.lo) a v Vc p it) p := by
    funext p
    simp only [scaleRCActs, rcChecks, dA, dV, decide_true, if_true]
  have spec := fun p hp it hit => scaleRCItem_spec (a := a) (v := v) (E := E p it.lo) row dA dV sV (hE p it.lo)
    (view_item (p := p) (it := it) vw (by rw [dA]; rfl) hp hit) (view_nonempty sA pA full vw hp hit)
  constructor
  · intro hf
    exact each_exists vw hacts (fun p hp it hit => (spec p hp it hit).2 fun x y h => sub_fits hf h p it.lo) _ m
  intro m' hm
  obtain ⟨r1, r2⟩ := each_effect vw (fun _ => true) (rcAct row a A v Vc)
    (fun p hp it hit bs hbs => by
      rw [List.filter_eq_self.2 fun _ _ => rfl]; exact (spec p hp it hit).1 bs hbs) hacts hm
    (by
      intro x y hx hy _ _ e
      simp only [rcAct, Prod.mk.injEq, true_and] at e
      exact cellG_inj sA hx hy e)
    (by
      intro x y hx hy _ _ e
      simp only [rcAct, List.mem_cons, List.not_mem_nil, or_false, Prod.mk.injEq, true_and] at e
      rcases e with e | e
      · exact cellG_inj sA hx hy e
      · exact absurd e.1 ne)
  have ha' := (holds_iff sA).1 ha
  have hv' := (holds_iff sV).1 hv
  constructor
  · refine (holds_iff sA).2 fun x hx => ?_
    have q := r1 x hx rfl
    have q1 := ha' x hx
    have hin : InArray Vc.dims (if row then x.take 1 else x.drop 1) := by
      rw [dA] at hx
      obtain ⟨i, j, rfl, c⟩ := inArray2.1 hx
      rw [dV]
      cases row
      · exact inArray1.2 ⟨j, rfl, by omega, by simp; omega⟩
      · exact inArray1.2 ⟨i, rfl, by omega, by simp; omega⟩
    have q2 := hv' _ hin
    simp only [rcAct, List.map_cons, List.map_nil, mulVal] at q
    rw [q, q1, q2]
  · intro l hl
    apply r2
    intro x hx _ e
    subst e
    exact hl rfl x hx rfl

/-- **C55 (scale_rows), partial.** `GA_Scale_rows` multiplies row `i` by `v[i]` and changes nothing else. Missing: as for
`C54_transpose_partial`. -/
theorem C55_scale_rows_partial [CommSemiring V] [Inhabited V] (c : RCCall true d1 d2 a A v Vc) (E : Nat → List Int → Env)
    (hE : ∀ p l, EnvG (E p l) Vc) (m : Loc → V) (fa fv : List Int → V) (ha : HoldsAt a A m fa) (hv : HoldsAt v Vc m fv) :
    (FitsAll E Vc → ∃ m', Par A.nproc (scaleRCActs true E a A v Vc) mulVal m m') ∧
    ∀ m', Par A.nproc (scaleRCActs true E a A v Vc) mulVal m m' →
      (∃ fa', HoldsAt a A m' fa' ∧ RowsScaled d1 d2 fa fv fa') ∧
      ∀ l : Loc, (l.1 = a → ∀ x, InArray A.dims x → cellG A x ≠ l.2) → m' l = m l := by
  obtain ⟨r1, r2⟩ := scale_rc true c hE ha hv
  exact ⟨r1, fun m' hm => ⟨⟨_, (r2 m' hm).1, fun i j _ _ _ _ => rfl⟩, (r2 m' hm).2⟩⟩

/-- **C55 (scale_cols), partial.** `GA_Scale_cols` multiplies column `j` by `v[j]` and changes nothing else. Missing: as for
`C54_transpose_partial`. -/
theorem C55_scale_cols_partial [CommSemiring V] [Inhabited V] (c : RCCall false d1 d2 a A v Vc) (E : Nat → List Int → Env)
    (hE : ∀ p l, EnvG (E p l) Vc) (m : Loc → V) (fa fv : List Int → V) (ha : HoldsAt a A m fa) (hv : HoldsAt v Vc m fv) :
    (FitsAll E Vc → ∃ m', Par A.nproc (scaleRCActs false E a A v Vc) mulVal m m') ∧
    ∀ m', Par A.nproc (scaleRCActs false E a A v Vc) mulVal m m' →
      (∃ fa', HoldsAt a A m' fa' ∧ ColsScaled d1 d2 fa fv fa') ∧
      ∀ l : Loc, (l.1 = a → ∀ x, InArray A.dims x → cellG A x ≠ l.2) → m' l = m l := by
  obtain ⟨r1, r2⟩ := scale_rc false c hE ha hv
  exact ⟨r1, fun m' hm => ⟨⟨_, (r2 m' hm).1, fun i j _ _ _ _ => rfl⟩, (r2 m' hm).2⟩⟩

end

/-! ## GA_Symmetrize -/

/-- A legal call of `GA_Symmetrize`: the last two extents are equal; REGULAR arrays have no ghost cells and no
empty blocks, block-cyclic ones have two dimensions. `t`, `t1`, `t2`: fresh handles of local buffers and
temporary arrays. -/
structure SymCall (a : Nat) (A : GArr) (t t1 t2 : Nat) : Prop where
  sA : Sound A
  pA : PtrOK A
  dense : Dense A
  full : FullBlocks A
  ghosts : ∀ A' n, A = .reg A' n → hasGhosts A' = false
  square : ∃ dp d, A.dims = dp ++ [d, d] ∧ (A.isBlk = true → dp = [])
  ft : t ≠ a
  ft1 : t1 ≠ a ∧ t1 ≠ t
  ft2 : t2 ≠ a ∧ t2 ≠ t
  ft12 : t1 ≠ t2

/-- **C54 (symmetrize), partial.** After `GA_Symmetrize`, `A = half*(A + A^T)` in the last two dimensions; nothing outside the
array changes but the temporary storage, for every interleaving; the call does not fail if the array
fits into one message. Missing: ghost cells (`C54_symmetrize_ghosts`), REGULAR arrays with empty
blocks, and as for `C54_transpose_partial`. -/
theorem C54_symmetrize_partial [CommSemiring V] [Inhabited V] {t t1 t2 : Nat} (c : SymCall a A t t1 t2)
    (E : Nat → List Int → Env) (hE : ∀ p l, EnvG (E p l) A) (K1 K2 : CopyEnv) (hK1 : EnvsOK K1 A) (hK2 : EnvsOK K2 A)
    (half : V) (m : Loc → V) (fa : List Int → V) (ha : HoldsAt a A m fa) :
    (FitsAll E A → Fits K1 (onesL A.dims) A.dims → Fits K2 (onesL A.dims) A.dims →
      ∃ m', symmetrizeRun E K1 K2 half a A t t1 t2 m m') ∧
    ∀ m', symmetrizeRun E K1 K2 half a A t t1 t2 m m' →
      (∃ fa', HoldsAt a A m' fa' ∧ SymmetrizeResult half A.dims fa fa') ∧
      ∀ l : Loc, l.1 ≠ t → l.1 ≠ t1 → l.1 ≠ t2 → (l.1 = a → ∀ x, InArray A.dims x → cellG A x ≠ l.2) → m' l = m l := by
  obtain ⟨sA, pA, dense, full, ghosts, ⟨dp, d, hd, hdp⟩, ft, ft1, ft2, ft12⟩ := c
  have ha' := (holds_iff sA).1 ha
  cases A with
  | blk A =>
    have e := hdp rfl
    subst e
    have hd2 : (GArr.blk A).dims = [d, d] := hd
    have tc : TransposeCall d d a (.blk A) t (.blk A) :=
      ⟨sA, sA, pA, full, ft.symm, hd2, d, d, hd2, le_refl _, le_refl _⟩
    have hft : HoldsAt t (.blk A) m (fun y => m (t, cellG (.blk A) y)) := (holds_iff sA).2 fun _ _ => rfl
    obtain ⟨t1e, t1r⟩ := C54_transpose_partial tc E hE m fa _ ha hft
    have ac : AddAll a (.blk A) t (.blk A) a (.blk A) t1 t2 :=
      ⟨sA, sA, sA, pA, pA, pA, rfl, rfl, rfl, rfl, fun _ => rfl, fun h => absurd h ft, fun h => ft h.2, trivial, trivial,
        trivial, trivial, trivial, ⟨ft1.1, ft1.2, ft1.1⟩, ⟨ft2.1, ft2.2, ft2.1⟩, ft12⟩
    constructor
    · intro f1 f2 f3
      obtain ⟨m1, h1⟩ := t1e f1
      obtain ⟨⟨ft', k1, _⟩, k2, _⟩ := t1r m1 h1
      obtain ⟨m', h2⟩ := (C35_add_partial ac K1 K2 hK1 hK2 half half m1 fa ft' k2 k1).1 f2 f3
      exact ⟨m', m1, h1, h2⟩
    · rintro m' ⟨m1, h1, h2⟩
      obtain ⟨⟨ft', k1, k3⟩, k2, k4⟩ := t1r m1 h1
      obtain ⟨r1, r2⟩ := (C35_add_partial ac K1 K2 hK1 hK2 half half m1 fa ft' k2 k1).2 m' h2
      refine ⟨⟨_, r1, ?_⟩, ?_⟩
      · intro pre i j hin
        rw [hd2] at hin
        obtain ⟨i', j', e, c1, c2, c3, c4⟩ := inArray2.1 hin
        have hpre : pre = [] := by
          have := congrArg List.length e
          simpa using this
        subst hpre
        simp only [List.nil_append, List.cons.injEq, and_true] at e ⊢
        obtain ⟨rfl, rfl⟩ := e
        rw [k3.inside j i c3 c4 c1 c2, mul_add]
      · intro l l0 l1 l2 hl
        rw [r2 l l1 l2 hl]
        exact k4 l fun h => absurd h l0
  | reg A n =>
    have hg := ghosts A n rfl
    have hdn : DenseMap A.nblock A.dims A.mapc := dense
    have hd' : A.dims = dp ++ [d, d] := hd
    have hns : notSquare A.dims = false := by
      rw [hd']
      simp [notSquare]
    obtain ⟨g1, g2⟩ := symGet_acts (a := a) (t := t) sA hdn hd' (E := fun p => E p []) (fun p => hE p [])
    obtain ⟨l2, s1, s2⟩ := symAdd_acts (a := a) (t := t) sA hdn hd' hg
    simp only [symmetrizeRun, hns, Bool.false_eq_true, if_false]
    constructor
    · intro f1 _ _
      obtain ⟨l, hl⟩ := g2 fun p => by
        rw [prodI_edges]
        exact f1 p []
      exact ⟨_, _, ⟨l, _, hl, List.Perm.refl _, rfl⟩, l2, _, s1, List.Perm.refl _, rfl⟩
    · rintro m' ⟨m1, h1, h2⟩
      have nd := ownPairs_nodup sA hdn
      obtain ⟨u1, u2⟩ := phase_effect h1 (F := symF1 a t A) nd g1
        (fun w hw w' hw' e => by
          simp only [symF1, Prod.mk.injEq, true_and] at e
          exact symPos_inj sA hdn hd' hw hw' (by omega) e.2)
        (fun w _ w' _ e => by
          simp only [symF1, List.mem_singleton, Prod.mk.injEq] at e
          exact absurd e.1 ft)
      have snd_inj : ∀ w ∈ ownPairs A n, ∀ w' ∈ ownPairs A n, w.2 = w'.2 → w = w' := by
        have := (ownPairs_snd sA hdn).nodup_iff.2 (nodup_box _ _)
        intro w hw w' hw' e
        exact List.inj_on_of_nodup_map this hw hw' e
      obtain ⟨v1, v2⟩ := phase_effect h2 (F := symF2 a t A) nd
        (fun l hl => by rw [s1, Option.some.injEq] at hl; rw [← hl]; exact s2)
        (fun w hw w' hw' e => by
          simp only [symF2, Prod.mk.injEq, true_and] at e
          exact snd_inj w hw w' hw' (cellG_inj sA (pair_in sA hdn hw) (pair_in sA hdn hw') e))
        (fun w hw w' hw' e => by
          simp only [symF2, List.mem_cons, List.not_mem_nil, or_false, Prod.mk.injEq, true_and] at e
          rcases e with e | e
          · exact snd_inj w hw w' hw' (cellG_inj sA (pair_in sA hdn hw) (pair_in sA hdn hw') e)
          · exact absurd e.1.symm ft)
      have keep : ∀ x, m1 (a, x) = m (a, x) := by
        intro x
        apply u2
        intro w _ e
        exact ft (congrArg Prod.fst e)
      refine ⟨⟨fun x => if InArray A.dims x then m' (a, cell A x) else fa x,
        (holds_iff sA).2 fun x hx => by
          have hx' : InArray A.dims x := hx
          simp only [if_pos hx']; rfl, ?_⟩, ?_⟩
      · intro pre i j hin
        have hin' : InArray A.dims (pre ++ [i, j]) := hin
        have hsw := swap_in hd' hin'
        rw [swapLast_eq] at hsw
        simp only [if_pos hin']
        obtain ⟨w, hw, e⟩ := List.mem_map.1 ((ownPairs_snd sA hdn).mem_iff.2 (mem_ones_box.2 hin'))
        have q1 := v1 w hw
        have q2 := u1 w hw
        simp only [symF1, symF2, List.map_cons, List.map_nil, moveVal, symVal, e, swapLast_eq] at q1 q2
        rw [q1, q2, keep]
        have a1 := ha' _ hin
        have a2 := ha' _ hsw
        simp only [cellG] at a1 a2
        rw [a1, a2]
      · intro l l0 _ _ hl
        rw [v2 l, u2 l]
        · intro w _ e
          exact l0 (by rw [← e]; rfl)
        · intro w hw e
          exact hl (by rw [← e]; rfl) w.2 (pair_in sA hdn hw) (by rw [← e]; rfl)

end

/-! ## Refused calls -/

section
variable {V : Type} {a v b : Nat} {A Vc B : GArr}

private theorem par_zero {n : Nat} {acts : Nat → Option (List LAct)} {g : List V → V} {m m' : Loc → V}
    (hn : 0 < n) (h : Par n acts g m m') : ∃ bs, acts 0 = some bs := by
  obtain ⟨l, _, e, _, _⟩ := h
  have := mapOpt_forall₂ e
  obtain ⟨k, rfl⟩ : ∃ k, n = k + 1 := ⟨n - 1, by omega⟩
  rw [List.range_succ_eq_map] at this
  cases this with
  | cons h _ => exact ⟨_, h⟩

/-- **C54 (refused).** If `GA_Transpose` returns, the arrays are different and have two dimensions; if
`GA_Symmetrize` of a REGULAR array returns, its last two extents are equal. -/
theorem C54_refused [CommSemiring V] [Inhabited V] (E : Nat → List Int → Env) (m m' : Loc → V) :
    (0 < A.nproc → Par A.nproc (transposeActs E a A b B) moveVal m m' →
      a ≠ b ∧ A.dims.length = 2 ∧ B.dims.length = 2) ∧
    (∀ K1 K2 half A' n t t1 t2, A = .reg A' n → symmetrizeRun E K1 K2 half a A t t1 t2 m m' →
      ∃ dp d, A.dims = dp ++ [d, d]) := by
  constructor
  · intro hn h
    obtain ⟨bs, h⟩ := par_zero hn h
    unfold transposeActs at h
    by_cases e : a = b
    · rw [if_pos e] at h; cases h
    rw [if_neg e] at h
    by_cases e2 : A.dims.length ≠ 2 ∨ B.dims.length ≠ 2
    · rw [if_pos e2] at h; cases h
    · exact ⟨e, by omega, by omega⟩
  · rintro K1 K2 half A' n t t1 t2 rfl h
    unfold symmetrizeRun at h
    simp only at h
    by_cases e : notSquare A'.dims = true
    · rw [if_pos e] at h; cases h
    · simp only [Bool.not_eq_true] at e
      show ∃ dp d, A'.dims = dp ++ [d, d]
      unfold notSquare at e
      split at e
      · rename_i y x pre hr
        simp only [ne_eq, decide_not, Bool.not_eq_false', decide_eq_true_eq] at e
        have := congrArg List.reverse hr
        simp only [List.reverse_reverse, List.reverse_cons, List.append_assoc, List.cons_append, List.nil_append] at this
        exact ⟨_, x, by rw [this, e]⟩
      · cases e

/-- **C55 (refused).** If `GA_Get_diag`, `GA_Add_diagonal`, `GA_Set_diagonal`, `GA_Scale_rows` or `GA_Scale_cols`
returns, the first array is a matrix and the second a vector of the right length; if `GA_Shift_diagonal` returns, the
array is a matrix. -/
theorem C55_refused [CommSemiring V] [Inhabited V] (hn : 0 < A.nproc) (E : Nat → List Int → Env) (g : List V → V) (m m' : Loc → V) :
    (Par A.nproc (getDiagActs E a A v Vc) g m m' → ∃ d1 d2, A.dims = [d1, d2] ∧ Vc.dims = [min d1 d2]) ∧
    (∀ self, Par A.nproc (putDiagActs self E a A v Vc) g m m' → ∃ d1 d2, A.dims = [d1, d2] ∧ Vc.dims = [min d1 d2]) ∧
    (Par A.nproc (scaleRCActs true E a A v Vc) g m m' → ∃ d1 d2, A.dims = [d1, d2] ∧ Vc.dims = [d1]) ∧
    (Par A.nproc (scaleRCActs false E a A v Vc) g m m' → ∃ d1 d2, A.dims = [d1, d2] ∧ Vc.dims = [d2]) ∧
    (Par A.nproc (shiftDiagActs a A) g m m' → A.dims.length = 2) := by
  have d : diagChecks A Vc = true → ∃ d1 d2, A.dims = [d1, d2] ∧ Vc.dims = [min d1 d2] := by
    intro h
    unfold diagChecks at h
    split at h
    · rename_i d1 d2 n e1 e2
      exact ⟨d1, d2, e1, by rw [e2, of_decide_eq_true h]⟩
    · cases h
  have r : ∀ row, rcChecks row A Vc = true → ∃ d1 d2, A.dims = [d1, d2] ∧ Vc.dims = [if row then d1 else d2] := by
    intro row h
    unfold rcChecks at h
    split at h
    · rename_i d1 d2 n e1 e2
      exact ⟨d1, d2, e1, by rw [e2, of_decide_eq_true h]⟩
    · cases h
  refine ⟨fun h => ?_, fun self h => ?_, fun h => ?_, fun h => ?_, fun h => ?_⟩ <;> obtain ⟨bs, h⟩ := par_zero hn h
  · unfold getDiagActs at h
    by_cases e : diagChecks A Vc = true
    · exact d e
    · rw [if_neg e] at h; cases h
  · unfold putDiagActs at h
    by_cases e : diagChecks A Vc = true
    · exact d e
    · rw [if_neg e] at h; cases h
  · unfold scaleRCActs at h
    by_cases e : rcChecks true A Vc = true
    · exact r true e
    · rw [if_neg e] at h; cases h
  · unfold scaleRCActs at h
    by_cases e : rcChecks false A Vc = true
    · exact r false e
    · rw [if_neg e] at h; cases h
  · unfold shiftDiagActs at h
    by_cases e : A.dims.length = 2
    · exact e
    · rw [if_neg e] at h; cases h

end

/-! ## Negative results -/

section
variable {V : Type}

private theorem run_frame {g : List V → V} {l : Loc} : ∀ {acts : List LAct} {m : Loc → V},
    (∀ u ∈ acts, u.dst ≠ l) → runActs g acts m l = m l
  | [], _, _ => rfl
  | u :: acts, m, h => by
    have h1 := h u (by simp)
    unfold runActs
    rw [List.foldl_cons]
    refine (run_frame (acts := acts) fun w hw => h w (by simp [hw])).trans ?_
    unfold upd
    exact if_neg fun e => h1 e.symm

private theorem par_frame {n : Nat} {acts : Nat → Option (List LAct)} {g : List V → V} {m m' : Loc → V} {l : Loc}
    (hm : Par n acts g m m') (h : ∀ p bs, acts p = some bs → ∀ u ∈ bs, u.dst ≠ l) : m' l = m l := by
  obtain ⟨L, sched, e1, e2, rfl⟩ := hm
  apply run_frame
  intro u hu
  obtain ⟨bs, hb, hu⟩ := List.mem_flatten.1 (e2.mem_iff.1 hu)
  obtain ⟨i, hi, e⟩ := List.getElem_of_mem hb
  have f2 := mapOpt_forall₂ e1
  have hi' : i < (List.range n).length := by rw [f2.length_eq]; exact hi
  have := (List.forall₂_iff_get.1 f2).2 i hi' hi
  simp only [List.get_eq_getElem, e] at this
  exact h _ bs this u hu

/-- 4 x 4 on two processes, one above the other in the second dimension -/
def exZ : RegArray := ⟨[4, 4], [1, 2], [1, 1, 3], [0, 0]⟩

/-- **C55 fails for `GA_Zero_diagonal`** on a plain 4 x 4 array distributed by columns over two processes: the call clears
`A[1][3]` and `A[2][4]` and leaves `A[3][3]` and `A[4][4]`. -/
theorem C55_zero_diagonal_wrong [CommSemiring V] [Inhabited V] (m m' : Loc → V) (f : List Int → V)
    (hf : HoldsAt 0 (.reg exZ 2) m f) (hm : Par 2 (zeroDiagActs 0 (.reg exZ 2)) zeroVal m m') :
    Sound (.reg exZ 2) ∧ ∃ f', HoldsAt 0 (.reg exZ 2) m' f' ∧ f' [1, 3] = 0 ∧ f' [2, 4] = 0 ∧
      f' [3, 3] = f [3, 3] ∧ f' [4, 4] = f [4, 4] := by
  have s : Sound (.reg exZ 2) := ⟨⟨by decide, by decide, by decide⟩, by decide⟩
  have hf' := (holds_iff s).1 hf
  have key : mapOpt (zeroDiagActs 0 (.reg exZ 2)) (List.range 2) =
      some [[⟨(0, cell exZ [1, 1]), []⟩, ⟨(0, cell exZ [2, 2]), []⟩], [⟨(0, cell exZ [1, 3]), []⟩, ⟨(0, cell exZ [2, 4]), []⟩]] := by
    decide +kernel
  obtain ⟨r1, r2⟩ := phase_effect hm (xs := [[1, 1], [2, 2], [1, 3], [2, 4]])
    (F := fun x : List Int => (⟨(0, cell exZ x), []⟩ : LAct)) (by decide)
    (fun l hl => by rw [key, Option.some.injEq] at hl; rw [← hl]; exact List.Perm.refl _)
    (by decide +kernel) (by intro x _ y _ h; cases h)
  refine ⟨s, fun x => m' (0, cell exZ x), (holds_iff s).2 fun _ _ => rfl, r1 [1, 3] (by decide), r1 [2, 4] (by decide), ?_, ?_⟩
  · exact (r2 _ (by decide +kernel)).trans (hf' [3, 3] (by decide))
  · exact (r2 _ (by decide +kernel)).trans (hf' [4, 4] (by decide))

/-- 4 x 4 on one process with ghost cells -/
def exSG : RegArray := ⟨[4, 4], [1, 1], [1, 1], [1, 1]⟩

/-- **C54 fails for `GA_Symmetrize`** on an array with ghost cells: the leading dimension is ignored and the element
`A[3][4]` never changes (and ghost cells do). -/
theorem C54_symmetrize_ghosts [CommSemiring V] [Inhabited V] (E : Nat → List Int → Env) (K1 K2 : CopyEnv) (half : V)
    (m m' : Loc → V) (f : List Int → V) (hf : HoldsAt 0 (.reg exSG 1) m f)
    (hm : symmetrizeRun E K1 K2 half 0 (.reg exSG 1) 1 2 3 m m') :
    Sound (.reg exSG 1) ∧ ∃ f', HoldsAt 0 (.reg exSG 1) m' f' ∧ f' [3, 4] = f [3, 4] := by
  have s : Sound (.reg exSG 1) := ⟨⟨by decide, by decide, by decide⟩, by decide⟩
  have hf' := (holds_iff s).1 hf
  refine ⟨s, fun x => m' (0, cell exSG x), (holds_iff s).2 fun _ _ => rfl, ?_⟩
  simp only [symmetrizeRun, show notSquare exSG.dims = false by decide, Bool.false_eq_true, if_false] at hm
  obtain ⟨m1, h1, h2⟩ := hm
  have e1 : m1 (0, cell exSG [3, 4]) = m (0, cell exSG [3, 4]) := by
    apply par_frame h1
    intro p bs hb u hu e
    unfold symGet at hb
    simp only at hb
    split at hb
    · split at hb
      · cases hb
      · simp only [Option.some.injEq] at hb
        rw [← hb] at hu
        obtain ⟨x, _, rfl⟩ := List.mem_map.1 hu
        exact Nat.one_ne_zero (congrArg Prod.fst e)
    · simp only [Option.some.injEq] at hb
      rw [← hb] at hu; cases hu
  have e2 : m' (0, cell exSG [3, 4]) = m1 (0, cell exSG [3, 4]) := by
    obtain ⟨L, sched, q1, q2, rfl⟩ := h2
    apply run_frame
    intro u hu
    have hu := q2.mem_iff.1 hu
    have : ∀ L, mapOpt (symAdd 0 exSG 1) (List.range 1) = some L → ∀ u ∈ L.flatten, u.dst ≠ (0, cell exSG [3, 4]) := by
      intro L hL
      rw [show L = (mapOpt (symAdd 0 exSG 1) (List.range 1)).getD [] by rw [hL]; rfl]
      decide +kernel
    exact this L q1 u hu
  exact e2.trans (e1.trans (hf' [3, 4] (by decide)))

end

/-! ## Non-vacuity -/

/-- 7 x 10 on 6 processes -/
def exTr : RegArray := ⟨[7, 10], [2, 3], [1, 3, 1, 4, 9], [0, 2]⟩
/-- vectors -/
def exV7 : RegArray := ⟨[7], [3], [1, 2, 6], [0]⟩
def exV10 : RegArray := ⟨[10], [4], [1, 2, 6, 9], [1]⟩
/-- 2 x 6 x 6 on 6 processes -/
def exSq : RegArray := ⟨[2, 6, 6], [1, 3, 2], [1, 1, 2, 5, 1, 4], [0, 0, 0]⟩
/-- block-cyclic 7 x 7 -/
def exBSq : BArray := ⟨.scalapack, [7, 7], [3, 2], [3, 4], [2, 2], [], 4⟩

private theorem exTr_s : Sound (.reg exTr 6) := ⟨⟨by decide, by decide, by decide⟩, by decide⟩
private theorem exG_so : Sound (.reg exG 7) := ⟨⟨by decide, by decide, by decide⟩, by decide⟩

example : TransposeCall 10 7 0 (.reg exG 7) 1 (.reg exTr 6) :=
  ⟨exG_so, exTr_s, trivial, trivial, by decide, rfl, 7, 10, rfl, by decide, by decide⟩
example : TransposeCall 7 5 0 (.blk exScl) 1 (.reg exTr 6) :=
  ⟨⟨exScl_created, by decide⟩, exTr_s, by simp only [PtrOK]; decide, fun h => absurd h (by decide), by decide, rfl, 7, 10, rfl,
    by decide, by decide⟩
example : DiagCall 10 7 0 (.reg exG 7) 1 (.reg exV7 3) :=
  ⟨exG_so, ⟨⟨by decide, by decide, by decide⟩, by decide⟩, trivial, by decide, rfl, rfl⟩
example : RCCall true 7 10 0 (.reg exTr 6) 1 (.reg exV7 3) ∧ RCCall false 7 10 0 (.reg exTr 6) 1 (.reg exV10 4) :=
  ⟨⟨exTr_s, ⟨⟨by decide, by decide, by decide⟩, by decide⟩, trivial, trivial, by decide, rfl, rfl⟩,
   ⟨exTr_s, ⟨⟨by decide, by decide, by decide⟩, by decide⟩, trivial, trivial, by decide, rfl, rfl⟩⟩
example : SymCall 0 (.reg exSq 6) 1 2 3 :=
  ⟨⟨⟨by decide, by decide, by decide⟩, by decide⟩, trivial, by simp only [Dense]; decide, trivial,
    fun _ _ e => by cases e; decide, ⟨[2], 6, rfl, fun h => absurd h (by decide)⟩, by decide, by decide, by decide, by decide⟩
private theorem exBSq_created : Created exBSq :=
  .grid false 4 [7, 7] [3, 2] [2, 2] exBSq (by decide) rfl rfl (by decide)
example : SymCall 0 (.blk exBSq) 1 2 3 :=
  ⟨⟨exBSq_created, by decide⟩, by simp only [PtrOK]; decide, trivial, fun h => absurd h (by decide),
    fun _ _ e => (nomatch e), ⟨[], 7, rfl, fun _ => rfl⟩, by decide, by decide, by decide, by decide⟩

/-- 4 x 4 in four square blocks -/
def exD4 : RegArray := ⟨[4, 4], [2, 2], [1, 3, 1, 3], [0, 0]⟩
/-- every block that meets the diagonal begins on it (hypothesis of `C55_zero_diagonal_partial`) -/
example : Sound (.reg exD4 4) ∧ ∀ p items, p < 4 → (GArr.reg exD4 4).localIter p = some items → ∀ it ∈ items,
    (∃ i, InPatch it.lo it.hi [i, i]) → ∃ k, it.lo = [k, k] := by
  refine ⟨⟨⟨by decide, by decide, by decide⟩, by decide⟩, ?_⟩
  have key : ∀ p < 4, ∀ it ∈ ((GArr.reg exD4 4).localIter p).getD [], it.lo = [1, 1] ∨ it.lo = [3, 3] ∨
      (it.lo = [1, 3] ∧ it.hi = [2, 4]) ∨ (it.lo = [3, 1] ∧ it.hi = [4, 2]) := by decide +kernel
  rintro p items hp h it hit ⟨i, hi⟩
  rcases key p hp it (by rw [h]; exact hit) with e | e | ⟨e1, e2⟩ | ⟨e1, e2⟩
  · exact ⟨1, e⟩
  · exact ⟨3, e⟩
  all_goals
    rw [e1, e2] at hi
    simp [InPatch] at hi
    omega

end GA
