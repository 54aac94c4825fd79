import Verif.Model.CMatrix
import Verif.Props.Matmul
import Verif.Props.Matrix

/-!
# C66: matrix operations of the C interface

In C a matrix is seen by rows and subscripts start at 0: element `(i, j)` of the caller is element `(j + 1, i + 1)` of the library.
-/

namespace GA
open Spec Model Matmul

section
variable {V : Type}

/-- the matrix as the C caller sees it -/
def rowView (f : Int → Int → V) : Int → Int → V := fun i j => f (j + 1) (i + 1)

/-- A legal call of `NGA_Matmul_patch` for arrays of `A.d1` rows and `A.d0` columns (and so on) in the eyes of the C caller: the patches
lie inside the arrays, their extents agree -/
def MatmulLegalC (c : Call V) (A B : Arr V) (d0 d1 : Int) : Prop :=
  (0 ≤ c.ailo ∧ 0 ≤ c.ajlo ∧ if c.ta then c.ajhi < A.d1 ∧ c.aihi < A.d0 else c.aihi < A.d1 ∧ c.ajhi < A.d0) ∧
  (0 ≤ c.bilo ∧ 0 ≤ c.bjlo ∧ if c.tb then c.bjhi < B.d1 ∧ c.bihi < B.d0 else c.bihi < B.d1 ∧ c.bjhi < B.d0) ∧
  (0 ≤ c.cilo ∧ c.cihi < d1 ∧ 0 ≤ c.cjlo ∧ c.cjhi < d0) ∧
  c.cihi - c.cilo = c.aihi - c.ailo ∧ c.cjhi - c.cjlo = c.bjhi - c.bjlo ∧ c.bihi - c.bilo = c.ajhi - c.ajlo

private theorem legal_swap (c : Call V) (A B : Arr V) (d0 d1 : Int) :
    MatmulLegal (swapCall c) B A d0 d1 ↔ MatmulLegalC c A B d0 d1 := by
  unfold MatmulLegal MatmulLegalC swapCall
  dsimp only
  cases c.ta <;> cases c.tb <;> simp <;> omega

private theorem result_swap [CommSemiring V] {ta tb : Bool} {alpha beta : V} {m n : Int} {k : Nat} {ailo ajlo bilo bjlo cilo cjlo : Int}
    {fa fb f f' : Int → Int → V}
    (h : MatmulResult tb ta alpha beta n m k (bjlo + 1) (bilo + 1) (ajlo + 1) (ailo + 1) (cjlo + 1) (cilo + 1) fb fa f f') :
    MatmulResult ta tb alpha beta m n k ailo ajlo bilo bjlo cilo cjlo (rowView fa) (rowView fb) (rowView f) (rowView f') := by
  obtain ⟨h1, h2⟩ := h
  have e : ∀ x y : Int, x + 1 + y = x + y + 1 := fun x y => by omega
  constructor
  · intro i j hi hi' hj hj'
    have := h1 j i hj hj' hi hi'
    unfold rowView
    rw [e, e] at this
    rw [this]
    congr 2
    congr 1
    apply List.map_congr_left
    intro l _
    rw [mul_comm]
    unfold opEntry
    rw [e, e, e, e]
  · intro x y hxy
    exact h2 (y + 1) (x + 1) (by omega)

section
variable [CommSemiring V] [DecidableEq V]

/-- **C66 (NGA_Matmul_patch).** In the caller's view: the call runs if and only if the patches lie inside the arrays and their extents
agree; the patch of `C` becomes `alpha op(A) op(B) + beta C`, the rest of `C` stays as it was -/
theorem C66_matmul_patch (nproc : Nat) (hpos : 0 < nproc) (ch : Chunks) (hch : 0 < ch.i ∧ 0 < ch.j ∧ 0 < ch.k) (c : Call V)
    (A B : Arr V) (d0 d1 : Int) (old : Nat → Int → V) (f : Mat V) :
    (MatmulLegalC c A B d0 d1 ↔ ∃ f', cMatmulPatch nproc ch c A B d0 d1 old f f') ∧
    ∀ f', cMatmulPatch nproc ch c A B d0 d1 old f f' →
      MatmulResult c.ta c.tb c.alpha c.beta (c.cihi - c.cilo + 1) (c.cjhi - c.cjlo + 1) (c.ajhi - c.ajlo + 1).toNat
        c.ailo c.ajlo c.bilo c.bjlo c.cilo c.cjlo (rowView A.f) (rowView B.f) (rowView f) (rowView f') := by
  obtain ⟨h1, h2⟩ := C61_matmul_patch nproc hpos ch hch (swapCall c) B A d0 d1 old f
  rw [legal_swap] at h1
  refine ⟨h1, fun f' h => ?_⟩
  have hl := h1.2 ⟨f', h⟩
  have r := h2 f' h
  apply result_swap
  have ek : (swapCall c).ajhi - (swapCall c).ajlo + 1 = c.ajhi - c.ajlo + 1 := by
    have := hl.2.2.2.2.2
    simp only [swapCall]; omega
  have em : (swapCall c).cjhi - (swapCall c).cjlo + 1 = c.cihi - c.cilo + 1 := by simp only [swapCall]; omega
  have en : (swapCall c).cihi - (swapCall c).cilo + 1 = c.cjhi - c.cjlo + 1 := by simp only [swapCall]; omega
  rw [ek, em, en] at r
  exact r

/-- the first case in which `GA_Dgemm` takes the algorithm that deals tasks out; `d1` rows and `d0` columns of `C` -/
def DgemmIrregular (e : MEnv) (m n d0 d1 : Int) : Prop :=
  e.irreg = true ∨ d1 ≠ m ∨ d0 ≠ n ∨ (e.nodes = true ∧ e.aspect = true)

private theorem irr_swap {e : MEnv} {ta tb : Bool} {m n k d0 d1 : Int} {alpha beta : V}
    (h : IrregularCase e (⟨tb, ta, alpha, beta, 1, n, 1, k, 1, k, 1, m, 1, n, 1, m⟩ : Call V) d0 d1) : DgemmIrregular e m n d0 d1 := by
  unfold IrregularCase at h
  dsimp only at h
  rcases h with h | h | h | h
  · exact Or.inl h
  · exact Or.inr (Or.inr (Or.inl (by omega)))
  · exact Or.inr (Or.inl (by omega))
  · exact Or.inr (Or.inr (Or.inr h))

/-- **C66 (GA_Dgemm).** In the caller's view, `C := alpha op(A) op(B) + beta C` for the first `m` rows and `n` columns of `C` and an inner
extent of `k`; the rest of `C` stays as it was. Hypotheses as for `C60_matmul`. -/
theorem C66_dgemm (e : MEnv) (ta tb : Bool) (m n k : Int) (alpha beta : V) (A B : Arr V) (C : RegArray) (d0 d1 : Int)
    (hd : C.dims = [d0, d1]) (hmap : MapOK C.nblock C.dims C.mapc) (hgrid : gridSize C.nblock ≤ e.procs) (hpos : 0 < e.procs)
    (hgrp : e.nnodes = e.procs) (hch : ∀ p, 0 < (e.chunk p).i ∧ 0 < (e.chunk p).j ∧ 0 < (e.chunk p).k)
    (huni : DgemmIrregular e m n d0 d1 → ∀ p, e.chunk p = e.chunk 0) (hk : 1 ≤ k)
    (old : Nat → Int → V) (f f' : Mat V) (h : cDgemm e ta tb m n k alpha beta A B C old f f') :
    MatmulResult ta tb alpha beta m n k.toNat 0 0 0 0 0 0 (rowView A.f) (rowView B.f) (rowView f) (rowView f') := by
  have r := C60_matmul e _ B A C d0 d1 hd hmap hgrid hpos hgrp hch (fun q => huni (irr_swap q)) hk old f f' h
  apply result_swap
  dsimp only at r
  simpa using r

/-- **C66 (GA_Dgemm refused).** `GA_Dgemm` does not return if one of the matrices is smaller than `m`, `n`, `k` require -/
theorem C66_dgemm_refused (e : MEnv) (ta tb : Bool) (m n k : Int) (alpha beta : V) (A B : Arr V) (C : RegArray) (d0 d1 : Int)
    (hd : C.dims = [d0, d1])
    (hl : (if ta then A.d1 < k ∨ A.d0 < m else A.d1 < m ∨ A.d0 < k) ∨ (if tb then B.d1 < n ∨ B.d0 < k else B.d1 < k ∨ B.d0 < n) ∨
      d1 < m ∨ d0 < n)
    (old : Nat → Int → V) (f f' : Mat V) : ¬ cDgemm e ta tb m n k alpha beta A B C old f f' := by
  apply C60_matmul_refused e _ B A C d0 d1 hd
  unfold MatmulLegal
  dsimp only
  cases ta <;> cases tb <;> simp only [if_true, if_false, Bool.false_eq_true] at hl ⊢ <;> omega

/-- **C66 (GA_Matmul_patch), partial.** `GA_Matmul_patch` does not exchange the factors: in the C caller's view its arguments are
those of the library's column order, and the product is that of the transposed matrices. What is proved: the result in the library's
own view. The property asked for, as in `C66_matmul_patch`, is false: `C66_matmul_patch_order_wrong`. -/
theorem C66_matmul_patch_order_partial (e : MEnv) (c : Call V) (A B : Arr V) (C : RegArray) (d0 d1 : Int) (hd : C.dims = [d0, d1])
    (hmap : MapOK C.nblock C.dims C.mapc) (hgrid : gridSize C.nblock ≤ e.procs) (hpos : 0 < e.procs) (hgrp : e.nnodes = e.procs)
    (hch : ∀ p, 0 < (e.chunk p).i ∧ 0 < (e.chunk p).j ∧ 0 < (e.chunk p).k) (huni : ∀ p, e.chunk p = e.chunk 0) (hk : c.ajlo ≤ c.ajhi)
    (old : Nat → Int → V) (f f' : Mat V) (h : cMatmulPatch2 e c A B C old f f') :
    MatmulResult c.ta c.tb c.alpha c.beta (c.cihi - c.cilo + 1) (c.cjhi - c.cjlo + 1) (c.ajhi - c.ajlo + 1).toNat
      c.ailo c.ajlo c.bilo c.bjlo c.cilo c.cjlo (fun i j => A.f (i + 1) (j + 1)) (fun i j => B.f (i + 1) (j + 1))
      (fun i j => f (i + 1) (j + 1)) (fun i j => f' (i + 1) (j + 1)) := by
  have r := C60_matmul { e with irreg := true } (incCall c) A B C d0 d1 hd hmap hgrid hpos hgrp hch (fun _ => huni)
    (by simp only [incCall]; omega) old f f' h
  have e1 : ∀ x y : Int, x + 1 - (y + 1) + 1 = x - y + 1 := fun x y => by omega
  have e2 : ∀ x y : Int, x + 1 + y = x + y + 1 := fun x y => by omega
  simp only [incCall, e1] at r
  obtain ⟨h1, h2⟩ := r
  constructor
  · intro i j hi hi' hj hj'
    have := h1 i j hi hi' hj hj'
    simp only [opEntry, e2] at this ⊢
    exact this
  · intro x y hxy
    exact h2 (x + 1) (y + 1) (by omega)

/-! ## scaling of rows and columns -/

end
end

section
variable {V : Type} {a v : Nat} {A Vc : GArr} {d1 d2 : Int}

/-- **C66 (GA_Scale_rows), partial.** In the caller's view, `GA_Scale_rows` multiplies row `i` by `v[i]` (here the array has `d2` rows of `d1`
elements) and changes nothing else. Missing: as for `C55_scale_cols_partial`. -/
theorem C66_scale_rows_partial [CommSemiring V] [Inhabited V] (c : RCCall false d1 d2 a A v Vc) (E : Nat → List Int → Env)
    (hE : ∀ p l, EnvG (E p l) Vc) (m : Loc → V) (fa fv : List Int → V) (ha : HoldsAt a A m fa) (hv : HoldsAt v Vc m fv) :
    (FitsAll E Vc → ∃ m', Par A.nproc (cScaleRCActs true E a A v Vc) mulVal m m') ∧
    ∀ m', Par A.nproc (cScaleRCActs true E a A v Vc) mulVal m m' →
      (∃ fa', HoldsAt a A m' fa' ∧ ∀ i j, 0 ≤ i → i < d2 → 0 ≤ j → j < d1 →
        fa' [j + 1, i + 1] = fa [j + 1, i + 1] * fv [i + 1]) ∧
      ∀ l : Loc, (l.1 = a → ∀ x, InArray A.dims x → cellG A x ≠ l.2) → m' l = m l := by
  obtain ⟨h1, h2⟩ := C55_scale_cols_partial c E hE m fa fv ha hv
  refine ⟨h1, fun m' hm => ⟨?_, (h2 m' hm).2⟩⟩
  obtain ⟨fa', q1, q2⟩ := (h2 m' hm).1
  exact ⟨fa', q1, fun i j h1 h2 h3 h4 => q2 _ _ (by omega) (by omega) (by omega) (by omega)⟩

/-- **C66 (GA_Scale_cols), partial.** In the caller's view, `GA_Scale_cols` multiplies column `j` by `v[j]` and changes nothing else. Missing: as
for `C55_scale_rows_partial`. -/
theorem C66_scale_cols_partial [CommSemiring V] [Inhabited V] (c : RCCall true d1 d2 a A v Vc) (E : Nat → List Int → Env)
    (hE : ∀ p l, EnvG (E p l) Vc) (m : Loc → V) (fa fv : List Int → V) (ha : HoldsAt a A m fa) (hv : HoldsAt v Vc m fv) :
    (FitsAll E Vc → ∃ m', Par A.nproc (cScaleRCActs false E a A v Vc) mulVal m m') ∧
    ∀ m', Par A.nproc (cScaleRCActs false E a A v Vc) mulVal m m' →
      (∃ fa', HoldsAt a A m' fa' ∧ ∀ i j, 0 ≤ i → i < d2 → 0 ≤ j → j < d1 →
        fa' [j + 1, i + 1] = fa [j + 1, i + 1] * fv [j + 1]) ∧
      ∀ l : Loc, (l.1 = a → ∀ x, InArray A.dims x → cellG A x ≠ l.2) → m' l = m l := by
  obtain ⟨h1, h2⟩ := C55_scale_rows_partial c E hE m fa fv ha hv
  refine ⟨h1, fun m' hm => ⟨?_, (h2 m' hm).2⟩⟩
  obtain ⟨fa', q1, q2⟩ := (h2 m' hm).1
  exact ⟨fa', q1, fun i j h1 h2 h3 h4 => q2 _ _ (by omega) (by omega) (by omega) (by omega)⟩

end

/-! ## examples and the counterexample -/

/-- 2 x 3 times 3 x 2 in the caller's view -/
private def exCA : Arr Int := ⟨3, 2, fun i j => 10 * j + i⟩
private def exCB : Arr Int := ⟨2, 3, fun i j => i + 2 * j⟩
private def exCCall : Call Int := ⟨false, false, 2, 3, 0, 1, 0, 2, 0, 2, 0, 1, 0, 1, 0, 1⟩
private def exCC : RegArray := ⟨[2, 2], [2, 1], [1, 2, 1], [0, 0]⟩

example : MatmulLegalC exCCall exCA exCB 2 2 := by simp [MatmulLegalC, exCCall, exCA, exCB]

/-- `C[0][1] = 2 * (11 * 4 + 12 * 6 + 13 * 8) + 3 * 7` -/
example (f' : Mat Int) (h : cMatmulPatch 2 ⟨1, 2, 2⟩ exCCall exCA exCB 2 2 (fun _ _ => 0) (fun _ _ => 7) f') :
    rowView f' 0 1 = 461 :=
  (((C66_matmul_patch 2 (by decide) ⟨1, 2, 2⟩ (by decide) exCCall exCA exCB 2 2 _ _).2 f' h).1 0 1 (by decide) (by decide) (by decide)
    (by decide)).trans (by decide)

example (nodes irr : Bool) (f : Mat Int) :
    ∃ f', cDgemm ⟨nodes, irr, false, fun _ => ⟨1, 2, 2⟩, 2, 2⟩ false false 2 2 3 2 3 exCA exCB exCC (fun _ _ => 0) f f' :=
  C60_matmul_returns_partial ⟨nodes, irr, false, fun _ => ⟨1, 2, 2⟩, 2, 2⟩
    ⟨false, false, 2, 3, 1, 2, 1, 3, 1, 3, 1, 2, 1, 2, 1, 2⟩ exCB exCA exCC 2 2 rfl (by decide)
    (fun _ => by dsimp only; decide) (by decide) (by simp [MatmulLegal, exCA, exCB]) (fun _ p hp => by
      have : p = 0 ∨ p = 1 := by dsimp only at hp; omega
      rcases this with rfl | rfl <;> dsimp only <;> decide) _ _
example : MapOK exCC.nblock exCC.dims exCC.mapc ∧ gridSize exCC.nblock ≤ 2 := by decide

example : RCCall false 7 10 0 (.reg exTr 6) 1 (.reg exV10 4) :=
  ⟨⟨⟨by decide, by decide, by decide⟩, by decide⟩, ⟨⟨by decide, by decide, by decide⟩, by decide⟩, trivial, trivial, by decide, rfl, rfl⟩

/-- **C66 does not hold for `GA_Matmul_patch`.** Two 2 x 2 matrices, `A = (1 1; 0 1)`, `B = (1 0; 1 1)` in the caller's view: the call
returns and leaves `B A`, with 1 in the upper left corner, where `A B` has 2 -/
theorem C66_matmul_patch_order_wrong :
    let A : Arr Int := ⟨2, 2, fun i j => if i = 1 ∧ j = 2 then 0 else 1⟩
    let B : Arr Int := ⟨2, 2, fun i j => if i = 2 ∧ j = 1 then 0 else 1⟩
    let e : MEnv := ⟨false, false, false, fun _ => ⟨2, 2, 2⟩, 1, 1⟩
    let c : Call Int := ⟨false, false, 1, 0, 0, 1, 0, 1, 0, 1, 0, 1, 0, 1, 0, 1⟩
    MatmulLegalC c A B 2 2 ∧
    (∃ f', cMatmulPatch2 e c A B ⟨[2, 2], [1, 1], [1, 1], [0, 0]⟩ (fun _ _ => 0) (fun _ _ => 0) f') ∧
    ∀ f', cMatmulPatch2 e c A B ⟨[2, 2], [1, 1], [1, 1], [0, 0]⟩ (fun _ _ => 0) (fun _ _ => 0) f' →
      rowView f' 0 0 = 1 ∧ rowView A.f 0 0 * rowView B.f 0 0 + rowView A.f 0 1 * rowView B.f 1 0 = 2 := by
  intro A B e c
  refine ⟨by simp [MatmulLegalC, A, B, c], ?_, ?_⟩
  · exact C60_matmul_returns_partial { e with irreg := true } (incCall c) A B _ 2 2 rfl (by decide) (fun _ => (⟨by norm_num, by norm_num, by norm_num⟩ : (0:Int) < 2 ∧ (0:Int) < 2 ∧ (0:Int) < 2))
      (by decide) (by simp [MatmulLegal, A, B, c, incCall]) (fun h => absurd h.1 (by simp)) _ _
  · intro f' h
    have r := (C66_matmul_patch_order_partial e c A B _ 2 2 rfl (by decide) (by decide) (by decide) rfl
      (fun _ => (⟨by norm_num, by norm_num, by norm_num⟩ : (0:Int) < 2 ∧ (0:Int) < 2 ∧ (0:Int) < 2)) (fun _ => rfl) (by decide) _ _ f' h).1 0 0 (by decide) (by decide) (by decide) (by decide)
    exact ⟨r.trans (by decide), by decide⟩

end GA
