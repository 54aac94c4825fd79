import Verif.Lemmas.LocalView
import Verif.Props.C07
import Verif.Props.C48

/-!
# The content of a global array

`Holds G m f`: in memory `m` the array `G` has content `f`, in terms of `NGA_Get`. Used in the
statements of C12, C35, C39 and C51.
-/

namespace GA
open Spec Model

section
variable {V : Type}

/-- The array `G` in memory `m` has content `f`: every get that runs without error returns `f` on
its patch and leaves the rest of the user buffer alone. -/
def Holds (G : GArr) (m : Addr → V) (f : List Int → V) : Prop :=
  match G with
  | .reg A _ => ∀ (E : Env) (lo hi ld : List Int) (buf buf' : Int → V), EnvOK E A → LdOK lo hi ld →
      ngaGet E A lo hi buf ld m = some buf' → GetResult lo hi ld f buf buf'
  | .blk A => ∀ (fl : Int → Bool) (lo hi ld : List Int) (buf buf' : Int → V), PatchOK A.dims lo hi →
      LdOK lo hi ld → bGet fl A lo hi buf ld m = some buf' → GetResult lo hi ld f buf buf'

/-- Arrays on which put and get work: well-formed REGULAR arrays, and block-cyclic arrays with
enough blocks (see C09). -/
def Sound : GArr → Prop
  | .reg A n => ArrOK A ∧ gridSize A.nblock ≤ n
  | .blk A => Created A ∧ EnoughBlocks A

/-- Arrays whose block pointers are right (see C48). -/
def PtrOK : GArr → Prop
  | .reg _ _ => True
  | .blk A => PtrKind A

private theorem single_patch {dims x : List Int} (hx : InArray dims x) : PatchOK dims x x ∧
    InPatch x x x := by
  have : InPatch x x x := by
    clear hx
    induction x with
    | nil => trivial
    | cons a x ih => exact ⟨⟨le_refl _, le_refl _⟩, ih⟩
  exact ⟨⟨hx, hx, this⟩, this⟩

private theorem single_ld {x : List Int} (h : x ≠ []) : ∃ ld, LdOK x x ld := by
  induction x with
  | nil => exact absurd rfl h
  | cons a x ih =>
    cases x with
    | nil => exact ⟨[], trivial⟩
    | cons b x =>
      obtain ⟨ld, hld⟩ := ih (by simp)
      exact ⟨1 :: ld, by simpa [LdOK] using hld⟩

private theorem numElems_self (x : List Int) : 0 ≤ numElems x x := by
  induction x with
  | nil => simp [numElems]
  | cons a x ih => simp only [numElems]; exact Int.mul_nonneg (by omega) ih

/-- `Holds` in terms of memory cells. -/
theorem holds_iff {G : GArr} (hG : Sound G) {m : Addr → V} {f : List Int → V} :
    Holds G m f ↔ ∀ x, InArray G.dims x → m (cellG G x) = f x := by
  cases G with
  | reg A n =>
    obtain ⟨hA, hn⟩ := hG
    constructor
    · intro h x hx
      obtain ⟨hp, hxx⟩ := single_patch hx
      have hne : x ≠ [] := by
        intro h0
        have := hx.length
        rw [h0] at this
        simp only [GArr.dims] at this
        exact hA.ne (List.length_eq_zero_iff.1 (by simp at this; omega))
      obtain ⟨ld, hld⟩ := single_ld hne
      obtain ⟨E, hE, hE0, hE1⟩ : ∃ E : Env, EnvOK E A ∧ E.elemsize = 0 ∧ E.maxInt = 0 :=
        ⟨⟨A.nblock.map fun _ => 0, A.nblock.map fun _ => 0, fun _ => 0, fun _ => true, 0, 0⟩,
          ⟨candOK_zero _, candOK_zero _, le_refl _, le_refl _⟩, rfl, rfl⟩
      obtain ⟨buf', hb⟩ := ((C07_rejects (V := Int) A hA E hE x x ld (fun _ => 0) 0 (fun _ => 0)).2 hp
        (by rw [hE0, hE1]; simp)).2.1
      obtain ⟨rs, hrs, _⟩ := Option.map_eq_some_iff.1 hb
      have hg : ngaGet E A x x (fun _ => f x) ld m =
          some (applyGet (xfers E.isLocal x ld rs) m fun _ => f x) := by
        simp only [ngaGet, hrs, Option.map_some]
      have hres := h E x x ld _ _ hE hld hg
      have hrep := get_repr hA hE hld (f := fun y => m (cell A y)) (fun y _ => rfl) hg
      rw [← hres.1 x hxx, hrep.1 x hxx]; rfl
    · intro h E lo hi ld buf buf' hE hld hg
      exact get_repr hA hE hld (fun x hx => h x hx) hg
  | blk A =>
    obtain ⟨hA, he⟩ := hG
    have hok := hA.ok
    constructor
    · intro h x hx
      obtain ⟨hp, hxx⟩ := single_patch hx
      have hne : x ≠ [] := by
        intro h0
        have := hx.length
        rw [h0] at this
        simp only [GArr.dims] at this
        exact hok.ne (List.length_eq_zero_iff.1 (by simp at this; omega))
      obtain ⟨ld, hld⟩ := single_ld hne
      obtain ⟨ps, hps, himp⟩ := bPieces_implements hok he hp hld fun _ => true
      have hg : bGet (fun _ => true) A x x (fun _ => f x) ld m =
          some (applyGet (xfers (fun _ => true) x ld ps) m fun _ => f x) := by
        simp only [bGet, hps, Option.map_some]
      have hres := h (fun _ => true) x x ld _ _ hp hld hg
      have := hres.1 x hxx
      rw [get_hit himp hld _ m hxx] at this
      exact this
    · intro h fl lo hi ld buf buf' hp hld hg
      obtain ⟨ps, hps, himp⟩ := bPieces_implements hok he hp hld fl
      simp only [bGet, hps, Option.map_some, Option.some.injEq] at hg
      subst hg
      constructor
      · intro x hx
        rw [get_hit himp hld buf m hx]
        exact h x (hp.inArray hx)
      · intro i hi'
        exact get_miss himp buf m hi'

theorem cellG_bounds {G : GArr} (hG : Sound G) {x : List Int} (hx : InArray G.dims x) :
    ∃ p : Nat, (cellG G x).1 = p ∧ p < G.nproc ∧ 0 ≤ (cellG G x).2 ∧ (cellG G x).2 < segElems G p := by
  cases G with
  | reg A n =>
    obtain ⟨p, h1, h2, _, _, h3, h4⟩ := reg_bounds hG.1 hG.2 hx
    exact ⟨p, h1, h2, h3, h4⟩
  | blk A => exact cellB_bounds hG.1.ok hx

theorem view_of {G : GArr} (hG : Sound G) (hp : PtrOK G) :
    ∃ items, View G items (cellG G) := by
  cases G with
  | reg A n => exact ⟨_, reg_view hG.1 hG.2⟩
  | blk A => exact ⟨_, blk_view hG.1.ok hG.2 hp⟩

end

end GA
