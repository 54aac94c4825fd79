import Verif.Lemmas.Faces
import Verif.Props.C06

/-!
# C07: put/get/accumulate act on the array like on one shared memory
-/

namespace GA
open Spec Model

section
variable {V : Type} [Add V] [Mul V]

/-- Run one request on the machine. -/
def runOp (A : RegArray) (E : Env) : Op V → (Addr → V) → Option (Addr → V)
  | .put lo hi ld buf, m => ngaPut E A lo hi buf ld m
  | .acc lo hi ld alpha buf, m => ngaAcc E A lo hi buf ld alpha m

/-- Run a history of requests; every request has its own environment (calling process, random
permutation, floating point guesses, node locality). -/
def runOps (A : RegArray) : List (Env × Op V) → (Addr → V) → Option (Addr → V)
  | [], m => some m
  | (E, o) :: os, m => (runOp A E o m).bind (runOps A os)

/-- machine state `m` represents array content `f` -/
def Repr (A : RegArray) (m : Addr → V) (f : List Int → V) : Prop :=
  ∀ x, InArray A.dims x → m (cell A x) = f x

omit [Add V] [Mul V] in
theorem implements_of_pieces {A : RegArray} {E : Env} (hA : ArrOK A) (hE : EnvOK E A)
    {lo hi ld : List Int} {rs : List RPiece} (h : regPieces E A lo hi = some rs)
    (hld : LdOK lo hi ld) : PatchOK A.dims lo hi ∧
      Implements (cell A) lo hi ld (xfers E.isLocal lo ld rs) := by
  obtain ⟨h1, h2, h3⟩ := regPieces_spec hA hE h
  refine ⟨h1, xfers_implements _ hld.length.2 h2 ?_⟩
  intro p hp
  obtain ⟨a, b, c, d, e⟩ := h3 p hp
  exact ⟨a, b, d, fun x hx => (e x hx).2.2⟩

theorem runOp_repr {A : RegArray} {E : Env} (hA : ArrOK A) (hE : EnvOK E A) {o : Op V}
    (ho : o.LdOK) {m m' : Addr → V} {f : List Int → V} (hm : Repr A m f)
    (h : runOp A E o m = some m') : Repr A m' (specStep f o) := by
  cases o with
  | put lo hi ld buf =>
    simp only [runOp, ngaPut, Option.map_eq_some_iff] at h
    obtain ⟨rs, hrs, rfl⟩ := h
    obtain ⟨hok, himp⟩ := implements_of_pieces hA hE hrs ho
    intro x hx
    simp only [specStep]
    split
    · rename_i hp
      exact put_hit himp (fun x y hx hy => cell_inj hA (hok.inArray hx) (hok.inArray hy)) buf m hp
    · rename_i hp
      rw [put_miss himp]
      · exact hm x hx
      · intro y hy e
        exact hp (cell_inj hA (hok.inArray hy) hx e ▸ hy)
  | acc lo hi ld alpha buf =>
    simp only [runOp, ngaAcc, Option.map_eq_some_iff] at h
    obtain ⟨rs, hrs, rfl⟩ := h
    obtain ⟨hok, himp⟩ := implements_of_pieces hA hE hrs ho
    intro x hx
    simp only [specStep]
    split
    · rename_i hp
      rw [acc_hit himp (fun x y hx hy => cell_inj hA (hok.inArray hx) (hok.inArray hy)) alpha buf m hp,
        hm x hx]
    · rename_i hp
      rw [acc_miss himp]
      · exact hm x hx
      · intro y hy e
        exact hp (cell_inj hA (hok.inArray hy) hx e ▸ hy)

theorem runOps_repr {A : RegArray} (hA : ArrOK A) (h : List (Env × Op V))
    (hh : ∀ e ∈ h, EnvOK e.1 A ∧ e.2.LdOK) {m m' : Addr → V} {f : List Int → V} (hm : Repr A m f)
    (hr : runOps A h m = some m') : Repr A m' (specRun f (h.map Prod.snd)) := by
  induction h generalizing m f with
  | nil => simp only [runOps, Option.some.injEq] at hr; subst hr; exact hm
  | cons e h ih =>
    obtain ⟨E, o⟩ := e
    simp only [runOps, Option.bind_eq_some_iff] at hr
    obtain ⟨m1, h1, h2⟩ := hr
    obtain ⟨a, b⟩ := hh _ (List.mem_cons_self ..)
    exact ih (fun e he => hh e (by simp [he])) (runOp_repr hA a b hm h1) h2

omit [Add V] [Mul V] in
theorem get_repr {A : RegArray} {E : Env} (hA : ArrOK A) (hE : EnvOK E A) {lo hi ld : List Int}
    (hld : LdOK lo hi ld) {m : Addr → V} {f : List Int → V} (hm : Repr A m f) {buf buf' : Int → V}
    (h : ngaGet E A lo hi buf ld m = some buf') : GetResult lo hi ld f buf buf' := by
  simp only [ngaGet, Option.map_eq_some_iff] at h
  obtain ⟨rs, hrs, rfl⟩ := h
  obtain ⟨hok, himp⟩ := implements_of_pieces hA hE hrs hld
  constructor
  · intro x hx
    rw [get_hit himp hld buf m hx, hm x (hok.inArray hx)]
  · intro i hi'
    exact get_miss himp buf m hi'

/-- **C07.** Black box statement: for every initial memory there is an array content `f₀` such that
after every history of puts and accumulates that ran without error, every get that runs without
error returns the content the plain array has after the same history, and leaves the rest of the
user buffer alone. Environments (caller, guesses, random order, locality, message limit) of the
requests are arbitrary and independent of each other. -/
theorem C07_shared_memory (A : RegArray) (hA : ArrOK A) (m0 : Addr → V) :
    ∃ f0 : List Int → V, ∀ (h : List (Env × Op V)) (m : Addr → V),
      (∀ e ∈ h, EnvOK e.1 A ∧ e.2.LdOK) → runOps A h m0 = some m →
      ∀ (E : Env) (lo hi ld : List Int) (buf buf' : Int → V), EnvOK E A → LdOK lo hi ld →
        ngaGet E A lo hi buf ld m = some buf' →
        GetResult lo hi ld (specRun f0 (h.map Prod.snd)) buf buf' := by
  refine ⟨fun x => m0 (cell A x), ?_⟩
  intro h m hh hr E lo hi ld buf buf' hE hld hg
  exact get_repr hA hE hld (runOps_repr hA h hh (fun x _ => rfl) hr) hg

/-- **C07 (errors).** An illegal patch is rejected by all three operations (memory and buffer
stay as they are), and only errors of a legal patch are those of the splitting of oversized
blocks (C45): a patch that fits into one message is always served. -/
theorem C07_rejects (A : RegArray) (hA : ArrOK A) (E : Env) (hE : EnvOK E A) (lo hi ld : List Int)
    (buf : Int → V) (alpha : V) (m : Addr → V) :
    (¬ PatchOK A.dims lo hi → ngaPut E A lo hi buf ld m = none ∧ ngaGet E A lo hi buf ld m = none ∧
      ngaAcc E A lo hi buf ld alpha m = none) ∧
    (PatchOK A.dims lo hi → E.elemsize * numElems lo hi ≤ E.maxInt →
      (∃ m', ngaPut E A lo hi buf ld m = some m') ∧ (∃ b', ngaGet E A lo hi buf ld m = some b') ∧
      (∃ m', ngaAcc E A lo hi buf ld alpha m = some m')) := by
  constructor
  · intro h
    simp [ngaPut, ngaGet, ngaAcc, regPieces_none (E := E) h]
  · intro h hf
    obtain ⟨rs, hrs⟩ := regPieces_fits hA hE h (by unfold FitsOne; rw [prodI_edges]; exact hf)
    simp [ngaPut, ngaGet, ngaAcc, hrs]

/-- **C45, partial.** A legal patch of which every face fits into one message is served, whatever
the environment. Missing: patches with a larger face; `C45_oversize_crash` shows that the code
fails for some of them. -/
theorem C45_served_partial (A : RegArray) (hA : ArrOK A) (E : Env) (hE : EnvOK E A)
    (lo hi ld : List Int) (buf : Int → V) (alpha : V) (m : Addr → V)
    (h : PatchOK A.dims lo hi) (hf : FitsFaces E lo hi) :
    (∃ m', ngaPut E A lo hi buf ld m = some m') ∧ (∃ b', ngaGet E A lo hi buf ld m = some b') ∧
      (∃ m', ngaAcc E A lo hi buf ld alpha m = some m') := by
  obtain ⟨rs, hrs⟩ := regPieces_faces hA hE h hf
  simp [ngaPut, ngaGet, ngaAcc, hrs]

/-- **C07 (frame).** A put or accumulate changes no machine address other than those of the
elements of its patch; in particular ghost cells, other arrays' memory and other elements stay
as they are. -/
theorem C07_frame (A : RegArray) (hA : ArrOK A) (E : Env) (hE : EnvOK E A) (o : Op V) (ho : o.LdOK)
    (m m' : Addr → V) (h : runOp A E o m = some m') (p o' : Int)
    (hno : ∀ x, OwnedBy A p x → locOffset A p x ≠ o') : m' (p, o') = m (p, o') := by
  have hmiss : ∀ x, InArray A.dims x → cell A x ≠ (p, o') := by
    intro x hx e
    obtain ⟨h1, h2⟩ := ownerC_ok hA.map hx
    unfold cell at e
    rw [Prod.mk.injEq] at e
    apply hno x
    · rw [← e.1]
      unfold OwnedBy
      rw [owns_of_coord h1]
      exact h2
    · rw [← e.1, e.2]
  cases o with
  | put lo hi ld buf =>
    simp only [runOp, ngaPut, Option.map_eq_some_iff] at h
    obtain ⟨rs, hrs, rfl⟩ := h
    obtain ⟨hok, himp⟩ := implements_of_pieces hA hE hrs ho
    exact put_miss himp buf m fun x hx => hmiss x (hok.inArray hx)
  | acc lo hi ld alpha buf =>
    simp only [runOp, ngaAcc, Option.map_eq_some_iff] at h
    obtain ⟨rs, hrs, rfl⟩ := h
    obtain ⟨hok, himp⟩ := implements_of_pieces hA hE hrs ho
    exact acc_miss himp alpha buf m fun x hx => hmiss x (hok.inArray hx)

end

/-! ## The message limit can make a legal request fail

`FitsFaces` cannot be dropped: the splitting loop (iterator.c 383-393) does not reset `maxint`
between its passes, so it halves the same dimension again and again, down to zero, and then
divides by zero. -/

/-- 7-dimensional array 26^7 of doubles on one process (about 64 GB). -/
def exBig : RegArray := ⟨[26, 26, 26, 26, 26, 26, 26], [1, 1, 1, 1, 1, 1, 1], [1, 1, 1, 1, 1, 1, 1],
  [0, 0, 0, 0, 0, 0, 0]⟩

/-- environment with the real limit 2^31 and 8-byte elements -/
def exBigE : Env := ⟨[0, 0, 0, 0, 0, 0, 0], [0, 0, 0, 0, 0, 0, 0], fun _ => 0, fun _ => true, 8,
  2147483648⟩

/-- **C45, negative result.** There is a well-formed array and a legal patch for which ngaGet, put
and acc crash (division by zero) with the limit used by the code. -/
theorem C45_oversize_crash :
    ArrOK exBig ∧ EnvOK exBigE exBig ∧
    PatchOK exBig.dims [1, 1, 1, 1, 1, 1, 1] [26, 26, 26, 26, 26, 26, 26] ∧
    regPieces exBigE exBig [1, 1, 1, 1, 1, 1, 1] [26, 26, 26, 26, 26, 26, 26] = none := by
  refine ⟨⟨by decide, by decide, by decide⟩, ⟨by simp [CandOK, exBig, exBigE],
    by simp [CandOK, exBig, exBigE], by decide, by decide⟩, by decide, by decide⟩

/-! Non-vacuity: the ghosted example array, two environments, one of which splits pieces. -/

/-- environment with unlimited messages -/
def exE : Env := ⟨[3, 0], [0, 2], fun i => i * 7 + 3, fun p => p == 2, 8, 2147483648⟩
/-- environment with at most 40 bytes (5 elements) per message -/
def exE2 : Env := ⟨[1, 1], [2, 1], fun i => i + 1, fun _ => false, 8, 40⟩

theorem exE_ok : EnvOK exE exG ∧ EnvOK exE2 exG :=
  ⟨⟨by simp [CandOK, exG, exE], by simp [CandOK, exG, exE], by decide, by decide⟩,
   ⟨by simp [CandOK, exG, exE2], by simp [CandOK, exG, exE2], by decide, by decide⟩⟩

example : PatchOK exG.dims [3, 2] [7, 5] ∧ LdOK [3, 2] [7, 5] [6] := by decide
example : FitsFaces exE2 [3, 2] [7, 5] := by
  intro i hi
  match i, hi with
  | 0, _ => decide
  | 1, _ => decide
/-- the split environment uses eight messages, the other four -/
example : (regPieces exE2 exG [3, 2] [7, 5]).map List.length = some 8 ∧
    (regPieces exE exG [3, 2] [7, 5]).map List.length = some 4 := by decide
/-- a put followed by an acc followed by a get of another patch -/
example : ((runOps exG [(exE, .put [3, 2] [7, 5] [6] fun i => i), (exE2, .acc [4, 1] [5, 3] [2] 10 fun i => i)]
    (fun _ => (0 : Int))).bind fun m => ngaGet exE2 exG [4, 2] [6, 3] (fun _ => -1) [4] m).map
      (fun b => (List.range 8).map fun (i : Nat) => b i) = some [21, 32, 3, -1, 47, 58, 9, -1] := by
  decide

end GA
