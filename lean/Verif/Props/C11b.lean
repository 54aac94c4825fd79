import Verif.Model.ReadInc
import Verif.Spec.ReadInc
import Verif.Props.C07
import Verif.Props.C48

/-!
# C11: `NGA_Read_inc` on the array

The communication-layer part of C11 (atomicity, order) is in `Props/C11.lean`. Here: the address
computed by `NGA_Read_inc` is the address of the element that put, get and accumulate use, so that
any history of puts, accumulates and read-and-increments acts like on one plain array.
-/

namespace GA
open Spec Model

/-- `int` can hold the increment -/
def IncOK (inc : Int) : Prop := -2147483648 ≤ inc ∧ inc ≤ 2147483647

instance (inc : Int) : Decidable (IncOK inc) := by unfold IncOK; infer_instance

private theorem castInt_id {inc : Int} (h : IncOK inc) : castInt inc = inc := by
  unfold castInt IncOK at *; omega

/-- Run a history on a REGULAR array. Every put/accumulate has its environment, every
read-and-increment the floating point guesses of its `findblock` calls. -/
def runR (A : RegArray) : List (Env × List Nat × RIStep) → (Addr → Int) →
    Option ((Addr → Int) × List Int)
  | [], m => some (m, [])
  | (E, _, .op o) :: rest, m => (runOp A E o m).bind (runR A rest)
  | (_, cand, .rinc x inc) :: rest, m =>
    (readInc A cand x inc m).bind fun r => (runR A rest r.2).map fun s => (s.1, r.1 :: s.2)

/-- legal request -/
def RIStepOK (A : RegArray) : Env × List Nat × RIStep → Prop
  | (E, _, .op o) => EnvOK E A ∧ o.LdOK
  | (_, cand, .rinc x inc) => CandOK A.nblock cand ∧ InArray A.dims x ∧ IncOK inc

private theorem readInc_eq {A : RegArray} (hA : ArrOK A) {cand : List Nat}
    (hc : CandOK A.nblock cand) {x : List Int} (hx : InArray A.dims x) (inc : Int)
    (m : Addr → Int) : readInc A cand x inc m = some (rmwAdd (cell A x) inc m) := by
  obtain ⟨p, h1, h2, h3, h4, h5⟩ := (C01_unique_owner A hA.ne hA.map cand hc x hx.length).1 hx
  obtain ⟨o1, o2⟩ := ownerC_ok hA.map hx
  have hp : ((undigits A.nblock (ownerC A x) : Nat) : Int) = p := by
    apply h5
    unfold OwnedBy
    rw [owns_of_coord o1]
    exact o2
  unfold readInc
  rw [h1]
  simp only [Option.getD_some]
  rw [if_pos (checkSubscript_of_inPatch h4)]
  unfold cell
  rw [hp]

private theorem rmw_repr {cellf : List Int → Addr} {dims : List Int}
    (hinj : ∀ x y, InArray dims x → InArray dims y → cellf x = cellf y → x = y)
    {m : Addr → Int} {f : List Int → Int} (hm : ∀ x, InArray dims x → m (cellf x) = f x)
    {x : List Int} (hx : InArray dims x) {inc : Int} (hi : IncOK inc) :
    (rmwAdd (cellf x) inc m).1 = f x ∧
    ∀ y, InArray dims y → (rmwAdd (cellf x) inc m).2 (cellf y) = if y = x then f y + inc else f y := by
  refine ⟨hm x hx, ?_⟩
  intro y hy
  simp only [rmwAdd, upd, castInt_id hi]
  by_cases e : y = x
  · subst e; simp [hm y hy]
  · rw [if_neg e, if_neg (fun h => e (hinj y x hy hx h)), hm y hy]

private theorem runR_repr {A : RegArray} (hA : ArrOK A) (h : List (Env × List Nat × RIStep))
    (hh : ∀ e ∈ h, RIStepOK A e) {m : Addr → Int} {f : List Int → Int} (hm : Repr A m f)
    {m' : Addr → Int} {outs : List Int} (hr : runR A h m = some (m', outs)) :
    Repr A m' (specR f (h.map fun e => e.2.2)).1 ∧ outs = (specR f (h.map fun e => e.2.2)).2 := by
  induction h generalizing m f outs with
  | nil =>
    simp only [runR, Option.some.injEq, Prod.mk.injEq] at hr
    obtain ⟨rfl, rfl⟩ := hr
    exact ⟨hm, rfl⟩
  | cons e h ih =>
    obtain ⟨E, cand, s⟩ := e
    have hs := hh _ (List.mem_cons_self ..)
    have hh' : ∀ e ∈ h, RIStepOK A e := fun e he => hh e (by simp [he])
    cases s with
    | op o =>
      simp only [runR, Option.bind_eq_some_iff] at hr
      obtain ⟨m1, h1, h2⟩ := hr
      exact ih hh' (runOp_repr hA hs.1 hs.2 hm h1) h2
    | rinc x inc =>
      obtain ⟨hc, hx, hi⟩ : CandOK A.nblock cand ∧ InArray A.dims x ∧ IncOK inc := hs
      simp only [runR, readInc_eq hA hc hx, Option.bind_some, Option.map_eq_some_iff] at hr
      obtain ⟨⟨m2, o2⟩, h1, h2⟩ := hr
      simp only [Prod.mk.injEq] at h2
      obtain ⟨rfl, rfl⟩ := h2
      obtain ⟨k1, k2⟩ := rmw_repr (fun x y hx hy => cell_inj hA hx hy) hm hx hi
      obtain ⟨r1, r2⟩ := ih hh' (f := fun y => if y = x then f y + inc else f y) k2 h1
      refine ⟨r1, ?_⟩
      simp only [List.map_cons, specR, k1, r2]

/-- **C11 (REGULAR arrays).** For every initial memory there is an array content `f₀` such that for
every history of puts, accumulates and read-and-increments that ran without error, the
read-and-increments returned the values of the same history on the plain array, and every later get
returns the content of the plain array. -/
theorem C11_read_inc (A : RegArray) (hA : ArrOK A) (m0 : Addr → Int) :
    ∃ f0 : List Int → Int, ∀ (h : List (Env × List Nat × RIStep)) (m : Addr → Int)
      (outs : List Int), (∀ e ∈ h, RIStepOK A e) → runR A h m0 = some (m, outs) →
      outs = (specR f0 (h.map fun e => e.2.2)).2 ∧
      ∀ (E : Env) (lo hi ld : List Int) (buf buf' : Int → Int), EnvOK E A → LdOK lo hi ld →
        ngaGet E A lo hi buf ld m = some buf' →
        GetResult lo hi ld (specR f0 (h.map fun e => e.2.2)).1 buf buf' := by
  refine ⟨fun x => m0 (cell A x), ?_⟩
  intro h m outs hh hr
  obtain ⟨h1, h2⟩ := runR_repr hA h hh (fun x _ => rfl) hr
  exact ⟨h2, fun E lo hi ld buf buf' hE hld hg => get_repr hA hE hld h1 hg⟩

/-- **C11 (errors).** A read-and-increment of an element of the array always succeeds, of a
subscript outside the array always fails. -/
theorem C11_read_inc_error (A : RegArray) (hA : ArrOK A) (cand : List Nat)
    (hc : CandOK A.nblock cand) (x : List Int) (hl : x.length = A.dims.length) (inc : Int)
    (m : Addr → Int) : (readInc A cand x inc m).isSome ↔ InArray A.dims x := by
  constructor
  · intro h
    by_contra hx
    have h1 := ((C01_unique_owner A hA.ne hA.map cand hc x hl).2 hx).1
    unfold readInc at h
    rw [h1] at h
    simp only [Option.getD_none] at h
    have ho : owns A (-1) = (A.nblock.map fun _ => 0, A.nblock.map fun _ => -1) := by
      unfold owns; rw [if_pos (by omega)]
    rw [ho] at h
    have hn : A.nblock.length = A.dims.length := mapOK_length hA.map
    have hne := hA.ne
    have : checkSubscript x (A.nblock.map fun _ => 0) (A.nblock.map fun _ => -1) = false := by
      cases x with
      | nil => exact absurd (List.length_eq_zero_iff.1 hl.symm) hne
      | cons a x =>
        cases hb : A.nblock with
        | nil => rw [hb] at hn; exact absurd (List.length_eq_zero_iff.1 hn.symm) hne
        | cons n ns =>
          simp only [List.map_cons, checkSubscript, Bool.and_eq_false_iff, decide_eq_false_iff_not]
          left; omega
    rw [this] at h
    simp at h
  · intro h
    rw [readInc_eq hA hc h]
    rfl

/-! ## Block-cyclic arrays -/

/-- Run a history on an array that is not REGULAR. -/
def bRunR (A : BArray) : List ((Int → Bool) × List Nat × RIStep) → (Addr → Int) →
    Option ((Addr → Int) × List Int)
  | [], m => some (m, [])
  | (fl, _, .op o) :: rest, m => (bRunOp A fl o m).bind (bRunR A rest)
  | (_, cand, .rinc x inc) :: rest, m =>
    (bReadInc A cand x inc m).bind fun r => (bRunR A rest r.2).map fun s => (s.1, r.1 :: s.2)

/-- legal request -/
def BStepOK (A : BArray) : (Int → Bool) × List Nat × RIStep → Prop
  | (_, _, .op o) => BOpOK A o
  | (_, cand, .rinc x inc) => CandOK A.nblocks cand ∧ InArray A.dims x ∧ IncOK inc

private theorem riOff_eq (x lo ld : List Int) (off j : Int) :
    riOff x lo ld off j = off + j * bufPos lo ld x := by
  induction x generalizing lo ld off j with
  | nil => cases lo <;> cases ld <;> simp [riOff, bufPos]
  | cons a x ih =>
    cases lo with
    | nil => simp [riOff, bufPos]
    | cons l lo =>
      cases ld with
      | nil => simp [riOff, bufPos]; ring
      | cons d ld => simp only [riOff, bufPos, ih]; ring

private theorem bReadInc_eq {A : BArray} (hA : Created A) (hk : PtrKind A) {cand : List Nat}
    (hc : CandOK A.nblocks cand) {x : List Int} (hx : InArray A.dims x) (inc : Int)
    (m : Addr → Int) : bReadInc A cand x inc m = some (rmwAdd (cellB A x) inc m) := by
  obtain ⟨h1, h2, _⟩ := (C05_partition A hA x).1 hx cand hc
  obtain ⟨off, ld, ha⟩ := accessBlock_some hA.ok h1
  unfold bReadInc
  simp only [ha]
  rw [accessBlock_cell hA.ok hk h1 ha h2, riOff_eq]
  simp

/-- **C11 (block-cyclic arrays), partial.** The same for simple block-cyclic, ScaLAPACK and
irregular tiled arrays and for tiled arrays on grids with extent 2 in every dimension. Missing:
tiled arrays on other grids (there the address is wrong: `C11_tiled_wrong_element`) and arrays with
too few blocks (see C09). -/
theorem C11_read_inc_blocks_partial (A : BArray) (hA : Created A) (he : EnoughBlocks A)
    (hk : PtrKind A) (m0 : Addr → Int) :
    ∃ f0 : List Int → Int, ∀ (h : List ((Int → Bool) × List Nat × RIStep)),
      (∀ e ∈ h, BStepOK A e) → ∃ m, bRunR A h m0 = some (m, (specR f0 (h.map fun e => e.2.2)).2) ∧
      ∀ (fl : Int → Bool) (lo hi ld : List Int) (buf : Int → Int), PatchOK A.dims lo hi →
        LdOK lo hi ld → ∃ buf', bGet fl A lo hi buf ld m = some buf' ∧
          GetResult lo hi ld (specR f0 (h.map fun e => e.2.2)).1 buf buf' := by
  have hB := hA.ok
  refine ⟨fun x => m0 (cellB A x), ?_⟩
  intro h hh
  have key : ∀ (m : Addr → Int) (f : List Int → Int),
      (∀ x, InArray A.dims x → m (cellB A x) = f x) →
      ∃ m', bRunR A h m = some (m', (specR f (h.map fun e => e.2.2)).2) ∧
        ∀ x, InArray A.dims x → m' (cellB A x) = (specR f (h.map fun e => e.2.2)).1 x := by
    induction h with
    | nil => intro m f hm; exact ⟨m, rfl, hm⟩
    | cons e h ih =>
      intro m f hm
      obtain ⟨fl, cand, s⟩ := e
      have hs := hh _ (List.mem_cons_self ..)
      have hh' : ∀ e ∈ h, BStepOK A e := fun e he => hh e (by simp [he])
      cases s with
      | op o =>
        obtain ⟨m1, h1, h2, _⟩ := bRunOp_repr hB he fl hs hm
        obtain ⟨m2, h3, h4⟩ := ih hh' m1 _ h2
        exact ⟨m2, by simp only [bRunR, h1, Option.bind_some, h3]; rfl, h4⟩
      | rinc x inc =>
        obtain ⟨hc, hx, hi⟩ : CandOK A.nblocks cand ∧ InArray A.dims x ∧ IncOK inc := hs
        obtain ⟨k1, k2⟩ := rmw_repr (fun x y hx hy => cellB_inj hB hx hy) hm hx hi
        obtain ⟨m2, h3, h4⟩ := ih hh' _ (fun y => if y = x then f y + inc else f y) k2
        exact ⟨m2, by simp only [bRunR, bReadInc_eq hA hk hc hx, Option.bind_some, h3,
          Option.map_some, k1]; rfl, h4⟩
  obtain ⟨m, hr, hm⟩ := key m0 _ (fun x _ => rfl)
  refine ⟨m, hr, ?_⟩
  intro fl lo hi ld buf hok hld
  obtain ⟨ps, hps, himp⟩ := bPieces_implements hB he hok hld fl
  refine ⟨applyGet (xfers fl lo ld ps) m buf, by simp only [bGet, hps, Option.map_some], ?_, ?_⟩
  · intro x hx
    rw [get_hit himp hld buf m hx, hm x (hok.inArray hx)]
  · intro i hi'
    exact get_miss himp buf m hi'

/-! ## Negative results -/

/-- one dimension, 5 elements on 2 processes -/
def exRI : RegArray := ⟨[5], [2], [1, 4], [0]⟩

/-- **C11, negative result.** The increment passes through an `int` (onesided.c 4035) although the
argument is an `Integer` (64 bits): incrementing by 2³¹ subtracts 2³¹, incrementing by 2³² does
nothing. -/
theorem C11_large_increment (x : List Int) (cand : List Nat) (A : RegArray) (hA : ArrOK A)
    (hc : CandOK A.nblock cand) (hx : InArray A.dims x) (m : Addr → Int) :
    (∃ m', readInc A cand x 2147483648 m = some (m (cell A x), m') ∧
      m' (cell A x) = m (cell A x) - 2147483648) ∧
    readInc A cand x 4294967296 m = some (m (cell A x), m) := by
  rw [readInc_eq hA hc hx, readInc_eq hA hc hx]
  refine ⟨⟨_, rfl, ?_⟩, ?_⟩
  · simp only [rmwAdd, upd, if_true, castInt]; omega
  · simp only [rmwAdd, castInt, Option.some.injEq, Prod.mk.injEq, true_and]
    funext b
    simp only [upd]
    split
    · rename_i e; rw [e]; omega
    · rfl

/-- **C11, negative result.** On a tiled array over a grid of extent 1 the increment of element 1
changes element 3, and that of element 5 goes behind the allocated memory. -/
theorem C11_tiled_wrong_element :
    Created exT1 ∧ EnoughBlocks exT1 ∧ bAlloc exT1 0 = 6 ∧
    (bReadInc exT1 [0] [1] 1 fun _ => 0).map (fun r => (List.range 7).map fun i : Nat => r.2 (0, i))
      = some [0, 0, 1, 0, 0, 0, 0] ∧
    (bReadInc exT1 [0] [5] 1 fun _ => 0).map (fun r => (List.range 7).map fun i : Nat => r.2 (0, i))
      = some [0, 0, 0, 0, 0, 0, 1] ∧
    (bGet (fun _ => true) exT1 [1] [6] (fun _ => 9) [] fun a => if a = (0, 2) then 1 else 0).map
      (fun b => (List.range 6).map fun i : Nat => b i) = some [0, 0, 1, 0, 0, 0] :=
  ⟨exT1_created, by decide, by decide, by decide, by decide, by decide⟩

/-! ## Non-vacuity -/

example : ArrOK exRI := ⟨by decide, by decide, by decide⟩
example : CandOK exRI.nblock [1] ∧ InArray exRI.dims [4] ∧ IncOK (-3) :=
  ⟨⟨by decide, trivial⟩, by decide, by decide⟩
example : (runR exRI [(exE, [0], .rinc [4] 3), (exE, [1], .rinc [4] 2),
    (exE, [0], .rinc [2] 1)] fun _ => 10).map Prod.snd = some [10, 13, 10] := by decide
example : (bRunR exIrr [((fun _ => true), [0, 0], .rinc [4, 4] 3),
    ((fun _ => true), [1, 1], .rinc [4, 4] 2)] fun _ => 10).map Prod.snd = some [10, 13] := by decide

end GA
