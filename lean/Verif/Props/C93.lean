import Verif.Lemmas.Field
import Verif.Lemmas.CApi
import Verif.Props.C07

/-!
# C93: fields of elements
-/

namespace GA
open Spec Model Field

section
variable {V : Type}

/-- byte `b` of element `x` in memory `m` -/
def fieldBytes (A : RegArray) (size : Int) (m : Addr → V) (x : List Int) (b : Int) : V :=
  m (byteAddr A size x b)

private theorem putField_some {A : RegArray} {E : Env} {lo hi ld : List Int} {foff fs : Int} {buf : Int → V}
    {m m' : Addr → V} (h : putField E A lo hi foff fs buf ld m = some m') :
    ∃ rs, regPieces E A lo hi = some rs ∧ m' = applyPut (fieldXfers E foff fs lo ld rs) buf m := by
  unfold putField at h
  split at h
  · exact absurd h (by simp)
  · obtain ⟨rs, h1, h2⟩ := Option.map_eq_some_iff.1 h
    exact ⟨rs, h1, h2.symm⟩

private theorem getField_some {A : RegArray} {E : Env} {lo hi ld : List Int} {foff fs : Int} {buf buf' : Int → V}
    {m : Addr → V} (h : getField E A lo hi foff fs buf ld m = some buf') :
    ∃ rs, regPieces E A lo hi = some rs ∧ buf' = applyGet (fieldXfers E foff fs lo ld rs) m buf := by
  unfold getField at h
  split at h
  · exact absurd h (by simp)
  · obtain ⟨rs, h1, h2⟩ := Option.map_eq_some_iff.1 h
    exact ⟨rs, h1, h2.symm⟩

private theorem put_core {A : RegArray} {E : Env} (hA : ArrOK A) (hE : EnvOK E A) (hs : 0 < E.elemsize)
    {lo hi ld : List Int} (hld : LdOK lo hi ld) {foff fs : Int} (hf : fs ≠ 0)
    (ho : 0 ≤ effOff E.elemsize foff fs)
    (hos : effOff E.elemsize foff fs + effSize E.elemsize fs ≤ E.elemsize) {buf : Int → V} {m m' : Addr → V}
    (h : putField E A lo hi foff fs buf ld m = some m') :
    PatchOK A.dims lo hi ∧
    FieldPut A.dims lo hi ld E.elemsize (effOff E.elemsize foff fs) (effSize E.elemsize fs) buf
      (fieldBytes A E.elemsize m) (fieldBytes A E.elemsize m') ∧
    ∀ a, (∀ x, InPatch lo hi x → ∀ j, 0 ≤ j → j < effSize E.elemsize fs →
      a ≠ byteAddr A E.elemsize x (effOff E.elemsize foff fs + j)) → m' a = m a := by
  obtain ⟨rs, hrs, rfl⟩ := putField_some h
  obtain ⟨hok, hmem⟩ := mem_fieldXfers hA hE hs (foff := foff) hf hrs hld
  have frame : ∀ a, (∀ x, InPatch lo hi x → ∀ j, 0 ≤ j → j < effSize E.elemsize fs →
      a ≠ byteAddr A E.elemsize x (effOff E.elemsize foff fs + j)) →
      applyPut (fieldXfers E foff fs lo ld rs) buf m a = m a := by
    intro a ha
    unfold applyPut
    apply foldl_upd_miss _ (fun t : Xfer => t.addr) (fun _ t => buf t.buf)
    intro t ht e
    obtain ⟨x, hx, j, j0, j1, rfl⟩ := (hmem t).1 ht
    exact ha x hx j j0 j1 e.symm
  refine ⟨hok, ?_, frame⟩
  intro x hx b hb0 hb1
  constructor
  · rintro ⟨hp, hb2, hb3⟩
    unfold fieldBytes applyPut
    apply fold_upd_agree (fun t : Xfer => t.addr) (fun t => buf t.buf)
    · intro t ht e
      obtain ⟨y, hy, j, j0, j1, rfl⟩ := (hmem t).1 ht
      dsimp only at e ⊢
      obtain ⟨rfl, e2⟩ := byteAddr_inj hA (hok.inArray hy) hx ⟨by omega, by omega⟩ ⟨hb0, hb1⟩ e
      congr 1
      omega
    · refine ⟨_, (hmem _).2 ⟨x, hp, b - effOff E.elemsize foff fs, by omega, by omega, rfl⟩, ?_⟩
      dsimp only
      congr 1
      omega
  · intro hn
    apply frame
    intro y hy j j0 j1 e
    obtain ⟨rfl, e2⟩ := byteAddr_inj hA hx (hok.inArray hy) ⟨hb0, hb1⟩ ⟨by omega, by omega⟩ e
    exact hn ⟨hy, by omega, by omega⟩

private theorem get_core {A : RegArray} {E : Env} (hA : ArrOK A) (hE : EnvOK E A) (hs : 0 < E.elemsize)
    {lo hi ld : List Int} (hld : LdOK lo hi ld) {foff fs : Int} (hf : fs ≠ 0) {buf buf' : Int → V} {m : Addr → V}
    (h : getField E A lo hi foff fs buf ld m = some buf') :
    PatchOK A.dims lo hi ∧ FieldGet lo hi ld (effOff E.elemsize foff fs) (effSize E.elemsize fs)
      (fieldBytes A E.elemsize m) buf buf' := by
  obtain ⟨rs, hrs, rfl⟩ := getField_some h
  obtain ⟨hok, hmem⟩ := mem_fieldXfers hA hE hs (foff := foff) hf hrs hld
  refine ⟨hok, ?_, ?_⟩
  · intro x hx j j0 j1
    unfold fieldBytes applyGet
    apply fold_upd_agree (fun t : Xfer => t.buf) (fun t => m t.addr)
    · intro t ht e
      obtain ⟨y, hy, k, k0, k1, rfl⟩ := (hmem t).1 ht
      obtain ⟨rfl, rfl⟩ := bufByte_inj hld hy hx ⟨k0, k1⟩ ⟨j0, j1⟩ e
      rfl
    · exact ⟨_, (hmem _).2 ⟨x, hx, j, j0, j1, rfl⟩, rfl⟩
  · intro i hi'
    unfold applyGet
    apply foldl_upd_miss _ (fun t : Xfer => t.buf) (fun _ t => m t.addr)
    intro t ht e
    obtain ⟨x, hx, j, j0, j1, rfl⟩ := (hmem t).1 ht
    exact hi' x hx j j0 j1 e

/-- **C93.** A put of a field that lies inside the element writes exactly the bytes of that field in the
elements of the patch, from the packed fields of the buffer; no other byte of the array and no other byte
of the memory changes. -/
theorem C93_put_field {A : RegArray} {E : Env} (hA : ArrOK A) (hE : EnvOK E A) {lo hi ld : List Int}
    (hld : LdOK lo hi ld) {foff fs : Int} (h0 : 0 ≤ foff) (h1 : 0 < fs) (h2 : foff + fs ≤ E.elemsize)
    {buf : Int → V} {m m' : Addr → V} (h : putField E A lo hi foff fs buf ld m = some m') :
    PatchOK A.dims lo hi ∧
    FieldPut A.dims lo hi ld E.elemsize foff fs buf (fieldBytes A E.elemsize m) (fieldBytes A E.elemsize m') ∧
    ∀ a, (∀ x, InPatch lo hi x → ∀ j, 0 ≤ j → j < fs → a ≠ byteAddr A E.elemsize x (foff + j)) →
      m' a = m a := by
  have e1 : effSize E.elemsize fs = fs := by unfold effSize; split <;> omega
  have e2 : effOff E.elemsize foff fs = foff := by unfold effOff; split <;> omega
  have := put_core hA hE (by omega) hld (by omega) (by rw [e2]; exact h0) (by rw [e1, e2]; exact h2) h
  rwa [e1, e2] at this

/-- **C93.** A get of a field returns the bytes of that field of every element of the patch, packed in the
buffer, and changes nothing else of the buffer. -/
theorem C93_get_field {A : RegArray} {E : Env} (hA : ArrOK A) (hE : EnvOK E A) {lo hi ld : List Int}
    (hld : LdOK lo hi ld) {foff fs : Int} (h0 : 0 ≤ foff) (h1 : 0 < fs) (h2 : foff + fs ≤ E.elemsize)
    {buf buf' : Int → V} {m : Addr → V} (h : getField E A lo hi foff fs buf ld m = some buf') :
    PatchOK A.dims lo hi ∧ FieldGet lo hi ld foff fs (fieldBytes A E.elemsize m) buf buf' := by
  have e1 : effSize E.elemsize fs = fs := by unfold effSize; split <;> omega
  have e2 : effOff E.elemsize foff fs = foff := by unfold effOff; split <;> omega
  have := get_core hA hE (by omega) hld (by omega) h
  rwa [e1, e2] at this

/-- **C93.** A negative field size, and the size of the element, mean whole elements, at any offset. -/
theorem C93_whole_element {A : RegArray} {E : Env} (hA : ArrOK A) (hE : EnvOK E A) (hs : 0 < E.elemsize)
    {lo hi ld : List Int} (hld : LdOK lo hi ld) {foff fs : Int} (h1 : fs < 0 ∨ fs = E.elemsize)
    {buf : Int → V} {m : Addr → V} :
    (∀ m', putField E A lo hi foff fs buf ld m = some m' → FieldPut A.dims lo hi ld E.elemsize 0 E.elemsize buf
      (fieldBytes A E.elemsize m) (fieldBytes A E.elemsize m')) ∧
    ∀ buf', getField E A lo hi foff fs buf ld m = some buf' →
      FieldGet lo hi ld 0 E.elemsize (fieldBytes A E.elemsize m) buf buf' := by
  have e1 : effSize E.elemsize fs = E.elemsize := by unfold effSize; split <;> omega
  have e2 : effOff E.elemsize foff fs = 0 := by unfold effOff; rw [if_pos h1]
  constructor
  · intro m' h
    have := (put_core hA hE hs hld (by omega) (by omega) (by omega) h).2.1
    rwa [e1, e2] at this
  · intro buf' h
    have := (get_core hA hE hs hld (by omega) h).2
    rwa [e1, e2] at this

/-- **C93.** Requests on patches of the array are served, others end with an error. -/
theorem C93_served {A : RegArray} {E : Env} (hA : ArrOK A) (hE : EnvOK E A) {lo hi ld : List Int}
    {foff fs : Int} (hf : fs ≠ 0) (buf : Int → V) (m : Addr → V) :
    (PatchOK A.dims lo hi → FitsOne E lo hi →
      (putField E A lo hi foff fs buf ld m).isSome ∧ (getField E A lo hi foff fs buf ld m).isSome) ∧
    (¬ PatchOK A.dims lo hi →
      putField E A lo hi foff fs buf ld m = none ∧ getField E A lo hi foff fs buf ld m = none) := by
  unfold putField getField
  rw [if_neg fun h => hf h.1, if_neg fun h => hf h.1]
  constructor
  · intro hok hfit
    obtain ⟨rs, hrs⟩ := regPieces_fits hA hE hok hfit
    simp [hrs]
  · intro hn
    simp [regPieces_none hn]

/-- Run a history of puts of fields, every request with its own environment. -/
def runFields (A : RegArray) : List (Env × FieldOp V) → (Addr → V) → Option (Addr → V)
  | [], m => some m
  | (E, o) :: os, m => (putField E A o.lo o.hi o.foff o.fsize o.buf o.ld m).bind (runFields A os)

/-- **C93.** After any history of puts of fields by any processes, every byte of every element is what the
last put of a field containing it left there; fields that were not put are as they were. -/
theorem C93_history {A : RegArray} (hA : ArrOK A) {size : Int} (ops : List (Env × FieldOp V))
    (hops : ∀ e ∈ ops, EnvOK e.1 A ∧ e.1.elemsize = size ∧ LdOK e.2.lo e.2.hi e.2.ld ∧ 0 ≤ e.2.foff ∧
      0 < e.2.fsize ∧ e.2.foff + e.2.fsize ≤ size) {m m' : Addr → V} {f : List Int → Int → V}
    (hm : ∀ x, InArray A.dims x → ∀ b, 0 ≤ b → b < size → fieldBytes A size m x b = f x b)
    (h : runFields A ops m = some m') : ∀ x, InArray A.dims x → ∀ b, 0 ≤ b → b < size →
      fieldBytes A size m' x b = fieldRun f (ops.map Prod.snd) x b := by
  induction ops generalizing m f with
  | nil =>
    simp only [runFields, Option.some.injEq] at h
    subst h
    exact hm
  | cons e ops ih =>
    obtain ⟨E, o⟩ := e
    obtain ⟨a, rfl, c, d, e', g⟩ := hops _ List.mem_cons_self
    simp only [runFields, Option.bind_eq_some_iff] at h
    obtain ⟨m1, h1, h2⟩ := h
    refine ih (fun e he => hops e (List.mem_cons_of_mem _ he)) ?_ h2
    intro x hx b hb0 hb1
    obtain ⟨-, hp, -⟩ := C93_put_field hA a c d e' g h1
    obtain ⟨q1, q2⟩ := hp x hx b hb0 hb1
    dsimp only at q1 q2 ⊢
    split
    · rename_i hin
      exact q1 hin
    · rename_i hin
      rw [q2 hin]
      exact hm x hx b hb0 hb1

/-- **C93.** What a process puts into a field another process gets from it, whatever was put into other
fields of the same elements in between. -/
theorem C93_round_trip {A : RegArray} {E E' : Env} (hA : ArrOK A) (hE : EnvOK E A) (hE' : EnvOK E' A)
    (hEE : E'.elemsize = E.elemsize) {lo hi ld ld' : List Int} (hld : LdOK lo hi ld) (hld' : LdOK lo hi ld')
    {foff fs : Int} (h0 : 0 ≤ foff) (h1 : 0 < fs) (h2 : foff + fs ≤ E.elemsize)
    (others : List (Env × FieldOp V))
    (ho : ∀ e ∈ others, EnvOK e.1 A ∧ e.1.elemsize = E.elemsize ∧ LdOK e.2.lo e.2.hi e.2.ld ∧ 0 ≤ e.2.foff ∧
      0 < e.2.fsize ∧ e.2.foff + e.2.fsize ≤ E.elemsize ∧
      (e.2.foff + e.2.fsize ≤ foff ∨ foff + fs ≤ e.2.foff))
    {buf gbuf gbuf' : Int → V} {m m1 m2 : Addr → V} (hp : putField E A lo hi foff fs buf ld m = some m1)
    (hr : runFields A others m1 = some m2) (hg : getField E' A lo hi foff fs gbuf ld' m2 = some gbuf') :
    ∀ x, InPatch lo hi x → ∀ j, 0 ≤ j → j < fs →
      gbuf' (fs * bufPos lo ld' x + j) = buf (fs * bufPos lo ld x + j) := by
  intro x hx j j0 j1
  obtain ⟨hok, hput, -⟩ := C93_put_field hA hE hld h0 h1 h2 hp
  have hget := (C93_get_field hA hE' hld' h0 h1 (by omega) hg).2.1 x hx j j0 j1
  rw [hget, hEE]
  have hb := (hput x (hok.inArray hx) (foff + j) (by omega) (by omega)).1 ⟨hx, by omega, by omega⟩
  rw [show foff + j - foff = j by omega] at hb
  rw [← hb]
  clear hp hg hget hput hb gbuf'
  have hxa := hok.inArray hx
  induction others generalizing m1 with
  | nil =>
    simp only [runFields, Option.some.injEq] at hr
    rw [hr]
  | cons e others ih =>
    obtain ⟨E1, o⟩ := e
    obtain ⟨a, b, c, d, e', g, k⟩ := ho _ List.mem_cons_self
    dsimp only at b c d e' g k
    simp only [runFields, Option.bind_eq_some_iff] at hr
    obtain ⟨m3, h3, h4⟩ := hr
    rw [ih (fun e he => ho e (List.mem_cons_of_mem _ he)) h4]
    obtain ⟨-, hp, -⟩ := C93_put_field hA a c d e' (by rw [b]; exact g) h3
    rw [b] at hp
    exact (hp x hxa (foff + j) (by omega) (by omega)).2 fun hh => by omega

/-- The code does not check that the field lies in the element: a get past the end of the element returns
bytes of the element that follows in memory. -/
theorem C93_field_unchecked {A : RegArray} {E : Env} (hA : ArrOK A) (hE : EnvOK E A) (hs : 0 < E.elemsize)
    {lo hi ld : List Int} (hld : LdOK lo hi ld) {foff fs : Int} (h1 : 0 < fs) (h2 : fs ≠ E.elemsize)
    {x y : List Int} (hx : InPatch lo hi x) (hxy : cell A y = ((cell A x).1, (cell A x).2 + 1))
    {buf buf' : Int → V} {m : Addr → V} (h : getField E A lo hi foff fs buf ld m = some buf')
    {b : Int} (hb : 0 ≤ E.elemsize + b - foff) (hb' : E.elemsize + b < foff + fs) :
    buf' (fs * bufPos lo ld x + (E.elemsize + b - foff)) = fieldBytes A E.elemsize m y b := by
  have e1 : effSize E.elemsize fs = fs := by unfold effSize; split <;> omega
  have e2 : effOff E.elemsize foff fs = foff := by unfold effOff; rw [if_neg]; omega
  have := (get_core hA hE hs hld (by omega) h).2
  rw [e1, e2] at this
  rw [this.1 x hx _ hb (by omega)]
  unfold fieldBytes byteAddr
  rw [hxy]
  congr 2
  rw [Int.mul_add, Int.mul_one]
  omega

/-- The code divides by the size of the field: an empty field on two or more dimensions does not return. -/
theorem C93_empty_field {A : RegArray} {E : Env} {lo hi ld : List Int} (hld : LdOK lo hi ld)
    (hd : 2 ≤ lo.length) (foff : Int) (buf : Int → V) (m : Addr → V) :
    putField E A lo hi foff 0 buf ld m = none ∧ getField E A lo hi foff 0 buf ld m = none := by
  have hne : ld ≠ [] := by
    intro e
    have := hld.length.2
    rw [e] at this
    simp at this
    omega
  unfold putField getField
  exact ⟨if_pos ⟨rfl, hne⟩, if_pos ⟨rfl, hne⟩⟩

end

private theorem ldOK_nil {lo hi : List Int} (h : LdOK lo hi []) : ∃ l b, lo = [l] ∧ hi = [b] := by
  rcases lo with _ | ⟨l, _ | ⟨l', lo⟩⟩ <;> rcases hi with _ | ⟨b, _ | ⟨b', hi⟩⟩ <;> simp [LdOK] at h ⊢

private theorem ldOK_cons {lo hi ld : List Int} {d : Int} (h : LdOK lo hi (d :: ld)) :
    ∃ l l' lo' b b' hi', lo = l :: l' :: lo' ∧ hi = b :: b' :: hi' ∧ b - l + 1 ≤ d ∧
      LdOK (l' :: lo') (b' :: hi') ld := by
  rcases lo with _ | ⟨l, _ | ⟨l', lo⟩⟩ <;> rcases hi with _ | ⟨b, _ | ⟨b', hi⟩⟩ <;> simp only [LdOK] at h
  exact ⟨l, l', lo, b, b', hi, rfl, rfl, h.1, h.2⟩

private theorem bufPos_mono {lo hi ld x : List Int} (hld : LdOK lo hi ld) (hx : InPatch lo hi x) :
    0 ≤ bufPos lo ld x ∧ bufPos lo ld x ≤ bufPos lo (ld.map (· + 1)) x ∧
    (x.tail ≠ lo.tail → bufPos lo ld x < bufPos lo (ld.map (· + 1)) x) ∧ (x ≠ lo → 0 < bufPos lo ld x) := by
  induction ld generalizing lo hi x with
  | nil =>
    obtain ⟨l, h, rfl, rfl⟩ := ldOK_nil hld
    match x, hx with
    | [y], hx =>
      have hx' : (l ≤ y ∧ y ≤ h) ∧ True := hx
      simp only [bufPos, List.map_nil, List.tail_cons, ne_eq, not_true_eq_false, false_imp_iff, List.cons.injEq,
        and_true, true_and]
      refine ⟨?_, ?_, ?_⟩ <;> omega
  | cons d ld ih =>
    obtain ⟨l, l', lo, h, h', hi, rfl, rfl, hl'⟩ := ldOK_cons hld
    match x, hx with
    | y :: x, hx =>
      have hx' : (l ≤ y ∧ y ≤ h) ∧ InPatch (l' :: lo) (h' :: hi) x := hx
      obtain ⟨i1, i2, -, i4⟩ := ih hl'.2 hx'.2
      have hd : 0 < d := by omega
      simp only [bufPos, List.map_cons, List.tail_cons, ne_eq, List.cons.injEq, not_and]
      have k0 : 0 ≤ d * bufPos (l' :: lo) ld x := Int.mul_nonneg (by omega) i1
      have k1 : d * bufPos (l' :: lo) ld x ≤ d * bufPos (l' :: lo) (ld.map (· + 1)) x :=
        Int.mul_le_mul_of_nonneg_left i2 (by omega)
      have k2 : (d + 1) * bufPos (l' :: lo) (ld.map (· + 1)) x =
          d * bufPos (l' :: lo) (ld.map (· + 1)) x + bufPos (l' :: lo) (ld.map (· + 1)) x := by
        rw [Int.add_mul, Int.one_mul]
      refine ⟨by omega, by omega, ?_, ?_⟩
      · intro hne
        have := i4 hne
        omega
      · intro hne
        by_cases hy : y = l
        · have := Int.mul_pos hd (i4 (hne hy))
          omega
        · omega

private theorem ldOK_succ {lo hi ld : List Int} (h : LdOK lo hi ld) : LdOK lo hi (ld.map (· + 1)) := by
  induction ld generalizing lo hi with
  | nil => exact h
  | cons d ld ih =>
    obtain ⟨l, l', lo, b, b', hi, rfl, rfl, h'⟩ := ldOK_cons h
    exact ⟨by dsimp only; omega, ih h'.2⟩

/-- The C interface adds one to every leading dimension. The bytes of every element that is not in the
first column of the patch are taken from a place strictly behind the one the caller means. -/
theorem C93_c_ld_off_by_one {V : Type} {A : RegArray} {E : Env} (hA : ArrOK A) (hE : EnvOK E A)
    {lo hi ld : List Int} (hld : LdOK (indexC2F lo) (indexC2F hi) (copyC2F ld)) {foff fs : Int} (h0 : 0 ≤ foff)
    (h1 : 0 < fs) (h2 : foff + fs ≤ E.elemsize) {buf : Int → V} {m m' : Addr → V}
    (h : cPutField E A lo hi foff fs buf ld m = some m') :
    ∀ x, InPatch (indexC2F lo) (indexC2F hi) x → ∃ q, bufPos (indexC2F lo) (copyC2F ld) x ≤ q ∧
      (x.tail ≠ (indexC2F lo).tail → bufPos (indexC2F lo) (copyC2F ld) x < q) ∧
      ∀ j, 0 ≤ j → j < fs → fieldBytes A E.elemsize m' x (foff + j) = buf (fs * q + j) := by
  intro x hx
  unfold cPutField at h
  have hc : indexC2F ld = (copyC2F ld).map (· + 1) := by simp [indexC2F, copyC2F]
  rw [hc] at h
  obtain ⟨hok, hput, -⟩ := C93_put_field hA hE (ldOK_succ hld) h0 h1 h2 h
  obtain ⟨-, b2, b3, -⟩ := bufPos_mono hld hx
  refine ⟨_, b2, b3, ?_⟩
  intro j j0 j1
  rw [(hput x (hok.inArray hx) (foff + j) (by omega) (by omega)).1 ⟨hx, by omega, by omega⟩]
  congr 1
  omega

/-- **C93.** With one dimension there are no leading dimensions, and the C interface puts and gets the
fields of the elements the caller means. -/
theorem C93_c_one_dimension_partial {V : Type} {A : RegArray} {E : Env} (hA : ArrOK A) (hE : EnvOK E A)
    {lo hi : Int} (hlh : lo ≤ hi) {foff fs : Int} (h0 : 0 ≤ foff) (h1 : 0 < fs) (h2 : foff + fs ≤ E.elemsize)
    {buf : Int → V} {m : Addr → V} :
    (∀ m', cPutField E A [lo] [hi] foff fs buf [] m = some m' → ∀ i, lo ≤ i → i ≤ hi → ∀ j, 0 ≤ j → j < fs →
      fieldBytes A E.elemsize m' [i + 1] (foff + j) = buf (fs * (i - lo) + j)) ∧
    ∀ buf', cGetField E A [lo] [hi] foff fs buf [] m = some buf' → ∀ i, lo ≤ i → i ≤ hi → ∀ j, 0 ≤ j → j < fs →
      buf' (fs * (i - lo) + j) = fieldBytes A E.elemsize m [i + 1] (foff + j) := by
  have e1 : indexC2F [lo] = [lo + 1] := rfl
  have e2 : indexC2F [hi] = [hi + 1] := rfl
  have e3 : indexC2F [] = [] := rfl
  have hld : LdOK [lo + 1] [hi + 1] [] := trivial
  unfold cPutField cGetField
  rw [e1, e2, e3]
  constructor
  · intro m' h i i0 i1 j j0 j1
    obtain ⟨hok, hput, -⟩ := C93_put_field hA hE hld h0 h1 h2 h
    have hx : InPatch [lo + 1] [hi + 1] [i + 1] := ⟨⟨by omega, by omega⟩, trivial⟩
    rw [(hput _ (hok.inArray hx) (foff + j) (by omega) (by omega)).1 ⟨hx, by omega, by omega⟩]
    simp only [bufPos]
    congr 1
    rw [show i + 1 - (lo + 1) = i - lo by omega]
    omega
  · intro buf' h i i0 i1 j j0 j1
    have hx : InPatch [lo + 1] [hi + 1] [i + 1] := ⟨⟨by omega, by omega⟩, trivial⟩
    have := (C93_get_field hA hE hld h0 h1 h2 h).2.1 _ hx j j0 j1
    simp only [bufPos] at this
    rwa [show i + 1 - (lo + 1) = i - lo by omega] at this

/-! Non-vacuity: the ghosted array of C06 with elements of 8 bytes, two environments. -/

example : (putField exE exG [3, 2] [7, 5] 2 3 (fun i => i) [6] (fun _ => (0 : Int))).isSome ∧
    (getField exE2 exG [3, 2] [7, 5] 2 3 (fun i => i) [5] (fun _ => (0 : Int))).isSome := by decide +kernel

example : ((putField exE exG [3, 2] [7, 5] 2 3 (fun i => i) [6] (fun _ => (-1 : Int))).bind fun m =>
    (putField exE2 exG [3, 2] [7, 5] 5 1 (fun i => 1000 + i) [5] m).bind fun m =>
    getField exE2 exG [4, 3] [5, 3] 1 5 (fun _ => -2) [2] m).map
    (fun b => (List.range 11).map fun i => b i) =
    some [-1, 21, 22, 23, 1006, -1, 24, 25, 26, 1007, -2] := by decide +kernel

/-- an array of two rows and two columns on one process, elements of 4 bytes -/
private def exF : RegArray := ⟨[2, 2], [1, 1], [1, 1], [0, 0]⟩
private def exFE : Env := ⟨[0, 0], [0, 0], fun i => i, fun _ => true, 4, 2147483648⟩

/-- witness: with the C interface, the second row of a buffer of two rows of two fields comes from
positions 3 and 4 of the buffer instead of 2 and 3 -/
theorem C93_c_wrong_bytes : (cPutField exFE exF [0, 0] [1, 1] 1 1 (fun i => i) [2] (fun _ => (-1 : Int))).map
    (fun m => (List.range 16).map fun i => m (0, i)) =
    some [-1, 0, -1, -1, -1, 1, -1, -1, -1, 3, -1, -1, -1, 4, -1, -1] := by decide +kernel

/-- witness: a put of bytes 3 and 4 of an element of 4 bytes writes into the next element -/
theorem C93_put_unchecked : (putField exFE exF [1, 1] [1, 1] 3 2 (fun i => i) [1] (fun _ => (-1 : Int))).map
    (fun m => (List.range 8).map fun i => m (0, i)) = some [-1, -1, -1, 0, 1, -1, -1, -1] := by decide +kernel

end GA
