import Verif.Lemmas.CApi
import Verif.Props.C07
import Verif.Props.C09
import Verif.Props.C11b

/-!
# C64: the C calls see a global array as one 0-based, row-major array
-/

namespace GA
open Spec Model

section
variable {V : Type} [Add V] [Mul V]

/-- one request of a C program -/
def cRunOp (A : RegArray) (E : Env) : Op V → (Addr → V) → Option (Addr → V)
  | .put lo hi ld buf, m => cPut E A lo hi buf ld m
  | .acc lo hi ld alpha buf, m => cAcc E A lo hi buf ld alpha m

/-- a history of requests, every request with its own environment -/
def cRunOps (A : RegArray) : List (Env × Op V) → (Addr → V) → Option (Addr → V)
  | [], m => some m
  | (E, o) :: os, m => (cRunOp A E o m).bind (cRunOps A os)

/-- the request with the converted arguments -/
private def conv : Op V → Op V
  | .put lo hi ld buf => .put (indexC2F lo) (indexC2F hi) (copyC2F ld) buf
  | .acc lo hi ld alpha buf => .acc (indexC2F lo) (indexC2F hi) (copyC2F ld) alpha buf

private theorem cRunOps_eq (A : RegArray) (h : List (Env × Op V)) (m : Addr → V) :
    cRunOps A h m = runOps A (h.map fun e => (e.1, conv e.2)) m := by
  induction h generalizing m with
  | nil => rfl
  | cons e h ih =>
    obtain ⟨E, o⟩ := e
    have : cRunOp A E o m = runOp A E (conv o) m := by cases o <;> rfl
    simp only [cRunOps, List.map_cons, runOps, this]
    congr 1
    funext m'
    exact ih m'

omit [Add V] [Mul V] in
private theorem conv_ld {o : Op V} (h : o.LdOKC) : (conv o).LdOK := by
  cases o with
  | put => exact ldOK_C2F.2 h
  | acc => exact ldOK_C2F.2 h

private theorem specStep_conv {f g : List Int → V} (hfg : ∀ x, g x = f (indexC2F x)) {o : Op V} (h : o.LdOKC) (x : List Int) :
    specStepC g o x = specStep f (conv o) (indexC2F x) := by
  cases o with
  | put lo hi ld buf =>
    simp only [specStepC, specStep, conv, inPatch_C2F]
    by_cases hx : InPatch lo hi x
    · rw [if_pos hx, if_pos hx, bufPos_C2F (LdOKC.length h) hx.length.1]
    · rw [if_neg hx, if_neg hx, hfg]
  | acc lo hi ld alpha buf =>
    simp only [specStepC, specStep, conv, inPatch_C2F]
    by_cases hx : InPatch lo hi x
    · rw [if_pos hx, if_pos hx, bufPos_C2F (LdOKC.length h) hx.length.1, hfg]
    · rw [if_neg hx, if_neg hx, hfg]

private theorem specRun_conv {f g : List Int → V} (hfg : ∀ x, g x = f (indexC2F x)) (os : List (Op V)) (h : ∀ o ∈ os, o.LdOKC)
    (x : List Int) : specRunC g os x = specRun f (os.map conv) (indexC2F x) := by
  induction os generalizing f g with
  | nil => exact hfg x
  | cons o os ih =>
    simp only [specRunC, specRun, List.foldl_cons, List.map_cons]
    exact ih (fun x => specStep_conv hfg (h o (by simp)) x) fun o ho => h o (by simp [ho])

omit [Add V] [Mul V] in
private theorem getResult_conv {lo hi ld : List Int} {f g : List Int → V} (hfg : ∀ x, g x = f (indexC2F x)) (hld : LdOKC lo hi ld)
    {buf buf' : Int → V} (h : GetResult (indexC2F lo) (indexC2F hi) (copyC2F ld) f buf buf') : GetResultC lo hi ld g buf buf' := by
  obtain ⟨h1, h2⟩ := h
  constructor
  · intro x hx
    rw [← bufPos_C2F hld.length hx.length.1, h1 _ (inPatch_C2F.2 hx), hfg]
  · intro i hi'
    apply h2
    intro y hy
    rw [← indexC2F_F2C y] at hy ⊢
    have hy := inPatch_C2F.1 hy
    rw [bufPos_C2F hld.length hy.length.1]
    exact hi' _ hy

private theorem zip_le {lo hi : List Int} (hl : lo.length = hi.length) (h : ¬ ((lo.zip hi).any fun x => x.1 > x.2) = true) :
    List.Forall₂ (· ≤ ·) lo hi := by
  induction lo generalizing hi with
  | nil => cases hi <;> simp_all
  | cons l lo ih =>
    cases hi with
    | nil => simp at hl
    | cons k hi =>
      simp only [List.zip_cons_cons, List.any_cons, Bool.or_eq_true, not_or, decide_eq_true_eq] at h
      exact .cons (by omega) (ih (by simpa using hl) h.2)

private theorem of_check {s l h : List Int} (hl : l.length = s.length) (hh : h.length = s.length) (hc : checkSubscript s l h = true) :
    InPatch l h s := by
  induction s generalizing l h with
  | nil => cases l <;> cases h <;> simp_all [InPatch]
  | cons a s ih =>
    match l, h, hl, hh with
    | b :: l, c :: h, hl, hh =>
      simp only [checkSubscript, Bool.and_eq_true, decide_eq_true_eq] at hc
      exact ⟨by omega, ih (by simpa using hl) (by simpa using hh) hc.2⟩

private theorem between {l h lo hi x : List Int} (h1 : InPatch l h lo) (h2 : InPatch l h hi) (hx : InPatch lo hi x) : InPatch l h x := by
  rw [inPatch_iff_forall₂] at *
  have tr : ∀ {a b c : List Int}, List.Forall₂ (· ≤ ·) a b → List.Forall₂ (· ≤ ·) b c → List.Forall₂ (· ≤ ·) a c := by
    intro a b c h1 h2
    induction h1 generalizing c with
    | nil => exact h2
    | cons h _ ih => cases h2 with | cons h' h2' => exact .cons (by omega) (ih h2')
  exact ⟨tr h1.1 hx.1, tr hx.2 h2.2⟩

/-- the pointer of an accessed patch -/
private theorem accessPtr_spec {A : RegArray} (hA : ArrOK A) {same : Int → Bool} {candT candB : List Nat} (hT : CandOK A.nblock candT)
    (hB : CandOK A.nblock candB) {lo hi : List Int} (hll : lo.length = A.dims.length) (hlh : hi.length = A.dims.length)
    {q off : Int} {ld : List Int} (h : accessPtr same A candT candB lo hi = some (q, off, ld)) :
    ld.length + 1 = lo.length ∧ InPatch lo hi lo ∧ same q = true ∧
    ∀ x, InPatch lo hi x → OwnedBy A q x ∧ InArray A.dims x ∧ cell A x = (q, off + bufPos lo ld x) := by
  unfold accessPtr at h
  cases hp : locate A candT lo with
  | none => simp [hp] at h
  | some p =>
    cases hq : locate A candB hi with
    | none => simp [hp, hq] at h
    | some q' =>
      simp only [hp, hq] at h
      split at h
      · cases h
      split at h
      · cases h
      rename_i hs1 hs2
      split at h
      · cases h
      rename_i hz
      split at h
      · cases h
      rename_i hc
      simp only [Option.some.injEq, Prod.mk.injEq] at h
      obtain ⟨rfl, rfl, rfl⟩ := h
      have hle := zip_le (by omega) hz
      have hin : ∀ (cand : List Nat) (y : List Int) (r : Int), CandOK A.nblock cand → y.length = A.dims.length → locate A cand y = some r →
          InArray A.dims y := by
        intro cand y r hcand hy hr
        by_contra hn
        rw [((C01_unique_owner A hA.ne hA.map cand hcand y hy).2 hn).1] at hr
        cases hr
      have hloA := hin _ _ _ hT hll hp
      have hhiA := hin _ _ _ hB hlh hq
      obtain ⟨r, r1, r2, r3, r4, r5⟩ := (C01_unique_owner A hA.ne hA.map candB hB hi hlh).1 hhiA
      rw [hq] at r1
      simp only [Option.some.injEq] at r1
      subst r1
      have hlt : q'.toNat < gridSize A.nblock := by omega
      have hco := digits_ok hlt
      have hund : ((undigits A.nblock (digits A.nblock q'.toNat) : Nat) : Int) = q' := by rw [undigits_digits hlt]; omega
      have hown := owns_of_coord (A := A) hco
      rw [hund] at hown
      have hlen := owns_length hA hco
      have hlo : InPatch (owns A q').1 (owns A q').2 lo := by
        apply of_check
        · rw [hown]; simp only; omega
        · rw [hown]; simp only; omega
        · simpa using hc
      have hlr : (ldRem (owns A q').1 (owns A q').2 A.width).length + 1 = (owns A q').1.length := by
        apply ldRem_length
        · rw [hown]; simp only; omega
        · rw [hown, hA.width]; simp only; omega
        · rw [hown]; simp only
          intro e
          have := hlen.1
          rw [e] at this
          have := hA.ne
          cases hd : A.dims <;> simp_all
      have hl1 : (owns A q').1.length = A.dims.length := by rw [hown]; exact hlen.1
      have hl2 : (owns A q').2.length = A.dims.length := by rw [hown]; exact hlen.2
      refine ⟨by omega, ?_, by simpa using hs2, ?_⟩
      · rw [inPatch_iff_forall₂]
        refine ⟨?_, hle⟩
        clear * - lo
        induction lo with
        | nil => exact .nil
        | cons l lo ih => exact .cons (le_refl _) ih
      · intro x hx
        have hxo : OwnedBy A q' x := between hlo r4 hx
        have hxA : InArray A.dims x := between hloA hhiA hx
        refine ⟨hxo, hxA, ?_⟩
        obtain ⟨o1, o2⟩ := ownerC_ok hA.map hxA
        have hx' : x.length = A.dims.length := hxA.length
        obtain ⟨r', _, _, _, _, r9⟩ := (C01_unique_owner A hA.ne hA.map candB hB x hx').1 hxA
        have e : ((undigits A.nblock (ownerC A x) : Nat) : Int) = q' := by
          rw [r9 _ hxo]
          apply r9
          unfold OwnedBy
          rw [owns_of_coord o1]
          exact o2
        unfold cell
        rw [e]
        congr 1
        unfold locOffset
        have hne : (owns A q').1 ≠ [] := by
          intro e'
          rw [e'] at hl1
          have := hA.ne
          cases hd : A.dims <;> simp_all
        rw [loc_step (by omega) (by omega) (by rw [hA.width]; omega) (by omega) hne]

/-- **C64 (REGULAR arrays).** The dimensions of the array in C are `A.dims.reverse`. For every initial memory there is an array content `f₀`,
a function of the 0-based subscript, such that after every history of `NGA_Put` and `NGA_Acc` calls that ran without error:

* every `NGA_Get` that runs without error puts the elements of its patch, as they are after the same history on a plain array, at their row-major places
  in the buffer and leaves the rest of the buffer alone;
* every `NGA_Access` that runs without error returns a pointer through which the same elements are found, at their row-major places with respect
  to the returned leading dimensions. -/
theorem C64_shared_memory (A : RegArray) (hA : ArrOK A) (m0 : Addr → V) :
    ∃ f0 : List Int → V, ∀ (h : List (Env × Op V)) (m : Addr → V),
      (∀ e ∈ h, EnvOK e.1 A ∧ e.2.LdOKC) → cRunOps A h m0 = some m →
      (∀ (E : Env) (lo hi ld : List Int) (buf buf' : Int → V), EnvOK E A → LdOKC lo hi ld → cGet E A lo hi buf ld m = some buf' →
        GetResultC lo hi ld (specRunC f0 (h.map Prod.snd)) buf buf') ∧
      (∀ (same : Int → Bool) (candT candB : List Nat) (lo hi : List Int) (p off : Int) (ld : List Int), CandOK A.nblock candT →
        CandOK A.nblock candB → lo.length = A.dims.length → hi.length = A.dims.length →
        cAccess same A candT candB lo hi = some (p, off, ld) →
        PatchOKC A.dims.reverse lo hi ∧
          ∀ x, InPatch lo hi x → m (p, off + rowPos lo ld x) = specRunC f0 (h.map Prod.snd) x) := by
  refine ⟨fun x => m0 (cell A (indexC2F x)), ?_⟩
  intro h m hh hr
  rw [cRunOps_eq] at hr
  have hrep := runOps_repr hA (h.map fun e => (e.1, conv e.2)) (by
    intro e he
    obtain ⟨e', he', rfl⟩ := List.mem_map.1 he
    exact ⟨(hh e' he').1, conv_ld (hh e' he').2⟩) (f := fun x => m0 (cell A x)) (fun x _ => rfl) hr
  have hspec : ∀ x, specRunC (fun x => m0 (cell A (indexC2F x))) (h.map Prod.snd) x =
      specRun (fun x => m0 (cell A x)) ((h.map fun e => (e.1, conv e.2)).map Prod.snd) (indexC2F x) := by
    intro x
    rw [specRun_conv (f := fun x => m0 (cell A x)) (fun _ => rfl) _ (by
      intro o ho
      obtain ⟨e, he, rfl⟩ := List.mem_map.1 ho
      exact (hh e he).2)]
    simp only [List.map_map, Function.comp_def]
  constructor
  · intro E lo hi ld buf buf' hE hld hg
    exact getResult_conv hspec hld (get_repr hA hE (ldOK_C2F.2 hld) hrep hg)
  · intro same candT candB lo hi p off ld hT hB hll hlh ha
    obtain ⟨⟨q, o, l⟩, h1, h2⟩ := Option.map_eq_some_iff.1 ha
    simp only [Prod.mk.injEq] at h2
    obtain ⟨rfl, rfl, rfl⟩ := h2
    obtain ⟨a1, a2, _, a3⟩ := accessPtr_spec hA hT hB (by simpa using hll) (by simpa using hlh) h1
    constructor
    · rw [← patchOK_C2F]
      refine ⟨(a3 _ a2).2.1, (a3 _ ?_).2.1, a2⟩
      rw [inPatch_C2F] at a2 ⊢
      rw [inPatch_iff_forall₂] at a2 ⊢
      refine ⟨a2.2, ?_⟩
      clear * - hi
      induction hi with
      | nil => exact .nil
      | cons l lo ih => exact .cons (le_refl _) ih
    · intro x hx
      obtain ⟨_, b2, b3⟩ := a3 _ (inPatch_C2F.2 hx)
      rw [hspec, ← hrep _ b2, b3, ← bufPos_C2F (by simpa [copyC2F] using a1) hx.length.1]
      simp [copyC2F]

omit [Add V] [Mul V] in
/-- **C64 (local memory).** `NGA_Access` answers for exactly the patches that are legal and lie in the block that
`NGA_Distribution` reports for one process of the caller's node. -/
theorem C64_access_served (A : RegArray) (hA : ArrOK A) (same : Int → Bool) (candT candB : List Nat) (hT : CandOK A.nblock candT)
    (hB : CandOK A.nblock candB) (lo hi : List Int) (hll : lo.length = A.dims.length) (hlh : hi.length = A.dims.length) :
    (∃ r, cAccess same A candT candB lo hi = some r) ↔
      PatchOKC A.dims.reverse lo hi ∧ ∃ p, same p = true ∧ InPatch (cDistribution A p).1 (cDistribution A p).2 lo ∧
        InPatch (cDistribution A p).1 (cDistribution A p).2 hi := by
  have hown : ∀ p x, InPatch (cDistribution A p).1 (cDistribution A p).2 x ↔ OwnedBy A p (indexC2F x) := fun p x => inPatch_F2C
  simp only [hown]
  constructor
  · rintro ⟨r, hr⟩
    obtain ⟨⟨q, o, l⟩, h1, h2⟩ := Option.map_eq_some_iff.1 hr
    obtain ⟨a1, a2, a4, a3⟩ := accessPtr_spec hA hT hB (by simpa using hll) (by simpa using hlh) h1
    have hup : InPatch (indexC2F lo) (indexC2F hi) (indexC2F hi) := by
      rw [inPatch_iff_forall₂] at a2 ⊢
      refine ⟨a2.2, ?_⟩
      generalize indexC2F hi = l
      induction l with
      | nil => exact .nil
      | cons l lo ih => exact .cons (le_refl _) ih
    exact ⟨patchOK_C2F.1 ⟨(a3 _ a2).2.1, (a3 _ hup).2.1, a2⟩, q, a4, (a3 _ a2).1, (a3 _ hup).1⟩
  · rintro ⟨hok, p, hs, h1, h2⟩
    obtain ⟨k1, k2, k3⟩ := patchOK_C2F.2 hok
    obtain ⟨r, r1, r2, r3, r4, r5⟩ := (C01_unique_owner A hA.ne hA.map candT hT _ (by simpa using hll)).1 k1
    obtain ⟨s, s1, s2, s3, s4, s5⟩ := (C01_unique_owner A hA.ne hA.map candB hB _ (by simpa using hlh)).1 k2
    have e1 := r5 _ h1
    have e2 := s5 _ h2
    subst e1
    subst e2
    unfold cAccess accessPtr
    rw [r1, s1]
    simp only [hs, Bool.not_true, Bool.false_eq_true, if_false]
    rw [if_neg, if_neg]
    · exact ⟨_, rfl⟩
    · rw [checkSubscript_of_inPatch h1]; simp
    · rw [inPatch_iff_forall₂] at k3
      have := k3.2
      generalize indexC2F lo = a at this
      generalize indexC2F hi = b at this
      clear * - this
      induction this with
      | nil => simp
      | cons h _ ih =>
        simp only [List.zip_cons_cons, List.any_cons, Bool.or_eq_true, not_or, decide_eq_true_eq]
        exact ⟨by omega, ih⟩

/-- **C64 (errors).** An illegal C patch is rejected by all three calls; a legal patch that fits into one message is always served. -/
theorem C64_rejects (A : RegArray) (hA : ArrOK A) (E : Env) (hE : EnvOK E A) (lo hi ld : List Int) (buf : Int → V) (alpha : V)
    (m : Addr → V) :
    (¬ PatchOKC A.dims.reverse lo hi → cPut E A lo hi buf ld m = none ∧ cGet E A lo hi buf ld m = none ∧
      cAcc E A lo hi buf ld alpha m = none) ∧
    (PatchOKC A.dims.reverse lo hi → E.elemsize * numElems lo hi ≤ E.maxInt →
      (∃ m', cPut E A lo hi buf ld m = some m') ∧ (∃ b', cGet E A lo hi buf ld m = some b') ∧
      (∃ m', cAcc E A lo hi buf ld alpha m = some m')) := by
  obtain ⟨h1, h2⟩ := C07_rejects A hA E hE (indexC2F lo) (indexC2F hi) (copyC2F ld) buf alpha m
  refine ⟨fun h => h1 (fun hn => h (patchOK_C2F.1 hn)), fun h hf => h2 (patchOK_C2F.2 h) ?_⟩
  rw [numElems_C2F h.2.2.length.2]
  exact hf

/-! ## block-cyclic arrays -/

/-- one request on an array that is not REGULAR -/
def cRunOpB (A : BArray) (fl : Int → Bool) : Op V → (Addr → V) → Option (Addr → V)
  | .put lo hi ld buf, m => cPutB fl A lo hi buf ld m
  | .acc lo hi ld alpha buf, m => cAccB fl A lo hi buf ld alpha m

/-- a history of requests -/
def cRunOpsB (A : BArray) : List ((Int → Bool) × Op V) → (Addr → V) → Option (Addr → V)
  | [], m => some m
  | (f, o) :: os, m => (cRunOpB A f o m).bind (cRunOpsB A os)

/-- **C64 (block-cyclic arrays), partial.** The same for arrays made by the block-cyclic creation calls. Missing: arrays with fewer
blocks than processes, as in C09. -/
theorem C64_blocks_partial (A : BArray) (hA : Created A) (he : EnoughBlocks A) (m0 : Addr → V) :
    ∃ f0 : List Int → V, ∀ hist : List ((Int → Bool) × Op V), (∀ e ∈ hist, e.2.PatchOKC A.dims.reverse ∧ e.2.LdOKC) →
      ∃ m, cRunOpsB A hist m0 = some m ∧
        ∀ (fl : Int → Bool) (lo hi ld : List Int) (buf : Int → V), PatchOKC A.dims.reverse lo hi → LdOKC lo hi ld →
          ∃ buf', cGetB fl A lo hi buf ld m = some buf' ∧
            GetResultC lo hi ld (specRunC f0 (hist.map Prod.snd)) buf buf' := by
  obtain ⟨f0, h0⟩ := C09_shared_memory_partial A hA he m0
  refine ⟨fun x => f0 (indexC2F x), ?_⟩
  intro hist hh
  obtain ⟨m, h1, h2⟩ := h0 (hist.map fun e => (e.1, conv e.2)) (by
    intro e he
    obtain ⟨⟨fl, o⟩, he', rfl⟩ := List.mem_map.1 he
    obtain ⟨k1, k2⟩ := hh _ he'
    cases o with
    | put => exact ⟨patchOK_C2F.2 k1, ldOK_C2F.2 k2⟩
    | acc => exact ⟨patchOK_C2F.2 k1, ldOK_C2F.2 k2⟩)
  have heq : ∀ (h : List ((Int → Bool) × Op V)) (m : Addr → V), cRunOpsB A h m = bRunOps A (h.map fun e => (e.1, conv e.2)) m := by
    intro h
    induction h with
    | nil => intro m; rfl
    | cons e h ih =>
      intro m
      obtain ⟨E, o⟩ := e
      have : cRunOpB A E o m = bRunOp A E (conv o) m := by cases o <;> rfl
      simp only [cRunOpsB, List.map_cons, bRunOps, this]
      congr 1
      funext m'
      exact ih m'
  refine ⟨m, by rw [heq]; exact h1, ?_⟩
  intro fl lo hi ld buf hok hld
  obtain ⟨b, b1, b2⟩ := h2 fl _ _ (copyC2F ld) buf (patchOK_C2F.2 hok) (ldOK_C2F.2 hld)
  refine ⟨b, b1, getResult_conv ?_ hld b2⟩
  intro x
  rw [specRun_conv (f := f0) (fun _ => rfl) _ (by
    intro o ho
    obtain ⟨e, he, rfl⟩ := List.mem_map.1 ho
    exact (hh e he).2)]
  simp only [List.map_map, Function.comp_def]

end

/-! ## read-and-increment -/

/-- content after a history of a C program, values returned by the read-and-increment calls -/
def specRC (f : List Int → Int) : List RIStep → (List Int → Int) × List Int
  | [] => (f, [])
  | .op o :: rest => specRC (specStepC f o) rest
  | .rinc x inc :: rest =>
    let r := specRC (fun y => if y = x then f y + inc else f y) rest
    (r.1, f x :: r.2)

/-- a history of C calls with `NGA_Read_inc` -/
def cRunR (A : RegArray) : List (Env × List Nat × RIStep) → (Addr → Int) → Option ((Addr → Int) × List Int)
  | [], m => some (m, [])
  | (E, _, .op o) :: rest, m => (cRunOp A E o m).bind (cRunR A rest)
  | (_, cand, .rinc x inc) :: rest, m =>
    (cReadInc A cand x inc m).bind fun r => (cRunR A rest r.2).map fun s => (s.1, r.1 :: s.2)

/-- legal request -/
def CStepOK (A : RegArray) : Env × List Nat × RIStep → Prop
  | (E, _, .op o) => EnvOK E A ∧ o.LdOKC
  | (_, cand, .rinc x inc) => CandOK A.nblock cand ∧ InArrayC A.dims.reverse x ∧ IncOK inc

private def convR : RIStep → RIStep
  | .op o => .op (conv o)
  | .rinc x inc => .rinc (indexC2F x) inc

private theorem specR_conv (A : RegArray) (h : List (Env × List Nat × RIStep)) (hh : ∀ e ∈ h, CStepOK A e) {f g : List Int → Int}
    (hfg : ∀ x, g x = f (indexC2F x)) :
    (∀ x, (specRC g (h.map fun e => e.2.2)).1 x = (specR f (h.map fun e => convR e.2.2)).1 (indexC2F x)) ∧
      (specRC g (h.map fun e => e.2.2)).2 = (specR f (h.map fun e => convR e.2.2)).2 := by
  induction h generalizing f g with
  | nil => exact ⟨hfg, rfl⟩
  | cons e h ih =>
    obtain ⟨E, cand, s⟩ := e
    have hs := hh _ (List.mem_cons_self ..)
    have hh' : ∀ e ∈ h, CStepOK A e := fun e he => hh e (by simp [he])
    cases s with
    | op o => exact ih hh' (fun x => specStep_conv hfg hs.2 x)
    | rinc x inc =>
      simp only [List.map_cons, convR, specRC, specR]
      obtain ⟨i1, i2⟩ := ih hh' (f := fun y => if y = indexC2F x then f y + inc else f y) (g := fun y => if y = x then g y + inc else g y) (by
        intro y
        by_cases hy : y = x
        · subst hy; simp [hfg]
        · rw [if_neg hy, if_neg (fun h => hy (indexC2F_inj h)), hfg])
      rw [i2, hfg]
      exact ⟨i1, rfl⟩

/-- **C64 (read-and-increment).** For every initial memory there is an array content `f₀` such that for every history of `NGA_Put`, `NGA_Acc` and
`NGA_Read_inc` calls that ran without error, the read-and-increments returned the values of the same history on the plain row-major array, and every
later get returns the content of the plain array. -/
theorem C64_read_inc (A : RegArray) (hA : ArrOK A) (m0 : Addr → Int) :
    ∃ f0 : List Int → Int, ∀ (h : List (Env × List Nat × RIStep)) (m : Addr → Int) (outs : List Int),
      (∀ e ∈ h, CStepOK A e) → cRunR A h m0 = some (m, outs) →
      outs = (specRC f0 (h.map fun e => e.2.2)).2 ∧
      ∀ (E : Env) (lo hi ld : List Int) (buf buf' : Int → Int), EnvOK E A → LdOKC lo hi ld → cGet E A lo hi buf ld m = some buf' →
        GetResultC lo hi ld (specRC f0 (h.map fun e => e.2.2)).1 buf buf' := by
  obtain ⟨f0, h0⟩ := C11_read_inc A hA m0
  refine ⟨fun x => f0 (indexC2F x), ?_⟩
  intro h m outs hh hr
  have heq : ∀ (h : List (Env × List Nat × RIStep)) (m : Addr → Int),
      cRunR A h m = runR A (h.map fun e => (e.1, e.2.1, convR e.2.2)) m := by
    intro h
    induction h with
    | nil => intro m; rfl
    | cons e h ih =>
      intro m
      obtain ⟨E, cand, s⟩ := e
      have ih' : cRunR A h = runR A (h.map fun e => (e.1, e.2.1, convR e.2.2)) := funext ih
      cases s with
      | op o =>
        have : cRunOp A E o m = runOp A E (conv o) m := by cases o <;> rfl
        simp only [cRunR, List.map_cons, convR, runR, this, ih']
      | rinc x inc => simp only [cRunR, List.map_cons, convR, runR, cReadInc, ih']
  rw [heq] at hr
  obtain ⟨k1, k2⟩ := h0 (h.map fun e => (e.1, e.2.1, convR e.2.2)) m outs (by
    intro e he
    obtain ⟨⟨E, cand, s⟩, he', rfl⟩ := List.mem_map.1 he
    have := hh _ he'
    cases s with
    | op o => exact ⟨this.1, conv_ld this.2⟩
    | rinc x inc => exact ⟨this.1, by rw [inArray_C2F']; exact this.2.1, this.2.2⟩) hr
  simp only [List.map_map, Function.comp_def] at k1 k2
  obtain ⟨s1, s2⟩ := specR_conv A h hh (f := f0) (g := fun x => f0 (indexC2F x)) (fun _ => rfl)
  refine ⟨by rw [k1, s2], ?_⟩
  intro E lo hi ld buf buf' hE hld hg
  exact getResult_conv s1 hld (k2 E _ _ _ buf buf' hE (ldOK_C2F.2 hld) hg)

/-! Non-vacuity: `exG` is 10x7 internally, that is `a[7][10]` in C. -/

example : PatchOKC exG.dims.reverse [1, 2] [4, 6] ∧ LdOKC [1, 2] [4, 6] [6] := by
  refine ⟨by decide, by decide, by decide, by simp [edgeLens]⟩
/-- a put into rows 1..4, columns 2..6, then an accumulate, then a get of `a[1..2][3..5]` into `buf[][4]` -/
example : ((cRunOps exG [(exE, .put [1, 2] [4, 6] [6] fun i => i), (exE2, .acc [0, 3] [2, 4] [2] 10 fun i => i)]
    (fun _ => (0 : Int))).bind fun m => cGet exE2 exG [1, 3] [2, 5] (fun _ => -1) [4] m).map
      (fun b => (List.range 8).map fun (i : Nat) => b i) = some [21, 32, 3, -1, 47, 58, 9, -1] := by
  decide
/-- access of the block of process 5: rows 3..6, columns 4..9, stored in rows of 10 elements -/
example : cAccess (fun _ => true) exG [0, 0] [0, 0] [3, 4] [6, 9] = some (5, 12, [10]) ∧
    rowPos [3, 4] [10] [4, 5] = 11 ∧ cAccess (fun _ => true) exG [0, 0] [0, 0] [2, 4] [6, 9] = none := by decide
example : EnoughBlocks exScl ∧ PatchOKC exScl.dims.reverse [0, 1] [4, 6] := ⟨by decide, by decide⟩
example : (cRunR exG [(exE, [0, 0], .op (.put [1, 2] [4, 6] [6] fun i => i)), (exE, [0, 0], .rinc [2, 3] 5), (exE2, [3, 1], .rinc [2, 3] 5)]
    (fun _ => (0 : Int))).map Prod.snd = some [7, 12] := by decide

end GA
