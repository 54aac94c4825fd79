import Verif.Lemmas.Periodic

/-!
# C32: periodic access wraps around the array
-/

namespace GA
open Spec Model

/-! ## geometry of the issued requests -/

theorem mapok_dims {nb : List Nat} {dims m : List Int} (h : MapOK nb dims m) : ∀ d ∈ dims, 1 ≤ d := by
  induction nb generalizing dims m with
  | nil => cases dims <;> simp_all [MapOK]
  | cons n nb ih =>
    cases dims with
    | nil => simp
    | cons d dims =>
      simp only [MapOK] at h
      intro e he
      rcases List.mem_cons.1 he with rfl | he
      · exact h.1.2.2.1
      · exact ih h.2 e he

theorem AxesOK.width {dims lo hi : List Int} {axes : List (List ARange)}
    (h : AxesOK dims lo hi axes) {r : List ARange} (hr : r ∈ axesProd axes)
    (hne : InPatch (r.map (·.lo)) (r.map (·.hi)) (r.map (·.lo))) :
    (∀ ld, LdOK lo hi ld → LdOK (r.map (·.lo)) (r.map (·.hi)) ld) ∧
    0 ≤ numElems (r.map (·.lo)) (r.map (·.hi)) ∧
    numElems (r.map (·.lo)) (r.map (·.hi)) ≤ numElems lo hi := by
  induction axes generalizing dims lo hi r with
  | nil =>
    obtain ⟨rfl, rfl, rfl⟩ := h.nil_inv
    simp only [axesProd, List.mem_singleton] at hr; subst hr
    simp [numElems, LdOK]
  | cons a axes ih =>
    obtain ⟨d, dims, l, lo, hh, hi, rfl, rfl, rfl⟩ := h.cons_inv
    simp only [axesProd, List.mem_flatMap, List.mem_map] at hr
    obtain ⟨r, hr, x, hx, rfl⟩ := hr
    simp only [List.map_cons, InPatch] at hne ⊢
    obtain ⟨i1, i2, i3⟩ := ih h.2 hr hne.2
    have hw : x.hi - x.lo ≤ hh - l := by
      have key : ∀ z ∈ irange (l + x.off) (l + x.off + (x.hi - x.lo)), z ∈ irange l hh := by
        intro z hz
        rw [← h.1.2, List.mem_flatMap]
        exact ⟨x, hx, hz⟩
      have k1 := mem_irange.1 (key (l + x.off) (mem_irange.2 ⟨by omega, by omega⟩))
      have k2 := mem_irange.1 (key (l + x.off + (x.hi - x.lo)) (mem_irange.2 ⟨by omega, by omega⟩))
      omega
    refine ⟨?_, ?_, ?_⟩
    · intro ld hld
      have hl := h.2
      cases axes with
      | nil =>
        obtain ⟨rfl, rfl, rfl⟩ := hl.nil_inv
        simp only [axesProd, List.mem_singleton] at hr; subst hr
        cases ld <;> simp_all [LdOK]
      | cons a' axes =>
        obtain ⟨d', dims', l', lo', hh', hi', rfl, rfl, rfl⟩ := hl.cons_inv
        simp only [axesProd, List.mem_flatMap, List.mem_map] at hr
        obtain ⟨r', hr', x', hx', rfl⟩ := hr
        cases ld with
        | nil => simp [LdOK] at hld
        | cons e ld =>
          simp only [LdOK, List.map_cons] at hld i1 ⊢
          exact ⟨by omega, i1 ld hld.2⟩
    · exact Int.mul_nonneg (by omega) i2
    · simp only [numElems]
      exact Int.mul_le_mul (by omega) i3 i2 (by omega)

/-- The requests issued by the periodic operation, with the part of the patch each one serves. -/
theorem periPieces_geo {dims lo hi ld : List Int} (hd : ∀ d ∈ dims, 1 ≤ d) (hne : dims ≠ [])
    (h1 : lo.length = dims.length) (h2 : hi.length = dims.length) (hld : LdOK lo hi ld)
    {ps : List PPiece} (h : periPieces dims lo hi ld = some ps)
    (hin : ∀ p ∈ ps, PatchOK dims p.lo p.hi) :
    ∃ L : List (PPiece × List (List Int)), L.map Prod.fst = ps ∧
      (L.flatMap Prod.snd).Perm (box lo hi) ∧
      ∀ q ∈ L, LdOK q.1.lo q.1.hi ld ∧
        (∀ x ∈ q.2, InPatch q.1.lo q.1.hi (wrap dims x) ∧
          bufPos lo ld x = bufPos q.1.lo ld (wrap dims x) + q.1.off) ∧
        (∀ y, InPatch q.1.lo q.1.hi y → ∃ x ∈ q.2, wrap dims x = y) := by
  unfold periPieces at h
  split at h
  · simp at h
  · rename_i hr
    have hok := regular_inArray hd h1 h2 hr
    simp only [Option.some.injEq] at h
    subst h
    refine ⟨[(⟨lo, hi, 0⟩, box lo hi)], rfl, by simp, ?_⟩
    intro q hq
    simp only [List.mem_singleton] at hq
    subst hq
    refine ⟨hld, ?_, ?_⟩
    · intro x hx
      rw [wrap_of_inArray (hok.inArray (mem_box.1 hx))]
      exact ⟨mem_box.1 hx, by simp⟩
    · intro y hy
      exact ⟨y, mem_box.2 hy, wrap_of_inArray (hok.inArray hy)⟩
  · rename_i axes hr
    have haxes : axes = reqAxes dims lo hi := by
      unfold periGetRange at hr
      split at hr
      · simp only at hr
        split at hr
        · simp at hr
        · exact (PRange.ranges.inj hr).symm
      · simp at hr
    subst haxes
    have hlen : (reqAxes dims lo hi).length = dims.length := by
      unfold reqAxes
      rw [axesMap_length] <;> simp [axesMap_length, h1, h2]
    have hpos : 0 < gridSize ((reqAxes dims lo hi).map List.length) := by
      have := reqAxes_ne dims lo hi
      generalize reqAxes dims lo hi = ax at this
      induction ax with
      | nil => simp [gridSize]
      | cons a ax ih =>
        simp only [List.map_cons, gridSize]
        exact Nat.mul_pos (List.length_pos_iff.2 (this a (by simp))) (ih fun a ha => this a (by simp [ha]))
    have hne' : (reqAxes dims lo hi).map List.length ≠ [] := by
      intro e
      have : (reqAxes dims lo hi).length = 0 := by simpa using congrArg List.length e
      exact hne (List.length_eq_zero_iff.1 (by omega))
    simp only at h
    rw [periVisit_all hne' hpos] at h
    simp only [Option.map_some, Option.some.injEq, List.map_map, Function.comp_def] at h
    have hps : ps = (axesProd (reqAxes dims lo hi)).map (toPiece ld) := by
      rw [← h, ← sel_eq_prod, List.map_map]; rfl
    subst hps
    have hsel : ∀ r ∈ axesProd (reqAxes dims lo hi),
        PatchOK dims (r.map (·.lo)) (r.map (·.hi)) :=
      fun r hr => hin (toPiece ld r) (List.mem_map_of_mem hr)
    have hax : AxesOK dims lo hi (reqAxes dims lo hi) := by
      apply reqAxes_ok hd h1 h2
      intro i hi1 hi2 a ha
      obtain ⟨r, hr, hri⟩ := axesProd_mem (reqAxes_ne dims lo hi) hi1 ha
      have hp := hsel r hr
      clear hr hin h
      clear hlen h1 h2 hr hpos hne' hsel ha hi1 hd hne
      have aux : ∀ (dims : List Int) (r : List ARange) (i : Nat) (hi2 : i < dims.length),
          PatchOK dims (r.map (·.lo)) (r.map (·.hi)) → r[i]? = some a →
          1 ≤ a.lo ∧ a.lo ≤ a.hi ∧ a.hi ≤ dims[i] := by
        intro dims
        induction dims with
        | nil => intro r i hi2; simp at hi2
        | cons d dims ih =>
          intro r i hi2 hp hri
          cases r with
          | nil => simp at hri
          | cons b r =>
            simp only [PatchOK, InArray, List.map_cons, InPatch] at hp
            cases i with
            | zero =>
              simp only [List.getElem?_cons_zero, Option.some.injEq] at hri
              subst hri
              simp only [List.getElem_cons_zero]
              omega
            | succ i =>
              simp only [List.getElem_cons_succ]
              exact ih r i (by simpa using hi2) ⟨hp.1.2, hp.2.1.2, hp.2.2.2⟩ (by simpa using hri)
      exact aux dims r i hi2 hp hri
    refine ⟨(axesProd (reqAxes dims lo hi)).map fun r =>
      (toPiece ld r, box (rawBox lo r).1 (rawBox lo r).2), by simp [List.map_map, Function.comp_def],
      ?_, ?_⟩
    · rw [List.flatMap_map]; exact hax.cover
    · intro q hq
      rw [List.mem_map] at hq
      obtain ⟨r, hr, rfl⟩ := hq
      have hs := hax.sel hr
      refine ⟨(hax.width hr (hsel r hr).2.2).1 ld hld, ?_, ?_⟩
      · intro x hx
        have hx' := mem_box.1 hx
        exact ⟨sel_wrap hs hx', sel_bufPos hs (by have := hld.length; omega) hx'⟩
      · intro y hy
        obtain ⟨x, a, b⟩ := sel_surj hs hy
        exact ⟨x, mem_box.2 a, b⟩

theorem wrap_inj {dims lo hi x y : List Int} (hd : ∀ d ∈ dims, 1 ≤ d) (hn : Narrow dims lo hi)
    (hx : InPatch lo hi x) (hy : InPatch lo hi y) (h : wrap dims x = wrap dims y) : x = y := by
  induction dims generalizing lo hi x y with
  | nil =>
    match lo, hi, hn with
    | [], [], _ => cases x <;> cases y <;> simp_all [InPatch]
  | cons d dims ih =>
    match lo, hi, hn with
    | l :: lo, hh :: hi, hn =>
      cases x with
      | nil => simp [InPatch] at hx
      | cons x xs =>
        cases y with
        | nil => simp [InPatch] at hy
        | cons y ys =>
          simp only [InPatch, Narrow, wrap, List.cons.injEq] at hx hy hn h
          have hd1 := hd d (by simp)
          rw [ih (fun d hd' => hd d (by simp [hd'])) hn.2 hx.2 hy.2 h.2]
          congr 1
          have e1 := Int.mul_ediv_add_emod (x - 1) d
          have e2 := Int.mul_ediv_add_emod (y - 1) d
          have e3 : d * ((x - 1) / d) - d * ((y - 1) / d) = x - y := by omega
          rw [← Int.mul_sub] at e3
          rcases lt_trichotomy ((x - 1) / d - (y - 1) / d) 0 with hc | hc | hc
          · have := Int.mul_le_mul_of_nonneg_left (show (x - 1) / d - (y - 1) / d ≤ -1 by omega)
              (show 0 ≤ d by omega)
            omega
          · rw [hc] at e3; omega
          · have := Int.mul_le_mul_of_nonneg_left (show 1 ≤ (x - 1) / d - (y - 1) / d by omega)
              (show 0 ≤ d by omega)
            omega

section
variable {V : Type}

theorem getAll_some {E : PPiece → Env} {A : RegArray} (hA : ArrOK A) (hE : ∀ p, EnvOK (E p) A)
    {ld : List Int} {m : Addr → V} {ps : List PPiece} {buf buf' : Int → V}
    (h : getAll E A ld m ps buf = some buf') : ∀ p ∈ ps, PatchOK A.dims p.lo p.hi := by
  induction ps generalizing buf with
  | nil => simp
  | cons p ps ih =>
    simp only [getAll, Option.bind_eq_some_iff] at h
    obtain ⟨b, h1, h2⟩ := h
    simp only [getAt, ngaGet, Option.map_eq_some_iff] at h1
    obtain ⟨_, ⟨rs, hrs, _⟩, _⟩ := h1
    intro q hq
    rcases List.mem_cons.1 hq with rfl | hq
    · exact (regPieces_spec hA (hE q) hrs).1
    · exact ih h2 q hq

/-- **C32 (get).** Every periodic get that returns has put element `wrap x` at the buffer
position of `x`, for all requested `x`, and has changed nothing else in the buffer. This covers
every width and every distance the code accepts. -/
theorem C32_get (A : RegArray) (hA : ArrOK A) (E : PPiece → Env) (hE : ∀ p, EnvOK (E p) A)
    (lo hi ld : List Int) (hlen : lo.length = A.dims.length) (hld : LdOK lo hi ld)
    (m : Addr → V) (f : List Int → V) (hm : Repr A m f) (buf buf' : Int → V)
    (h : periodicGet E A lo hi ld m buf = some buf') :
    PeriodicGet A.dims lo hi ld f buf buf' := by
  simp only [periodicGet, Option.bind_eq_some_iff] at h
  obtain ⟨ps, hps, hg⟩ := h
  have hl := hld.length
  obtain ⟨L, rfl, hperm, hgeo⟩ := periPieces_geo (mapok_dims hA.map) hA.ne hlen
    (by omega) hld hps (getAll_some hA hE hg)
  have key := chain (P := { q : PPiece × List (List Int) // q ∈ L }) (X := List Int) (K := Int)
    (fun q => q.1.2) (bufPos lo ld) (fun x (_ : V) => f (wrap A.dims x))
    (fun q s s' => getAt (E q.1.1) A q.1.1 ld m s = some s')
    (by
      rintro ⟨q, hq⟩ s s' hs
      simp only [getAt, Option.map_eq_some_iff] at hs
      obtain ⟨b, hb, rfl⟩ := hs
      obtain ⟨g1, g2, g3⟩ := hgeo q hq
      obtain ⟨r1, r2⟩ := get_repr hA (hE _) g1 hm hb
      constructor
      · intro x hx
        obtain ⟨a1, a2⟩ := g2 x hx
        simp only
        rw [a2, show ∀ a b : Int, a + b - b = a by intros; omega, r1 _ a1]
      · intro i hi'
        simp only
        rw [r2 (i - q.1.off)]
        · show s (i - q.1.off + q.1.off) = s i
          congr 1; omega
        · intro y hy e
          obtain ⟨x, hx, rfl⟩ := g3 y hy
          apply hi' x hx
          rw [(g2 x hx).2, e]; omega)
    (fun ps s s' => getAll E A ld m (ps.map fun q => q.1.1) s = some s')
    (by intro s s' hs; simpa [getAll] using hs.symm)
    (by
      intro p ps s s' hs
      simpa only [List.map_cons, getAll, Option.bind_eq_some_iff] using hs)
    L.attach buf buf'
    (by
      rw [← hg]
      congr 1
      conv_rhs => rw [← List.attach_map_subtype_val L]
      rw [List.map_map]; rfl)
  have efm : L.attach.flatMap (fun q => q.1.2) = L.flatMap Prod.snd := by
    conv_rhs => rw [← List.attach_map_subtype_val L, List.flatMap_map]
  rw [efm] at key
  have hnd : ((L.flatMap Prod.snd).map (bufPos lo ld)).Nodup := by
    apply List.Nodup.map_on
    · intro x hx y hy e
      exact bufPos_inj hld (mem_box.1 (hperm.mem_iff.1 hx)) (mem_box.1 (hperm.mem_iff.1 hy)) e
    · exact hperm.nodup_iff.2 (nodup_box lo hi)
  obtain ⟨k1, k2⟩ := key hnd
  refine ⟨fun x hx => k1 x (hperm.mem_iff.2 (mem_box.2 hx)), fun i hi' => k2 i ?_⟩
  intro x hx
  exact hi' x (mem_box.1 (hperm.mem_iff.1 hx))

variable [Add V] [Mul V]

theorem putAll_runOps (E : PPiece → Env) (A : RegArray) (ld : List Int) (buf : Int → V)
    (ps : List PPiece) (m : Addr → V) : putAll E A ld buf ps m
      = runOps A (ps.map fun p => (E p, .put p.lo p.hi ld fun j => buf (j + p.off))) m := by
  induction ps generalizing m with
  | nil => rfl
  | cons p ps ih =>
    simp only [putAll, List.map_cons, runOps, runOp]
    congr 1; funext m'; exact ih m'

theorem accAll_runOps (E : PPiece → Env) (A : RegArray) (ld : List Int) (alpha : V) (buf : Int → V)
    (ps : List PPiece) (m : Addr → V) : accAll E A ld alpha buf ps m
      = runOps A (ps.map fun p => (E p, .acc p.lo p.hi ld alpha fun j => buf (j + p.off))) m := by
  induction ps generalizing m with
  | nil => rfl
  | cons p ps ih =>
    simp only [accAll, List.map_cons, runOps, runOp]
    congr 1; funext m'; exact ih m'

/-- corners of an operation -/
def opPatch : Op V → List Int × List Int
  | .put lo hi _ _ => (lo, hi)
  | .acc lo hi _ _ _ => (lo, hi)

theorem runOps_some {A : RegArray} (hA : ArrOK A) {es : List (Env × Op V)}
    (hE : ∀ e ∈ es, EnvOK e.1 A) {m m' : Addr → V} (h : runOps A es m = some m') :
    ∀ e ∈ es, PatchOK A.dims (opPatch e.2).1 (opPatch e.2).2 := by
  induction es generalizing m with
  | nil => simp
  | cons e es ih =>
    obtain ⟨E, o⟩ := e
    simp only [runOps, Option.bind_eq_some_iff] at h
    obtain ⟨m1, h1, h2⟩ := h
    intro q hq
    rcases List.mem_cons.1 hq with rfl | hq
    · cases o <;> simp only [runOp, ngaPut, ngaAcc, Option.map_eq_some_iff] at h1 <;>
        obtain ⟨rs, hrs, _⟩ := h1 <;>
        exact (regPieces_spec hA (hE _ (List.mem_cons_self ..)) hrs).1
    · exact ih (fun e he => hE e (by simp [he])) h2 q hq

/-- common part of put and accumulate -/
theorem periodic_update {A : RegArray} (hA : ArrOK A) {E : PPiece → Env} (hE : ∀ p, EnvOK (E p) A)
    {lo hi ld : List Int} (hlen : lo.length = A.dims.length) (hld : LdOK lo hi ld)
    (hn : Narrow A.dims lo hi) {m m' : Addr → V} {f : List Int → V} (hm : Repr A m f)
    {ps : List PPiece} (hps : periPieces A.dims lo hi ld = some ps) (buf : Int → V)
    (g : V → V → V) (op : PPiece → Op V) (hop : ∀ p, opPatch (op p) = (p.lo, p.hi))
    (hopl : ∀ p, LdOK p.lo p.hi ld → (op p).LdOK)
    (hg : ∀ p f, specStep f (op p) = fun x => if InPatch p.lo p.hi x then
      g (f x) (buf (bufPos p.lo ld x + p.off)) else f x)
    (h : runOps A (ps.map fun p => (E p, op p)) m = some m') :
    ∃ f', Repr A m' f' ∧ PeriodicUpdate A.dims lo hi ld g buf f f' := by
  have hin : ∀ p ∈ ps, PatchOK A.dims p.lo p.hi := by
    intro p hp
    have := runOps_some hA (es := ps.map fun p => (E p, op p)) (by simp; intro e _; exact hE e) h
      (E p, op p) (List.mem_map_of_mem hp)
    rwa [hop] at this
  have hl := hld.length
  obtain ⟨L, rfl, hperm, hgeo⟩ := periPieces_geo (mapok_dims hA.map) hA.ne hlen
    (by omega) hld hps hin
  have hrepr := runOps_repr hA (h := (L.map Prod.fst).map fun p => (E p, op p)) (by
      intro e he
      simp only [List.mem_map] at he
      obtain ⟨p, ⟨q, hq, rfl⟩, rfl⟩ := he
      exact ⟨hE _, hopl _ (hgeo q hq).1⟩) hm h
  refine ⟨_, hrepr, ?_⟩
  have key := chain (P := { q : PPiece × List (List Int) // q ∈ L }) (X := List Int)
    (K := List Int) (fun q => q.1.2) (wrap A.dims) (fun x (v : V) => g v (buf (bufPos lo ld x)))
    (fun q s s' => s' = specStep s (op q.1.1))
    (by
      rintro ⟨q, hq⟩ s s' rfl
      obtain ⟨g1, g2, g3⟩ := hgeo q hq
      rw [hg]
      constructor
      · intro x hx
        obtain ⟨a1, a2⟩ := g2 x hx
        simp only
        rw [if_pos a1, a2]
      · intro y hy
        simp only
        rw [if_neg]
        intro hp
        obtain ⟨x, hx, e⟩ := g3 y hp
        exact hy x hx e)
    (fun ps s s' => s' = specRun s (ps.map fun q => op q.1.1))
    (by intro s s' hs; simpa [specRun] using hs)
    (by
      intro p ps s s' hs
      exact ⟨_, rfl, by rw [hs]; rfl⟩)
    L.attach f (specRun f (((L.map Prod.fst).map fun p => (E p, op p)).map Prod.snd))
    (by
      congr 1
      simp only [List.map_map, Function.comp_def]
      conv_lhs => rw [← List.attach_map_subtype_val L, List.map_map]
      rfl)
  have efm : L.attach.flatMap (fun q => q.1.2) = L.flatMap Prod.snd := by
    conv_rhs => rw [← List.attach_map_subtype_val L, List.flatMap_map]
  rw [efm] at key
  have hnd : ((L.flatMap Prod.snd).map (wrap A.dims)).Nodup := by
    apply List.Nodup.map_on
    · intro x hx y hy e
      exact wrap_inj (mapok_dims hA.map) hn (mem_box.1 (hperm.mem_iff.1 hx))
        (mem_box.1 (hperm.mem_iff.1 hy)) e
    · exact hperm.nodup_iff.2 (nodup_box lo hi)
  obtain ⟨k1, k2⟩ := key hnd
  refine ⟨fun x hx => k1 x (hperm.mem_iff.2 (mem_box.2 hx)), fun y _ hy' => k2 y ?_⟩
  intro x hx
  exact hy' x (mem_box.1 (hperm.mem_iff.1 hx))

/-- **C32 (put).** Every periodic put not wider than the array that returns has stored, for all
requested `x`, the buffer element of `x` in array element `wrap x`, and has changed no other
element. -/
theorem C32_put (A : RegArray) (hA : ArrOK A) (E : PPiece → Env) (hE : ∀ p, EnvOK (E p) A)
    (lo hi ld : List Int) (hlen : lo.length = A.dims.length) (hld : LdOK lo hi ld)
    (hn : Narrow A.dims lo hi) (m m' : Addr → V) (f : List Int → V) (hm : Repr A m f)
    (buf : Int → V) (h : periodicPut E A lo hi ld buf m = some m') :
    ∃ f', Repr A m' f' ∧ PeriodicUpdate A.dims lo hi ld (fun _ b => b) buf f f' := by
  simp only [periodicPut, Option.bind_eq_some_iff] at h
  obtain ⟨ps, hps, hg⟩ := h
  rw [putAll_runOps] at hg
  exact periodic_update hA hE hlen hld hn hm hps buf (fun _ b => b)
    (fun p => .put p.lo p.hi ld fun j => buf (j + p.off)) (fun _ => rfl) (fun _ h => h)
    (fun _ _ => rfl) hg

/-- **C32 (accumulate).** The same for accumulate: element `wrap x` grows by `alpha` times the
buffer element of `x`. -/
theorem C32_acc (A : RegArray) (hA : ArrOK A) (E : PPiece → Env) (hE : ∀ p, EnvOK (E p) A)
    (lo hi ld : List Int) (hlen : lo.length = A.dims.length) (hld : LdOK lo hi ld)
    (hn : Narrow A.dims lo hi) (alpha : V) (m m' : Addr → V) (f : List Int → V) (hm : Repr A m f)
    (buf : Int → V) (h : periodicAcc E A lo hi ld alpha buf m = some m') :
    ∃ f', Repr A m' f' ∧
      PeriodicUpdate A.dims lo hi ld (fun v b => v + alpha * b) buf f f' := by
  simp only [periodicAcc, Option.bind_eq_some_iff] at h
  obtain ⟨ps, hps, hg⟩ := h
  rw [accAll_runOps] at hg
  exact periodic_update hA hE hlen hld hn hm hps buf (fun v b => v + alpha * b)
    (fun p => .acc p.lo p.hi ld alpha fun j => buf (j + p.off)) (fun _ => rfl) (fun _ h => h)
    (fun _ _ => rfl) hg

end

/-! ## Which requests are served -/

theorem widthOK_narrow {dims lo hi : List Int} (hd : ∀ d ∈ dims, 1 ≤ d) (hn : Narrow dims lo hi)
    (hw : InPatch lo hi lo) : (axesMap periWidthOK dims lo hi).all id = true := by
  induction dims generalizing lo hi with
  | nil => rfl
  | cons d dims ih =>
    match lo, hi, hn, hw with
    | l :: lo, h :: hi, hn, hw =>
      simp only [Narrow, InPatch] at hn hw
      have := hd d (by simp)
      simp only [axesMap, List.all_cons, Bool.and_eq_true, id]
      refine ⟨?_, ih (fun d hd' => hd d (by simp [hd'])) hn.2 hw.2⟩
      simp only [periWidthOK, Bool.not_eq_true', Bool.or_eq_false_iff, decide_eq_false_iff_not]
      omega

theorem narrow_length {dims lo hi : List Int} (h : Narrow dims lo hi) :
    lo.length = dims.length ∧ hi.length = dims.length := by
  induction dims generalizing lo hi with
  | nil => cases lo <;> cases hi <;> simp_all [Narrow]
  | cons d dims ih =>
    match lo, hi, h with
    | l :: lo, hh :: hi, h =>
      simp only [Narrow] at h
      have := ih h.2
      simp [this.1, this.2]

/-- the issued requests are legal and not larger than the whole request -/
theorem periPieces_served {dims lo hi ld : List Int} (hd : ∀ d ∈ dims, 1 ≤ d) (hne : dims ≠ [])
    (hn : Narrow dims lo hi) (hf : NotFarBelow dims hi) (hw : InPatch lo hi lo) :
    ∃ ps, periPieces dims lo hi ld = some ps ∧
      ∀ p ∈ ps, PatchOK dims p.lo p.hi ∧ 0 ≤ numElems p.lo p.hi ∧
        numElems p.lo p.hi ≤ numElems lo hi := by
  obtain ⟨h1, h2⟩ := narrow_length hn
  unfold periPieces
  split
  · rename_i hr
    unfold periGetRange at hr
    rw [if_pos (widthOK_narrow hd hn hw)] at hr
    simp only at hr
    split at hr <;> simp at hr
  · rename_i hr
    refine ⟨_, rfl, ?_⟩
    simp only [List.mem_singleton, forall_eq]
    refine ⟨regular_inArray hd h1 h2 hr, ?_, le_refl _⟩
    clear hr hne hf hd hn h1 h2
    induction lo generalizing hi with
    | nil => simp [numElems]
    | cons l lo ih =>
      cases hi with
      | nil => simp [numElems]
      | cons h hi =>
        simp only [InPatch] at hw
        exact Int.mul_nonneg (by omega) (ih hw.2)
  · rename_i axes hr
    have haxes : axes = reqAxes dims lo hi := by
      unfold periGetRange at hr
      split at hr
      · simp only at hr
        split at hr
        · simp at hr
        · exact (PRange.ranges.inj hr).symm
      · simp at hr
    subst haxes
    have hlen : (reqAxes dims lo hi).length = dims.length := by
      unfold reqAxes
      rw [axesMap_length] <;> simp [axesMap_length, h1, h2]
    have hpos : 0 < gridSize ((reqAxes dims lo hi).map List.length) := by
      have := reqAxes_ne dims lo hi
      generalize reqAxes dims lo hi = ax at this
      induction ax with
      | nil => simp [gridSize]
      | cons a ax ih =>
        simp only [List.map_cons, gridSize]
        exact Nat.mul_pos (List.length_pos_iff.2 (this a (by simp))) (ih fun a ha => this a (by simp [ha]))
    have hne' : (reqAxes dims lo hi).map List.length ≠ [] := by
      intro e
      have : (reqAxes dims lo hi).length = 0 := by simpa using congrArg List.length e
      exact hne (List.length_eq_zero_iff.1 (by omega))
    simp only
    rw [periVisit_all hne' hpos]
    refine ⟨_, rfl, ?_⟩
    have hb := reqAxes_in hd hn hf hw
    have hax : AxesOK dims lo hi (reqAxes dims lo hi) :=
      reqAxes_ok hd h1 h2 fun i q1 q2 a ha => (hb i q1 q2 (by omega) (by omega) a ha).1
    intro p hp
    simp only [List.map_map, Function.comp_def] at hp
    have hp' : p ∈ (axesProd (reqAxes dims lo hi)).map (toPiece ld) := by
      rw [← sel_eq_prod, List.map_map]; exact hp
    rw [List.mem_map] at hp'
    obtain ⟨r, hr', rfl⟩ := hp'
    have hpatch : PatchOK dims (r.map (·.lo)) (r.map (·.hi)) := by
      have aux : ∀ (dims : List Int) (ax : List (List ARange)) (r : List ARange),
          ax.length = dims.length → r ∈ axesProd ax →
          (∀ i (h : i < ax.length) (hd : i < dims.length), ∀ a ∈ ax[i],
            1 ≤ a.lo ∧ a.lo ≤ a.hi ∧ a.hi ≤ dims[i]) →
          PatchOK dims (r.map (·.lo)) (r.map (·.hi)) := by
        intro dims
        induction dims with
        | nil =>
          intro ax r hl hr _
          have : ax = [] := List.length_eq_zero_iff.1 hl
          subst this
          simp only [axesProd, List.mem_singleton] at hr
          subst hr
          simp [PatchOK, InArray, InPatch]
        | cons d dims ih =>
          intro ax r hl hr hb
          cases ax with
          | nil => simp at hl
          | cons a ax =>
            simp only [axesProd, List.mem_flatMap, List.mem_map] at hr
            obtain ⟨r, hr, x, hx, rfl⟩ := hr
            have h0 := hb 0 (by simp) (by simp) x (by simpa using hx)
            simp only [List.getElem_cons_zero] at h0
            obtain ⟨a1, a2, a3⟩ := ih ax r (by simpa using hl) hr (by
              intro i q1 q2 y hy
              have := hb (i + 1) (by simpa using q1) (by simpa using q2) y (by simpa using hy)
              simpa using this)
            simp only [PatchOK, InArray, List.map_cons, InPatch]
            exact ⟨⟨by omega, a1⟩, ⟨by omega, a2⟩, by omega, a3⟩
      exact aux dims _ r hlen hr' fun i q1 q2 a ha => (hb i q1 q2 (by omega) (by omega) a ha).1
    exact ⟨hpatch, (hax.width hr' hpatch.2.2).2⟩

/-- **C32 (served), partial.** A periodic request not wider than the array, at any distance above
the array or less than one array length below it, is served (as far as the message limit, C45,
is not exceeded). Missing: requests wider than the array, and requests further below the array;
the code accepts both, and fails for some of them (`C32_wide_fails`, `C32_far_below_fails`). -/
theorem C32_served_partial {V : Type} [Add V] [Mul V] (A : RegArray) (hA : ArrOK A)
    (E : PPiece → Env) (hE : ∀ p, EnvOK (E p) A) (lo hi ld : List Int)
    (hw : InPatch lo hi lo) (hn : Narrow A.dims lo hi) (hf : NotFarBelow A.dims hi)
    (hfit : ∀ p, (E p).elemsize * numElems lo hi ≤ (E p).maxInt)
    (buf : Int → V) (alpha : V) (m : Addr → V) :
    (∃ b, periodicGet E A lo hi ld m buf = some b) ∧
    (∃ m', periodicPut E A lo hi ld buf m = some m') ∧
    (∃ m', periodicAcc E A lo hi ld alpha buf m = some m') := by
  obtain ⟨ps, hps, hp⟩ := periPieces_served (ld := ld) (mapok_dims hA.map) hA.ne hn hf hw
  have hsome : ∀ p ∈ ps, ∃ rs, regPieces (E p) A p.lo p.hi = some rs := by
    intro p hp'
    obtain ⟨a, b, c⟩ := hp p hp'
    apply regPieces_fits hA (hE p) a
    unfold FitsOne
    rw [prodI_edges]
    exact le_trans (Int.mul_le_mul_of_nonneg_left c (hE p).es) (hfit p)
  simp only [periodicGet, periodicPut, periodicAcc, hps, Option.bind_some]
  clear hps hp
  refine ⟨?_, ?_, ?_⟩
  · induction ps generalizing buf with
    | nil => exact ⟨_, rfl⟩
    | cons p ps ih =>
      obtain ⟨rs, hrs⟩ := hsome p (by simp)
      obtain ⟨b, hb⟩ := ih (fun i =>
        applyGet (xfers (E p).isLocal p.lo ld rs) m (fun j => buf (j + p.off)) (i - p.off))
        (fun q hq => hsome q (by simp [hq]))
      exact ⟨b, by simp [getAll, getAt, ngaGet, hrs, hb]⟩
  · induction ps generalizing m with
    | nil => exact ⟨_, rfl⟩
    | cons p ps ih =>
      obtain ⟨rs, hrs⟩ := hsome p (by simp)
      obtain ⟨b, hb⟩ := ih (m := applyPut (xfers (E p).isLocal p.lo ld rs)
        (fun j => buf (j + p.off)) m) (fun q hq => hsome q (by simp [hq]))
      exact ⟨b, by simp [putAll, ngaPut, hrs, hb]⟩
  · induction ps generalizing m with
    | nil => exact ⟨_, rfl⟩
    | cons p ps ih =>
      obtain ⟨rs, hrs⟩ := hsome p (by simp)
      obtain ⟨b, hb⟩ := ih (m := applyAcc (xfers (E p).isLocal p.lo ld rs) alpha
        (fun j => buf (j + p.off)) m) (fun q hq => hsome q (by simp [hq]))
      exact ⟨b, by simp [accAll, ngaAcc, hrs, hb]⟩

/-- **C32, negative result.** One array length or more below the array the code shifts in the
wrong direction (global.periodic.c 101-104) and asks for an illegal patch: here subscripts
-17..-15 of an axis of length 10, i.e. elements 3..5. -/
theorem C32_far_below_fails :
    periPieces [10, 7] [-17, 2] [-15, 3] [3] = some [⟨[-7, 2], [10, 3], 0⟩, ⟨[1, 2], [-15, 3], 18⟩] ∧
    ∀ {V : Type} (A : RegArray), A.dims = [10, 7] → ∀ (E : PPiece → Env) (m : Addr → V) (buf : Int → V),
      periodicGet E A [-17, 2] [-15, 3] [3] m buf = none := by
  refine ⟨by decide, ?_⟩
  intro V A hd E m buf
  have h : periPieces A.dims [-17, 2] [-15, 3] [3]
      = some [⟨[-7, 2], [10, 3], 0⟩, ⟨[1, 2], [-15, 3], 18⟩] := by rw [hd]; decide
  have hn : ∀ E, regPieces E A [-7, 2] [10, 3] = none := by
    intro E
    apply regPieces_none
    rw [hd]; decide
  simp [periodicGet, h, getAll, getAt, ngaGet, hn]

/-- **C32, negative result.** A request twice as wide as the array is accepted by the check
(global.periodic.c 84) but fails unless it starts at the right place: here 5..24 of an axis of
length 10. -/
theorem C32_wide_fails :
    periPieces [10] [5] [24] [] = some [⟨[5], [10], 0⟩, ⟨[1], [14], 6⟩] ∧
    ∀ {V : Type} (A : RegArray), A.dims = [10] → ∀ (E : PPiece → Env) (m : Addr → V) (buf : Int → V),
      periodicGet E A [5] [24] [] m buf = none := by
  refine ⟨by decide, ?_⟩
  intro V A hd E m buf
  have h : periPieces A.dims [5] [24] [] = some [⟨[5], [10], 0⟩, ⟨[1], [14], 6⟩] := by
    rw [hd]; decide
  have hn : ∀ E, regPieces E A [1] [14] = none := by
    intro E
    apply regPieces_none
    rw [hd]; decide
  simp only [periodicGet, h, Option.bind_some, getAll, getAt, ngaGet, hn]
  cases regPieces (E ⟨[5], [10], 0⟩) A [5] [10] <;> simp

/-! Non-vacuity -/

/-- an environment per piece -/
def exPE : PPiece → Env := fun p => if p.off = 0 then exE else exE2

example : ∀ p, EnvOK (exPE p) exG := by
  intro p; unfold exPE; split
  · exact exE_ok.1
  · exact exE_ok.2
example : Narrow exG.dims [8, -1] [12, 3] ∧ NotFarBelow exG.dims [12, 3] ∧
    InPatch [8, -1] [12, 3] [8, -1] ∧ LdOK [8, -1] [12, 3] [6] := by decide
/-- a corner: four pieces -/
example : (periPieces exG.dims [8, -1] [12, 3] [6]).map List.length = some 4 := by decide
/-- element (11, 0) is element (1, 7) -/
example : ((periodicPut exPE exG [8, -1] [12, 3] [6] (fun i => i) (fun _ => (0 : Int))).bind fun m =>
    ngaGet exE exG [1, 7] [2, 7] (fun _ => -1) [2] m).map (fun b => [b 0, b 1, b 2]) =
      some [9, 10, -1] := by decide
example : ((periodicPut exPE exG [8, -1] [12, 3] [6] (fun i => i) (fun _ => (0 : Int))).bind fun m =>
    periodicGet exPE exG [110, -1] [112, 1] [4] m (fun _ => -1)).map
      (fun b => (List.range 11).map fun (i : Nat) => b i) =
      some [2, 3, 4, -1, 8, 9, 10, -1, 14, 15, 16] := by decide

end GA
