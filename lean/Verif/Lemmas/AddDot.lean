import Verif.Model.AddDot
import Verif.Spec.AddDot
import Verif.Props.C53
import Verif.Props.C34
import Verif.Props.C35

/-! # Lemmas: linear combinations and inner products -/

namespace GA
open Spec Model

/-! ## own parts of REGULAR arrays -/

theorem owns_len {A : RegArray} (hA : ArrOK A) (p : Nat) :
    (owns A p).1.length = A.dims.length ∧ (owns A p).2.length = A.dims.length := by
  by_cases hp : p < gridSize A.nblock
  · rw [regLocal_mem hA hp]
    exact owns_length hA (digits_ok hp)
  · rw [reg_outside hp]
    have := mapOK_length hA.map
    simp [this]

theorem reg_part {A : RegArray} {n : Nat} (hA : Sound (.reg A n)) {lo hi : List Int} (h : PatchOK A.dims lo hi)
    {p : Nat} (hp : p < n) {los his : List Int}
    (hi' : patchIntersect lo hi (owns A p).1 (owns A p).2 = some (los, his)) :
    InPatch los his los ∧ (ownLd A p).length + 1 = los.length ∧
    (∀ x, InPatch los his x → InPatch (owns A p).1 (owns A p).2 x) ∧
    ∀ x, InPatch los his x → cell A x = ((p : Int), locOffset A p los + bufPos los (ownLd A p) x) := by
  obtain ⟨parts, v⟩ := partView (G := .reg A n) hA trivial h
  have e := v.eq p hp
  simp only [localParts, hi', Option.some.injEq] at e
  have hm : (⟨los, his, p, locOffset A p los, ownLd A p⟩ : LItem) ∈ parts p := by
    rw [← e]; exact List.mem_singleton.2 rfl
  obtain ⟨s1, s2, s3⟩ := v.shape p hp _ hm
  have l1 := owns_len hA.1 p
  have hl := h.1.length
  have hl2 := inPatch_lengths h.2.2
  obtain ⟨k1, k2⟩ := patchIntersect_some hl2.1 (by omega) (by omega) hi'
  refine ⟨k1, ?_, fun x hx => ((k2 x).1 hx).2, v.cell p hp _ hm⟩
  have := inPatch_lengths ((k2 los).1 k1).1
  simp only at s1
  omega

theorem reg_cover {A : RegArray} {n : Nat} (hA : Sound (.reg A n)) {lo hi : List Int} (h : PatchOK A.dims lo hi) :
    ((List.range n).flatMap fun p : Nat => match patchIntersect lo hi (owns A p).1 (owns A p).2 with
      | none => []
      | some r => box r.1 r.2).Perm (box lo hi) := by
  obtain ⟨parts, v⟩ := partView (G := .reg A n) hA trivial h
  refine (List.Perm.flatMap_left _ ?_).trans v.cover
  intro p hp
  have e := v.eq p (List.mem_range.1 hp)
  simp only [localParts] at e
  cases hpi : patchIntersect lo hi (owns A p).1 (owns A p).2 with
  | none =>
    rw [hpi] at e
    simp only [Option.some.injEq] at e
    rw [← e]; exact List.Perm.refl _
  | some r =>
    rw [hpi] at e
    simp only [Option.some.injEq] at e
    rw [← e]; simp

/-- the offset of a part in an array with the same blocks -/
theorem accessOff_some {A C : RegArray} {n : Nat} (hA : Sound (.reg A n)) (hC : Sound (.reg C n)) {lo hi : List Int}
    (h : PatchOK C.dims lo hi) (hl : A.dims.length = C.dims.length) {p : Nat} (hp : p < n)
    (ho : owns A p = owns C p) {los his : List Int}
    (hi' : patchIntersect lo hi (owns C p).1 (owns C p).2 = some (los, his)) :
    accessOff A p los his = some (locOffset A p los) := by
  obtain ⟨k1, k2, k3, k4⟩ := reg_part hC h hp hi'
  have := inPatch_lengths (k3 _ k1)
  have l1 := owns_len hC.1 p
  unfold accessOff
  rw [if_pos ⟨by omega, by rw [ho]; exact checkSubscript_of_inPatch (k3 _ k1),
    by rw [ho]; exact checkSubscript_of_inPatch (k3 _ (inPatch_upper k1))⟩]

theorem cell_same {A C : RegArray} {n : Nat} (hA : Sound (.reg A n)) {lo hi : List Int}
    (h : PatchOK A.dims lo hi) {p : Nat} (hp : p < n) (ho : owns A p = owns C p)
    (hw : A.width = C.width) {los his : List Int}
    (hi' : patchIntersect lo hi (owns C p).1 (owns C p).2 = some (los, his)) {x : List Int}
    (hx : InPatch los his x) :
    cell A x = ((p : Int), locOffset A p los + bufPos los (ownLd C p) x) := by
  rw [← ho] at hi'
  obtain ⟨_, _, _, k4⟩ := reg_part hA h hp hi'
  rw [k4 x hx]
  unfold ownLd
  rw [ho, hw]

/-- `compatible` means: same patch, and every process owns the same block -/
theorem compatible_same {A C : RegArray} {n : Nat} (hA : Sound (.reg A n)) (hC : Sound (.reg C n))
    {alo ahi clo chi : List Int} (ha : PatchOK A.dims alo ahi) (hc : PatchOK C.dims clo chi)
    (hr : compPatch alo ahi clo chi = true → A.width = C.width)
    (h : compatible n A alo ahi C clo chi = true) (hn : 0 < n) :
    alo = clo ∧ ahi = chi ∧ A.width = C.width ∧ A.dims.length = C.dims.length ∧
      ∀ p, p < n → owns A p = owns C p := by
  simp only [compatible, List.all_eq_true, List.mem_range, Bool.and_eq_true] at h
  have hw := hr (h 0 hn).2
  have hl : A.dims.length = C.dims.length := by rw [← hA.1.width, ← hC.1.width, hw]
  have l1 := inPatch_lengths ha.2.2
  have l2 := inPatch_lengths hc.2.2
  have l3 := ha.1.length
  have l4 := hc.1.length
  obtain ⟨e1, e2⟩ := compPatch_refl l1.1 l2.1 (by omega) (h 0 hn).2
  refine ⟨e1, e2, hw, hl, ?_⟩
  intro p hp
  have q1 := owns_len hA.1 p
  have q2 := owns_len hC.1 p
  obtain ⟨f1, f2⟩ := compPatch_refl (by omega) (by omega) (by omega) (h p hp).1
  exact Prod.ext f1 f2

/-- the step that computes element `z` of `C` from the elements `x` of `A` and `y` of `B` -/
def comb2 (a : Nat) (A : GArr) (b : Nat) (B : GArr) (c : Nat) (C : GArr) (z : List Int) : LAct :=
  ⟨(c, cellG C z), [(a, cellG A z), (b, cellG B z)]⟩

theorem addLocal_acts {n : Nat} {a b c : Nat} {A B C : RegArray} (hA : Sound (.reg A n)) (hB : Sound (.reg B n))
    (hC : Sound (.reg C n)) {lo hi : List Int} (pA : PatchOK A.dims lo hi) (pB : PatchOK B.dims lo hi)
    (pC : PatchOK C.dims lo hi) (oA : ∀ p, p < n → owns A p = owns C p) (oB : ∀ p, p < n → owns B p = owns C p)
    (wA : A.width = C.width) (wB : B.width = C.width) :
    ∃ l, mapOpt (addLocal a A b B c C lo hi) (List.range n) = some l ∧
      l.flatten.Perm ((box lo hi).map (comb2 a (.reg A n) b (.reg B n) c (.reg C n))) := by
  have lA : A.dims.length = C.dims.length := by rw [← hA.1.width, ← hC.1.width, wA]
  have lB : B.dims.length = C.dims.length := by rw [← hB.1.width, ← hC.1.width, wB]
  have key : ∀ p, p < n → addLocal a A b B c C lo hi p =
      some ((match patchIntersect lo hi (owns C p).1 (owns C p).2 with
        | none => []
        | some r => box r.1 r.2).map (comb2 a (.reg A n) b (.reg B n) c (.reg C n))) := by
    intro p hp
    unfold addLocal
    cases hpi : patchIntersect lo hi (owns C p).1 (owns C p).2 with
    | none => rfl
    | some r =>
      obtain ⟨los, his⟩ := r
      obtain ⟨k1, k2, k3, k4⟩ := reg_part hC pC hp hpi
      simp only [accessOff_some hA hC pC lA hp (oA p hp) hpi, accessOff_some hB hC pC lB hp (oB p hp) hpi,
        accessOff_some hC hC pC rfl hp rfl hpi, Option.some.injEq]
      unfold combActs
      rw [patchOffs_eq k1 k2, List.map_map]
      apply List.map_congr_left
      intro x hx
      have hx := mem_box.1 hx
      simp only [Function.comp_apply, comb2, cellG, k4 x hx, cell_same hA pA hp (oA p hp) wA hpi hx,
        cell_same hB pB hp (oB p hp) wB hpi hx, List.map_cons, List.map_nil]
  obtain ⟨l, hl⟩ := mapOpt_some (f := addLocal a A b B c C lo hi) (as := List.range n)
    (fun p hp => ⟨_, key p (List.mem_range.1 hp)⟩)
  refine ⟨l, hl, (flatten_perm _ hl ?_).trans ((reg_cover hC pC).map _)⟩
  intro p hp bs hbs
  rw [key p (List.mem_range.1 hp), Option.some.injEq] at hbs
  rw [← hbs]

/-- the step `C(z) += beta*B(z)` -/
def acc2 (b : Nat) (B : GArr) (c : Nat) (C : GArr) (z : List Int) : LAct :=
  ⟨(c, cellG C z), [(c, cellG C z), (b, cellG B z)]⟩

theorem accLocal_acts {n : Nat} {b c : Nat} {C : RegArray} (hC : Sound (.reg C n)) {lo hi : List Int}
    (pC : PatchOK C.dims lo hi) :
    ∃ l, mapOpt (accLocal b C c C lo hi) (List.range n) = some l ∧
      l.flatten.Perm ((box lo hi).map (acc2 b (.reg C n) c (.reg C n))) := by
  have key : ∀ p, p < n → accLocal b C c C lo hi p =
      some ((match patchIntersect lo hi (owns C p).1 (owns C p).2 with
        | none => []
        | some r => box r.1 r.2).map (acc2 b (.reg C n) c (.reg C n))) := by
    intro p hp
    unfold accLocal
    cases hpi : patchIntersect lo hi (owns C p).1 (owns C p).2 with
    | none => rfl
    | some r =>
      obtain ⟨los, his⟩ := r
      obtain ⟨k1, k2, k3, k4⟩ := reg_part hC pC hp hpi
      simp only [accessOff_some hC hC pC rfl hp rfl hpi, Option.some.injEq]
      unfold combActs
      rw [patchOffs_eq k1 k2, List.map_map]
      apply List.map_congr_left
      intro x hx
      have hx := mem_box.1 hx
      simp only [Function.comp_apply, acc2, cellG, k4 x hx, List.map_cons, List.map_nil]
  obtain ⟨l, hl⟩ := mapOpt_some (f := accLocal b C c C lo hi) (as := List.range n)
    (fun p hp => ⟨_, key p (List.mem_range.1 hp)⟩)
  refine ⟨l, hl, (flatten_perm _ hl ?_).trans ((reg_cover hC pC).map _)⟩
  intro p hp bs hbs
  rw [key p (List.mem_range.1 hp), Option.some.injEq] at hbs
  rw [← hbs]

/-- the step `C(z) *= alpha` -/
def scale1 (c : Nat) (C : GArr) (z : List Int) : LAct := ⟨(c, cellG C z), [(c, cellG C z)]⟩

/-- the local iterator and the intersection with a patch, all processes -/
theorem iter_parts {G : GArr} (hG : Sound G) (hp : PtrOK G) {lo hi : List Int} (h : PatchOK G.dims lo hi)
    {β} (F : List Int → β) (f : Nat → LItem → List β)
    (hf : ∀ p, p < G.nproc → ∀ it los his off, patchIntersect lo hi it.lo it.hi = some (los, his) →
      off = it.off + cornerOff it.lo los it.ld 1 → InPatch los his los → it.ld.length + 1 = los.length →
      (∀ x, InPatch los his x → cellG G x = ((p : Int), off + bufPos los it.ld x)) →
      f p it = (box los his).map F)
    (hf0 : ∀ p it, patchIntersect lo hi it.lo it.hi = none → f p it = []) :
    ∃ l, mapOpt (fun p => (G.localIter p).map fun items => items.flatMap (f p)) (List.range G.nproc) = some l ∧
      l.flatten.Perm ((box lo hi).map F) := by
  obtain ⟨items, v⟩ := view_of hG hp
  obtain ⟨parts, w⟩ := partView hG hp h
  have hl := h.1.length
  have hl2 := (inPatch_lengths h.2.2).1
  have key : ∀ p, p < G.nproc → ((G.localIter p).map fun items => items.flatMap (f p)) =
      some (((parts p).flatMap fun it => box it.lo it.hi).map F) := by
    intro p hp
    rw [v.iter p hp, Option.map_some, Option.some.injEq]
    have e := w.eq p hp
    rw [localParts_cut hG v.iter hl hl2 hp, Option.some.injEq] at e
    rw [← e, List.map_flatMap]
    have hsub : ∀ it ∈ items p, it ∈ items p := fun _ h => h
    have hpart : ∀ pt ∈ (items p).filterMap (cutItem lo hi), pt ∈ parts p := by rw [e]; exact fun _ h => h
    generalize items p = its at hsub hpart ⊢
    have hall : ∀ it ∈ its, ∀ pt, cutItem lo hi it = some pt → f p it = (box pt.lo pt.hi).map F := by
      intro it hit pt hc
      have hpt := hpart pt (List.mem_filterMap.2 ⟨it, hit, hc⟩)
      unfold cutItem at hc
      split at hc
      · cases hc
      · rename_i los his hpi
        simp only [Option.some.injEq] at hc
        subst hc
        obtain ⟨s1, s2, s3⟩ := w.shape p hp _ hpt
        have := inPatch_lengths (s3 _ s2)
        exact hf p hp it los his _ hpi rfl s2 (by simp only at s1 this ⊢; omega) (w.cell p hp _ hpt)
    clear hsub hpart e
    induction its with
    | nil => rfl
    | cons it its ih =>
      rw [List.flatMap_cons, ih fun i hi => hall i (List.mem_cons_of_mem _ hi), List.filterMap_cons]
      cases hc : cutItem lo hi it with
      | none =>
        simp only
        rw [hf0 p it, List.nil_append]
        unfold cutItem at hc
        split at hc
        · assumption
        · cases hc
      | some pt =>
        simp only [List.flatMap_cons]
        rw [hall it (List.mem_cons_self ..) pt hc]
  obtain ⟨l, hl'⟩ := mapOpt_some (f := fun p => (G.localIter p).map fun items => items.flatMap (f p))
    (as := List.range G.nproc) (fun p hp => ⟨_, key p (List.mem_range.1 hp)⟩)
  refine ⟨l, hl', (flatten_perm (h := fun p => (parts p).flatMap fun it => box it.lo it.hi) F hl' ?_).trans
    (w.cover.map F)⟩
  intro p hp bs hbs
  rw [key p (List.mem_range.1 hp), Option.some.injEq] at hbs
  rw [← hbs]

theorem addItems_acts {a b c : Nat} {C : GArr} (hC : Sound C) (pC : PtrOK C) {lo hi : List Int}
    (h : PatchOK C.dims lo hi) :
    ∃ l, mapOpt (addItems a b c C lo hi) (List.range C.nproc) = some l ∧
      l.flatten.Perm ((box lo hi).map (comb2 a C b C c C)) := by
  refine iter_parts hC pC h (comb2 a C b C c C) _ ?_ ?_
  · intro p hp it los his off hpi ho h1 h2 h3
    simp only [hpi, ← ho]
    unfold combActs
    rw [patchOffs_eq h1 h2, List.map_map]
    apply List.map_congr_left
    intro x hx
    simp only [Function.comp_apply, comb2, h3 x (mem_box.1 hx), List.map_cons, List.map_nil]
  · intro p it hpi
    simp only [hpi]

theorem scaleActs_acts {c : Nat} {C : GArr} (hC : Sound C) (pC : PtrOK C) {lo hi : List Int}
    (h : PatchOK C.dims lo hi) :
    ∃ l, mapOpt (scaleActs c C lo hi) (List.range C.nproc) = some l ∧
      l.flatten.Perm ((box lo hi).map (scale1 c C)) := by
  obtain ⟨items, v⟩ := view_of hC pC
  have hl := h.1.length
  have hl2 := (inPatch_lengths h.2.2).1
  obtain ⟨L, hL, hP⟩ := patchCells_perm v (lo := lo) (hi := hi) hl (by omega)
  unfold allCells at hL
  obtain ⟨ls, hls, rfl⟩ := Option.map_eq_some_iff.1 hL
  have hmap : ∀ (ps : List Nat) (ls : List (List Addr)), mapOpt (patchCells C lo hi) ps = some ls →
      mapOpt (scaleActs c C lo hi) ps = some (ls.map fun l => l.map fun x => ⟨(c, x), [(c, x)]⟩) := by
    intro ps
    induction ps with
    | nil => intro ls h; simp only [mapOpt, Option.some.injEq] at h; subst h; rfl
    | cons p ps ih =>
      intro ls h
      unfold mapOpt at h
      split at h
      · rename_i b bs h1 h2
        simp only [Option.some.injEq] at h
        subst h
        unfold mapOpt
        rw [ih _ h2]
        simp only [scaleActs, h1, Option.map_some, List.map_cons]
      · cases h
  refine ⟨_, hmap _ _ hls, ?_⟩
  rw [← List.map_flatten]
  refine (hP.map _).trans ?_
  rw [List.map_map]
  have : ((box (onesL C.dims) C.dims).filter fun x => decide (InPatch lo hi x)).Perm (box lo hi) := by
    rw [List.perm_ext_iff_of_nodup ((nodup_box _ _).filter _) (nodup_box _ _)]
    intro x
    simp only [List.mem_filter, mem_ones_box, decide_eq_true_eq, mem_box]
    exact ⟨fun h => h.2, fun hx => ⟨h.inArray hx, hx⟩⟩
  exact this.map _

/-! ## effect of a phase -/

section
variable {V : Type}

theorem comb_effect {c : Nat} {C : GArr} (hC : Sound C) {lo hi : List Int} (h : PatchOK C.dims lo hi)
    (F : List Int → LAct) (hd : ∀ z, (F z).dst = (c, cellG C z))
    (hs : ∀ z z', InPatch lo hi z → InPatch lo hi z' → (c, cellG C z') ∈ (F z).srcs → z' = z)
    {n : Nat} {acts : Nat → Option (List LAct)}
    (hl : ∃ l, mapOpt acts (List.range n) = some l ∧ l.flatten.Perm ((box lo hi).map F))
    (g : List V → V) {m m' : Loc → V} (hm : Par n acts g m m') :
    (∀ z, InPatch lo hi z → m' (c, cellG C z) = g ((F z).srcs.map m)) ∧
    ∀ l, (∀ z, InPatch lo hi z → (c, cellG C z) ≠ l) → m' l = m l := by
  obtain ⟨l, h1, h2⟩ := hl
  obtain ⟨l', sched, e1, e2, rfl⟩ := hm
  rw [h1, Option.some.injEq] at e1
  subst e1
  have hp := e2.trans h2
  have hind : Indep ((box lo hi).map F) := by
    constructor
    · rw [List.map_map]
      refine List.Nodup.map_on ?_ (nodup_box _ _)
      intro x hx y hy e
      simp only [Function.comp_apply, hd, Prod.mk.injEq, true_and] at e
      exact cellG_inj hC (h.inArray (mem_box.1 hx)) (h.inArray (mem_box.1 hy)) e
    · intro u hu w hw e
      obtain ⟨x, hx, rfl⟩ := List.mem_map.1 hu
      obtain ⟨y, hy, rfl⟩ := List.mem_map.1 hw
      rw [hd] at e
      rw [hs y x (mem_box.1 hy) (mem_box.1 hx) e]
  obtain ⟨r1, r2⟩ := runActs_spec g (hind.perm hp) m
  constructor
  · intro z hz
    have := r1 (F z) (hp.mem_iff.2 (List.mem_map.2 ⟨z, mem_box.2 hz, rfl⟩))
    rw [hd] at this
    exact this
  · intro l hl
    apply r2
    intro u hu
    obtain ⟨x, hx, rfl⟩ := List.mem_map.1 (hp.mem_iff.1 hu)
    rw [hd]
    exact hl x (mem_box.1 hx)

theorem par_exists {n : Nat} {acts : Nat → Option (List LAct)} {P : List (List LAct) → Prop}
    (hl : ∃ l, mapOpt acts (List.range n) = some l ∧ P l) (g : List V → V) (m : Loc → V) :
    ∃ m', Par n acts g m m' := by
  obtain ⟨l, h1, _⟩ := hl
  exact ⟨_, l, _, h1, List.Perm.refl _, rfl⟩

/-- the environments of a copy to an array with layout `C` are legal -/
structure EnvsOK (K : CopyEnv) (C : GArr) : Prop where
  env : ∀ p l, EnvG (K.E p l) C
  cand : ∀ p k, CandG C (K.cand p k)
  cand' : ∀ p k, CandG C (K.cand' p k)

/-- one copy, in terms of memory -/
theorem copy_effect [Inhabited V] {tr : Bool} {a b : Nat} {A B : GArr} {alo ahi blo bhi : List Int}
    (c : CopyCall tr a A alo ahi b B blo bhi) (hn : A.nproc = B.nproc) {K : CopyEnv} (hK : EnvsOK K B)
    (m : Loc → V) :
    ((∀ p l, 0 ≤ (K.E p l).elemsize ∧ (K.E p l).elemsize * numElems alo ahi ≤ (K.E p l).maxInt) →
      ∃ m', copyRun K tr a A alo ahi b B blo bhi m m') ∧
    ∀ m', copyRun K tr a A alo ahi b B blo bhi m m' →
      (∀ x y, InPatch alo ahi x → InPatch blo bhi y → SamePlace tr alo ahi blo bhi x y →
        m' (b, cellG B y) = m (a, cellG A x)) ∧
      ∀ l, (∀ y, InPatch blo bhi y → (b, cellG B y) ≠ l) → m' l = m l := by
  have hr : remoteArr A B = B := by simp [remoteArr, hn]
  obtain ⟨e1, e2⟩ := C53_copy_patch_partial c (Or.inl (le_of_eq hn)) K.E (by rw [hr]; exact hK.env) K.cand K.cand'
    hK.cand hK.cand' m (fun x => m (a, cellG A x)) (fun x => m (b, cellG B x))
    ((holds_iff c.sA).2 fun _ _ => rfl) ((holds_iff c.sB).2 fun _ _ => rfl)
  refine ⟨e1, fun m' hm => ?_⟩
  obtain ⟨⟨fb', h1, h2⟩, h3⟩ := e2 m' hm
  have h1 := (holds_iff c.sB).1 h1
  constructor
  · intro x y hx hy hs
    rw [h1 y (c.inB.inArray hy)]
    exact h2.inside x y hx hy hs
  · intro l hl
    apply h3
    intro hb y hy e
    apply hl y hy
    rw [e, ← hb]

end


/-! ## inner products -/

theorem sum_swap {V α β : Type} [AddCommMonoid V] (l1 : List α) (l2 : List β) (f : α → β → V) :
    (l1.map fun a => (l2.map fun b => f a b).sum).sum = (l2.map fun b => (l1.map fun a => f a b).sum).sum := by
  induction l1 with
  | nil => simp
  | cons a l1 ih => simp only [List.map_cons, List.sum_cons, ih, List.sum_map_add]

theorem patchSum_eq {V : Type} [AddCommMonoid V] (lo hi : List Int) (f : List Int → V) :
    patchSum lo hi f = ((box lo hi).map f).sum := by
  induction lo generalizing hi f with
  | nil => cases hi <;> simp [patchSum, box]
  | cons l lo ih =>
    cases hi with
    | nil => simp [patchSum, box]
    | cons h hi =>
      simp only [patchSum, ih, box]
      rw [sum_swap]
      unfold irange
      rw [show h + 1 - l = h - l + 1 by omega]
      generalize box lo hi = bs
      induction bs with
      | nil => rfl
      | cons r bs ihb =>
        simp only [List.map_cons, List.sum_cons, List.flatMap_cons, List.map_append, List.sum_append, ihb,
          List.map_map]
        rfl

theorem flatten_sum {V α : Type} [AddCommMonoid V] (f : α → V) (l : List (List α)) :
    (l.map fun x => (x.map f).sum).sum = (l.flatten.map f).sum := by
  induction l with
  | nil => rfl
  | cons a l ih => simp only [List.map_cons, List.sum_cons, List.flatten_cons, List.map_append, List.sum_append, ih]

/-- the pair of cells of element `x` -/
def pair2 (a : Nat) (A : GArr) (b : Nat) (B : GArr) (x : List Int) : Loc × Loc := ((a, cellG A x), (b, cellG B x))

theorem dot_value {V : Type} [CommSemiring V] {n a b : Nat} {A B : GArr} {lo hi : List Int}
    {pairs : Nat → Option (List (Loc × Loc))}
    (hl : ∃ l, mapOpt pairs (List.range n) = some l ∧ l.flatten.Perm ((box lo hi).map (pair2 a A b B)))
    (m : Loc → V) :
    (∃ v, dotSum n pairs m v) ∧ ∀ v, dotSum n pairs m v →
      v = patchSum lo hi fun x => m (a, cellG A x) * m (b, cellG B x) := by
  obtain ⟨l, h1, h2⟩ := hl
  refine ⟨⟨_, l, h1, rfl⟩, ?_⟩
  rintro v ⟨l', e1, rfl⟩
  rw [h1, Option.some.injEq] at e1
  subst e1
  rw [patchSum_eq]
  unfold dotPairs
  rw [flatten_sum (fun q : Loc × Loc => m q.1 * m q.2), (h2.map _).sum_eq, List.map_map]
  rfl

theorem dotLocal_pairs {n : Nat} {a b : Nat} {A B : RegArray} (hA : Sound (.reg A n)) (hB : Sound (.reg B n))
    {lo hi : List Int} (pA : PatchOK A.dims lo hi) (pB : PatchOK B.dims lo hi)
    (oB : ∀ p, p < n → owns B p = owns A p) (wB : B.width = A.width) :
    ∃ l, mapOpt (dotLocal a A b B lo hi) (List.range n) = some l ∧
      l.flatten.Perm ((box lo hi).map (pair2 a (.reg A n) b (.reg B n))) := by
  have lB : B.dims.length = A.dims.length := by rw [← hA.1.width, ← hB.1.width, wB]
  have key : ∀ p, p < n → dotLocal a A b B lo hi p =
      some ((match patchIntersect lo hi (owns A p).1 (owns A p).2 with
        | none => []
        | some r => box r.1 r.2).map (pair2 a (.reg A n) b (.reg B n))) := by
    intro p hp
    unfold dotLocal
    cases hpi : patchIntersect lo hi (owns A p).1 (owns A p).2 with
    | none => rfl
    | some r =>
      obtain ⟨los, his⟩ := r
      obtain ⟨k1, k2, k3, k4⟩ := reg_part hA pA hp hpi
      simp only [accessOff_some hB hA pA lB hp (oB p hp) hpi, accessOff_some hA hA pA rfl hp rfl hpi,
        Option.some.injEq]
      rw [patchOffs_eq k1 k2, List.map_map]
      apply List.map_congr_left
      intro x hx
      have hx := mem_box.1 hx
      simp only [Function.comp_apply, pair2, cellG, k4 x hx, cell_same hB pB hp (oB p hp) wB hpi hx]
  obtain ⟨l, hl⟩ := mapOpt_some (f := dotLocal a A b B lo hi) (as := List.range n)
    (fun p hp => ⟨_, key p (List.mem_range.1 hp)⟩)
  refine ⟨l, hl, (flatten_perm _ hl ?_).trans ((reg_cover hA pA).map _)⟩
  intro p hp bs hbs
  rw [key p (List.mem_range.1 hp), Option.some.injEq] at hbs
  rw [← hbs]

theorem dotItems_pairs {a b : Nat} {A : GArr} (hA : Sound A) (pA : PtrOK A) {lo hi : List Int}
    (h : PatchOK A.dims lo hi) :
    ∃ l, mapOpt (dotItems a b A lo hi) (List.range A.nproc) = some l ∧
      l.flatten.Perm ((box lo hi).map (pair2 a A b A)) := by
  refine iter_parts hA pA h (pair2 a A b A) _ ?_ ?_
  · intro p hp it los his off hpi ho h1 h2 h3
    simp only [hpi, ← ho]
    rw [patchOffs_eq h1 h2, List.map_map]
    apply List.map_congr_left
    intro x hx
    simp only [Function.comp_apply, pair2, h3 x (mem_box.1 hx)]
  · intro p it hpi
    simp only [hpi]

/-! ## whole local segments -/

/-- no block is empty: the starts of the blocks increase strictly up to the dimension -/
def DenseMap : (nblock : List Nat) → (dims mapc : List Int) → Prop
  | n :: ns, d :: ds, m => ((m.take n).Pairwise (· < ·) ∧ ∀ s ∈ m.take n, s ≤ d) ∧ DenseMap ns ds (m.drop n)
  | _, _, _ => True

instance decDenseMap : (nblock : List Nat) → (dims mapc : List Int) → Decidable (DenseMap nblock dims mapc)
  | n :: ns, d :: ds, m =>
    have := decDenseMap ns ds (m.drop n)
    inferInstanceAs (Decidable ((((m.take n).Pairwise (· < ·)) ∧ ∀ s ∈ m.take n, s ≤ d) ∧ _))
  | [], _, _ => isTrue trivial
  | _ :: _, [], _ => isTrue trivial

theorem dense_strict {ns : List Nat} {ds m : List Int} (h : MapOK ns ds m) (hd : DenseMap ns ds m) :
    StrictMap ns m := by
  induction ns generalizing ds m with
  | nil => trivial
  | cons n ns ih =>
    match ds, h, hd with
    | d :: ds, h, hd =>
      obtain ⟨⟨h1, h2, h3, h4⟩, h5⟩ := h
      exact ⟨⟨h1, h2, h4.1, hd.1.1⟩, ih h5 hd.2⟩

theorem dense_nonempty {ns : List Nat} {ds m : List Int} (h : MapOK ns ds m) (hd : DenseMap ns ds m) (p : Nat) :
    InPatch (ownsLo ns m p) (ownsHi ns ds m p) (ownsLo ns m p) := by
  induction ns generalizing ds m p with
  | nil =>
    match ds, h with
    | [], _ => trivial
  | cons n ns ih =>
    match ds, h, hd with
    | d :: ds, h, hd =>
      obtain ⟨⟨h1, h2, h3, h4⟩, h5⟩ := h
      obtain ⟨⟨d1, d2⟩, d3⟩ := hd
      refine ⟨⟨le_refl _, ?_⟩, ih h5 d3 _⟩
      have hlt : p % n < n := Nat.mod_lt _ h1
      have hlen : (m.take n).length = n := by simp [h2]
      have e1 : m.getD (p % n) 0 = (m.take n)[p % n]'(by omega) := by
        rw [List.getD_eq_getElem?_getD, List.getElem?_eq_getElem (by omega), List.getElem_take]; rfl
      split
      · rw [e1]; exact d2 _ (List.getElem_mem _)
      · have hlt2 : p % n + 1 < n := by omega
        have e2 : m.getD (p % n + 1) 0 = (m.take n)[p % n + 1]'(by omega) := by
          rw [List.getD_eq_getElem?_getD, List.getElem?_eq_getElem (by omega), List.getElem_take]; rfl
        have := List.pairwise_iff_getElem.1 d1 (p % n) (p % n + 1) (by omega) (by omega) (by omega)
        omega

theorem bufPos_tight {lo hi x : List Int} (h : InPatch lo hi x) (hne : lo ≠ []) :
    bufPos lo (edges lo hi).dropLast x = horner (subL x lo) (edges lo hi) := by
  induction lo generalizing hi x with
  | nil => exact absurd rfl hne
  | cons l lo ih =>
    match hi, x, h with
    | k :: hi, y :: x, h =>
      cases lo with
      | nil => cases hi <;> cases x <;> simp_all [bufPos, edges, horner, subL, InPatch]
      | cons l' lo =>
        match hi, x, h with
        | k' :: hi, y' :: x, h =>
          have := ih (hi := k' :: hi) (x := y' :: x) h.2 (by simp)
          simp only [edges, List.dropLast_cons₂, bufPos, subL, horner] at this ⊢
          rw [this]

theorem box_tight {lo hi : List Int} (h : InPatch lo hi lo) (hne : lo ≠ []) :
    (box lo hi).map (bufPos lo (edges lo hi).dropLast) =
      (List.range (prodI (edges lo hi)).toNat).map fun i : Nat => (i : Int) := by
  have hl := inPatch_lengths h
  have hb : box lo hi = (List.range (prodI (edges lo hi)).toNat).map fun i : Nat => addL lo (odo (edges lo hi) i) := by
    rw [← srcLoop_box h, extents_eq]
    have h0 := srcLoop_odo h (prodI (edges lo hi)).toNat 0
    rw [show ((0 : Nat) : Int) = 0 from rfl, odo_zero, addL_zeros _ _ (edges_len hl.1)] at h0
    rw [h0, ← List.range_eq_range']
  rw [hb, List.map_map]
  apply List.map_congr_left
  intro i hi'
  have hi' := List.mem_range.1 hi'
  have hf := odo_fb (es := edges lo hi) (i : Int) (edgesL_pos h)
  simp only [Function.comp_apply]
  rw [bufPos_tight (fb_inPatch hl.1 hf) hne, subL_addL (by rw [odo_length, edges_len hl.1]),
    horner_odo (edgesL_pos h) (by omega) (by omega)]

theorem width_zero {A : RegArray} (hA : ArrOK A) (hg : hasGhosts A = false) :
    A.width = A.dims.map fun _ => 0 := by
  apply List.ext_getElem
  · simp [hA.width]
  · intro i h1 h2
    unfold hasGhosts at hg
    rw [List.any_eq_false] at hg
    have := hg _ (List.getElem_mem h1)
    simp only [decide_eq_true_eq, Nat.not_lt, Nat.le_zero_eq] at this
    simp [this]

/-- the local segment of an array without ghost cells and empty blocks -/
theorem ownSeg_some {A : RegArray} (hA : ArrOK A) (hg : hasGhosts A = false)
    (hd : DenseMap A.nblock A.dims A.mapc) {p : Nat} (hp : p < gridSize A.nblock) :
    ownSeg A p = some (locOffset A p (owns A p).1, prodI (edges (owns A p).1 (owns A p).2)) ∧
    InPatch (owns A p).1 (owns A p).2 (owns A p).1 ∧ (owns A p).1 ≠ [] ∧
    ∀ x, InPatch (owns A p).1 (owns A p).2 x →
      cell A x = ((p : Int), locOffset A p (owns A p).1 + bufPos (owns A p).1 (edges (owns A p).1 (owns A p).2).dropLast x) := by
  have hin : InPatch (owns A p).1 (owns A p).2 (owns A p).1 := by
    have := dense_nonempty hA.map hd p
    unfold owns
    rw [if_neg (by omega)]
    simpa using this
  have hl := owns_len hA p
  have hlen : (owns A p).2.length = (owns A p).1.length := by omega
  have hw : A.width = (owns A p).1.map fun _ => 0 := by
    rw [width_zero hA hg]
    apply List.ext_getElem
    · simp [hl.1]
    · intros; simp
  have hld : ownLd A p = (edges (owns A p).1 (owns A p).2).dropLast := by
    unfold ownLd
    rw [← extents_eq, extents_dropLast hlen, blkLd_eq, ← hw]
  refine ⟨?_, hin, ?_, ?_⟩
  · unfold ownSeg getElems
    rw [if_pos ((headPos_iff hA p).2 hp), if_neg (by rw [(anyEmpty_false hlen).2 hin]; simp), hld, extents_eq, if_pos rfl]
    rfl
  · intro h
    rw [h] at hl
    exact hA.ne (List.length_eq_zero_iff.1 hl.1.symm)
  · intro x hx
    rw [reg_cell hA hp hx]
    have : ldRem (owns A p).1 (owns A p).2 A.width = (edges (owns A p).1 (owns A p).2).dropLast := hld
    rw [this]

theorem ownSeg_none {A : RegArray} (hA : ArrOK A) {p : Nat} (hp : ¬ p < gridSize A.nblock) :
    ownSeg A p = some (0, 0) := by
  unfold ownSeg
  rw [if_neg fun h => hp ((headPos_iff hA p).1 h)]

theorem dense_cover {A : RegArray} {n : Nat} (hA : Sound (.reg A n)) (hd : DenseMap A.nblock A.dims A.mapc) :
    ((List.range n).flatMap fun p : Nat => if p < gridSize A.nblock then box (owns A p).1 (owns A p).2 else []).Perm
      (box (onesL A.dims) A.dims) := by
  refine (List.Perm.flatMap_left _ ?_).trans (reg_view hA.1 hA.2).cover
  intro p _
  rcases regItems hA.1 p with ⟨e, h⟩ | ⟨h1, h2, e⟩
  · rw [e]
    by_cases hp : p < gridSize A.nblock
    · rw [if_pos hp]
      have hin : InPatch (owns A p).1 (owns A p).2 (owns A p).1 := by
        have := dense_nonempty hA.1.map hd p
        unfold owns
        rw [if_neg (by omega)]
        simpa using this
      exact absurd ⟨hp, hin⟩ (h _)
    · rw [if_neg hp]; exact List.Perm.refl _
  · rw [e, if_pos h1]; simp

/-- same owner blocks and no ghost cells: same cells -/
theorem grid_same {A C : RegArray} (hA : ArrOK A) (hC : ArrOK C) (hdA : DenseMap A.nblock A.dims A.mapc)
    (ho : ∀ p : Nat, owns A p = owns C p) (p : Nat) : p < gridSize A.nblock ↔ p < gridSize C.nblock := by
  rw [← headPos_iff hA, ← headPos_iff hC, ho]

theorem addOwn_acts {n : Nat} {a b c : Nat} {A B C : RegArray} (hA : Sound (.reg A n)) (hB : Sound (.reg B n))
    (hC : Sound (.reg C n)) (gA : hasGhosts A = false) (gB : hasGhosts B = false) (gC : hasGhosts C = false)
    (dA : DenseMap A.nblock A.dims A.mapc) (dB : DenseMap B.nblock B.dims B.mapc)
    (dC : DenseMap C.nblock C.dims C.mapc) (oA : ∀ p : Nat, owns A p = owns C p)
    (oB : ∀ p : Nat, owns B p = owns C p) (hne : ¬ (a = c ∧ b = c)) :
    ∃ l, mapOpt (addOwn a A b B c C) (List.range n) = some l ∧
      l.flatten.Perm ((box (onesL C.dims) C.dims).map (comb2 a (.reg A n) b (.reg B n) c (.reg C n))) := by
  have key : ∀ p, p < n → addOwn a A b B c C p =
      some ((if p < gridSize C.nblock then box (owns C p).1 (owns C p).2 else []).map
        (comb2 a (.reg A n) b (.reg B n) c (.reg C n))) := by
    intro p hp
    unfold addOwn
    rw [if_neg hne]
    by_cases hq : p < gridSize C.nblock
    · obtain ⟨a1, _, _, a4⟩ := ownSeg_some hA.1 gA dA ((grid_same hA.1 hC.1 dA oA p).2 hq)
      obtain ⟨b1, _, _, b4⟩ := ownSeg_some hB.1 gB dB ((grid_same hB.1 hC.1 dB oB p).2 hq)
      obtain ⟨c1, c2, c3, c4⟩ := ownSeg_some hC.1 gC dC hq
      rw [oA p] at a1 a4
      rw [oB p] at b1 b4
      simp only [a1, b1, c1, if_pos hq, and_self, if_true, Option.some.injEq]
      unfold combActs
      rw [← box_tight c2 c3, List.map_map]
      apply List.map_congr_left
      intro x hx
      have hx := mem_box.1 hx
      simp only [Function.comp_apply, comb2, cellG, a4 x hx, b4 x hx, c4 x hx, List.map_cons, List.map_nil]
    · rw [ownSeg_none hC.1 hq, ownSeg_none hA.1 fun h => hq ((grid_same hA.1 hC.1 dA oA p).1 h),
        ownSeg_none hB.1 fun h => hq ((grid_same hB.1 hC.1 dB oB p).1 h), if_neg hq]
      rfl
  obtain ⟨l, hl⟩ := mapOpt_some (f := addOwn a A b B c C) (as := List.range n)
    (fun p hp => ⟨_, key p (List.mem_range.1 hp)⟩)
  refine ⟨l, hl, (flatten_perm _ hl ?_).trans ((dense_cover hC dC).map _)⟩
  intro p hp bs hbs
  rw [key p (List.mem_range.1 hp), Option.some.injEq] at hbs
  rw [← hbs]

theorem dotOwn_pairs {n : Nat} {a b : Nat} {A B : RegArray} (hA : Sound (.reg A n)) (hB : Sound (.reg B n))
    (gA : hasGhosts A = false) (gB : hasGhosts B = false)
    (dA : DenseMap A.nblock A.dims A.mapc) (dB : DenseMap B.nblock B.dims B.mapc)
    (oB : ∀ p : Nat, owns B p = owns A p) :
    ∃ l, mapOpt (dotOwn a A b B) (List.range n) = some l ∧
      l.flatten.Perm ((box (onesL A.dims) A.dims).map (pair2 a (.reg A n) b (.reg B n))) := by
  have key : ∀ p, p < n → dotOwn a A b B p =
      some ((if p < gridSize A.nblock then box (owns A p).1 (owns A p).2 else []).map
        (pair2 a (.reg A n) b (.reg B n))) := by
    intro p hp
    unfold dotOwn
    by_cases hq : p < gridSize A.nblock
    · obtain ⟨b1, _, _, b4⟩ := ownSeg_some hB.1 gB dB ((grid_same hB.1 hA.1 dB oB p).2 hq)
      obtain ⟨c1, c2, c3, c4⟩ := ownSeg_some hA.1 gA dA hq
      rw [oB p] at b1 b4
      simp only [b1, c1, if_pos hq, if_true, Option.some.injEq]
      have := congrArg (List.map fun i : Int => ((a, ((p : Int), locOffset A p (owns A p).1 + i)),
        (b, ((p : Int), locOffset B p (owns A p).1 + i)))) (box_tight c2 c3)
      rw [List.map_map, List.map_map] at this
      refine Eq.trans this.symm ?_
      apply List.map_congr_left
      intro x hx
      have hx := mem_box.1 hx
      simp only [Function.comp_apply, pair2, cellG, b4 x hx, c4 x hx]
    · rw [ownSeg_none hA.1 hq, ownSeg_none hB.1 fun h => hq ((grid_same hB.1 hA.1 dB oB p).1 h), if_neg hq]
      rfl
  obtain ⟨l, hl⟩ := mapOpt_some (f := dotOwn a A b B) (as := List.range n)
    (fun p hp => ⟨_, key p (List.mem_range.1 hp)⟩)
  refine ⟨l, hl, (flatten_perm _ hl ?_).trans ((dense_cover hA dA).map _)⟩
  intro p hp bs hbs
  rw [key p (List.mem_range.1 hp), Option.some.injEq] at hbs
  rw [← hbs]

end GA
