import Verif.Lemmas.Select
import Verif.Props.C35

/-!
# C39: `NGA_Select_elem`

`selectElem op key G junk m` is the result of the collective call: `v` the number compared, `subscr`
the subscript, `extra` the element returned for complex types. `junk p` is the content of an
uninitialised variable of process `p`.
-/

namespace GA
open Spec Model

section
variable {K V : Type} [LinearOrder K]

/-- every process owns an element of the array -/
def AllOwn (G : GArr) : Prop := ∀ p : Nat, p < G.nproc → ∃ x, InArray G.dims x ∧ (cellG G x).1 = (p : Int)

/-- no process has more than two blocks -/
def AtMostTwo (G : GArr) : Prop := ∀ p items, p < G.nproc → G.localIter p = some items → items.length ≤ 2

private theorem items_full {G : GArr} (hG : Sound G) (hp : PtrOK G) (hf : FullBlocks G) :
    ∃ items, View G items (cellG G) ∧ ∀ p, p < G.nproc → ∀ it ∈ items p, InPatch it.lo it.hi it.lo := by
  cases G with
  | reg A n =>
    refine ⟨_, reg_view hG.1 hG.2, ?_⟩
    intro p _ it hit
    rcases regItems hG.1 p with ⟨h, _⟩ | ⟨h1, h2, h3⟩
    · rw [h] at hit; simp at hit
    · rw [h3] at hit
      simp only [List.mem_singleton] at hit
      subst hit
      exact h2
  | blk A =>
    refine ⟨_, blk_view hG.1.ok hG.2 hp, ?_⟩
    intro p hpp it hit
    obtain ⟨k, hk', rfl⟩ := List.mem_map.1 hit
    obtain ⟨v1, v2, v3⟩ := vis_ok hG.1.ok hpp (List.mem_range.1 hk')
    obtain ⟨off, ld, e, h2, h3⟩ := itemC_spec hG.1.ok hp v1 v2
    simp only [e]
    exact cLo_full hG.1.ok hf v1

private theorem dims_ne {G : GArr} (hG : Sound G) : G.dims ≠ [] := by
  cases G with
  | reg A n => exact hG.1.ne
  | blk A => exact hG.1.ok.ne

/-- what every process computes before the global reduction -/
private theorem local_spec {op : SelOp} {key : V → K} {G : GArr} (hG : Sound G) (hp : PtrOK G) (hf : FullBlocks G)
    {junk : Nat → SelInfo K V} {m : Addr → V} {r : SelInfo K V} (hr : selectElem op key G junk m = some r) :
    ∃ items infos, View G items (cellG G) ∧
      mapOpt (selLocal op key G junk m) (List.range G.nproc) = some infos ∧ selGlobal op infos = some r ∧
      ∀ p, p < G.nproc → ∀ info, selLocal op key G junk m p = some info →
        (items p ≠ [] → BlkExtreme op key m (cellG G) (items p) info.v) ∧
        (items p ≠ [] → (items p).length ≤ 2 → BlkNames key m (cellG G) (items p) info) := by
  obtain ⟨items, hv, hfull⟩ := items_full hG hp hf
  unfold selectElem at hr
  obtain ⟨infos, h1, h2⟩ := Option.bind_eq_some_iff.1 hr
  refine ⟨items, infos, hv, h1, h2, ?_⟩
  intro p hpp info hi
  unfold selLocal at hi
  obtain ⟨st', h3, h4⟩ := Option.map_eq_some_iff.1 hi
  rw [hv.iter p hpp, Option.bind_some] at h3
  have hld := selBlocks_ld h3
  have hok : ∀ it ∈ items p, SelBlockOK (cellG G) it := by
    intro it hit
    obtain ⟨s1, s2, s3, s4⟩ := hv.shape p hpp it hit
    refine ⟨hfull p hpp it hit, ?_, hld it hit, ?_⟩
    · intro h0
      rw [h0] at s2
      exact dims_ne hG (List.length_eq_zero_iff.1 (by simpa using s2.symm))
    · intro x hx
      rw [hv.cell p hpp it hit x hx, s1]
  obtain ⟨g1, g2⟩ := selBlocks_spec (done := []) hok (by simp) (by simp) h3
  constructor
  · intro hne
    cases hs : st'.1 with
    | none => exact absurd (g2 hs) hne
    | some i =>
      rw [hs] at h4
      simp only [Option.getD_some] at h4
      subst h4
      simpa using g1 i hs
  · intro hne hle
    cases hs : st'.1 with
    | none => exact absurd (g2 hs) hne
    | some i =>
      rw [hs] at h4
      simp only [Option.getD_some] at h4
      subst h4
      exact selBlocks_names hok hle h3 i hs

private theorem cover_mem {G : GArr} {items : Nat → List LItem} (hv : View G items (cellG G)) {x : List Int} :
    InArray G.dims x ↔ ∃ p, p < G.nproc ∧ ∃ it ∈ items p, InPatch it.lo it.hi x := by
  rw [← mem_ones_box, ← hv.cover.mem_iff]
  simp only [List.mem_flatMap, List.mem_range, mem_box]

private theorem own_items {G : GArr} {items : Nat → List LItem} (hv : View G items (cellG G)) (ho : AllOwn G)
    {p : Nat} (hp : p < G.nproc) : items p ≠ [] := by
  obtain ⟨x, hx, hc⟩ := ho p hp
  obtain ⟨q, hq, it, hit, hx'⟩ := (cover_mem hv).1 hx
  rw [hv.cell q hq it hit x hx'] at hc
  have : q = p := by simpa using hc
  subst this
  intro h0
  rw [h0] at hit; simp at hit

private theorem mapOpt_mem {α β} {f : α → Option β} {as : List α} {bs : List β} (h : mapOpt f as = some bs) :
    (∀ a ∈ as, ∃ b ∈ bs, f a = some b) ∧ ∀ b ∈ bs, ∃ a ∈ as, f a = some b := by
  have := mapOpt_forall₂ h
  clear h
  induction this with
  | nil => simp
  | @cons a b as bs h1 _ ih =>
    constructor
    · intro a' ha'
      rcases List.mem_cons.1 ha' with rfl | ha'
      · exact ⟨b, by simp, h1⟩
      · obtain ⟨b', h2, h3⟩ := ih.1 a' ha'
        exact ⟨b', by simp [h2], h3⟩
    · intro b' hb'
      rcases List.mem_cons.1 hb' with rfl | hb'
      · exact ⟨a, by simp, h1⟩
      · obtain ⟨a', h2, h3⟩ := ih.2 b' hb'
        exact ⟨a', by simp [h2], h3⟩

/-- **C39, value.** On an array with content `f` of which every process owns a part, a call that
does not stop with an error returns the minimum (maximum) of all elements, whatever the number of
blocks per process. -/
theorem C39_value_partial (op : SelOp) (key : V → K) (G : GArr) (hG : Sound G) (hp : PtrOK G) (hf : FullBlocks G)
    (ho : AllOwn G) (junk : Nat → SelInfo K V) (m : Addr → V) (f : List Int → V) (hm : Holds G m f)
    (r : SelInfo K V) (hr : selectElem op key G junk m = some r) : Extreme op key G.dims f r.v := by
  obtain ⟨items, infos, hv, h1, h2, h3⟩ := local_spec hG hp hf hr
  obtain ⟨m1, m2⟩ := mapOpt_mem h1
  obtain ⟨g1, g2⟩ := selGlobal_spec h2
  rw [holds_iff hG] at hm
  constructor
  · obtain ⟨p, hpp, e⟩ := m2 r g1
    have hpp := List.mem_range.1 hpp
    obtain ⟨⟨it, hit, x, hx, hk⟩, _⟩ := (h3 p hpp r e).1 (own_items hv ho hpp)
    have hxa := (cover_mem hv).2 ⟨p, hpp, it, hit, hx⟩
    exact ⟨x, hxa, by rw [← hm x hxa]; exact hk⟩
  · intro x hx
    obtain ⟨p, hpp, it, hit, hx'⟩ := (cover_mem hv).1 hx
    obtain ⟨b, hb, e⟩ := m1 p (List.mem_range.2 hpp)
    have := ((h3 p hpp b e).1 (own_items hv ho hpp)).2 it hit x hx'
    rw [hm x hx] at this
    exact atLeast_trans (g2 b hb) this

/-- **C39, subscript.** If moreover no process has more than two blocks (always so for REGULAR
arrays) the subscript returned is that of an element with this value, and for complex types the
element returned is this element. Missing: processes with three or more blocks, see
`C39_stale_index`. -/
theorem C39_subscript_partial (op : SelOp) (key : V → K) (G : GArr) (hG : Sound G) (hp : PtrOK G) (hf : FullBlocks G)
    (ho : AllOwn G) (h2 : AtMostTwo G) (junk : Nat → SelInfo K V) (m : Addr → V) (f : List Int → V)
    (hm : Holds G m f) (r : SelInfo K V) (hr : selectElem op key G junk m = some r) :
    Extreme op key G.dims f r.v ∧ InArray G.dims r.subscr ∧ key (f r.subscr) = r.v ∧ r.extra = f r.subscr := by
  refine ⟨C39_value_partial op key G hG hp hf ho junk m f hm r hr, ?_⟩
  obtain ⟨items, infos, hv, h1, h2', h3⟩ := local_spec hG hp hf hr
  obtain ⟨m1, m2⟩ := mapOpt_mem h1
  obtain ⟨g1, g2⟩ := selGlobal_spec h2'
  rw [holds_iff hG] at hm
  obtain ⟨p, hpp, e⟩ := m2 r g1
  have hpp := List.mem_range.1 hpp
  obtain ⟨it, hit, hx, hk, he⟩ := (h3 p hpp r e).2 (own_items hv ho hpp) (h2 p _ hpp (hv.iter p hpp))
  have hxa := (cover_mem hv).2 ⟨p, hpp, it, hit, hx⟩
  rw [hm _ hxa] at hk he
  exact ⟨hxa, hk, he⟩

/-- the layouts `NGA_Select_elem` accepts: no ghost cells, not ScaLAPACK -/
def Packed : GArr → Prop
  | .reg A _ => hasGhosts A = false
  | .blk A => A.kind ≠ .scalapack

private theorem ldRem_noghosts {w : List Nat} (hg : w.any (fun w => decide (0 < w)) = false) {l h : List Int}
    (h1 : h.length = l.length) (h2 : w.length = l.length) : ldRem l h w = (edges l h).dropLast := by
  induction l generalizing h w with
  | nil =>
    match h, w, h1, h2 with
    | [], [], _, _ => rfl
  | cons a l ih =>
    match h, w, h1, h2 with
    | b :: h, u :: w, h1, h2 =>
      simp only [List.any_cons, Bool.or_eq_false_iff, decide_eq_false_iff_not] at hg
      have hu : u = 0 := by omega
      subst hu
      have := ih hg.2 (by simpa using h1) (by simpa using h2)
      match l, h, w, h1, h2 with
      | [], [], [], _, _ => simp [ldRem, edges]
      | a' :: l, b' :: h, u' :: w, h1, h2 =>
        simp only [ldRem, edges, List.dropLast_cons₂] at this ⊢
        rw [this]
        simp

private theorem blk_ld {A : BArray} (h : BOK A) (hk : A.kind ≠ .scalapack) {idx : List Nat} (hi : CoordOK A.nblocks idx)
    {q : Nat} {off : Int} {ld : List Int} (ha : itemC A idx = ⟨cLo A idx, cHi A idx, q, off, ld⟩)
    (hne : (itemC A idx).ld = ld) : ld = (edges (cLo A idx) (cHi A idx)).dropLast := by
  have hlt : undigits A.nblocks idx < bTotal A := undigits_lt hi
  obtain ⟨b1, b2⟩ := itBounds_eq h hi
  unfold itemC at ha
  rw [← extents_eq]
  by_cases hc : A.kind = .cyclic
  · rw [if_pos hc] at ha
    have hb : bOwns A (undigits A.nblocks idx) = (cLo A idx, cHi A idx) := by
      rw [bOwns_eq h hlt, digits_undigits hi]; rfl
    unfold accessBlock at ha
    rw [if_neg (by omega)] at ha
    simp only [Int.toNat_natCast, hc, if_true, hb] at ha
    injection ha with _ _ _ _ h5
    exact h5.symm
  · rw [if_neg hc] at ha
    unfold accessGrid at ha
    rw [if_neg hc, idxOK_of hi] at ha
    simp only [Bool.not_true, Bool.false_eq_true, if_false] at ha
    cases hk' : A.kind with
    | cyclic => exact absurd hk' hc
    | scalapack => exact absurd hk' hk
    | tiled =>
      have b1' : unifLo A.bdims idx = cLo A idx := by
        have : itLo A idx = cLo A idx := b1
        rw [← this]; simp [itLo, hk']
      have b2' : unifHi A.dims A.bdims idx = cHi A idx := by
        have : itHi A idx = cHi A idx := b2
        rw [← this]; simp [itHi, hk']
      simp only [hk', b1', b2'] at ha
      injection ha with _ _ _ _ h5
      exact h5.symm
    | tiledIrreg =>
      have hs : starts A = A.mapc := by simp [starts, hk']
      have b1' : irrLo A.nblocks A.mapc idx = cLo A idx := by rw [irrLo_eq, cLo, hs]
      have b2' : irrHi A.nblocks A.dims A.mapc idx = cHi A idx := by rw [irrHi_eq hi, cHi, hs]
      simp only [hk', b1', b2'] at ha
      injection ha with _ _ _ _ h5
      exact h5.symm

/-- **C39, served.** The call returns on every array without ghost cells and without ScaLAPACK
layout. -/
theorem C39_served (op : SelOp) (key : V → K) (G : GArr) (hG : Sound G) (hp : PtrOK G) (hf : FullBlocks G)
    (hn : 0 < G.nproc) (hk : Packed G) (junk : Nat → SelInfo K V) (m : Addr → V) :
    ∃ r, selectElem op key G junk m = some r := by
  have hkey : ∀ p, p < G.nproc → ∃ its, G.localIter p = some its ∧ ∀ it ∈ its, SelBlockOK (cellG G) it := by
    intro p hpp
    obtain ⟨items, hv, hfull⟩ := items_full hG hp hf
    refine ⟨_, hv.iter p hpp, ?_⟩
    intro it hit
    obtain ⟨s1, s2, s3, s4⟩ := hv.shape p hpp it hit
    refine ⟨hfull p hpp it hit, ?_, ?_, ?_⟩
    · intro h0
      rw [h0] at s2
      exact dims_ne hG (List.length_eq_zero_iff.1 (by simpa using s2.symm))
    · have hi := hv.iter p hpp
      cases G with
      | reg A n =>
        simp only [GArr.localIter, Option.some.injEq] at hi
        rw [← hi] at hit
        rcases regItems hG.1 p with ⟨h, _⟩ | ⟨h1, h2, h3⟩
        · rw [h] at hit; simp at hit
        · rw [h3] at hit
          simp only [List.mem_singleton] at hit
          subst hit
          simp only [GArr.dims] at s2 s3 ⊢
          exact ldRem_noghosts hk (by omega) (by rw [hG.1.width]; omega)
      | blk A =>
        have hi' : localIter A p = some (items p) := hi
        rw [localIter_eq hG.1.ok hG.2.2 hpp, Option.some.injEq] at hi'
        rw [← hi'] at hit
        obtain ⟨k, hk', rfl⟩ := List.mem_map.1 hit
        obtain ⟨v1, v2, v3⟩ := vis_ok hG.1.ok hpp (List.mem_range.1 hk')
        obtain ⟨off, ld, e, h2, h3⟩ := itemC_spec hG.1.ok hp v1 v2
        have := blk_ld hG.1.ok hk v1 e (by rw [e])
        rw [e]
        exact this
    · intro x hx
      rw [hv.cell p hpp it hit x hx, s1]
  obtain ⟨infos, h1⟩ := mapOpt_some (f := selLocal op key G junk m) (as := List.range G.nproc) (by
    intro p hpp
    obtain ⟨its, e1, e2⟩ := hkey p (List.mem_range.1 hpp)
    obtain ⟨st', e3⟩ := selBlocks_some (op := op) (key := key) (m := m) e2 (none, 0)
    exact ⟨_, by unfold selLocal; rw [e1, Option.bind_some, e3]; rfl⟩)
  unfold selectElem
  rw [h1, Option.bind_some]
  cases infos with
  | nil =>
    have := (mapOpt_forall₂ h1).length_eq
    rw [List.length_range] at this
    simp only [List.length_nil] at this
    omega
  | cons i is => exact ⟨_, rfl⟩

end

/-! ## Where the code departs from the claim -/

/-- one dimension, blocks of two elements on one process -/
def exThree : BArray := ⟨.cyclic, [6], [2], [3], [], [], 1⟩
theorem exThree_created : Created exThree := .cyclic 1 [6] [2] exThree (by decide) (by decide) rfl (by decide)

/-- **C39 fails.** `ind` keeps its value from one block to the next: with content 1 5 5 3 0 9 the
call for "min" returns the value 0, which is element 5, with subscript 6. -/
theorem C39_stale_index : ∃ (G : GArr) (m : Addr → Int) (f : List Int → Int), Sound G ∧ PtrOK G ∧ FullBlocks G ∧
    AllOwn G ∧ Holds G m f ∧ (∀ junk, selectElem SelOp.min (fun v : Int => v) G junk m = some ⟨0, [6], 9⟩) ∧
    f [6] = 9 ∧ f [5] = 0 := by
  refine ⟨.blk exThree, fun a => [1, 5, 5, 3, 0, 9].getD a.2.toNat 0,
    fun x => [1, 5, 5, 3, 0, 9].getD ((x.getD 0 0) - 1).toNat 0, ?_⟩
  have hs : Sound (.blk exThree) := ⟨exThree_created, by decide⟩
  refine ⟨hs, ?_, ?_, ?_, ?_, ?_, rfl, rfl⟩
  · exact fun h => by simp [exThree] at h
  · exact fun h => by simp [exThree] at h
  · intro p hp
    have : p = 0 := by simp only [GArr.nproc, exThree] at hp; omega
    subst this
    exact ⟨[1], by decide, by decide⟩
  · rw [holds_iff hs]
    intro x hx
    match x, hx with
    | [x], hx =>
      have h1 : 1 ≤ x ∧ x ≤ 6 := hx.1
      obtain ⟨h1, h2⟩ := h1
      have : x = 1 ∨ x = 2 ∨ x = 3 ∨ x = 4 ∨ x = 5 ∨ x = 6 := by omega
      rcases this with rfl | rfl | rfl | rfl | rfl | rfl <;> decide +kernel
  · intro junk
    rfl

/-- **C39 fails.** A process that owns no element contributes the content of an uninitialised
variable: a minimum that is not an element of the array. -/
theorem C39_idle_process : ∃ (A : RegArray) (junk : Nat → SelInfo Int Int), ArrOK A ∧ gridSize A.nblock ≤ 3 ∧
    selectElem SelOp.min (fun v : Int => v) (.reg A 3) junk (fun _ => 1) = some ⟨-5, [0], 0⟩ :=
  ⟨⟨[4], [2], [1, 3], [0]⟩, fun _ => ⟨-5, [0], 0⟩, ⟨by decide, by decide, by decide⟩, by decide, by decide +kernel⟩

/-- **C39 fails.** An array with ghost cells or with ScaLAPACK layout is not served. -/
theorem C39_layouts : ∀ (op : SelOp) (junk : Nat → SelInfo Int Int) (m : Addr → Int),
    selectElem op (fun v : Int => v) (.reg exG 6) junk m = none ∧
    selectElem op (fun v : Int => v) (.blk exScl) junk m = none := by
  intro op junk m
  constructor <;> rfl

/-- **C39 fails.** An empty tile ends in a division by zero. -/
theorem C39_empty_tile : ∀ (op : SelOp) (junk : Nat → SelInfo Int Int),
    selectElem op (fun v : Int => v) (.blk exIrr) junk (fun _ => 0) = none := by
  intro op junk
  cases op <;> rfl

/-! ## The hypotheses can be met -/

/-- two dimensions on a 2x2 grid without ghost cells -/
def exFlat : RegArray := ⟨[5, 4], [2, 2], [1, 3, 1, 2], [0, 0]⟩
theorem exFlat_ok : ArrOK exFlat := ⟨by decide, by decide, by decide⟩

example : Sound (.reg exFlat 4) ∧ AllOwn (.reg exFlat 4) ∧ AtMostTwo (.reg exFlat 4) ∧ Packed (.reg exFlat 4) := by
  refine ⟨⟨exFlat_ok, by decide⟩, ?_, ?_, by rfl⟩
  · intro p hp
    have : p = 0 ∨ p = 1 ∨ p = 2 ∨ p = 3 := by simp only [GArr.nproc] at hp; omega
    rcases this with rfl | rfl | rfl | rfl
    · exact ⟨[1, 1], by decide, by decide⟩
    · exact ⟨[3, 1], by decide, by decide⟩
    · exact ⟨[1, 2], by decide, by decide⟩
    · exact ⟨[5, 4], by decide, by decide⟩
  · intro p items _ h
    simp only [GArr.localIter, Option.some.injEq] at h
    subst h
    unfold regLocalIter
    simp only
    split <;> simp

example : selectElem SelOp.max (fun v : Int => v * v) (.reg exFlat 4) (fun _ => ⟨0, [], 0⟩)
    (fun a => 3 * a.1 - 2 * a.2) = some ⟨81, [3, 2], 9⟩ := by decide +kernel

example : Packed (.blk exCyc) ∧ FullBlocks (.blk exCyc) ∧ PtrOK (.blk exCyc) := by
  refine ⟨by simp [Packed, exCyc], fun h => by simp [exCyc] at h, fun h => by simp [exCyc] at h⟩

end GA
