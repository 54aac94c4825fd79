import Verif.Lemmas.RegIter
import Verif.Props.C01

/-! # The pieces of a put/get/acc on a REGULAR array implement the patch -/

namespace GA
open Spec Model

/-- Assumptions about the environment of a one-sided call: the floating point guesses stay inside
the block range (as the C code requires), element size and message limit are not negative. -/
structure EnvOK (E : Env) (A : RegArray) : Prop where
  candT : CandOK A.nblock E.candT
  candB : CandOK A.nblock E.candB
  es : 0 ≤ E.elemsize
  mx : 0 ≤ E.maxInt

/-- A well-formed array: at least one dimension, a correct distribution map, one ghost width per
dimension. -/
structure ArrOK (A : RegArray) : Prop where
  ne : A.dims ≠ []
  map : MapOK A.nblock A.dims A.mapc
  width : A.width.length = A.dims.length

/-- process coordinates of the owner of `x` -/
def ownerC (A : RegArray) (x : List Int) : List Nat :=
  findblocks A.nblock A.mapc (A.nblock.map fun _ => 0) x

/-- the machine address of element `x` -/
def cell (A : RegArray) (x : List Int) : Addr :=
  ((undigits A.nblock (ownerC A x) : Nat), locOffset A (undigits A.nblock (ownerC A x) : Nat) x)

theorem candOK_zero (ns : List Nat) : CandOK ns (ns.map fun _ => 0) := by
  induction ns with
  | nil => simp [CandOK]
  | cons n ns ih => exact ⟨Nat.zero_le _, ih⟩

theorem ownerC_ok {A : RegArray} (hm : MapOK A.nblock A.dims A.mapc) {x : List Int}
    (hx : InArray A.dims x) : CoordOK A.nblock (ownerC A x) ∧
      InPatch (coordLo A.nblock A.mapc (ownerC A x)) (coordHi A.nblock A.dims A.mapc (ownerC A x)) x :=
  findblocks_ok hm (candOK_zero _) hx

theorem owns_length {A : RegArray} (hA : ArrOK A) {c : List Nat} (hc : CoordOK A.nblock c) :
    (coordLo A.nblock A.mapc c).length = A.dims.length ∧
    (coordHi A.nblock A.dims A.mapc c).length = A.dims.length := by
  have hm := hA.map
  clear hA
  generalize A.nblock = ns at *
  generalize A.dims = ds at *
  generalize A.mapc = m at *
  induction ns generalizing ds m c with
  | nil => cases ds <;> cases c <;> simp_all [MapOK, CoordOK, coordLo, coordHi]
  | cons n ns ih =>
    cases ds with
    | nil => simp [MapOK] at hm
    | cons d ds =>
      cases c with
      | nil => simp [CoordOK] at hc
      | cons c cs =>
        obtain ⟨h1, h2⟩ := ih hc.2 ds (m.drop n) hm.2
        simp [coordLo, coordHi, h1, h2]

/-- `cell` agrees with the owner's address computation for any owner -/
theorem cell_of_coord {A : RegArray} (hA : ArrOK A) {c : List Nat} (hc : CoordOK A.nblock c)
    {x : List Int}
    (hx : InPatch (coordLo A.nblock A.mapc c) (coordHi A.nblock A.dims A.mapc c) x) :
    cell A x = (((undigits A.nblock c : Nat) : Int), locOffset A (undigits A.nblock c : Nat) x) := by
  have hin := coord_inArray hA.map hc hx
  obtain ⟨h1, h2⟩ := ownerC_ok hA.map hin
  have := coord_unique hA.map h1 hc h2 hx
  unfold cell
  rw [this]

theorem locOffset_coord {A : RegArray} {c : List Nat} (hc : CoordOK A.nblock c) (x : List Int) :
    locOffset A (undigits A.nblock c : Nat) x =
      locLoop x (coordLo A.nblock A.mapc c) (coordHi A.nblock A.dims A.mapc c) A.width 0 1 := by
  unfold locOffset
  rw [owns_of_coord hc]

/-- Different elements live at different machine addresses. -/
theorem cell_inj {A : RegArray} (hA : ArrOK A) {x y : List Int} (hx : InArray A.dims x)
    (hy : InArray A.dims y) (h : cell A x = cell A y) : x = y := by
  obtain ⟨a1, a2⟩ := ownerC_ok hA.map hx
  obtain ⟨b1, b2⟩ := ownerC_ok hA.map hy
  unfold cell at h
  rw [Prod.mk.injEq] at h
  have hc : ownerC A x = ownerC A y := by
    have h1 : undigits A.nblock (ownerC A x) = undigits A.nblock (ownerC A y) := by
      have := h.1; omega
    rw [← digits_undigits a1, ← digits_undigits b1, h1]
  rw [hc] at h a2
  have h2 := h.2
  rw [locOffset_coord b1, locOffset_coord b1, locLoop_eq, locLoop_eq] at h2
  have hl := owns_length hA b1
  have hw : A.width.length = (coordLo A.nblock A.mapc (ownerC A y)).length := by
    rw [hl.1, hA.width]
  have := fb_inj (loc_fb a2 hw) (loc_fb b2 hw) (by omega)
  exact locZ_inj a2.length.1 b2.length.1 hw this

theorem checkSubscript_of_inPatch {s l h : List Int} (hs : InPatch l h s) :
    checkSubscript s l h = true := by
  induction l generalizing s h with
  | nil => cases h <;> cases s <;> simp_all [checkSubscript, InPatch]
  | cons a l ih =>
    match h, s, hs with
    | b :: h, x :: s, hs =>
      simp only [InPatch] at hs
      simp only [checkSubscript, ih hs.2, Bool.and_true, decide_eq_true_eq]
      omega
    | [], _, hs => simp [InPatch] at hs
    | _ :: _, [], hs => simp [InPatch] at hs

/-- what `locatePiece` yields for a piece inside a block -/
theorem locatePiece_ok {A : RegArray} {c : List Nat} (hc : CoordOK A.nblock c) {p : Piece}
    (hp : p.proc = (undigits A.nblock c : Nat))
    (hin : InPatch (coordLo A.nblock A.mapc c) (coordHi A.nblock A.dims A.mapc c) p.plo) :
    locatePiece A p = some ⟨p.proc, p.plo, p.phi, locOffset A p.proc p.plo,
      ldRem (coordLo A.nblock A.mapc c) (coordHi A.nblock A.dims A.mapc c) A.width⟩ := by
  unfold locatePiece
  rw [hp, owns_of_coord hc]
  simp only [checkSubscript_of_inPatch hin, if_true]

theorem mapOpt_forall₂ {α β} {f : α → Option β} {as : List α} {bs : List β}
    (h : mapOpt f as = some bs) : List.Forall₂ (fun a b => f a = some b) as bs := by
  induction as generalizing bs with
  | nil => simp only [mapOpt, Option.some.injEq] at h; subst h; exact .nil
  | cons a as ih =>
    simp only [mapOpt] at h
    split at h
    · rename_i b bs' h1 h2
      rw [← Option.some.inj h]
      exact .cons h1 (ih h2)
    · simp at h

theorem mapOpt_some {α β} {f : α → Option β} {as : List α} (h : ∀ a ∈ as, ∃ b, f a = some b) :
    ∃ bs, mapOpt f as = some bs := by
  induction as with
  | nil => exact ⟨[], rfl⟩
  | cons a as ih =>
    obtain ⟨b, hb⟩ := h a (by simp)
    obtain ⟨bs, hbs⟩ := ih fun a' h' => h a' (by simp [h'])
    exact ⟨b :: bs, by simp [mapOpt, hb, hbs]⟩

/-- pieces of `locateRegion`, seen through the visiting order -/
theorem visit_spec {A : RegArray} {E : Env} (hA : ArrOK A) (hE : EnvOK E A) {lo hi : List Int}
    {ps : List Piece} (h : locateRegion A E.candT E.candB lo hi = some ps) :
    let v := visit ps (permuteProcList E.rand ps.length) 0
    PatchOK A.dims lo hi ∧ (cover v).Perm (box lo hi) ∧ v.Perm ps ∧
    ∀ p ∈ v, (p.phi.length = p.plo.length ∧ p.plo ≠ [] ∧ p.plo.length = lo.length) ∧
      ∃ c, CoordOK A.nblock c ∧ p.proc = (undigits A.nblock c : Nat) ∧
        ∀ x, InPatch p.plo p.phi x ↔ InPatch lo hi x ∧
          InPatch (coordLo A.nblock A.mapc c) (coordHi A.nblock A.dims A.mapc c) x := by
  intro v
  have hperm : v.Perm ps := visit_perm (permuteProcList_perm E.rand ps.length)
  obtain ⟨h1, h2⟩ := locateRegion_spec hA.map hE.candT hE.candB h
  have hok : PatchOK A.dims lo hi := by
    unfold locateRegion at h
    by_cases hr : regionOK A.dims lo hi = true
    · exact regionOK_iff.1 hr
    · rw [if_neg hr] at h; simp at h
  refine ⟨hok, ?_, hperm, ?_⟩
  · exact (hperm.flatMap_right _).trans h1
  · intro p hp
    obtain ⟨c, hc, e1, e2, e3⟩ := h2 p (hperm.mem_iff.1 hp)
    have hl := owns_length hA hc
    have l1 := hok.1.length
    have l2 := hok.2.1.length
    have hlo : (clipLo lo (coordLo A.nblock A.mapc c)).length = lo.length := by
      have : (coordLo A.nblock A.mapc c).length = lo.length := by omega
      clear * - this
      generalize coordLo A.nblock A.mapc c = b at *
      induction lo generalizing b with
      | nil => cases b <;> simp_all [clipLo]
      | cons l lo ih => cases b with
        | nil => simp at this
        | cons b bs => simp [clipLo, ih bs (by simpa using this)]
    have hhi : (clipHi hi (coordHi A.nblock A.dims A.mapc c)).length = hi.length := by
      have : (coordHi A.nblock A.dims A.mapc c).length = hi.length := by omega
      clear * - this
      generalize coordHi A.nblock A.dims A.mapc c = b at *
      induction hi generalizing b with
      | nil => cases b <;> simp_all [clipHi]
      | cons l lo ih => cases b with
        | nil => simp at this
        | cons b bs => simp [clipHi, ih bs (by simpa using this)]
    refine ⟨⟨by rw [e2, e3]; omega, ?_, by rw [e2]; omega⟩, c, hc, e1, ?_⟩
    · intro h0
      rw [e2] at h0
      have : lo.length = 0 := by rw [← hlo, h0]; rfl
      have hne := hA.ne
      cases hd : A.dims with
      | nil => exact hne hd
      | cons => rw [hd] at l1; simp at l1; omega
    · intro x
      rw [e2, e3]
      exact mem_clip hA.map hc (by rw [l1, hA.map.length]) (by rw [l2, hA.map.length])

/-- **Main lemma.** If the iterator succeeds, the transfers implement the patch; every message
is at most `maxInt` bytes. -/
theorem regPieces_spec {A : RegArray} {E : Env} (hA : ArrOK A) (hE : EnvOK E A) {lo hi : List Int}
    {rs : List RPiece} (h : regPieces E A lo hi = some rs) :
    PatchOK A.dims lo hi ∧
    (rs.flatMap fun p => box p.plo p.phi).Perm (box lo hi) ∧
    (∀ r ∈ rs, InPatch r.plo r.phi r.plo ∧ r.plo.length = lo.length ∧
      E.elemsize * prodI (edges r.plo r.phi) ≤ E.maxInt ∧ r.ldrem.length + 1 = lo.length ∧
      ∀ x, InPatch r.plo r.phi x → InPatch lo hi x ∧ OwnedBy A r.proc x ∧
        (r.proc, r.prem + bufPos r.plo r.ldrem x) = cell A x) := by
  unfold regPieces at h
  split at h
  · simp at h
  · rename_i ps hps
    split at h
    · simp at h
    · rename_i qs hqs
      obtain ⟨v1, v2, v3, v4⟩ := visit_spec hA hE hps
      have hplen : (permuteProcList E.rand ps.length).length = ps.length := by
        rw [(permuteProcList_perm E.rand ps.length).length_eq, List.length_range]
      have hall := (collect_iff _ _ ps _ hplen (fun p hp => ⟨(v4 p hp).1.1, (v4 p hp).1.2.1⟩) _ qs).1 hqs
      obtain ⟨s1, s2⟩ := allSubs_spec hall hE.mx hE.es (fun p hp => ⟨(v4 p hp).1.1, (v4 p hp).1.2.1⟩)
      have hf := mapOpt_forall₂ h
      -- facts about every located piece
      have key : ∀ q ∈ qs, ∃ c, CoordOK A.nblock c ∧ q.proc = (undigits A.nblock c : Nat) ∧
          InPatch q.plo q.phi q.plo ∧ q.plo.length = lo.length ∧
          E.elemsize * prodI (edges q.plo q.phi) ≤ E.maxInt ∧
          ∀ x, InPatch q.plo q.phi x → InPatch lo hi x ∧
            InPatch (coordLo A.nblock A.mapc c) (coordHi A.nblock A.dims A.mapc c) x := by
        intro q hq
        obtain ⟨p, hp, r1, r2, r3, r4, r5⟩ := s2 q hq
        obtain ⟨⟨_, _, pl⟩, c, hc, e1, e2⟩ := v4 p hp
        exact ⟨c, hc, r1.trans e1, r2, r3.trans pl, r4, fun x hx => (e2 x).1 (r5 x hx)⟩
      refine ⟨v1, ?_, ?_⟩
      · refine List.Perm.trans (List.Perm.of_eq ?_) (s1.trans v2)
        unfold cover
        clear * - hf key
        induction hf with
        | nil => rfl
        | @cons q r qs rs h1 h2 ih =>
          simp only [List.flatMap_cons]
          rw [ih fun q' h' => key q' (by simp [h'])]
          obtain ⟨c, hc, e1, e2, e3, e4, e5⟩ := key q (by simp)
          rw [locatePiece_ok hc e1 (e5 _ e2).2, Option.some.injEq] at h1
          rw [← h1]
      · intro r hr
        obtain ⟨q, hq, hqr⟩ : ∃ q ∈ qs, locatePiece A q = some r := by
          clear * - hf hr
          induction hf with
          | nil => simp at hr
          | @cons q r' qs rs h1 h2 ih =>
            rcases List.mem_cons.1 hr with rfl | hr
            · exact ⟨q, by simp, h1⟩
            · obtain ⟨q', hq', e⟩ := ih hr
              exact ⟨q', by simp [hq'], e⟩
        obtain ⟨c, hc, e1, e2, e3, e4, e5⟩ := key q hq
        rw [locatePiece_ok hc e1 (e5 _ e2).2, Option.some.injEq] at hqr
        subst hqr
        have hl := owns_length hA hc
        have hll : lo.length = A.dims.length := v1.1.length
        have hne : coordLo A.nblock A.mapc c ≠ [] := by
          intro h0
          rw [h0] at hl
          have := hA.ne
          simp only [List.length_nil] at hl
          exact this (List.length_eq_zero_iff.1 hl.1.symm)
        have hw := hA.width
        have hrl := ldRem_length (l := coordLo A.nblock A.mapc c)
          (h := coordHi A.nblock A.dims A.mapc c) (w := A.width) (by omega) (by omega) hne
        refine ⟨e2, e3, e4, by simp only; omega, ?_⟩
        intro x hx
        obtain ⟨x1, x2⟩ := e5 x hx
        refine ⟨x1, ?_, ?_⟩
        · unfold OwnedBy
          simp only [e1]
          rw [owns_of_coord hc]
          exact x2
        · rw [cell_of_coord hA hc x2]
          simp only [e1]
          rw [locOffset_coord hc, locOffset_coord hc]
          rw [loc_step x2.length.1 (by omega) (by omega) (by omega) hne]

/-- The byte size of the requested patch does not exceed the message limit. -/
def FitsOne (E : Env) (lo hi : List Int) : Prop := E.elemsize * prodI (edges lo hi) ≤ E.maxInt

theorem subPieces_small {es M : Int} {p : Piece} (h : pieceOK p.plo p.phi = true →
    es * prodI (edges p.plo p.phi) ≤ M) : ∃ a, subPieces es M p = some a := by
  unfold subPieces
  split
  · rename_i hok
    rw [if_neg (by have := h hok; omega)]
    exact ⟨_, rfl⟩
  · exact ⟨_, rfl⟩

theorem posLe_clip {lo hi a b : List Int} (h1 : a.length = lo.length) (h2 : b.length = lo.length)
    (h3 : hi.length = lo.length)
    (hok : pieceOK (clipLo lo a) (clipHi hi b) = true) :
    PosLe (edges (clipLo lo a) (clipHi hi b)) (edges lo hi) := by
  induction lo generalizing hi a b with
  | nil =>
    cases hi with
    | cons => simp at h3
    | nil => cases a <;> cases b <;> simp_all [clipLo, edges, PosLe]
  | cons l lo ih =>
    match hi, a, b, h1, h2, h3 with
    | h :: hi, a :: as, b :: bs, h1, h2, h3 =>
      simp only [clipLo, clipHi, pieceOK, Bool.and_eq_true, decide_eq_true_eq] at hok
      simp only [clipLo, clipHi, edges, PosLe]
      refine ⟨?_, ih (by simpa using h1) (by simpa using h2) (by simpa using h3) hok.2⟩
      have := hok.1
      omega

/-- a legal request is served if no splitting is needed -/
theorem regPieces_some {A : RegArray} {E : Env} (hA : ArrOK A) (hE : EnvOK E A) {lo hi : List Int}
    (hok : PatchOK A.dims lo hi)
    (hno : ∀ p : Piece, ∀ c, CoordOK A.nblock c →
      p = ⟨(undigits A.nblock c : Nat), clipLo lo (coordLo A.nblock A.mapc c),
        clipHi hi (coordHi A.nblock A.dims A.mapc c)⟩ →
      ∃ a, subPieces E.elemsize E.maxInt p = some a) :
    ∃ rs, regPieces E A lo hi = some rs := by
  have hps : ∃ ps, locateRegion A E.candT E.candB lo hi = some ps := by
    unfold locateRegion
    rw [if_pos (regionOK_iff.2 hok)]
    exact ⟨_, rfl⟩
  obtain ⟨ps, hps⟩ := hps
  obtain ⟨v1, v2, v3, v4⟩ := visit_spec hA hE hps
  have hall : ∃ qs, allSubs E.elemsize E.maxInt
      (visit ps (permuteProcList E.rand ps.length) 0) = some qs := by
    have hm : ∀ p ∈ visit ps (permuteProcList E.rand ps.length) 0,
        ∃ a, subPieces E.elemsize E.maxInt p = some a := by
      intro p hp
      obtain ⟨c, hc, e1, e2, e3⟩ :=
        (locateRegion_spec hA.map hE.candT hE.candB hps).2 p (v3.mem_iff.1 hp)
      exact hno p c hc (by cases p; simp_all)
    clear * - hm
    generalize visit ps (permuteProcList E.rand ps.length) 0 = v at *
    induction v with
    | nil => exact ⟨[], rfl⟩
    | cons p v ih =>
      obtain ⟨a, ha⟩ := hm p (by simp)
      obtain ⟨b, hb⟩ := ih fun p' h' => hm p' (by simp [h'])
      exact ⟨a ++ b, by simp [allSubs, ha, hb]⟩
  obtain ⟨qs, hqs⟩ := hall
  have hplen : (permuteProcList E.rand ps.length).length = ps.length := by
    rw [(permuteProcList_perm E.rand ps.length).length_eq, List.length_range]
  obtain ⟨s1, s2⟩ := allSubs_spec hqs hE.mx hE.es (fun p hp => ⟨(v4 p hp).1.1, (v4 p hp).1.2.1⟩)
  have hle : qs.length ≤ (initLoopElems lo hi).toNat := by
    rw [← box_length v1.2.2, ← (s1.trans v2).length_eq]
    apply cover_length_ge
    intro q hq
    obtain ⟨p, hp, r1, r2, r3, r4, r5⟩ := s2 q hq
    exact r2
  have hcol := (collect_iff E.elemsize E.maxInt ps _ hplen
    (fun p hp => ⟨(v4 p hp).1.1, (v4 p hp).1.2.1⟩) ((initLoopElems lo hi).toNat + 1) qs).2 hqs (by omega)
  unfold regPieces
  rw [hps]
  simp only [hcol]
  apply mapOpt_some
  intro q hq
  obtain ⟨p, hp, r1, r2, r3, r4, r5⟩ := s2 q hq
  obtain ⟨⟨_, _, pl⟩, c, hc, e1, e2⟩ := v4 p hp
  exact ⟨_, locatePiece_ok hc (r1.trans e1) ((e2 _).1 (r5 _ r2)).2⟩

theorem regPieces_fits {A : RegArray} {E : Env} (hA : ArrOK A) (hE : EnvOK E A) {lo hi : List Int}
    (hok : PatchOK A.dims lo hi) (hfit : FitsOne E lo hi) :
    ∃ rs, regPieces E A lo hi = some rs := by
  apply regPieces_some hA hE hok
  intro p c hc hp
  apply subPieces_small
  intro hpk
  subst hp
  simp only at hpk ⊢
  have hl := owns_length hA hc
  have l1 := hok.1.length
  have l2 := hok.2.1.length
  have := (posLe_clip (by omega) (by omega) (by omega) hpk).prod.2
  have := Int.mul_le_mul_of_nonneg_left this hE.es
  unfold FitsOne at hfit
  omega

end GA
