import Verif.Model.Copy
import Verif.Lemmas.CopyIdx
import Verif.Lemmas.Pieces
import Verif.Lemmas.GatScat
import Verif.Props.C12

/-! # Lemmas: copying arrays and patches -/

namespace GA
open Spec Model

/-! ## steps of several processes -/

section
variable {V : Type}

/-- No step writes what another one reads. -/
def Indep (acts : List LAct) : Prop :=
  (acts.map LAct.dst).Nodup ∧ ∀ a ∈ acts, ∀ a' ∈ acts, a.dst ∈ a'.srcs → a = a'

theorem Indep.perm {l l' : List LAct} (h : l.Perm l') (hi : Indep l') : Indep l :=
  ⟨((h.map LAct.dst).nodup_iff).2 hi.1, fun a ha a' ha' =>
    hi.2 a (h.mem_iff.1 ha) a' (h.mem_iff.1 ha')⟩

theorem runActs_spec (g : List V → V) {acts : List LAct} (h : Indep acts) (m : Loc → V) :
    (∀ a ∈ acts, runActs g acts m a.dst = g (a.srcs.map m)) ∧
    ∀ l, (∀ a ∈ acts, a.dst ≠ l) → runActs g acts m l = m l := by
  induction acts generalizing m with
  | nil => exact ⟨by simp, fun _ _ => rfl⟩
  | cons b acts ih =>
    have h1 : (b.dst :: acts.map LAct.dst).Nodup := h.1
    have hi : Indep acts := ⟨(List.nodup_cons.1 h1).2, fun a ha a' ha' =>
      h.2 a (by simp [ha]) a' (by simp [ha'])⟩
    have hb : ∀ a ∈ acts, a.dst ≠ b.dst := by
      intro a ha e
      have := (List.nodup_cons.1 h1).1
      exact this (List.mem_map.2 ⟨a, ha, e⟩)
    obtain ⟨i1, i2⟩ := ih hi (upd m b.dst (g (b.srcs.map m)))
    have e : runActs g (b :: acts) m = runActs g acts (upd m b.dst (g (b.srcs.map m))) := rfl
    rw [e]
    constructor
    · intro a ha
      rcases List.mem_cons.1 ha with rfl | ha'
      · rw [i2 _ hb]; simp [upd]
      · rw [i1 a ha']
        congr 1
        apply List.map_congr_left
        intro l hl
        unfold upd
        rw [if_neg]
        rintro rfl
        have := h.2 b (by simp) a ha hl
        subst this
        exact hb _ ha' rfl
    · intro l hl
      rw [i2 l fun a ha => hl a (by simp [ha])]
      unfold upd
      rw [if_neg]
      intro e
      exact hl b (by simp) e.symm

theorem mapOpt_get {α β} {f : α → Option (List β)} {ns : List α} {l : List (List β)}
    (h : mapOpt f ns = some l) :
    (∀ p ∈ ns, f p = some ((f p).getD [])) ∧ l = ns.map fun p => (f p).getD [] := by
  induction ns generalizing l with
  | nil =>
    simp only [mapOpt, Option.some.injEq] at h
    subst h
    exact ⟨by simp, rfl⟩
  | cons a ns ih =>
    unfold mapOpt at h
    split at h
    · rename_i b bs h1 h2
      obtain ⟨i1, i2⟩ := ih h2
      simp only [Option.some.injEq] at h
      subst h
      constructor
      · intro p hp
        rcases List.mem_cons.1 hp with rfl | hp
        · rw [h1]; rfl
        · exact i1 p hp
      · rw [List.map_cons, h1, ← i2]; rfl
    · cases h


end

/-! ## the parts of a patch in local memory -/

/-- What the parts of a patch look like. -/
structure PartView (G : GArr) (lo hi : List Int) (parts : Nat → List LItem) : Prop where
  eq : ∀ p, p < G.nproc → localParts G lo hi p = some (parts p)
  shape : ∀ p, p < G.nproc → ∀ it ∈ parts p, it.ld.length + 1 = lo.length ∧
    InPatch it.lo it.hi it.lo ∧ ∀ x, InPatch it.lo it.hi x → InPatch lo hi x
  cell : ∀ p, p < G.nproc → ∀ it ∈ parts p, ∀ x, InPatch it.lo it.hi x →
    cellG G x = ((p : Int), it.off + bufPos it.lo it.ld x)
  cover : ((List.range G.nproc).flatMap fun p => (parts p).flatMap fun it => box it.lo it.hi).Perm
    (box lo hi)

/-- the part of one block -/
def cutItem (lo hi : List Int) (it : LItem) : Option LItem :=
  match patchIntersect lo hi it.lo it.hi with
  | none => none
  | some (los, his) => some ⟨los, his, it.proc, it.off + cornerOff it.lo los it.ld 1, it.ld⟩

theorem patchIntersect_some {lo hi lp hp los his : List Int} (h1 : hi.length = lo.length)
    (h2 : lp.length = lo.length) (h3 : hp.length = lo.length)
    (h : patchIntersect lo hi lp hp = some (los, his)) :
    InPatch los his los ∧ (∀ x, InPatch los his x ↔ InPatch lo hi x ∧ InPatch lp hp x) := by
  unfold patchIntersect at h
  split at h
  · cases h
  rename_i he
  simp only [Bool.or_eq_true, not_or, Bool.not_eq_true] at he
  split at h
  · cases h
  rename_i hd
  simp only [Option.some.injEq, Prod.mk.injEq] at h
  obtain ⟨rfl, rfl⟩ := h
  simp only [Bool.not_eq_true] at hd
  exact ⟨(disjoint_false h1 h2 h3 ((anyEmpty_false (by omega)).1 he.1)
      ((anyEmpty_false (by omega)).1 he.2)).1 hd, fun x => inter_mem (x := x) h1 h2 h3⟩

theorem patchIntersect_none {lo hi lp hp x : List Int} (h1 : hi.length = lo.length)
    (h2 : lp.length = lo.length) (h3 : hp.length = lo.length)
    (h : patchIntersect lo hi lp hp = none) (hx' : InPatch lo hi x) (hx : InPatch lp hp x) : False := by
  unfold patchIntersect at h
  have e1 := (anyEmpty_false (lo := lp) (hi := hp) (by omega)).2 (inPatch_lower hx)
  have e2 := (anyEmpty_false (lo := lo) (hi := hi) (by omega)).2 (inPatch_lower hx')
  have e3 := (disjoint_false h1 h2 h3 (inPatch_lower hx') (inPatch_lower hx)).2
    (inPatch_lower ((inter_mem h1 h2 h3).2 ⟨hx', hx⟩))
  simp [e1, e2, e3] at h

theorem localParts_cut {G : GArr} (hG : Sound G) {items : Nat → List LItem}
    (hi' : ∀ p, p < G.nproc → G.localIter p = some (items p)) {lo hi : List Int}
    (h1 : lo.length = G.dims.length) (h2 : hi.length = lo.length) {p : Nat} (hp : p < G.nproc) :
    localParts G lo hi p = some ((items p).filterMap (cutItem lo hi)) := by
  cases G with
  | blk A =>
    have := hi' p hp
    simp only [GArr.localIter] at this
    simp only [localParts, this]
    rfl
  | reg A n =>
    have hit := hi' p hp
    simp only [GArr.localIter, Option.some.injEq] at hit
    rw [← hit]
    obtain ⟨hA, hn⟩ := hG
    simp only [localParts]
    rcases regItems hA p with ⟨e, hno⟩ | ⟨q1, q2, e⟩
    · rw [e]
      have : patchIntersect lo hi (owns A p).1 (owns A p).2 = none := by
        unfold regLocalIter at e
        simp only at e
        split at e
        · rename_i he
          unfold patchIntersect
          rw [if_pos (by simp [he])]
        · cases e
      rw [this]; rfl
    · rw [e]
      have ho := regLocal_mem hA q1
      have hl := owns_length hA (digits_ok q1)
      simp only [GArr.dims] at h1
      have l1 : (owns A p).1.length = lo.length := by rw [ho]; simp only; omega
      have l2 : (owns A p).2.length = lo.length := by rw [ho]; simp only; omega
      have hne : coordLo A.nblock A.mapc (digits A.nblock p) ≠ [] := by
        intro hn; rw [hn] at hl; simp at hl; exact hA.ne (List.length_eq_zero_iff.1 hl.1.symm)
      have l3 : (ldRem (owns A p).1 (owns A p).2 A.width).length + 1 = lo.length := by
        rw [ho]
        have := ldRem_length (l := coordLo A.nblock A.mapc (digits A.nblock p))
          (h := coordHi A.nblock A.dims A.mapc (digits A.nblock p)) (w := A.width) (by omega)
          (by rw [hA.width]; omega) hne
        simp only
        omega
      simp only [List.filterMap_cons, List.filterMap_nil, cutItem]
      cases hpi : patchIntersect lo hi (owns A p).1 (owns A p).2 with
      | none => rfl
      | some r =>
        obtain ⟨los, his⟩ := r
        obtain ⟨k1, k2⟩ := patchIntersect_some h2 l1 l2 hpi
        have k3 := ((k2 los).1 k1).2
        simp only [Option.some.injEq, List.cons.injEq, LItem.mk.injEq, and_true, true_and]
        rw [cornerOff_eq 1 (inPatch_lengths k3).2 (by omega), Int.one_mul]
        have e1 := reg_cell hA q1 k3
        rw [ho] at k3
        have e2 := cell_of_coord hA (digits_ok q1) k3
        rw [undigits_digits q1, e1] at e2
        simp only [Prod.mk.injEq, true_and] at e2
        exact e2.symm

theorem partView {G : GArr} (hG : Sound G) (hp : PtrOK G) {lo hi : List Int}
    (h : PatchOK G.dims lo hi) : ∃ parts, PartView G lo hi parts := by
  obtain ⟨items, v⟩ := view_of hG hp
  have hl := h.1.length
  have hl2 := (inPatch_lengths h.2.2).1
  have cut : ∀ p, p < G.nproc → ∀ it ∈ items p, ∀ pt, cutItem lo hi it = some pt →
      pt.ld = it.ld ∧ pt.off = it.off + bufPos it.lo it.ld pt.lo ∧ InPatch pt.lo pt.hi pt.lo ∧
      (∀ x, InPatch pt.lo pt.hi x ↔ InPatch lo hi x ∧ InPatch it.lo it.hi x) := by
    intro p hp it hit pt hc
    obtain ⟨s1, s2, s3, s4⟩ := v.shape p hp it hit
    unfold cutItem at hc
    split at hc
    · cases hc
    · rename_i los his hpi
      obtain ⟨k1, k2⟩ := patchIntersect_some hl2 (by omega) (by omega) hpi
      have k3 := ((k2 los).1 k1).2
      simp only [Option.some.injEq] at hc
      subst hc
      refine ⟨rfl, ?_, k1, k2⟩
      simp only
      rw [cornerOff_eq 1 (inPatch_lengths k3).2 (by omega), Int.one_mul]
  refine ⟨fun p => (items p).filterMap (cutItem lo hi), ?_, ?_, ?_, ?_⟩
  · intro p hp
    exact localParts_cut hG v.iter hl hl2 hp
  · intro p hp it hit
    obtain ⟨i, h1, h2⟩ := List.mem_filterMap.1 hit
    obtain ⟨c1, c2, c3, c4⟩ := cut p hp i h1 it h2
    obtain ⟨s1, s2, s3, s4⟩ := v.shape p hp i h1
    exact ⟨by rw [c1]; omega, c3, fun x hx => ((c4 x).1 hx).1⟩
  · intro p hp it hit x hx
    obtain ⟨i, h1, h2⟩ := List.mem_filterMap.1 hit
    obtain ⟨c1, c2, c3, c4⟩ := cut p hp i h1 it h2
    have hxi := ((c4 x).1 hx).2
    have hli := ((c4 it.lo).1 c3).2
    rw [v.cell p hp i h1 x hxi, c2, c1,
      ← bufPos_add (s := i.lo) (a := it.lo) (x := x) (inPatch_lengths hli).2 (inPatch_lengths hxi).2]
    congr 1
    omega
  · have step : ∀ p ∈ List.range G.nproc,
        (((items p).filterMap (cutItem lo hi)).flatMap fun it => box it.lo it.hi).Perm
        (((items p).flatMap fun it => box it.lo it.hi).filter fun x => decide (InPatch lo hi x)) := by
      intro p hp
      have hp' := List.mem_range.1 hp
      rw [List.filter_flatMap]
      have : ∀ l : List LItem, (∀ it ∈ l, it ∈ items p) →
          ((l.filterMap (cutItem lo hi)).flatMap fun it => box it.lo it.hi).Perm
          (l.flatMap fun it => (box it.lo it.hi).filter fun x => decide (InPatch lo hi x)) := by
        intro l
        induction l with
        | nil => intro _; exact List.Perm.refl _
        | cons it l ih =>
          intro hl'
          have hit := hl' it (by simp)
          obtain ⟨s1, s2, s3, s4⟩ := v.shape p hp' it hit
          have ih' := ih fun i h => hl' i (by simp [h])
          rw [List.filterMap_cons, List.flatMap_cons]
          cases hc : cutItem lo hi it with
          | none =>
            simp only
            have : ((box it.lo it.hi).filter fun x => decide (InPatch lo hi x)) = [] := by
              rw [List.filter_eq_nil_iff]
              intro x hx
              simp only [decide_eq_true_eq]
              intro hx'
              unfold cutItem at hc
              split at hc
              · rename_i hpi
                exact patchIntersect_none hl2 (by omega) (by omega) hpi hx' (mem_box.1 hx)
              · cases hc
            rw [this]
            exact ih'
          | some pt =>
            simp only [List.flatMap_cons]
            refine List.Perm.append ?_ ih'
            obtain ⟨c1, c2, c3, c4⟩ := cut p hp' it hit pt hc
            rw [List.perm_ext_iff_of_nodup (nodup_box _ _) ((nodup_box _ _).filter _)]
            intro x
            simp only [mem_box, List.mem_filter, decide_eq_true_eq, c4, and_comm]
      exact this _ fun _ h => h
    refine (List.Perm.flatMap_left _ step).trans ?_
    rw [← List.filter_flatMap]
    refine (v.cover.filter _).trans ?_
    rw [List.perm_ext_iff_of_nodup ((nodup_box _ _).filter _) (nodup_box _ _)]
    intro x
    simp only [List.mem_filter, mem_ones_box, decide_eq_true_eq, mem_box]
    exact ⟨fun h => h.2, fun hx => ⟨h.inArray hx, hx⟩⟩


/-! ## one-sided transfers of a part -/

/-- the elements `x` of a patch at `a`, moved to a patch at `b` -/
def shiftL (a b x : List Int) : List Int := addL b (subL x a)

theorem shiftL_in {alo ahi blo bhi x : List Int} (hx : InPatch alo ahi x) (hb : bhi.length = blo.length)
    (hs : edges alo ahi = edges blo bhi) : InPatch blo bhi (shiftL alo blo x) :=
  fb_inPatch hb (hs ▸ inPatch_fb hx)

theorem inPatch_upper {lo hi x : List Int} (h : InPatch lo hi x) : InPatch lo hi hi := by
  induction lo generalizing hi x with
  | nil => cases hi <;> cases x <;> simp_all [InPatch]
  | cons l lo ih =>
    match hi, x, h with
    | h :: hi, x :: xs, hx => exact ⟨by have := hx.1; omega, ih hx.2⟩

theorem prodI_pos {es : List Int} (h : ∀ e ∈ es, 0 < e) : 0 < prodI es := by
  induction es with
  | nil => decide
  | cons e es ih =>
    simp only [prodI]
    exact Int.mul_pos (h e (by simp)) (ih fun e h' => h e (by simp [h']))

theorem prodI_edges_mono {lo hi a b : List Int} (h : InPatch a b a)
    (hs : ∀ x, InPatch a b x → InPatch lo hi x) : prodI (edges a b) ≤ prodI (edges lo hi) := by
  have h1 := hs a h
  have h2 := hs b (inPatch_upper h)
  clear hs
  induction a generalizing b lo hi with
  | nil =>
    have l1 := inPatch_lengths h1
    have l2 := inPatch_lengths h
    have : lo = [] := List.length_eq_zero_iff.1 (by simpa using l1.2.symm)
    subst this
    simp [edges, prodI]
  | cons u a ih =>
    have l1 := inPatch_lengths h1
    have l2 := inPatch_lengths h
    obtain ⟨l, lo, rfl⟩ := List.exists_cons_of_length_eq_add_one (l := lo) (n := a.length) (by simpa using l1.2.symm)
    obtain ⟨k, hi, rfl⟩ := List.exists_cons_of_length_eq_add_one (l := hi) (n := a.length) (by rw [l1.1]; simpa using l1.2.symm)
    match b, h, h2 with
    | v :: b, h, h2 =>
      simp only [edges, prodI]
      have := ih h.2 h1.2 h2.2
      have p1 := prodI_pos (edgesL_pos h.2)
      have e1 := h.1
      have e2 := h1.1
      have e3 := h2.1
      exact Int.mul_le_mul (by omega) this (by omega) (by omega)

section
variable {G : GArr} {E : Env} {alo ahi blo bhi : List Int} {it : LItem}

theorem shift_patchOK (hb : PatchOK G.dims blo bhi) (hs : edges alo ahi = edges blo bhi)
    (h1 : InPatch it.lo it.hi it.lo) (h2 : ∀ x, InPatch it.lo it.hi x → InPatch alo ahi x) :
    PatchOK G.dims (shiftL alo blo it.lo) (shiftL alo blo it.hi) := by
  have hlb := (inPatch_lengths hb.2.2).1
  have hla := inPatch_lengths (h2 _ h1)
  have hlc : alo.length = blo.length := by
    have e1 := edges_len (lo := alo) (hi := ahi) hla.1
    have e2 := edges_len (lo := blo) (hi := bhi) hlb
    rw [hs] at e1; omega
  have hli := inPatch_lengths h1
  refine ⟨hb.inArray (shiftL_in (h2 _ h1) hlb hs),
    hb.inArray (shiftL_in (h2 _ (inPatch_upper h1)) hlb hs), ?_⟩
  rw [← mem_box]
  unfold shiftL
  rw [box_addsub (by omega) (by omega) (by omega)]
  exact List.mem_map.2 ⟨_, mem_box.2 h1, rfl⟩

theorem shift_moves (hG : Sound G) (hE : EnvG E G) (hb : PatchOK G.dims blo bhi)
    (hs : edges alo ahi = edges blo bhi) (h1 : InPatch it.lo it.hi it.lo)
    (h2 : ∀ x, InPatch it.lo it.hi x → InPatch alo ahi x) (h3 : it.ld.length + 1 = alo.length)
    {ts : List Xfer} (h : G.xfers E (shiftL alo blo it.lo) (shiftL alo blo it.hi) it.ld = some ts) :
    ts.Perm ((box it.lo it.hi).map fun x => ⟨bufPos it.lo it.ld x, cellG G (shiftL alo blo x)⟩) := by
  have hlb := (inPatch_lengths hb.2.2).1
  have hla := inPatch_lengths (h2 _ h1)
  have hlc : alo.length = blo.length := by
    have e1 := edges_len (lo := alo) (hi := ahi) hla.1
    have e2 := edges_len (lo := blo) (hi := bhi) hlb
    rw [hs] at e1; omega
  have hli := inPatch_lengths h1
  have hlen : (shiftL alo blo it.lo).length = blo.length := by
    unfold shiftL
    rw [addL_length]
    rw [subL_length (by omega)]; omega
  obtain ⟨_, hm⟩ := gXfers_moves' hG hE (fun _ _ => shift_patchOK hb hs h1 h2) (by omega) h
  refine hm.trans (List.Perm.of_eq ?_)
  have : box (shiftL alo blo it.lo) (shiftL alo blo it.hi) = (box it.lo it.hi).map (shiftL alo blo) := by
    unfold shiftL
    exact box_addsub (by omega) (by omega) (by omega)
  rw [this, List.map_map]
  apply List.map_congr_left
  intro x hx
  have hxl := inPatch_lengths (mem_box.1 hx)
  simp only [Function.comp_apply]
  rw [show bufPos (shiftL alo blo it.lo) it.ld (shiftL alo blo x) = bufPos it.lo it.ld x from
    bufPos_addsub (by omega) (by omega) (by omega)]

theorem shift_some (hG : Sound G) (hE : EnvG E G) (hb : PatchOK G.dims blo bhi)
    (hs : edges alo ahi = edges blo bhi) (h1 : InPatch it.lo it.hi it.lo)
    (h2 : ∀ x, InPatch it.lo it.hi x → InPatch alo ahi x)
    (hf : E.elemsize * prodI (edges alo ahi) ≤ E.maxInt) (he : 0 ≤ E.elemsize) :
    ∃ ts, G.xfers E (shiftL alo blo it.lo) (shiftL alo blo it.hi) it.ld = some ts := by
  have hok := shift_patchOK hb hs h1 h2
  apply gXfers_some hG hE _ hok
  refine le_trans (Int.mul_le_mul_of_nonneg_left ?_ he) hf
  rw [hs]
  have hlb := (inPatch_lengths hb.2.2).1
  have hla := inPatch_lengths (h2 _ h1)
  have hlc : alo.length = blo.length := by
    have e1 := edges_len (lo := alo) (hi := ahi) hla.1
    have e2 := edges_len (lo := blo) (hi := bhi) hlb
    rw [hs] at e1; omega
  have hli := inPatch_lengths h1
  apply prodI_edges_mono hok.2.2
  intro x hx
  rw [← mem_box] at hx
  unfold shiftL at hx
  rw [box_addsub (by omega) (by omega) (by omega)] at hx
  obtain ⟨y, hy, rfl⟩ := List.mem_map.1 hx
  exact shiftL_in (h2 _ (mem_box.1 hy)) hlb hs

end


/-! ## the moves of one process -/

theorem flatten_perm {α β γ} {f : α → Option (List β)} {h : α → List γ} (F : γ → β) {as : List α} {l : List (List β)}
    (e : mapOpt f as = some l) (hf : ∀ a ∈ as, ∀ bs, f a = some bs → bs.Perm ((h a).map F)) :
    l.flatten.Perm ((as.flatMap h).map F) := by
  obtain ⟨h1, rfl⟩ := mapOpt_get e
  rw [← List.flatMap_def, List.map_flatMap]
  apply List.Perm.flatMap_left
  intro a ha
  exact hf a ha _ (h1 a ha)

section
variable {E : Env} {alo ahi blo bhi : List Int} {it : LItem} {a b p : Nat} {A B : GArr}

/-- a step that copies element `x` of array `A` to element `y` of array `B` -/
def cpAct (a : Nat) (A : GArr) (b : Nat) (B : GArr) (x y : List Int) : LAct :=
  ⟨(b, cellG B y), [(a, cellG A x)]⟩

theorem put_part (sB : Sound B) (hE : EnvG E B) (hb : PatchOK B.dims blo bhi)
    (hs : edges alo ahi = edges blo bhi) (h1 : InPatch it.lo it.hi it.lo)
    (h2 : ∀ x, InPatch it.lo it.hi x → InPatch alo ahi x) (h3 : it.ld.length + 1 = alo.length)
    (hc : ∀ x, InPatch it.lo it.hi x → cellG A x = ((p : Int), it.off + bufPos it.lo it.ld x))
    {l : List LAct} (h : (B.xfers E (shiftL alo blo it.lo) (shiftL alo blo it.hi) it.ld).map
      (putActs a b p it.off) = some l) :
    l.Perm ((box it.lo it.hi).map fun x => cpAct a A b B x (shiftL alo blo x)) := by
  obtain ⟨ts, hts, rfl⟩ := Option.map_eq_some_iff.1 h
  have := (shift_moves sB hE hb hs h1 h2 h3 hts).map
    fun t : Xfer => (⟨(b, t.addr), [(a, ((p : Int), it.off + t.buf))]⟩ : LAct)
  refine this.trans (List.Perm.of_eq ?_)
  rw [List.map_map]
  apply List.map_congr_left
  intro x hx
  simp only [Function.comp_apply, cpAct, hc x (mem_box.1 hx)]

theorem get_part (sA : Sound A) (hE : EnvG E A) (ha : PatchOK A.dims alo ahi)
    (hs : edges blo bhi = edges alo ahi) (h1 : InPatch it.lo it.hi it.lo)
    (h2 : ∀ x, InPatch it.lo it.hi x → InPatch blo bhi x) (h3 : it.ld.length + 1 = blo.length)
    (hc : ∀ x, InPatch it.lo it.hi x → cellG B x = ((p : Int), it.off + bufPos it.lo it.ld x))
    {l : List LAct} (h : (A.xfers E (shiftL blo alo it.lo) (shiftL blo alo it.hi) it.ld).map
      (getActs a b p it.off) = some l) :
    l.Perm ((box it.lo it.hi).map fun y => cpAct a A b B (shiftL blo alo y) y) := by
  obtain ⟨ts, hts, rfl⟩ := Option.map_eq_some_iff.1 h
  have := (shift_moves sA hE ha hs h1 h2 h3 hts).map
    fun t : Xfer => (⟨(b, ((p : Int), it.off + t.buf)), [(a, t.addr)]⟩ : LAct)
  refine this.trans (List.Perm.of_eq ?_)
  rw [List.map_map]
  apply List.map_congr_left
  intro x hx
  simp only [Function.comp_apply, cpAct, hc x (mem_box.1 hx)]

theorem scatter_part (tr : Bool) (sB : Sound B) (pB : PtrOK B) {cand cand' : Nat → List Nat}
    (hc1 : ∀ k, CandG B (cand k)) (hc2 : ∀ k, CandG B (cand' k)) (hb : PatchOK B.dims blo bhi)
    (h1 : InPatch it.lo it.hi it.lo)
    (h2 : ∀ x, InPatch it.lo it.hi x → InPatch alo ahi x) (h3 : it.ld.length + 1 = alo.length)
    (hc : ∀ x, InPatch it.lo it.hi x → cellG A x = ((p : Int), it.off + bufPos it.lo it.ld x)) :
    ∃ l, scatterActs cand cand' tr a alo ahi b B blo bhi p it = some l ∧
    l.Perm ((box it.lo it.hi).map fun x => cpAct a A b B x (tgt tr alo ahi blo bhi x)) := by
  unfold scatterActs
  simp only
  rw [srcLoop_box h1]
  have hd : (box it.lo it.hi).map (copyDst tr alo (extents alo ahi) blo (extents blo bhi)) =
      (box it.lo it.hi).map (tgt tr alo ahi blo bhi) := rfl
  rw [hd]
  obtain ⟨ts, hts, hp⟩ := gsXfers_spec sB pB hc1 hc2
    (subs := (box it.lo it.hi).map (tgt tr alo ahi blo bhi)) (by
      intro y hy
      obtain ⟨x, hx, rfl⟩ := List.mem_map.1 hy
      exact hb.inArray (tgt_in tr (h2 x (mem_box.1 hx)) hb.2.2))
  refine ⟨_, by rw [hts]; rfl, ?_⟩
  refine (hp.map _).trans (List.Perm.of_eq ?_)
  rw [List.length_map, List.map_map]
  have hrange : (List.range (box it.lo it.hi).length).map (fun k => (box it.lo it.hi).getD k []) =
      box it.lo it.hi := by
    apply List.ext_getElem
    · simp
    · intro i h1 h2
      simp only [List.length_map, List.length_range] at h1
      simp [List.getElem?_eq_getElem h1]
  conv_rhs => rw [← hrange, List.map_map]
  apply List.map_congr_left
  intro k hk
  have hk' := List.mem_range.1 hk
  simp only [Function.comp_apply, cpAct, Int.toNat_natCast]
  have hgd : (box it.lo it.hi).getD k [] = (box it.lo it.hi)[k] := by
    simp [List.getD, List.getElem?_eq_getElem hk']
  have hin : InPatch it.lo it.hi ((box it.lo it.hi).getD k []) := by
    rw [hgd]; exact mem_box.1 (List.getElem_mem hk')
  have hgd2 : ((box it.lo it.hi).map (tgt tr alo ahi blo bhi)).getD k [] =
      tgt tr alo ahi blo bhi ((box it.lo it.hi).getD k []) := by
    rw [hgd]
    simp [List.getD, List.getElem?_eq_getElem hk']
  have hl := inPatch_lengths hin
  have hl2 := inPatch_lengths (h2 _ h1)
  rw [hgd2, hc _ hin, dataFactors_eq (lo := it.lo) hl.2 (by omega)]

end

theorem shiftL_back {a b x : List Int} (h1 : a.length = x.length) (h2 : b.length = x.length) :
    shiftL b a (shiftL a b x) = x := by
  unfold shiftL
  rw [subL_addL (by rw [subL_length (by omega)]; omega), addL_subL (by omega)]

end GA
