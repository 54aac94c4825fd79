import Verif.Lemmas.GPArray
import Verif.Lemmas.AddDot
import Verif.Spec.GPArray
import Verif.Props.C08

/-!
# C67: global pointer arrays return, element by element, the bytes that were last stored
-/

namespace GA
open Spec Model GP

variable {B : Type}

/-- every process of the grid has elements -/
def EveryProcOwns (A : RegArray) : Prop := ∀ p : Int, 0 ≤ p → p < gridSize A.nblock → ∃ x, OwnedBy A p x

/-- The state represents the value `val`: the recorded sizes are the lengths; the bytes of an assigned element are in the memory of the process that
owns it, at the recorded address; different elements do not overlap. -/
structure GPHolds (A : RegArray) (st : St B) (val : List Int → List B) : Prop where
  size : ∀ x, st.sz x = (val x).length
  owner : ∀ x, val x ≠ [] → OwnedBy A (st.pt x).proc x
  bytes : ∀ x, bytesAt (st.mem (st.pt x).proc) (st.pt x).addr (val x).length = val x
  apart : ∀ x y a, x ≠ y → (st.pt x).proc = (st.pt y).proc → Within (st.pt x).addr (val x).length a → ¬ Within (st.pt y).addr (val y).length a

/-! ## helpers -/

private theorem inArray_of_patch {dims lo hi x : List Int} (h : PatchOK dims lo hi) (hx : InPatch lo hi x) : InArray dims x := by
  obtain ⟨h1, h2, -⟩ := h
  induction dims generalizing lo hi x with
  | nil => cases lo <;> cases hi <;> cases x <;> simp_all [InArray, InPatch]
  | cons d ds ih =>
    match lo, hi, x, hx with
    | l :: lo, h :: hi, x :: xs, hx =>
      unfold InArray at *
      simp only [List.map_cons, InPatch] at *
      exact ⟨by omega, ih hx.2 h1.2 h2.2⟩
    | [], _, _, _ => simp [InArray, InPatch] at h1
    | _ :: _, [], _, _ => simp [InArray, InPatch] at h2
    | _ :: _, _ :: _, [], hx => simp [InPatch] at hx

theorem gp_owner_unique {A : RegArray} (hA : ArrOK A) {p q : Int} {x : List Int} (h1 : OwnedBy A p x) (h2 : OwnedBy A q x) : p = q := by
  have hp := (ownedBy_iff hA.ne hA.map).1 h1
  have hlt : p.toNat < gridSize A.nblock := by omega
  have hl := owns_length hA (digits_ok hlt)
  have hxl : x.length = A.dims.length := by rw [hp.2.length.1, hl.1]
  obtain ⟨a, b⟩ := C01_unique_owner A hA.ne hA.map _ (candOK_zero _) x hxl
  by_cases hx : InArray A.dims x
  · obtain ⟨r, _, _, _, _, hu⟩ := a hx
    rw [hu p h1, hu q h2]
  · exact absurd h1 ((b hx).2 p)

private theorem emptyBlock_owned {A : RegArray} {me : Int} {x : List Int} (h : OwnedBy A me x) : emptyBlock A me = false := by
  unfold emptyBlock
  unfold OwnedBy at h
  generalize (owns A me).1 = l at *
  generalize (owns A me).2 = u at *
  induction l generalizing u x with
  | nil => simp
  | cons a l ih =>
    match u, x, h with
    | b :: u, c :: x, h =>
      simp only [InPatch] at h
      simp only [List.zip_cons_cons, List.any_cons, ih u h.2, Bool.or_false, decide_eq_false_iff_not]
      omega
    | [], _, _ => simp

private theorem emptyBlock_ne {A : RegArray} (hA : ArrOK A) {me : Int} (h : emptyBlock A me = false) : ∃ x, OwnedBy A me x := by
  have hl : (owns A me).1.length = (owns A me).2.length := by
    unfold owns
    by_cases hp : me > (gridSize A.nblock : Int) - 1 ∨ me < 0
    · simp [hp]
    · have hlt : me.toNat < gridSize A.nblock := by omega
      have := owns_length hA (digits_ok hlt)
      simp only [hp, if_false, ownsLo_eq, ownsHi_eq, this]
  refine ⟨(owns A me).1, ?_⟩
  unfold emptyBlock at h
  unfold OwnedBy
  generalize (owns A me).1 = l at *
  generalize (owns A me).2 = u at *
  induction l generalizing u with
  | nil => cases u <;> simp_all [InPatch]
  | cons a l ih =>
    cases u with
    | nil => simp at hl
    | cons b u =>
      simp only [List.zip_cons_cons, List.any_cons, Bool.or_eq_false_iff, decide_eq_false_iff_not] at h
      exact ⟨by omega, ih u h.2 (by simpa using hl)⟩

/-- the pieces of a legal patch -/
private theorem pieces_spec {A : RegArray} (hA : ArrOK A) (hf : EveryProcOwns A) {cT cB : List Nat} (hT : CandOK A.nblock cT) (hB : CandOK A.nblock cB)
    {lo hi : List Int} (hp : PatchOK A.dims lo hi) :
    ∃ ps, locateRegion A cT cB lo hi = some ps ∧ (ps.all fun p => regionOK A.dims p.plo p.phi) = true ∧
      (∀ p ∈ ps, InPatch p.plo p.phi p.plo ∧ p.plo.length = lo.length ∧ ∀ x, InPatch p.plo p.phi x → InPatch lo hi x ∧ OwnedBy A p.proc x) ∧
      ∀ x, InPatch lo hi x → ∃ p ∈ ps, InPatch p.plo p.phi x := by
  obtain ⟨k1, k2⟩ := C08_locate_region A hA cT cB hT hB lo hi
  obtain ⟨ps, hps⟩ := k1.1 hp
  obtain ⟨_, k4⟩ := k2 ps hps
  obtain ⟨k5, _⟩ := locateRegion_spec hA.map hT hB hps
  have hne := pieces_ne hA.map hT hB (by
    intro c hc
    have hlt := undigits_lt hc
    obtain ⟨x, hx⟩ := hf (undigits A.nblock c : Nat) (by omega) (by exact_mod_cast hlt)
    refine ⟨x, ?_⟩
    unfold OwnedBy at hx
    rwa [owns_of_coord hc] at hx) hps
  have hin : ∀ p ∈ ps, ∀ x, InPatch p.plo p.phi x → InPatch lo hi x := by
    intro p hp x hx
    exact mem_box.1 (k5.mem_iff.1 (List.mem_flatMap.2 ⟨p, hp, mem_box.2 hx⟩))
  refine ⟨ps, hps, ?_, ?_, ?_⟩
  · rw [List.all_eq_true]
    intro p hp'
    have e := hne p hp'
    exact regionOK_iff.2 ⟨inArray_of_patch hp (hin p hp' _ e), inArray_of_patch hp (hin p hp' _ (inPatch_upper e)), e⟩
  · intro p hp'
    have e := hne p hp'
    exact ⟨e, (hin p hp' _ e).length.1, fun x hx => ⟨hin p hp' x hx, k4 p hp' x hx⟩⟩
  · intro x hx
    obtain ⟨p, hp', h⟩ := List.mem_flatMap.1 (k5.mem_iff.2 (mem_box.2 hx))
    exact ⟨p, hp', mem_box.1 h⟩

private theorem foldl_if {α β : Type} (f : β → α → β) (L : List (List Int)) (c : List Int → Bool) (g : List Int → α) (h : List Int → β → β)
    (h1 : ∀ x b, c x = true → f b (g x) = h x b) (h2 : ∀ x b, c x = false → h x b = b) (b : β) :
    (L.filterMap fun x => if c x then some (g x) else none).foldl f b = L.foldl (fun b x => h x b) b := by
  induction L generalizing b with
  | nil => rfl
  | cons x L ih =>
    rw [List.filterMap_cons]
    cases e : c x
    · simp [ih, h2 x b e]
    · simp [ih, h1 x b e]

private theorem memcpy_nil {n : Int} (hn : ¬ 0 < n) (src : Int → B) (s d : Int) (l : Int → B) : memcpy n src s d l = l := by
  funext a
  unfold memcpy
  rw [if_neg (by omega)]

private theorem mem_pieces {ps : List Piece} {e : Int × List Int} :
    e ∈ (ps.flatMap fun p => (box p.plo p.phi).map fun x => (p.proc, x)) ↔ ∃ p ∈ ps, p.proc = e.1 ∧ InPatch p.plo p.phi e.2 := by
  simp only [List.mem_flatMap, List.mem_map, mem_box]
  constructor
  · rintro ⟨p, hp, x, hx, rfl⟩; exact ⟨p, hp, rfl, hx⟩
  · rintro ⟨p, hp, h1, h2⟩; exact ⟨p, hp, e.2, h2, by rw [h1]⟩

/-- all transfers of a get -/
private theorem get_fold {ps : List Piece} {lo : List Int} (hlo : lo ≠ []) (hps : ∀ p ∈ ps, InPatch p.plo p.phi p.plo ∧ p.plo.length = lo.length) (st : St B)
    (ld ldSz : List Int) (bs bp : Int → Int) (loc : Int → B) :
    ps.foldl (fun l p => (descs st p.plo p.phi lo ld ldSz bs bp).foldl (fun l d => memcpy d.2.2 (st.mem p.proc) d.1 d.2.1 l) l) loc =
    (ps.flatMap fun p => (box p.plo p.phi).map fun x => (p.proc, x)).foldl
      (fun l e => memcpy (bs (bufPos lo ldSz e.2)) (st.mem e.1) (st.pt e.2).addr (bp (bufPos lo ld e.2)) l) loc := by
  rw [List.foldl_flatMap]
  induction ps generalizing loc with
  | nil => rfl
  | cons p ps ih =>
    rw [List.foldl_cons, List.foldl_cons, ← ih fun q hq => hps q (List.mem_cons_of_mem _ hq)]
    congr 1
    obtain ⟨h1, h2⟩ := hps p (List.mem_cons_self ..)
    rw [descs_eq st ld ldSz bs bp (by intro e; rw [e] at h2; exact hlo (List.length_eq_zero_iff.1 h2.symm)) h2 ⟨_, h1⟩, List.foldl_map]
    have := foldl_if (fun (l : Int → B) (d : Int × Int × Int) => memcpy d.2.2 (st.mem p.proc) d.1 d.2.1 l) (box p.plo p.phi)
      (fun x => decide (0 < bs (bufPos lo ldSz x))) (fun x => ((st.pt x).addr, bp (bufPos lo ld x), bs (bufPos lo ldSz x)))
      (fun x l => memcpy (bs (bufPos lo ldSz x)) (st.mem p.proc) (st.pt x).addr (bp (bufPos lo ld x)) l)
      (fun _ _ _ => rfl) (fun x b h => memcpy_nil (by simpa using h) ..) loc
    simpa using this

/-- all transfers of a put -/
private theorem put_fold {ps : List Piece} {lo : List Int} (hlo : lo ≠ []) (hps : ∀ p ∈ ps, InPatch p.plo p.phi p.plo ∧ p.plo.length = lo.length) (st : St B)
    (ld ldSz : List Int) (bs bp : Int → Int) (loc : Int → B) (mem : Int → Int → B) :
    ps.foldl (fun m p => (descs st p.plo p.phi lo ld ldSz bs bp).foldl (fun m d => upd m p.proc (memcpy d.2.2 loc d.2.1 d.1 (m p.proc))) m) mem =
    (ps.flatMap fun p => (box p.plo p.phi).map fun x => (p.proc, x)).foldl
      (fun m e => upd m e.1 (memcpy (bs (bufPos lo ldSz e.2)) loc (bp (bufPos lo ld e.2)) (st.pt e.2).addr (m e.1))) mem := by
  rw [List.foldl_flatMap]
  induction ps generalizing mem with
  | nil => rfl
  | cons p ps ih =>
    rw [List.foldl_cons, List.foldl_cons, ← ih fun q hq => hps q (List.mem_cons_of_mem _ hq)]
    congr 1
    obtain ⟨h1, h2⟩ := hps p (List.mem_cons_self ..)
    rw [descs_eq st ld ldSz bs bp (by intro e; rw [e] at h2; exact hlo (List.length_eq_zero_iff.1 h2.symm)) h2 ⟨_, h1⟩, List.foldl_map]
    have := foldl_if (fun (m : Int → Int → B) (d : Int × Int × Int) => upd m p.proc (memcpy d.2.2 loc d.2.1 d.1 (m p.proc))) (box p.plo p.phi)
      (fun x => decide (0 < bs (bufPos lo ldSz x))) (fun x => ((st.pt x).addr, bp (bufPos lo ld x), bs (bufPos lo ldSz x)))
      (fun x m => upd m p.proc (memcpy (bs (bufPos lo ldSz x)) loc (bp (bufPos lo ld x)) (st.pt x).addr (m p.proc)))
      (fun _ _ _ => rfl) (fun x m h => by
        have h' : ¬ 0 < bs (bufPos lo ldSz x) := by simpa using h
        simp only [memcpy_nil h']
        funext q
        simp only [upd]
        split <;> simp_all) mem
    simpa using this

private theorem bytesAt_ext {m m' : Int → B} {a a' : Int} {n : Nat} (h : ∀ k : Nat, k < n → m (a + k) = m' (a' + k)) : bytesAt m a n = bytesAt m' a' n := by
  unfold bytesAt
  apply List.map_congr_left
  intro k hk
  exact h k (List.mem_range.1 hk)

private theorem bytesAt_getD {m : Int → B} {a : Int} {n k : Nat} {v : List B} (h : bytesAt m a n = v) (hk : k < n) : v[k]? = some (m (a + k)) := by
  rw [← h]; simp [bytesAt, hk]

private theorem lo_ne {A : RegArray} (hA : ArrOK A) {lo hi : List Int} (hp : PatchOK A.dims lo hi) : lo ≠ [] := by
  intro e
  have := hp.1.length
  rw [e] at this
  exact hA.ne (List.length_eq_zero_iff.1 this.symm)

/-! ## get -/

private theorem gpGet_eq {A : RegArray} {cT cB : List Nat} {me : Int} {lo hi : List Int} {ps : List Piece} (hps : locateRegion A cT cB lo hi = some ps)
    (hall : (ps.all fun p => regionOK A.dims p.plo p.phi) = true) (he : emptyBlock A me = false) (st : St B) (b0 : Int) (ld ldSz : List Int) (setbuf : Bool)
    (loc : Int → B) (bp bs : Int → Int) :
    gpGet A cT cB me st lo hi b0 ld ldSz setbuf loc bp bs =
      (let bs1 := if setbuf then bs else arrGet st.sz lo hi ldSz bs
      let r := if setbuf then (bp, 0) else
        ptrLoop (edges lo hi).dropLast ld ldSz b0 bs1 (List.range (prodI (edges lo hi)).toNat) bp 0
      let loc1 := ps.foldl (fun l p => (descs st p.plo p.phi lo ld ldSz bs1 r.1).foldl
        (fun l d => memcpy d.2.2 (st.mem p.proc) d.1 d.2.1 l) l) loc
      some ⟨loc1, r.1, bs1, r.2⟩) := by
  unfold gpGet
  rw [he, hps]
  simp only [hall, Bool.not_true, Bool.false_eq_true, if_false]

/-- Transfers of a get, of elements `key i` with sizes `n i` at most the lengths and disjoint places `d i`: every place gets the first bytes, nothing
else is written. -/
theorem gp_get_bytes {α : Type} {A : RegArray} (hA : ArrOK A) {st : St B} {val : List Int → List B} (hv : GPHolds A st val) {S : α → Prop}
    {key : α → List Int} {n d : α → Int} {W : List (Int × α)} (hW : ∀ e ∈ W, S e.2 ∧ OwnedBy A e.1 (key e.2)) (hC : ∀ i, S i → ∃ q, (q, i) ∈ W)
    (hn : ∀ i, S i → 0 ≤ n i ∧ n i ≤ (val (key i)).length)
    (hd : ∀ i j a, S i → S j → i ≠ j → Within (d i) (n i) a → ¬ Within (d j) (n j) a) (loc : Int → B) :
    (∀ i, S i → bytesAt (W.foldl (fun l e => memcpy (n e.2) (st.mem e.1) (st.pt (key e.2)).addr (d e.2) l) loc) (d i) (n i).toNat =
      (val (key i)).take (n i).toNat) ∧
    ∀ a, (∀ i, S i → ¬ Within (d i) (n i) a) →
      W.foldl (fun l e => memcpy (n e.2) (st.mem e.1) (st.pt (key e.2)).addr (d e.2) l) loc a = loc a := by
  constructor
  · intro x hx
    obtain ⟨n0, n1⟩ := hn x hx
    have hb := hv.bytes (key x)
    have e : (val (key x)).take (n x).toNat = bytesAt (st.mem (st.pt (key x)).proc) (st.pt (key x)).addr (n x).toNat := by
      conv_lhs => rw [← hb]
      unfold bytesAt
      rw [← List.map_take, List.take_range, Nat.min_eq_left (by omega)]
    rw [e]
    apply bytesAt_ext
    intro k hk
    refine (foldl_memcpy W (fun e => n e.2) (fun e => (st.pt (key e.2)).addr) (fun e => d e.2) (fun e => st.mem e.1) loc _).2 _ ?_ ?_
    · intro e he h1 h2
      obtain ⟨w1, w2⟩ := hW e he
      have hex : e.2 = x := by
        by_contra hne
        exact hd e.2 x _ w1 hx hne ⟨h1, h2⟩ ⟨by omega, by omega⟩
      have hp : e.1 = (st.pt (key x)).proc := by
        rw [hex] at w2
        exact gp_owner_unique hA w2 (hv.owner (key x) (by intro h; rw [h] at n1; simp at n1; omega))
      rw [hex, hp]
      congr 1
      omega
    · obtain ⟨q, hq⟩ := hC x hx
      exact ⟨_, hq, by dsimp only; omega⟩
  · intro a ha
    exact (foldl_memcpy W (fun e => n e.2) (fun e => (st.pt (key e.2)).addr) (fun e => d e.2) (fun e => st.mem e.1) loc a).1
      fun e he => ha e.2 (hW e he).1

/-- **C67 (get).** On an array in which every process has elements, `GP_Get` of any legal patch, by any process of the grid: the size returned is the
number of bytes of the patch; for each element of the patch the list of sizes has its length and the list of places a place in the buffer where its bytes
are; nothing else changes in these lists, nor memory outside of the buffer. -/
theorem C67_get (A : RegArray) (hA : ArrOK A) (hf : EveryProcOwns A) (cT cB : List Nat) (hT : CandOK A.nblock cT) (hB : CandOK A.nblock cB)
    (me : Int) (h0 : 0 ≤ me) (h1 : me < gridSize A.nblock) (st : St B) (val : List Int → List B) (hv : GPHolds A st val)
    (lo hi ld ldSz : List Int) (hp : PatchOK A.dims lo hi) (hld : LdOK lo hi ld) (hls : LdOK lo hi ldSz) (b0 : Int) (loc : Int → B) (bp bs : Int → Int) :
    ∃ r, gpGet A cT cB me st lo hi b0 ld ldSz false loc bp bs = some r ∧
      r.size = patchSum lo hi (fun x => ((val x).length : Int)) ∧
      (∀ x, InPatch lo hi x →
        r.bs (bufPos lo ldSz x) = (val x).length ∧
        b0 ≤ r.bp (bufPos lo ld x) ∧ r.bp (bufPos lo ld x) + (val x).length ≤ b0 + r.size ∧
        bytesAt r.loc (r.bp (bufPos lo ld x)) (val x).length = val x) ∧
      (∀ o, (∀ x, InPatch lo hi x → bufPos lo ld x ≠ o) → r.bp o = bp o) ∧
      (∀ o, (∀ x, InPatch lo hi x → bufPos lo ldSz x ≠ o) → r.bs o = bs o) ∧
      ∀ a, ¬ Within b0 r.size a → r.loc a = loc a := by
  obtain ⟨ps, hps, hall, hpp, hcov⟩ := pieces_spec hA hf hT hB hp
  obtain ⟨y, hy⟩ := hf me h0 h1
  have hlo := lo_ne hA hp
  have hex : ∃ x, InPatch lo hi x := ⟨lo, hp.2.2⟩
  have hbs : ∀ x, InPatch lo hi x → arrGet st.sz lo hi ldSz bs (bufPos lo ldSz x) = (val x).length := fun x hx => by rw [arrGet_in _ _ hls hx, hv.size]
  obtain ⟨p1, p2, p3, p4, p5⟩ := placeLoop_spec (b0 := b0) (ldSz := ldSz) (bs := arrGet st.sz lo hi ldSz bs) hld (box lo hi) (fun x hx => mem_box.1 hx)
    (nodup_box lo hi) (fun x hx => by rw [hbs x (mem_box.1 hx)]; omega) bp 0
  have hget := gpGet_eq hps hall (emptyBlock_owned hy) st b0 ld ldSz false loc bp bs
  refine ⟨_, hget, ?_⟩
  · simp only [Bool.false_eq_true, if_false]
    rw [ptrLoop_eq hlo hex, get_fold hlo (fun p hp => ⟨(hpp p hp).1, (hpp p hp).2.1⟩)]
    generalize placeLoop lo ld ldSz b0 (arrGet st.sz lo hi ldSz bs) (box lo hi) bp 0 = r at *
    generalize hbs' : arrGet st.sz lo hi ldSz bs = bs' at *
    obtain ⟨g1, g2⟩ := gp_get_bytes hA hv (S := InPatch lo hi) (key := id) (n := fun x => bs' (bufPos lo ldSz x)) (d := fun x => r.1 (bufPos lo ld x))
      (W := ps.flatMap fun p => (box p.plo p.phi).map fun x => (p.proc, x))
      (fun e he => by obtain ⟨p, hp, e1, e2⟩ := mem_pieces.1 he; rw [← e1]; exact (hpp p hp).2.2 _ e2)
      (fun x hx => by obtain ⟨p, hp, e⟩ := hcov x hx; exact ⟨p.proc, mem_pieces.2 ⟨p, hp, rfl, e⟩⟩)
      (fun x hx => by simp only [hbs x hx, id_eq]; omega)
      (fun x y a hx hy hxy ha hb => by
        have := p5 x (mem_box.2 hx) y (mem_box.2 hy) hxy
        unfold Within at ha hb
        omega) loc
    refine ⟨?_, ?_, ?_, ?_, ?_⟩
    · rw [p1, patchSum_eq, Int.zero_add]
      congr 1
      exact List.map_congr_left fun x hx => hbs x (mem_box.1 hx)
    · intro x hx
      have e1 := hbs x hx
      have e2 := p4 x (mem_box.2 hx)
      have e3 := g1 x hx
      simp only [e1] at e2 e3
      refine ⟨e1, by omega, by omega, ?_⟩
      simpa using e3
    · exact fun o ho => p3 o fun x hx => ho x (mem_box.1 hx)
    · intro o ho
      rw [← hbs']
      exact arrGet_out _ _ _ hex ho
    · intro a ha
      refine g2 a fun x hx hw => ha ?_
      have := p4 x (mem_box.2 hx)
      unfold Within at hw ⊢
      omega

/-- **C67 (get to given places).** With places and sizes given by the caller, the places disjoint and no size larger than the element: each place gets the
first bytes of its element, and nothing else is written. The size returned is 0. -/
theorem C67_get_given (A : RegArray) (hA : ArrOK A) (hf : EveryProcOwns A) (cT cB : List Nat) (hT : CandOK A.nblock cT) (hB : CandOK A.nblock cB)
    (me : Int) (h0 : 0 ≤ me) (h1 : me < gridSize A.nblock) (st : St B) (val : List Int → List B) (hv : GPHolds A st val)
    (lo hi ld ldSz : List Int) (hp : PatchOK A.dims lo hi) (b0 : Int) (loc : Int → B) (bp bs : Int → Int)
    (hn : ∀ x, InPatch lo hi x → 0 ≤ bs (bufPos lo ldSz x) ∧ bs (bufPos lo ldSz x) ≤ (val x).length)
    (hd : ∀ x y a, InPatch lo hi x → InPatch lo hi y → x ≠ y → Within (bp (bufPos lo ld x)) (bs (bufPos lo ldSz x)) a →
      ¬ Within (bp (bufPos lo ld y)) (bs (bufPos lo ldSz y)) a) :
    ∃ r, gpGet A cT cB me st lo hi b0 ld ldSz true loc bp bs = some r ∧ r.size = 0 ∧ r.bp = bp ∧ r.bs = bs ∧
      (∀ x, InPatch lo hi x →
        bytesAt r.loc (bp (bufPos lo ld x)) (bs (bufPos lo ldSz x)).toNat = (val x).take (bs (bufPos lo ldSz x)).toNat) ∧
      ∀ a, (∀ x, InPatch lo hi x → ¬ Within (bp (bufPos lo ld x)) (bs (bufPos lo ldSz x)) a) → r.loc a = loc a := by
  obtain ⟨ps, hps, hall, hpp, hcov⟩ := pieces_spec hA hf hT hB hp
  obtain ⟨y, hy⟩ := hf me h0 h1
  have hlo := lo_ne hA hp
  have hget := gpGet_eq hps hall (emptyBlock_owned hy) st b0 ld ldSz true loc bp bs
  refine ⟨_, hget, ?_⟩
  · simp only [if_true]
    rw [get_fold hlo (fun p hp => ⟨(hpp p hp).1, (hpp p hp).2.1⟩)]
    exact ⟨trivial, trivial, trivial, gp_get_bytes hA hv (S := InPatch lo hi) (key := id) (n := fun x => bs (bufPos lo ldSz x))
      (d := fun x => bp (bufPos lo ld x))
      (fun e he => by obtain ⟨p, hp, e1, e2⟩ := mem_pieces.1 he; rw [← e1]; exact (hpp p hp).2.2 _ e2)
      (fun x hx => by obtain ⟨p, hp, e⟩ := hcov x hx; exact ⟨p.proc, mem_pieces.2 ⟨p, hp, rfl, e⟩⟩) hn hd loc⟩


/-! ## put -/

private theorem overwrite_bytes {new old : List B} {m : Int → B} {a : Int} (hl : new.length ≤ old.length)
    (h1 : ∀ k, k < new.length → new[k]? = some (m (a + k))) (h2 : ∀ k, new.length ≤ k → k < old.length → old[k]? = some (m (a + k))) :
    bytesAt m a (overwrite new old).length = overwrite new old := by
  have hlen : (overwrite new old).length = old.length := by simp [overwrite]; omega
  rw [hlen]
  apply List.ext_getElem?
  intro k
  by_cases hk : k < old.length
  · have e : (bytesAt m a old.length)[k]? = some (m (a + k)) := by simp [bytesAt, hk]
    rw [e]
    unfold overwrite
    by_cases hn : k < new.length
    · rw [List.getElem?_append_left hn, h1 k hn]
    · rw [List.getElem?_append_right (by omega), List.getElem?_drop, ← h2 k (by omega) hk]
      congr 1
      omega
  · rw [List.getElem?_eq_none (by simp [bytesAt]; omega), List.getElem?_eq_none (by omega)]

/-- Transfers of a put, to elements `x` of a set `S`: the first `n x` bytes are replaced by those at address `d x`. -/
theorem gp_put_bytes {A : RegArray} (hA : ArrOK A) {st : St B} {val : List Int → List B} (hv : GPHolds A st val) {S : List Int → Prop} [DecidablePred S]
    {n d : List Int → Int} {W : List (Int × List Int)} (hW : ∀ e ∈ W, S e.2 ∧ OwnedBy A e.1 e.2) (hC : ∀ x, S x → ∃ q, (q, x) ∈ W)
    (hn : ∀ x, S x → 0 ≤ n x ∧ n x ≤ (val x).length) (loc : Int → B) :
    GPHolds A { st with mem := W.foldl (fun m e => upd m e.1 (memcpy (n e.2) loc (d e.2) (st.pt e.2).addr (m e.1))) st.mem }
      (fun x => if S x then overwrite (bytesAt loc (d x) (n x).toNat) (val x) else val x) ∧
    ∀ q a, (∀ x, S x → (st.pt x).proc = q → ¬ Within (st.pt x).addr (n x) a) →
      W.foldl (fun m e => upd m e.1 (memcpy (n e.2) loc (d e.2) (st.pt e.2).addr (m e.1))) st.mem q a = st.mem q a := by
  generalize hm : W.foldl (fun m e => upd m e.1 (memcpy (n e.2) loc (d e.2) (st.pt e.2).addr (m e.1))) st.mem = mem
  have hf := fun q a => foldl_memcpy2 W (fun e => n e.2) (fun e => d e.2) (fun e => (st.pt e.2).addr) (fun e => e.1) loc st.mem q a
  simp only [hm] at hf
  have hproc : ∀ e ∈ W, 0 < n e.2 → e.1 = (st.pt e.2).proc := by
    intro e he h
    obtain ⟨w1, w2⟩ := hW e he
    have := (hn e.2 w1).2
    exact gp_owner_unique hA w2 (hv.owner e.2 (by intro h'; rw [h'] at this; simp at this; omega))
  have hlen : ∀ x, (if S x then overwrite (bytesAt loc (d x) (n x).toNat) (val x) else val x).length
      = (val x).length := by
    intro x
    by_cases hx : S x
    · have := hn x hx
      simp [hx, overwrite, bytesAt]; omega
    · simp [hx]
  -- the byte at address `a` of an element `x` is written by a transfer for `x` only
  have hmine : ∀ x a, Within (st.pt x).addr (val x).length a → ∀ e ∈ W, e.1 = (st.pt x).proc → (st.pt e.2).addr ≤ a → a < (st.pt e.2).addr + n e.2 →
      e.2 = x := by
    intro x a ha e he h1 h2 h3
    by_contra hne
    have := (hn e.2 (hW e he).1).2
    exact hv.apart e.2 x a hne (by rw [← hproc e he (by omega), h1]) ⟨h2, by omega⟩ ha
  refine ⟨⟨?_, ?_, ?_, ?_⟩, ?_⟩
  · intro x; rw [hlen]; exact hv.size x
  · intro x hx
    refine hv.owner x fun h => hx ?_
    exact List.length_eq_zero_iff.1 ((hlen x).trans (by rw [h]; rfl))
  · intro x
    dsimp only
    by_cases hx : S x
    · simp only [hx, if_true]
      obtain ⟨n0, n1⟩ := hn x hx
      apply overwrite_bytes
      · simp [bytesAt]; omega
      · intro k hk
        have hk' : k < (n x).toNat := by simpa [bytesAt] using hk
        rw [bytesAt_getD rfl hk']
        congr 1
        symm
        apply (hf _ _).2
        · intro e he h1 h2 h3
          have : e.2 = x := hmine x _ ⟨by omega, by omega⟩ e he h1 h2 h3
          rw [this]
          congr 1
          omega
        · obtain ⟨q, hq⟩ := hC x hx
          exact ⟨_, hq, hproc _ hq (by dsimp only; omega), by dsimp only; omega, by dsimp only; omega⟩
      · intro k hk hk2
        have hk' : (n x).toNat ≤ k := by simpa [bytesAt] using hk
        rw [bytesAt_getD (hv.bytes x) hk2]
        congr 1
        symm
        apply (hf _ _).1
        rintro e he ⟨h1, h2, h3⟩
        have : e.2 = x := hmine x _ ⟨by omega, by omega⟩ e he h1 h2 h3
        rw [this] at h3
        omega
    · simp only [hx, if_false]
      conv_rhs => rw [← hv.bytes x]
      apply bytesAt_ext
      intro k hk
      apply (hf _ _).1
      rintro e he ⟨h1, h2, h3⟩
      have : e.2 = x := hmine x _ ⟨by omega, by omega⟩ e he h1 h2 h3
      rw [← this] at hx
      exact hx (hW e he).1
  · intro x y a hxy h1 h2
    rw [hlen] at h2 ⊢
    exact hv.apart x y a hxy h1 h2
  · intro q a h
    apply (hf q a).1
    rintro e he ⟨h1, h2, h3⟩
    exact h e.2 (hW e he).1 (by rw [← hproc e he (by omega), h1]) ⟨h2, h3⟩

private theorem gpPut_eq {A : RegArray} {cT cB : List Nat} {me : Int} {lo hi : List Int} {ps : List Piece} (hps : locateRegion A cT cB lo hi = some ps)
    (hall : (ps.all fun p => regionOK A.dims p.plo p.phi) = true) (he : emptyBlock A me = false) (st : St B) (ld ldSz : List Int) (check : Bool)
    (loc : Int → B) (bp bs : Int → Int) :
    gpPut A cT cB me st lo hi ld ldSz check loc bp bs =
      if check && !sizesEqual st lo hi bs then none
      else
        some { st with mem := ps.foldl (fun m p => (descs st p.plo p.phi lo ld ldSz bs bp).foldl
          (fun m d => upd m p.proc (memcpy d.2.2 loc d.2.1 d.1 (m p.proc))) m) st.mem } := by
  unfold gpPut
  rw [he, hps]
  simp only [hall, Bool.not_true, Bool.false_eq_true, if_false]

/-- **C67 (put).** `GP_Put` of any legal patch with sizes that are not larger than the elements: afterwards every element of the patch has the given bytes
in front of the rest of its old ones, no other element is changed, and neither is any byte that does not belong to one of the elements of the patch. -/
theorem C67_put (A : RegArray) (hA : ArrOK A) (hf : EveryProcOwns A) (cT cB : List Nat) (hT : CandOK A.nblock cT) (hB : CandOK A.nblock cB)
    (me : Int) (h0 : 0 ≤ me) (h1 : me < gridSize A.nblock) (st : St B) (val : List Int → List B) (hv : GPHolds A st val)
    (lo hi ld ldSz : List Int) (hp : PatchOK A.dims lo hi) (loc : Int → B) (bp bs : Int → Int)
    (hn : ∀ x, InPatch lo hi x → 0 ≤ bs (bufPos lo ldSz x) ∧ bs (bufPos lo ldSz x) ≤ (val x).length) :
    ∃ st', gpPut A cT cB me st lo hi ld ldSz false loc bp bs = some st' ∧
      GPHolds A st' (fun x => if InPatch lo hi x then overwrite (bytesAt loc (bp (bufPos lo ld x)) (bs (bufPos lo ldSz x)).toNat) (val x) else val x) ∧
      st'.sz = st.sz ∧ st'.pt = st.pt ∧
      ∀ q a, (∀ x, InPatch lo hi x → (st.pt x).proc = q → ¬ Within (st.pt x).addr (bs (bufPos lo ldSz x)) a) → st'.mem q a = st.mem q a := by
  obtain ⟨ps, hps, hall, hpp, hcov⟩ := pieces_spec hA hf hT hB hp
  obtain ⟨y, hy⟩ := hf me h0 h1
  have hlo := lo_ne hA hp
  refine ⟨_, gpPut_eq hps hall (emptyBlock_owned hy) st ld ldSz false loc bp bs, ?_⟩
  simp only [Bool.false_and, Bool.false_eq_true, if_false]
  rw [put_fold hlo (fun p hp => ⟨(hpp p hp).1, (hpp p hp).2.1⟩)]
  obtain ⟨a, b⟩ := gp_put_bytes hA hv (S := InPatch lo hi) (n := fun x => bs (bufPos lo ldSz x)) (d := fun x => bp (bufPos lo ld x))
    (W := ps.flatMap fun p => (box p.plo p.phi).map fun x => (p.proc, x))
    (fun e he => by obtain ⟨p, hp, e1, e2⟩ := mem_pieces.1 he; rw [← e1]; exact (hpp p hp).2.2 _ e2)
    (fun x hx => by obtain ⟨p, hp, e⟩ := hcov x hx; exact ⟨p.proc, mem_pieces.2 ⟨p, hp, rfl, e⟩⟩) hn loc
  exact ⟨a, trivial, trivial, b⟩

private theorem tightLd_eq (lo hi : List Int) : tightLd lo hi = (edges lo hi).dropLast := by
  induction lo generalizing hi with
  | nil => cases hi <;> simp [tightLd, edges]
  | cons l lo ih =>
    match lo, hi with
    | [], [] => simp [tightLd, edges]
    | _ :: _, [] => simp [tightLd, edges]
    | [], h :: hi => simp [tightLd, edges]
    | l' :: lo, [h] => simp [tightLd, edges]
    | l' :: lo, h :: h' :: hi =>
      simp only [tightLd, ih]
      simp [edges]

private theorem offset_elemIndex (ext : List Int) (hpos : ∀ d ∈ ext, 0 < d) (j : Int) : offset ext (elemIndex ext j) = j := by
  induction ext generalizing j with
  | nil => simp [elemIndex, offset]
  | cons d ext ih =>
    have hd := hpos d (List.mem_cons_self ..)
    simp only [elemIndex, offset]
    rw [ih fun e he => hpos e (List.mem_cons_of_mem _ he)]
    have : d ∣ j - j % d := Int.dvd_self_sub_emod
    rw [Int.ediv_mul_cancel this]
    omega

private theorem gpEdges_pos {lo hi x : List Int} (h : InPatch lo hi x) : ∀ d ∈ edges lo hi, 0 < d := by
  induction lo generalizing hi x with
  | nil => cases hi <;> simp [edges]
  | cons l lo ih =>
    match hi, x, h with
    | h :: hi, x :: xs, hx =>
      simp only [InPatch] at hx
      simp only [edges, List.mem_cons, forall_eq_or_imp]
      exact ⟨by omega, ih hx.2⟩
    | [], _, _ => simp [edges]

/-- positions in a buffer without gaps are numbered `0, 1, 2, ..` -/
private theorem gpBox_tight {lo hi : List Int} (hne : lo ≠ []) (h : InPatch lo hi lo) :
    (List.range (prodI (edges lo hi)).toNat).map (fun j : Nat => (j : Int)) = (box lo hi).map (bufPos lo (tightLd lo hi)) := by
  have e := congrArg (List.map (offset (edges lo hi).dropLast)) (elemIndex_range hne ⟨lo, h⟩)
  rw [List.map_map, List.map_map] at e
  rw [tightLd_eq]
  have e1 : (List.range (prodI (edges lo hi)).toNat).map (offset (edges lo hi).dropLast ∘ fun j : Nat => elemIndex (edges lo hi).dropLast j) =
      (List.range (prodI (edges lo hi)).toNat).map (fun j : Nat => (j : Int)) := by
    apply List.map_congr_left
    intro j _
    exact offset_elemIndex _ (fun d hd => gpEdges_pos h d (List.dropLast_subset _ hd)) _
  rw [← e1, e]
  apply List.map_congr_left
  intro x hx
  exact offset_rel _ (mem_box.1 hx).length.1

private theorem bufPos_edges {lo hi x : List Int} (h : InPatch lo hi x) : bufPos lo (edges lo hi) x = bufPos lo (edges lo hi).dropLast x := by
  induction lo generalizing hi x with
  | nil => cases hi <;> cases x <;> simp_all [bufPos, InPatch, edges]
  | cons l lo ih =>
    match hi, x, h with
    | h :: hi, x :: xs, hx =>
      simp only [InPatch] at hx
      cases lo with
      | nil => cases hi <;> cases xs <;> simp_all [InPatch, edges, bufPos]
      | cons l' lo =>
        match hi, hx with
        | h' :: hi, hx =>
          have := ih hx.2
          simp only [edges, bufPos, List.dropLast_cons₂] at this ⊢
          rw [this]
        | [], hx => cases xs <;> simp [InPatch] at hx

private theorem sizesEqual_iff {A : RegArray} {st : St B} {val : List Int → List B} (hv : GPHolds A st val) {lo hi : List Int} (hne : lo ≠ [])
    (h : InPatch lo hi lo) (bs : Int → Int) :
    sizesEqual st lo hi bs = true ↔ ∀ x, InPatch lo hi x → bs (bufPos lo (tightLd lo hi) x) = (val x).length := by
  have e : arrGet st.sz lo hi (edges lo hi) (fun _ => 0) = arrGet st.sz lo hi (edges lo hi).dropLast (fun _ => 0) := by
    rw [arrGet_eq _ _ _ ⟨lo, h⟩, arrGet_eq _ _ _ ⟨lo, h⟩]
    have : ∀ (L : List (List Int)) (b : Int → Int), (∀ x ∈ L, InPatch lo hi x) →
        L.foldl (fun b x => upd b (bufPos lo (edges lo hi) x) (st.sz x)) b = L.foldl (fun b x => upd b (bufPos lo (edges lo hi).dropLast x) (st.sz x)) b := by
      intro L
      induction L with
      | nil => intros; rfl
      | cons a L ih =>
        intro b hL
        rw [List.foldl_cons, List.foldl_cons, bufPos_edges (hL a (List.mem_cons_self ..)), ih _ fun x hx => hL x (List.mem_cons_of_mem _ hx)]
    exact this _ _ fun x hx => mem_box.1 hx
  unfold sizesEqual
  simp only [e]
  have key : ((List.range (prodI (edges lo hi)).toNat).all fun i : Nat => decide (arrGet st.sz lo hi (edges lo hi).dropLast (fun _ => 0) i = bs i)) =
      ((List.range (prodI (edges lo hi)).toNat).map (fun j : Nat => (j : Int))).all fun i =>
        decide (arrGet st.sz lo hi (edges lo hi).dropLast (fun _ => 0) i = bs i) := by
    rw [List.all_map]; rfl
  rw [key, gpBox_tight hne h, List.all_map, List.all_eq_true, tightLd_eq]
  constructor
  · intro k x hx
    have := k x (mem_box.2 hx)
    simp only [Function.comp_apply, decide_eq_true_eq] at this
    rw [← this, arrGet_in _ _ (ldOK_tight hne h.length.2) hx, hv.size]
  · intro k x hx
    simp only [Function.comp_apply, decide_eq_true_eq]
    rw [k x (mem_box.1 hx), arrGet_in _ _ (ldOK_tight hne h.length.2) (mem_box.1 hx), hv.size]

/-- **C67 (put with comparison of sizes), partial.** With the list of sizes stored without gaps the call is refused exactly if a size differs from the
length of the element. For other leading dimensions see `C67_check_ignores_ld`. -/
theorem C67_put_checked_partial (A : RegArray) (hA : ArrOK A) (hf : EveryProcOwns A) (cT cB : List Nat) (hT : CandOK A.nblock cT) (hB : CandOK A.nblock cB)
    (me : Int) (h0 : 0 ≤ me) (h1 : me < gridSize A.nblock) (st : St B) (val : List Int → List B) (hv : GPHolds A st val)
    (lo hi ld : List Int) (hp : PatchOK A.dims lo hi) (loc : Int → B) (bp bs : Int → Int) :
    (gpPut A cT cB me st lo hi ld (tightLd lo hi) true loc bp bs = none ↔ ∃ x, InPatch lo hi x ∧ bs (bufPos lo (tightLd lo hi) x) ≠ (val x).length) ∧
    ∀ st', gpPut A cT cB me st lo hi ld (tightLd lo hi) true loc bp bs = some st' →
      gpPut A cT cB me st lo hi ld (tightLd lo hi) false loc bp bs = some st' := by
  obtain ⟨ps, hps, hall, -, -⟩ := pieces_spec hA hf hT hB hp
  obtain ⟨y, hy⟩ := hf me h0 h1
  have hs := sizesEqual_iff hv (lo_ne hA hp) hp.2.2 bs
  rw [gpPut_eq hps hall (emptyBlock_owned hy), gpPut_eq hps hall (emptyBlock_owned hy)]
  cases e : sizesEqual st lo hi bs
  · simp only [Bool.not_false, Bool.and_self, if_true, true_iff, reduceCtorEq, false_implies, implies_true, and_true]
    by_contra hc
    rw [e] at hs
    exact absurd (hs.2 fun x hx => by by_contra hne; exact hc ⟨x, hx, hne⟩) (by simp)
  · simp only [Bool.not_true, Bool.and_false, Bool.false_eq_true, if_false, reduceCtorEq, false_iff, not_exists, not_and, not_not]
    exact ⟨fun x hx => hs.1 e x hx, fun st' h => h⟩

/-- **C67 (size).** `GP_Get_size` returns the number of bytes of the patch (sizes of 4 bytes; for 8 bytes see `C67_size8_wrong`). -/
theorem C67_get_size_partial (A : RegArray) (hA : ArrOK A) (hf : EveryProcOwns A) (cT cB : List Nat) (hT : CandOK A.nblock cT) (hB : CandOK A.nblock cB)
    (me : Int) (h0 : 0 ≤ me) (h1 : me < gridSize A.nblock) (st : St B) (val : List Int → List B) (hv : GPHolds A st val)
    (lo hi : List Int) (hp : PatchOK A.dims lo hi) :
    gpGetSize A cT cB me st lo hi = some (patchSum lo hi fun x => ((val x).length : Int)) := by
  obtain ⟨ps, hps, -, -, -⟩ := pieces_spec hA hf hT hB hp
  obtain ⟨y, hy⟩ := hf me h0 h1
  unfold gpGetSize
  rw [emptyBlock_owned hy, hps]
  simp only [Bool.false_eq_true, if_false, Option.some.injEq]
  have key : ((List.range (prodI (edges lo hi)).toNat).map fun i : Nat => arrGet st.sz lo hi (edges lo hi).dropLast (fun _ => 0) i) =
      ((List.range (prodI (edges lo hi)).toNat).map (fun j : Nat => (j : Int))).map (arrGet st.sz lo hi (edges lo hi).dropLast (fun _ => 0)) := by
    rw [List.map_map]; rfl
  rw [key, gpBox_tight (lo_ne hA hp) hp.2.2, List.map_map, patchSum_eq, tightLd_eq]
  congr 1
  apply List.map_congr_left
  intro x hx
  simp only [Function.comp_apply]
  rw [arrGet_in _ _ (ldOK_tight (lo_ne hA hp) hp.2.2.length.2) (mem_box.1 hx), hv.size]

/-- **C67 (refusals).** Calls with an illegal patch are refused. So is, although the patch is legal, every call by a process that has no elements. -/
theorem C67_refused (A : RegArray) (hA : ArrOK A) (cT cB : List Nat) (me : Int) (st : St B) (lo hi ld ldSz : List Int) (b0 : Int) (setbuf check : Bool)
    (loc : Int → B) (bp bs : Int → Int) (h : ¬ PatchOK A.dims lo hi ∨ ∀ x, ¬ OwnedBy A me x) :
    gpGet A cT cB me st lo hi b0 ld ldSz setbuf loc bp bs = none ∧ gpPut A cT cB me st lo hi ld ldSz check loc bp bs = none ∧
    gpGetSize A cT cB me st lo hi = none := by
  by_cases he : emptyBlock A me = true
  · simp [gpGet, gpPut, gpGetSize, he]
  · rcases h with h | h
    · have hr : locateRegion A cT cB lo hi = none := by
        unfold locateRegion
        rw [if_neg fun hr => h (regionOK_iff.1 hr)]
      simp [gpGet, gpPut, gpGetSize, hr]
    · obtain ⟨x, hx⟩ := emptyBlock_ne hA (by simpa using he)
      exact absurd hx (h x)


/-! ## histories -/

private theorem inPatch_of_check {x l h : List Int} (hl : x.length = l.length) (hh : h.length = l.length) (hc : checkSubscript x l h = true) : InPatch l h x := by
  induction l generalizing x h with
  | nil => cases x <;> cases h <;> simp_all [InPatch]
  | cons a l ih =>
    match x, h, hl, hh with
    | x :: xs, b :: h, hl, hh =>
      simp only [checkSubscript, Bool.and_eq_true, decide_eq_true_eq] at hc
      exact ⟨by omega, ih (by simpa using hl) (by simpa using hh) hc.2⟩

theorem gp_owned_of_check {A : RegArray} (hA : ArrOK A) {me : Int} {x : List Int} (hl : x.length = A.dims.length)
    (hc : checkSubscript x (owns A me).1 (owns A me).2 = true) : OwnedBy A me x := by
  have h : (owns A me).1.length = A.dims.length ∧ (owns A me).2.length = A.dims.length := by
    unfold owns
    by_cases hp : me > (gridSize A.nblock : Int) - 1 ∨ me < 0
    · simp [hp, hA.map.length]
    · have hlt : me.toNat < gridSize A.nblock := by omega
      have := owns_length hA (digits_ok hlt)
      simp only [hp, if_false, ownsLo_eq, ownsHi_eq, this, and_self]
  exact inPatch_of_check (by rw [hl, h.1]) (by rw [h.1, h.2]) hc

/-- one process sets its elements to zero -/
private theorem memzero1_spec {zero : B} {A : RegArray} (hA : ArrOK A) {st st' : St B} {p : Nat} (h : memzero1 zero A st p = some st') :
    st'.sz = st.sz ∧ st'.pt = st.pt ∧
    ∀ (q a : Int), ((∃ x, OwnedBy A p x ∧ q = p ∧ Within (st.pt x).addr (st.sz x) a) → st'.mem q a = zero) ∧
      ((¬ ∃ x, OwnedBy A p x ∧ q = p ∧ Within (st.pt x).addr (st.sz x) a) → st'.mem q a = st.mem q a) := by
  unfold memzero1 at h
  cases e : emptyBlock A p
  · obtain ⟨y, hy⟩ := emptyBlock_ne hA e
    simp only [e, Bool.false_eq_true, if_false, Option.some.injEq] at h
    have hne : (owns A p).1 ≠ [] := by
      intro e'
      have := (ownedBy_iff hA.ne hA.map).1 hy
      have hlt : (p : Int).toNat < gridSize A.nblock := by omega
      have hl := owns_length hA (digits_ok hlt)
      have h2 := hy.length
      rw [e'] at h2
      have h3 := this.2.length.1
      rw [h2.1, hl.1] at h3
      exact hA.ne (List.length_eq_zero_iff.1 h3.symm)
    have key : (List.range (prodI (edges (owns A p).1 (owns A p).2)).toNat).foldl (fun m (i : Nat) =>
        upd m (p : Int) (memcpy (st.sz (shift (elemIndex (edges (owns A p).1 (owns A p).2).dropLast i) (owns A p).1 ((owns A p).1.map fun _ => 0)))
          (fun _ => zero) 0 (st.pt (shift (elemIndex (edges (owns A p).1 (owns A p).2).dropLast i) (owns A p).1 ((owns A p).1.map fun _ => 0))).addr (m p))) st.mem =
        (box (owns A p).1 (owns A p).2).foldl (fun m x => upd m (p : Int) (memcpy (st.sz x) (fun _ => zero) 0 (st.pt x).addr (m p))) st.mem := by
      have e1 := elemIndex_range hne ⟨y, hy⟩
      have e2 := List.foldl_map (f := fun i : Nat => elemIndex (edges (owns A p).1 (owns A p).2).dropLast i)
        (g := fun (m : Int → Int → B) r => upd m (p : Int) (memcpy (st.sz (shift r (owns A p).1 ((owns A p).1.map fun _ => 0)))
          (fun _ => zero) 0 (st.pt (shift r (owns A p).1 ((owns A p).1.map fun _ => 0))).addr (m p)))
        (l := List.range (prodI (edges (owns A p).1 (owns A p).2)).toNat) (init := st.mem)
      rw [← e2, e1, List.foldl_map]
      have : ∀ (L : List (List Int)) (m : Int → Int → B), (∀ x ∈ L, x.length = (owns A p).1.length) →
          L.foldl (fun m x => upd m (p : Int) (memcpy (st.sz (shift (rel x (owns A p).1) (owns A p).1 ((owns A p).1.map fun _ => 0)))
            (fun _ => zero) 0 (st.pt (shift (rel x (owns A p).1) (owns A p).1 ((owns A p).1.map fun _ => 0))).addr (m p))) m =
          L.foldl (fun m x => upd m (p : Int) (memcpy (st.sz x) (fun _ => zero) 0 (st.pt x).addr (m p))) m := by
        intro L
        induction L with
        | nil => intros; rfl
        | cons a L ih =>
          intro m hL
          rw [List.foldl_cons, List.foldl_cons, shift_zero (hL a (List.mem_cons_self ..)), ih _ fun x hx => hL x (List.mem_cons_of_mem _ hx)]
      exact this _ _ fun x hx => (mem_box.1 hx).length.1
    rw [key] at h
    subst h
    refine ⟨rfl, rfl, fun q a => ?_⟩
    have hf := foldl_memcpy2 (box (owns A p).1 (owns A p).2) st.sz (fun _ => 0) (fun x => (st.pt x).addr) (fun _ => (p : Int)) (fun _ => zero) st.mem q a
    constructor
    · rintro ⟨x, h1, h2, h3⟩
      exact hf.2 zero (fun _ _ _ _ _ => rfl) ⟨x, mem_box.2 h1, h2.symm, h3.1, h3.2⟩
    · intro hno
      refine hf.1 fun x hx => ?_
      rintro ⟨h1, h2, h3⟩
      exact hno ⟨x, mem_box.1 hx, h1.symm, h2, h3⟩
  · simp [e] at h

private theorem memzero_spec {zero : B} {A : RegArray} (hA : ArrOK A) {ps : List Nat} {st st' : St B} (h : memzero zero A ps st = some st') :
    st'.sz = st.sz ∧ st'.pt = st.pt ∧
    ∀ (q a : Int), ((∃ p ∈ ps, ∃ x, OwnedBy A p x ∧ q = ((p : Nat) : Int) ∧ Within (st.pt x).addr (st.sz x) a) → st'.mem q a = zero) ∧
      ((¬ ∃ p ∈ ps, ∃ x, OwnedBy A p x ∧ q = ((p : Nat) : Int) ∧ Within (st.pt x).addr (st.sz x) a) → st'.mem q a = st.mem q a) := by
  induction ps generalizing st with
  | nil => simp only [memzero, Option.some.injEq] at h; subst h; simp
  | cons p ps ih =>
    simp only [memzero] at h
    cases e : memzero1 zero A st p with
    | none => rw [e] at h; simp at h
    | some st1 =>
      rw [e] at h
      obtain ⟨a1, a2, a3⟩ := memzero1_spec hA e
      obtain ⟨b1, b2, b3⟩ := ih h
      refine ⟨b1.trans a1, b2.trans a2, fun q a => ?_⟩
      obtain ⟨c1, c2⟩ := b3 q a
      obtain ⟨d1, d2⟩ := a3 q a
      rw [a1, a2] at c1 c2
      by_cases hps : ∃ p ∈ ps, ∃ x, OwnedBy A p x ∧ q = ((p : Nat) : Int) ∧ Within (st.pt x).addr (st.sz x) a
      · refine ⟨fun _ => c1 hps, fun hno => absurd ?_ hno⟩
        obtain ⟨p', h1, h2⟩ := hps
        exact ⟨p', List.mem_cons_of_mem _ h1, h2⟩
      · rw [c2 hps]
        constructor
        · rintro ⟨p', h1, x, h2⟩
          rcases List.mem_cons.1 h1 with rfl | h1
          · exact d1 ⟨x, h2⟩
          · exact absurd ⟨p', h1, x, h2⟩ hps
        · intro hno
          exact d2 fun ⟨x, h2⟩ => hno ⟨p, List.mem_cons_self .., x, h2⟩

private theorem memzero_some {zero : B} {A : RegArray} (hf : EveryProcOwns A) {ps : List Nat} (hps : ∀ p ∈ ps, p < gridSize A.nblock) (st : St B) :
    ∃ st', memzero zero A ps st = some st' := by
  induction ps generalizing st with
  | nil => exact ⟨_, rfl⟩
  | cons p ps ih =>
    obtain ⟨x, hx⟩ := hf p (by omega) (by exact_mod_cast hps p (List.mem_cons_self ..))
    simp only [memzero, memzero1, emptyBlock_owned hx, Bool.false_eq_true, if_false, Option.bind_some]
    exact ih (fun q hq => hps q (List.mem_cons_of_mem _ hq)) _

/-- **C67 (memzero).** After `GP_Memzero` all bytes of all elements are zero, the lengths are the same, and memory that belongs to no element is
unchanged. -/
theorem C67_memzero (zero : B) (A : RegArray) (hA : ArrOK A) (hf : EveryProcOwns A) (st : St B) (val : List Int → List B) (hv : GPHolds A st val) :
    ∃ st', memzero zero A (List.range (gridSize A.nblock)) st = some st' ∧ GPHolds A st' (fun x => List.replicate (val x).length zero) ∧
      ∀ q a, (∀ x, (st.pt x).proc = q → ¬ Within (st.pt x).addr (val x).length a) → st'.mem q a = st.mem q a := by
  obtain ⟨st', h⟩ := memzero_some (zero := zero) hf (fun p hp => List.mem_range.1 hp) st
  obtain ⟨a1, a2, a3⟩ := memzero_spec hA h
  refine ⟨st', h, ⟨?_, ?_, ?_, ?_⟩, ?_⟩
  · intro x; rw [a1, hv.size]; simp
  · intro x hx
    rw [a2]
    exact hv.owner x fun h' => hx (by simp [h'])
  · intro x
    rw [a2, List.length_replicate]
    apply List.ext_getElem?
    intro k
    by_cases hk : k < (val x).length
    · rw [List.getElem?_replicate, if_pos hk]
      simp only [bytesAt, List.getElem?_map, List.getElem?_range hk, Option.map_some, Option.some.injEq]
      have ho := hv.owner x (by intro h'; rw [h'] at hk; simp at hk)
      have hg := ((ownedBy_iff hA.ne hA.map).1 ho).1
      apply (a3 _ _).1
      refine ⟨(st.pt x).proc.toNat, List.mem_range.2 (by omega), x, ?_, by omega, ?_⟩
      · rwa [Int.toNat_of_nonneg hg.1]
      · rw [hv.size]; exact ⟨by omega, by omega⟩
    · rw [List.getElem?_eq_none (by simp [bytesAt]; omega), List.getElem?_eq_none (by simp; omega)]
  · intro x y a hxy h1 h2
    rw [a2] at *
    rw [List.length_replicate] at *
    exact hv.apart x y a hxy h1 h2
  · intro q a hno
    apply (a3 q a).2
    rintro ⟨p, hp, x, h1, h2, h3⟩
    rw [hv.size] at h3
    refine hno x ?_ h3
    rw [h2]
    refine gp_owner_unique hA (hv.owner x fun h' => ?_) h1
    rw [h'] at h3
    unfold Within at h3
    simp at h3
    omega

/-- The histories of an array: it is created; processes write to memory that holds no element; a process makes memory of its own an element of its block,
if the memory holds no other element; a process changes bytes of one of its elements in place; elements are freed; patches are put; all elements are set to
zero. The second index is the value of the array. -/
inductive GPHistory (zero : B) (A : RegArray) : St B → (List Int → List B) → Prop
  | create (mem : Int → Int → B) : GPHistory zero A (gpAllocate mem) fun _ => []
  | write {st val} (me a : Int) (b : B) : GPHistory zero A st val → (∀ x, (st.pt x).proc = me → ¬ Within (st.pt x).addr (val x).length a) →
      GPHistory zero A { st with mem := upd st.mem me (upd (st.mem me) a b) } val
  | assign {st st' val} (me : Int) (x : List Int) (ptr : Int) (data : List B) : GPHistory zero A st val → x.length = A.dims.length →
      bytesAt (st.mem me) ptr data.length = data →
      (∀ y a, y ≠ x → (st.pt y).proc = me → Within ptr data.length a → ¬ Within (st.pt y).addr (val y).length a) →
      gpAssign A me x ptr data.length st = some st' → GPHistory zero A st' (upd val x data)
  | change {st val} (x : List Int) (k : Nat) (b : B) : GPHistory zero A st val → k < (val x).length →
      GPHistory zero A { st with mem := upd st.mem (st.pt x).proc (upd (st.mem (st.pt x).proc) ((st.pt x).addr + k) b) } (upd val x ((val x).set k b))
  | free {st st' val} (me : Int) (x : List Int) : GPHistory zero A st val → gpFree A me x st = some st' → GPHistory zero A st' (upd val x [])
  | put {st st' val} (cT cB : List Nat) (me : Int) (lo hi ld ldSz : List Int) (check : Bool) (loc : Int → B) (bp bs : Int → Int) : GPHistory zero A st val →
      CandOK A.nblock cT → CandOK A.nblock cB → 0 ≤ me → me < gridSize A.nblock →
      (∀ x, InPatch lo hi x → 0 ≤ bs (bufPos lo ldSz x) ∧ bs (bufPos lo ldSz x) ≤ (val x).length) →
      gpPut A cT cB me st lo hi ld ldSz check loc bp bs = some st' →
      GPHistory zero A st' fun x => if InPatch lo hi x then overwrite (bytesAt loc (bp (bufPos lo ld x)) (bs (bufPos lo ldSz x)).toNat) (val x) else val x
  | memzero {st st' val} : GPHistory zero A st val → GP.memzero zero A (List.range (gridSize A.nblock)) st = some st' →
      GPHistory zero A st' fun x => List.replicate (val x).length zero

/-- **C67 (histories).** After every history the array holds the value computed by the specification, so `C67_get` applies. -/
theorem C67_history (zero : B) (A : RegArray) (hA : ArrOK A) (hf : EveryProcOwns A) (st : St B) (val : List Int → List B) (h : GPHistory zero A st val) :
    GPHolds A st val := by
  induction h with
  | create mem => exact ⟨fun x => rfl, fun x hx => absurd rfl hx, fun x => rfl, fun x y a _ _ h1 => by unfold Within at h1; simp at h1; omega⟩
  | @write st val me a b _ hno hv =>
    refine ⟨hv.size, hv.owner, fun x => ?_, hv.apart⟩
    conv_rhs => rw [← hv.bytes x]
    apply bytesAt_ext
    intro k hk
    simp only [upd]
    by_cases e : (st.pt x).proc = me
    · have e' : ¬ (st.pt x).addr + (k : Int) = a := fun e' => hno x e ⟨by omega, by omega⟩
      simp only [e, if_true, upd, e', if_false]
    · rw [if_neg e]
  | @assign st st' val me x ptr data _ hl hb hap ha hv =>
    unfold gpAssign at ha
    by_cases hc : checkSubscript x (owns A me).1 (owns A me).2 = true
    · simp only [hc, Bool.not_true, Bool.false_eq_true, if_false, Option.some.injEq] at ha
      subst ha
      have ho := gp_owned_of_check hA hl hc
      refine ⟨fun y => ?_, fun y hy => ?_, fun y => ?_, fun y z a hyz h1 h2 h3 => ?_⟩
      · simp only [upd]; split
        · rfl
        · exact hv.size y
      · simp only [upd] at hy ⊢
        by_cases e : y = x
        · rw [if_pos e, e]; exact ho
        · rw [if_neg e] at hy ⊢; exact hv.owner y hy
      · simp only [upd]
        by_cases e : y = x
        · simp only [if_pos e]; exact hb
        · simp only [if_neg e]; exact hv.bytes y
      · simp only [upd] at h1 h2 h3
        by_cases e : y = x
        · have e' : ¬ z = x := fun e' => hyz (e.trans e'.symm)
          simp only [if_pos e, if_neg e'] at h1 h2 h3
          exact hap z a e' h1.symm h2 h3
        · by_cases e' : z = x
          · simp only [if_neg e, if_pos e'] at h1 h2 h3
            exact hap y a e h1 h3 h2
          · simp only [if_neg e, if_neg e'] at h1 h2 h3
            exact hv.apart y z a hyz h1 h2 h3
    · simp [hc] at ha
  | @change st val x k b _ hk hv =>
    have hlen : ∀ y, (upd val x ((val x).set k b) y).length = (val y).length := by
      intro y; simp only [upd]; split
      · simp_all
      · rfl
    refine ⟨fun y => by rw [hlen]; exact hv.size y, fun y hy => hv.owner y fun h' => hy (List.length_eq_zero_iff.1 (by rw [hlen, h']; rfl)), fun y => ?_,
      fun y z a hyz h1 h2 h3 => by rw [hlen] at h2 h3; exact hv.apart y z a hyz h1 h2 h3⟩
    rw [hlen]
    dsimp only
    by_cases e : y = x
    · subst e
      apply List.ext_getElem?
      intro j
      by_cases hj : j < (val y).length
      · have e1 := bytesAt_getD (hv.bytes y) hj
        simp only [bytesAt, List.getElem?_map, List.getElem?_range hj, Option.map_some, upd, if_true]
        rw [List.getElem?_set]
        by_cases ej : k = j
        · simp [ej, hj]
        · rw [if_neg ej, e1, if_neg (by omega)]
      · rw [List.getElem?_eq_none (by simp [bytesAt]; omega), List.getElem?_eq_none (by simp [upd]; omega)]
    · have e2 : upd val x ((val x).set k b) y = val y := by simp [upd, e]
      rw [e2]
      conv_rhs => rw [← hv.bytes y]
      apply bytesAt_ext
      intro j hj
      simp only [upd]
      by_cases e1 : (st.pt y).proc = (st.pt x).proc
      · have e' : ¬ (st.pt y).addr + (j : Int) = (st.pt x).addr + k := fun e' =>
          hv.apart y x ((st.pt y).addr + j) e e1 ⟨by omega, by omega⟩ ⟨by omega, by omega⟩
        simp only [e1, if_true, upd, e', if_false]
      · rw [if_neg e1]
  | @free st st' val me x _ ha hv =>
    unfold gpFree at ha
    by_cases hc : checkSubscript x (owns A me).1 (owns A me).2 = true
    · simp only [hc, Bool.not_true, Bool.false_eq_true, if_false, Option.some.injEq] at ha
      subst ha
      refine ⟨fun y => ?_, fun y hy => ?_, fun y => ?_, fun y z a hyz h1 h2 h3 => ?_⟩
      · simp only [upd]; split
        · rfl
        · exact hv.size y
      · simp only [upd] at hy ⊢
        by_cases e : y = x
        · rw [if_pos e] at hy; exact absurd rfl hy
        · rw [if_neg e] at hy ⊢; exact hv.owner y hy
      · simp only [upd]
        by_cases e : y = x
        · simp only [if_pos e]; rfl
        · simp only [if_neg e]; exact hv.bytes y
      · simp only [upd] at h1 h2 h3
        by_cases e : y = x
        · simp only [if_pos e] at h2
          unfold Within at h2; simp at h2; omega
        · by_cases e' : z = x
          · simp only [if_pos e'] at h3
            unfold Within at h3; simp at h3; omega
          · simp only [if_neg e, if_neg e'] at h1 h2 h3
            exact hv.apart y z a hyz h1 h2 h3
    · simp [hc] at ha
  | @put st st' val cT cB me lo hi ld ldSz check loc bp bs _ hT hB h0 h1 hn hput hv =>
    have hp : PatchOK A.dims lo hi := by
      by_contra hp
      rw [(C67_refused A hA cT cB me st lo hi ld ldSz 0 false check loc bp bs (Or.inl hp)).2.1] at hput
      simp at hput
    obtain ⟨st1, h2, h3, -⟩ := C67_put A hA hf cT cB hT hB me h0 h1 st val hv lo hi ld ldSz hp loc bp bs hn
    obtain ⟨ps, hps, hall, -, -⟩ := pieces_spec hA hf hT hB hp
    obtain ⟨y, hy⟩ := hf me h0 h1
    rw [gpPut_eq hps hall (emptyBlock_owned hy)] at h2 hput
    simp only [Bool.false_and, Bool.false_eq_true, if_false] at h2
    split at hput
    · simp at hput
    · rw [h2] at hput
      rw [← Option.some.inj hput]
      exact h3
  | @memzero st st' val _ hz hv =>
    obtain ⟨st1, h1, h2, -⟩ := C67_memzero zero A hA hf st val hv
    rw [h1] at hz
    rw [← Option.some.inj hz]
    exact h2


/-! ## a concrete case -/

/-- 3 x 2 elements, one column per process -/
def exGP : RegArray := ⟨[3, 2], [1, 2], [1, 1, 2], [0, 0]⟩

theorem exGP_ok : ArrOK exGP := ⟨by decide, by decide, by decide⟩

theorem exGP_own : EveryProcOwns exGP := by
  intro p h0 h1
  have h1' : p < 2 := h1
  by_cases e : p = 0
  · subst e; exact ⟨[1, 1], by decide⟩
  · have : p = 1 := by omega
    subst this; exact ⟨[1, 2], by decide⟩

/-- the memory before: three bytes at address 100 of process 0 and one at address 50 of process 1 -/
def exGPMem : Int → Int → Nat := fun p a => if p = 0 ∧ a = 100 then 10 else if p = 0 ∧ a = 101 then 11 else if p = 0 ∧ a = 102 then 12 else
  if p = 1 ∧ a = 50 then 20 else 0

/-- after two assignments -/
def exGPSt : St Nat := ⟨upd (upd (fun _ => 0) [1, 1] 3) [2, 2] 1, upd (upd (fun _ => ⟨0, 0⟩) [1, 1] ⟨0, 100⟩) [2, 2] ⟨1, 50⟩, exGPMem⟩

def exGPVal : List Int → List Nat := upd (upd (fun _ => []) [1, 1] [10, 11, 12]) [2, 2] [20]

theorem exGP_history : GPHistory 0 exGP exGPSt exGPVal := by
  refine .assign (st := ⟨upd (fun _ => 0) [1, 1] 3, upd (fun _ => ⟨0, 0⟩) [1, 1] ⟨0, 100⟩, exGPMem⟩) 1 [2, 2] 50 [20]
    (.assign (st := gpAllocate exGPMem) 0 [1, 1] 100 [10, 11, 12] (.create exGPMem) (by decide) (by decide) ?_ rfl) (by decide) (by decide) ?_ rfl
  · intro y a _ _ _ h
    unfold Within at h; simp at h; omega
  · intro y a hy h1 h2 h3
    by_cases e : y = [1, 1]
    · subst e; simp [upd] at h1
    · simp [upd, e, gpAllocate] at h1

/-- the hypotheses of the theorems above are met, and the results are these -/
example : GPHolds exGP exGPSt exGPVal := C67_history 0 exGP exGP_ok exGP_own _ _ exGP_history

example : PatchOK exGP.dims [1, 1] [2, 2] ∧ LdOK [1, 1] [2, 2] [3] ∧ LdOK [1, 1] [2, 2] [2] := by decide

example : (gpGet exGP [0, 0] [0, 0] 1 exGPSt [1, 1] [2, 2] 1000 [3] [2] false (fun _ => 0) (fun _ => 0) (fun _ => 0)).map
    (fun r => ([r.size, r.bp 0, r.bs 0, r.bp 4, r.bs 3], bytesAt r.loc 1000 4)) = some ([4, 1000, 3, 1003, 1], [10, 11, 12, 20]) := by decide +kernel

example : (gpPut exGP [0, 0] [0, 0] 1 exGPSt [1, 1] [2, 2] [2] [2] false (fun a => a.toNat) (fun _ => 77) (fun _ => 1)).map
    (fun st => (bytesAt (st.mem 0) 100 3, bytesAt (st.mem 1) 50 1)) = some ([77, 11, 12], [77]) := by decide +kernel

/-! ## what does not hold -/

/-- 4 elements on 3 processes, the second one has none -/
def exGPGap : RegArray := ⟨[4], [3], [1, 3, 3], [0]⟩

/-- A process without elements is a part of the patch: `GP_Get` and `GP_Put` end with an error although the patch is legal and the caller has elements. -/
theorem C67_empty_block_refused (st : St B) (ld ldSz : List Int) (b0 : Int) (setbuf check : Bool) (loc : Int → B) (bp bs : Int → Int) :
    ArrOK exGPGap ∧ PatchOK exGPGap.dims [1] [4] ∧ OwnedBy exGPGap 0 [1] ∧
    gpGet exGPGap [0] [0] 0 st [1] [4] b0 ld ldSz setbuf loc bp bs = none ∧ gpPut exGPGap [0] [0] 0 st [1] [4] ld ldSz check loc bp bs = none := by
  have e : locateRegion exGPGap [0] [0] [1] [4] = some [⟨0, [1], [2]⟩, ⟨1, [3], [2]⟩, ⟨2, [3], [4]⟩] := by rfl
  have e2 : emptyBlock exGPGap 0 = false := by decide
  have e3 : ([⟨0, [1], [2]⟩, ⟨1, [3], [2]⟩, ⟨2, [3], [4]⟩] : List Piece).all (fun p => regionOK exGPGap.dims p.plo p.phi) = false := by decide
  refine ⟨⟨by decide, by decide, by decide⟩, by decide, by decide, ?_, ?_⟩
  · simp [gpGet, e, e2, e3]
  · simp [gpPut, e, e2, e3]

/-- The comparison of sizes in `GP_Put` ignores the leading dimension of the list of sizes: all sizes agree, and the call is refused. -/
theorem C67_check_ignores_ld :
    (∀ x, InPatch [1, 1] [2, 2] x → ((fun o : Int => if o = 0 then 3 else if o = 4 then 1 else 0) (bufPos [1, 1] [3] x) : Int) = (exGPVal x).length) ∧
    (gpPut exGP [0, 0] [0, 0] 0 exGPSt [1, 1] [2, 2] [3] [3] true (fun _ => 0) (fun _ => 0) (fun o => if o = 0 then 3 else if o = 4 then 1 else 0)).isNone = true := by
  constructor
  · intro x hx
    have := mem_box.2 hx
    clear hx
    revert this x
    decide
  · decide +kernel

/-- With sizes of 8 bytes `GP_Get_size` adds only a part of them: 3 for two elements of 3 and 1 bytes. -/
theorem C67_size8_wrong :
    gpGetSize8 exGP [0, 0] [0, 0] 0 exGPSt [1, 1] [2, 2] = some 3 ∧ patchSum [1, 1] [2, 2] (fun x => ((exGPVal x).length : Int)) = 4 := by
  constructor
  · decide +kernel
  · decide

end GA
