import Verif.Model.Region
import Verif.Lemmas.Distr
import Verif.Lemmas.Partition

namespace GA
open Spec Model

/-! ## locate_region -/

/-- start of block `c` on one axis, `c` an integer coordinate -/
def axLo (m : List Int) (c : Int) : Int := m.getD c.toNat 0
/-- end of block `c` on one axis -/
def axHi (d : Int) (n : Nat) (m : List Int) (c : Int) : Int :=
  if c.toNat = n - 1 then d else m.getD (c.toNat + 1) 0 - 1

def regAxis (d : Int) (n : Nat) (m : List Int) (T B lo hi : Int) : List (Int × Int) :=
  (irange T B).map fun c =>
    (if lo < axLo m c then axLo m c else lo, if hi > axHi d n m c then axHi d n m c else hi)

def regAxes : List Nat → List Int → List Int → List Int → List Int → List Int → List Int →
    List (List (Int × Int))
  | n :: ns, d :: ds, m, t :: T, b :: B, l :: lo, h :: hi =>
    regAxis d n m t b l h :: regAxes ns ds (m.drop n) T B lo hi
  | _, _, _, _, _, _, _ => []

theorem regAxes_box {ns : List Nat} {ds m T B lo hi : List Int}
    (h1 : ds.length = ns.length) (h2 : T.length = ns.length) (h3 : B.length = ns.length)
    (h4 : lo.length = ns.length) (h5 : hi.length = ns.length) :
    (box T B).map (fun s => (clipLo lo (coordLo ns m (s.map Int.toNat)),
        clipHi hi (coordHi ns ds m (s.map Int.toNat)))) = gridProd (regAxes ns ds m T B lo hi) := by
  induction ns generalizing ds m T B lo hi with
  | nil =>
    simp only [List.length_nil, List.length_eq_zero_iff] at h1 h2 h3 h4 h5
    subst h1 h2 h3 h4 h5
    simp [box, regAxes, gridProd, clipLo, clipHi]
  | cons n ns ih =>
    match ds, T, B, lo, hi, h1, h2, h3, h4, h5 with
    | d :: ds, t :: T, b :: B, l :: lo, h :: hi, h1, h2, h3, h4, h5 =>
      have ih' := ih (ds := ds) (m := m.drop n) (T := T) (B := B) (lo := lo) (hi := hi)
        (by simpa using h1) (by simpa using h2) (by simpa using h3) (by simpa using h4)
        (by simpa using h5)
      simp only [box, regAxes, gridProd, ← ih', List.map_flatMap, List.flatMap_map, List.map_map,
        regAxis]
      rfl

/-- one axis: clipping the blocks `T..B` to `lo..hi` partitions `lo..hi` -/
theorem regAxis_perm {d : Int} {n : Nat} {m : List Int} {T B : Nat} {lo hi : Int}
    (hok : AxisOK d (m.take n)) (hlen : n ≤ m.length) (hlh : lo ≤ hi) (hhd : hi ≤ d)
    (hT : BlockOf m n lo T) (hB : BlockOf m n hi B) :
    ((regAxis d n m T B lo hi).flatMap fun iv => irange iv.1 iv.2).Perm (irange lo hi) := by
  have key : ∀ (c : Int) (x : Int), (T : Int) ≤ c → c ≤ B →
      ((if lo < axLo m c then axLo m c else lo) ≤ x ∧
        x ≤ (if hi > axHi d n m c then axHi d n m c else hi) ↔
        (lo ≤ x ∧ x ≤ hi) ∧ BlockOf m n x c.toNat) := by
    intro c x hc1 hc2
    have hcn : c.toNat < n := by have := hB.1; omega
    constructor
    · intro hx
      have : lo ≤ x ∧ x ≤ hi ∧ axLo m c ≤ x ∧ x ≤ axHi d n m c := by
        split at hx <;> split at hx <;> omega
      refine ⟨⟨this.1, this.2.1⟩, (axis_mem_iff hcn hlen hok (by omega)).1 ⟨this.2.2.1, this.2.2.2⟩⟩
    · rintro ⟨hx, hbk⟩
      obtain ⟨a, b⟩ := (axis_mem_iff hcn hlen hok (by omega : x ≤ d)).2 hbk
      change axLo m c ≤ x at a
      change x ≤ axHi d n m c at b
      split <;> split <;> omega
  rw [List.perm_ext_iff_of_nodup]
  · intro x
    simp only [regAxis, List.mem_flatMap, List.mem_map, mem_irange]
    constructor
    · rintro ⟨_, ⟨c, hc, rfl⟩, hx⟩
      exact ((key c x hc.1 hc.2).1 hx).1
    · intro hx
      have h0 : m.getD 0 0 ≤ x := by
        have := pairwise_getD hok.2.1 (i := 0) (j := T) (by omega) (by simp; have := hT.1; omega)
        rw [getD_take (by have := hT.1; omega), getD_take hT.1] at this
        have := hT.2.1
        omega
      have hn : 0 < n := by have := hT.1; omega
      have hb := findblock_spec (c := 0) hn (by omega) h0
      generalize findblock m n 0 x = c at hb
      have mono : ∀ {i j : Nat}, i ≤ j → j < n → m.getD i 0 ≤ m.getD j 0 := by
        intro i j hij hj
        have := pairwise_getD hok.2.1 hij (by simp; omega)
        rwa [getD_take (by omega), getD_take hj] at this
      have hTc : T ≤ c := by
        by_contra hlt
        have := mono (i := c + 1) (j := T) (by omega) hT.1
        have := hb.2.2 (by have := hT.1; omega)
        have := hT.2.1
        omega
      have hcB : c ≤ B := by
        by_contra hlt
        have := mono (i := B + 1) (j := c) (by omega) hb.1
        have := hB.2.2 (by have := hb.1; omega)
        have := hb.2.1
        omega
      exact ⟨_, ⟨(c : Int), by omega, rfl⟩, (key c x (by omega) (by omega)).2 ⟨hx, by simpa using hb⟩⟩
  · rw [regAxis, List.flatMap_map, List.nodup_flatMap]
    refine ⟨fun x _ => nodup_irange _ _, ?_⟩
    have hp := (List.nodup_iff_pairwise_ne.1 (nodup_irange (T : Int) B))
    refine List.Pairwise.imp_of_mem ?_ hp
    intro a b ha hb hab
    simp only [Function.onFun, List.disjoint_left, mem_irange]
    intro x hx hx'
    rw [mem_irange] at ha hb
    have e1 := ((key a x ha.1 ha.2).1 hx).2
    have e2 := ((key b x hb.1 hb.2).1 hx').2
    have := BlockOf.unique hok hlen e1 e2
    omega
  · exact nodup_irange _ _

theorem regionOK_iff {ds lo hi : List Int} :
    regionOK ds lo hi = true ↔ InArray ds lo ∧ InArray ds hi ∧ InPatch lo hi lo := by
  induction ds generalizing lo hi with
  | nil => cases lo <;> cases hi <;> simp [regionOK, InArray, InPatch]
  | cons d ds ih =>
    cases lo with
    | nil => simp [regionOK, InArray, InPatch]
    | cons l lo =>
      cases hi with
      | nil => simp [regionOK, InArray, InPatch]
      | cons h hi =>
        have := ih (lo := lo) (hi := hi)
        unfold InArray at this ⊢
        simp only [regionOK, List.map_cons, InPatch, Bool.and_eq_true, decide_eq_true_eq, this]
        constructor
        · rintro ⟨h1, h2, h3, h4⟩; exact ⟨⟨by omega, h2⟩, ⟨by omega, h3⟩, by omega, h4⟩
        · rintro ⟨⟨h1, h2⟩, ⟨h3, h4⟩, h5, h6⟩; exact ⟨by omega, h2, h4, h6⟩

theorem regAxes_part {ns : List Nat} {ds m lo hi : List Int} {cT cB : List Nat}
    (hm : MapOK ns ds m) (hcT : CandOK ns cT) (hcB : CandOK ns cB)
    (h1 : InArray ds lo) (h2 : InArray ds hi) (h3 : InPatch lo hi lo) :
    AxesPart (regAxes ns ds m ((findblocks ns m cT lo).map Int.ofNat)
      ((findblocks ns m cB hi).map Int.ofNat) lo hi) lo hi := by
  induction ns generalizing ds m lo hi cT cB with
  | nil =>
    cases ds with
    | cons => simp [MapOK] at hm
    | nil =>
      cases lo with
      | cons => simp [InArray, InPatch] at h1
      | nil =>
        cases hi with
        | cons => simp [InArray, InPatch] at h2
        | nil => simp [regAxes, AxesPart]
  | cons n ns ih =>
    match ds, lo, hi, cT, cB, hm, hcT, hcB, h1, h2, h3 with
    | d :: ds, l :: lo, h :: hi, t :: cT, b :: cB, hm, hcT, hcB, h1, h2, h3 =>
      simp only [MapOK] at hm
      simp only [CandOK] at hcT hcB
      have h1' : (1 ≤ l ∧ l ≤ d) ∧ InArray ds lo := h1
      have h2' : (1 ≤ h ∧ h ≤ d) ∧ InArray ds hi := h2
      simp only [InPatch] at h3
      obtain ⟨⟨hn, hlen, hd, hok⟩, hm⟩ := hm
      have s := AxisOK.start hn hok
      have hT : BlockOf m n l (findblock m n t l) := findblock_spec hn hcT.1 (by omega)
      have hB : BlockOf m n h (findblock m n b h) := findblock_spec hn hcB.1 (by omega)
      simp only [findblocks, List.map_cons, regAxes, AxesPart]
      exact ⟨regAxis_perm hok hlen (by omega) (by omega) hT hB, ih hm hcT.2 hcB.2 h1'.2 h2'.2 h3.2⟩
    | [], _, _, _, _, hm, _, _, _, _, _ => simp [MapOK] at hm
    | _, _, _, [], _, _, hcT, _, _, _, _ => simp [CandOK] at hcT
    | _, _, _, _, [], _, _, hcB, _, _, _ => simp [CandOK] at hcB
    | _ :: _, [], _, _, _, _, _, _, h1, _, _ => simp [InArray, InPatch] at h1
    | _ :: _, _, [], _, _, _, _, _, _, h2, _ => simp [InArray, InPatch] at h2

theorem CoordOK.length {ns cs : List Nat} (h : CoordOK ns cs) : cs.length = ns.length := by
  induction ns generalizing cs with
  | nil => cases cs <;> simp_all [CoordOK]
  | cons n ns ih =>
    cases cs with
    | nil => simp [CoordOK] at h
    | cons c cs => simp [ih h.2]

theorem Spec.MapOK.length {ns : List Nat} {ds m : List Int} (h : MapOK ns ds m) :
    ds.length = ns.length := by
  induction ns generalizing ds m with
  | nil => cases ds <;> simp_all [MapOK]
  | cons n ns ih =>
    cases ds with
    | nil => simp [MapOK] at h
    | cons d ds => simp [ih h.2]

/-- every integer coordinate vector between two corner coordinates is a grid coordinate -/
theorem coord_between {ns : List Nat} {T B : List Nat} {s : List Int} (hT : CoordOK ns T)
    (hB : CoordOK ns B) (hs : InPatch (T.map Int.ofNat) (B.map Int.ofNat) s) :
    CoordOK ns (s.map Int.toNat) ∧ (s.map Int.toNat).map Int.ofNat = s := by
  induction ns generalizing T B s with
  | nil =>
    cases T with
    | cons => simp [CoordOK] at hT
    | nil =>
      cases B with
      | cons => simp [CoordOK] at hB
      | nil => cases s <;> simp_all [CoordOK, InPatch]
  | cons n ns ih =>
    match T, B, s, hT, hB, hs with
    | t :: T, b :: B, x :: s, hT, hB, hs =>
      simp only [CoordOK] at hT hB
      simp only [List.map_cons, InPatch] at hs
      obtain ⟨a, b'⟩ := ih hT.2 hB.2 hs.2
      have h1 := hs.1.1; have h2 := hs.1.2
      simp only [Int.ofNat_eq_natCast] at h1 h2
      refine ⟨⟨by omega, a⟩, ?_⟩
      simp only [List.map_cons, b', List.cons.injEq, and_true, Int.ofNat_eq_natCast]
      omega
    | [], _, _, hT, _, _ => simp [CoordOK] at hT
    | _ :: _, [], _, _, hB, _ => simp [CoordOK] at hB
    | _ :: _, _ :: _, [], _, _, hs => simp [InPatch] at hs

theorem findblocks_coordOK {ns : List Nat} {ds m : List Int} {cs : List Nat} {x : List Int}
    (hm : MapOK ns ds m) (hc : CandOK ns cs) (hx : InArray ds x) :
    CoordOK ns (findblocks ns m cs x) := (findblocks_ok hm hc hx).1

/-- the lower corner of a clipped block lies in both, hence so do members -/
theorem mem_clip {ns : List Nat} {ds m lo hi x : List Int} {c : List Nat} (hm : MapOK ns ds m)
    (hc : CoordOK ns c) (hl : lo.length = ns.length) (hh : hi.length = ns.length) :
    InPatch (clipLo lo (coordLo ns m c)) (clipHi hi (coordHi ns ds m c)) x ↔
      InPatch lo hi x ∧ InPatch (coordLo ns m c) (coordHi ns ds m c) x := by
  induction ns generalizing ds m lo hi x c with
  | nil =>
    simp only [List.length_nil, List.length_eq_zero_iff] at hl hh
    subst hl hh
    simp [coordLo, coordHi, clipLo, clipHi]
  | cons n ns ih =>
    match ds, c, lo, hi, hm, hc, hl, hh with
    | d :: ds, c :: cs, l :: lo, h :: hi, hm, hc, hl, hh =>
      simp only [MapOK] at hm
      simp only [CoordOK] at hc
      cases x with
      | nil => simp [coordLo, coordHi, clipLo, clipHi, InPatch]
      | cons x xs =>
        have := ih (x := xs) hm.2 hc.2 (lo := lo) (hi := hi) (by simpa using hl) (by simpa using hh)
        simp only [coordLo, coordHi, clipLo, clipHi, InPatch, this]
        generalize m.getD c 0 = a
        generalize (if c = n - 1 then d else m.getD (c + 1) 0 - 1) = b
        constructor
        · rintro ⟨h1, h2, h3⟩
          have : (l ≤ x ∧ x ≤ h) ∧ (a ≤ x ∧ x ≤ b) := by split at h1 <;> split at h1 <;> omega
          exact ⟨⟨this.1, h2⟩, this.2, h3⟩
        · rintro ⟨⟨h1, h2⟩, h3, h4⟩
          refine ⟨by split <;> split <;> omega, h2, h4⟩

/-- elements covered by a list of pieces -/
def cover (ps : List Piece) : List (List Int) := ps.flatMap fun p => box p.plo p.phi

theorem owns_of_coord {A : RegArray} {c : List Nat} (hc : CoordOK A.nblock c) :
    owns A (undigits A.nblock c : Nat) =
      (coordLo A.nblock A.mapc c, coordHi A.nblock A.dims A.mapc c) := by
  have := undigits_lt hc
  unfold owns
  rw [if_neg (by omega)]
  simp [ownsLo_eq, ownsHi_eq, digits_undigits hc]

theorem locateRegion_spec {A : RegArray} {cT cB : List Nat} {lo hi : List Int} {ps : List Piece}
    (hm : MapOK A.nblock A.dims A.mapc)
    (hcT : CandOK A.nblock cT) (hcB : CandOK A.nblock cB)
    (h : locateRegion A cT cB lo hi = some ps) :
    (cover ps).Perm (box lo hi) ∧
    ∀ p ∈ ps, ∃ c, CoordOK A.nblock c ∧ p.proc = (undigits A.nblock c : Nat) ∧
      p.plo = clipLo lo (coordLo A.nblock A.mapc c) ∧
      p.phi = clipHi hi (coordHi A.nblock A.dims A.mapc c) := by
  unfold locateRegion at h
  by_cases hr : regionOK A.dims lo hi = true
  · rw [if_pos hr] at h
    obtain ⟨h1, h2, h3⟩ := regionOK_iff.1 hr
    have hT := findblocks_coordOK hm hcT h1
    have hB := findblocks_coordOK hm hcB h2
    have hne : ∃ x, InPatch ((findblocks A.nblock A.mapc cT lo).map Int.ofNat)
        ((findblocks A.nblock A.mapc cB hi).map Int.ofNat) x := by
      refine ⟨(findblocks A.nblock A.mapc cT lo).map Int.ofNat, ?_⟩
      clear h hr hT hB
      generalize A.nblock = ns at *
      generalize A.dims = ds at *
      generalize A.mapc = m at *
      induction ns generalizing ds m lo hi cT cB with
      | nil => simp [findblocks, InPatch]
      | cons n ns ih =>
        match ds, lo, hi, cT, cB, hm, hcT, hcB, h1, h2, h3 with
        | d :: ds, l :: lo, h :: hi, t :: cT, b :: cB, hm, hcT, hcB, h1, h2, h3 =>
          simp only [MapOK] at hm
          simp only [CandOK] at hcT hcB
          have h1' : (1 ≤ l ∧ l ≤ d) ∧ InArray ds lo := h1
          have h2' : (1 ≤ h ∧ h ≤ d) ∧ InArray ds hi := h2
          simp only [InPatch] at h3
          obtain ⟨⟨hn, hlen, hd, hok⟩, hm⟩ := hm
          have s := AxisOK.start hn hok
          have hT : BlockOf m n l (findblock m n t l) := findblock_spec hn hcT.1 (by omega)
          have hB : BlockOf m n h (findblock m n b h) := findblock_spec hn hcB.1 (by omega)
          simp only [findblocks, List.map_cons, InPatch]
          refine ⟨⟨le_refl _, ?_⟩, ih h3.2 hcT.2 hcB.2 ds h1'.2 h2'.2 _ hm⟩
          by_contra hlt
          simp only [Int.ofNat_eq_natCast] at hlt
          have mono := pairwise_getD hok.2.1 (i := findblock m n b h + 1) (j := findblock m n t l)
            (by omega) (by simp; have := hT.1; omega)
          rw [getD_take (by have := hT.1; omega), getD_take hT.1] at mono
          have := hB.2.2 (by have := hT.1; omega)
          have := hT.2.1
          omega
        | [], _, _, _, _, hm, _, _, _, _, _ => simp [MapOK] at hm
        | _, _, _, [], _, _, hcT, _, _, _, _ => simp [CandOK] at hcT
        | _, _, _, _, [], _, _, hcB, _, _, _ => simp [CandOK] at hcB
        | _ :: _, [], _, _, _, _, _, _, h1, _, _ => simp [InArray, InPatch] at h1
        | _ :: _, _, [], _, _, _, _, _, _, h2, _ => simp [InArray, InPatch] at h2
    have hps := Option.some.inj h
    rw [loopAll_eq_box hne] at hps
    have hcoord : ∀ s ∈ box ((findblocks A.nblock A.mapc cT lo).map Int.ofNat)
        ((findblocks A.nblock A.mapc cB hi).map Int.ofNat),
        CoordOK A.nblock (s.map Int.toNat) ∧
        computeIndex s (A.nblock.map Int.ofNat) = (undigits A.nblock (s.map Int.toNat) : Nat) := by
      intro s hs
      obtain ⟨a, b⟩ := coord_between hT hB (mem_box.1 hs)
      refine ⟨a, ?_⟩
      rw [← b, computeIndex_eq, horner_cast, b]
    constructor
    · have e : (cover ps) = ((box ((findblocks A.nblock A.mapc cT lo).map Int.ofNat)
          ((findblocks A.nblock A.mapc cB hi).map Int.ofNat)).map (fun s =>
            (clipLo lo (coordLo A.nblock A.mapc (s.map Int.toNat)),
             clipHi hi (coordHi A.nblock A.dims A.mapc (s.map Int.toNat))))).flatMap
              fun r => box r.1 r.2 := by
        rw [← hps]
        unfold cover
        rw [List.flatMap_map, List.flatMap_map]
        apply List.flatMap_congr
        intro s hs
        obtain ⟨a, b⟩ := hcoord s hs
        simp only [b, owns_of_coord a]
      rw [e, regAxes_box hm.length (by simpa using hT.length) (by simpa using hB.length)
        (by rw [h1.length, hm.length]) (by rw [h2.length, hm.length])]
      exact gridProd_perm (regAxes_part hm hcT hcB h1 h2 h3)
    · intro p hp
      rw [← hps, List.mem_map] at hp
      obtain ⟨s, hs, rfl⟩ := hp
      obtain ⟨a, b⟩ := hcoord s hs
      exact ⟨_, a, b, by simp only [b, owns_of_coord a], by simp only [b, owns_of_coord a]⟩
  · rw [if_neg hr] at h; simp at h

/-! ## random permutation of the process list -/

theorem swapAt_perm {l : List Nat} {i r : Nat} (hi : i < l.length) (hr : r < l.length) :
    (swapAt l i r).Perm l := by
  have e1 : l.getD i 0 = l[i] := by simp [List.getD_eq_getElem?_getD, hi]
  have e2 : l.getD r 0 = l[r] := by simp [List.getD_eq_getElem?_getD, hr]
  unfold swapAt
  rw [e1, e2]
  exact List.set_set_perm hr hi

theorem permLoop_perm (rand : Nat → Nat) (n k : Nat) (hk : k ≤ n) {l : List Nat}
    (hl : l.length = n) : (permLoop rand n k l).Perm l := by
  induction k generalizing l with
  | zero => simp [permLoop]
  | succ k ih =>
    simp only [permLoop]
    have hp : (swapAt l (n - (k + 1)) (rand (n - (k + 1)) % n)).Perm l :=
      swapAt_perm (by omega) (by rw [hl]; exact Nat.mod_lt _ (by omega))
    exact (ih (by omega) (by rw [hp.length_eq, hl])).trans hp

/-- whatever the random numbers are, the visiting order is a permutation of all pieces -/
theorem permuteProcList_perm (rand : Nat → Nat) (n : Nat) :
    (permuteProcList rand n).Perm (List.range n) := by
  unfold permuteProcList
  split
  · subst ‹n = 1›; simp
  · exact permLoop_perm rand n n (le_refl _) (by simp)

end GA
