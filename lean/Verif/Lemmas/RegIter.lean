import Verif.Lemmas.OneSided

/-! # The REGULAR patch iterator visits a partition of the patch -/

namespace GA
open Spec Model

/-- odometer digits, last digit unbounded -/
def oDigits : List Int → Nat → List Int
  | [], _ => []
  | d :: ds, k => match ds with
    | [] => [(k : Int)]
    | _ :: _ => ((k % d.toNat : Nat) : Int) :: oDigits ds (k / d.toNat)

/-- full mixed radix digits -/
def dDigits : List Int → Nat → List Int
  | [], _ => []
  | d :: ds, k => ((k % d.toNat : Nat) : Int) :: dDigits ds (k / d.toNat)

/-- product of the (positive) radices -/
def prodN : List Int → Nat
  | [] => 1
  | d :: ds => d.toNat * prodN ds

theorem oDigits_ne_nil {d : Int} {ds : List Int} {k : Nat} :
    ∃ j is, oDigits (d :: ds) k = j :: is := by
  cases ds <;> exact ⟨_, _, rfl⟩

theorem carry_fix {ds : List Int} (hpos : ∀ d ∈ ds, 0 < d) (k : Nat) :
    carry (oDigits ds k) ds = oDigits ds k := by
  induction ds generalizing k with
  | nil => simp [oDigits, carry]
  | cons d ds ih =>
    cases ds with
    | nil => simp [oDigits, carry]
    | cons d2 ds =>
      obtain ⟨j, is, hj⟩ := oDigits_ne_nil (d := d2) (ds := ds) (k := k / d.toNat)
      have ih' := ih (fun x hx => hpos x (by simp [hx])) (k / d.toNat)
      have hd := hpos d (by simp)
      rw [oDigits, hj, carry]
      · have : ((k % d.toNat : Nat) : Int) < d := by
          have := Nat.mod_lt k (y := d.toNat) (by omega); omega
        rw [if_neg (by omega), ← hj, ih']

theorem carry_succ {ds : List Int} (hpos : ∀ d ∈ ds, 0 < d) (k : Nat) :
    carry (inc0 (oDigits ds k)) ds = oDigits ds (k + 1) := by
  induction ds generalizing k with
  | nil => simp [oDigits, inc0, carry]
  | cons d ds ih =>
    cases ds with
    | nil => simp [oDigits, inc0, carry]
    | cons d2 ds =>
      obtain ⟨j, is, hj⟩ := oDigits_ne_nil (d := d2) (ds := ds) (k := k / d.toNat)
      have ih' := ih (fun x hx => hpos x (by simp [hx])) (k / d.toNat)
      have hd := hpos d (by simp)
      have hlt := Nat.mod_lt k (y := d.toNat) (by omega)
      rw [oDigits, hj, inc0, carry]
      · split
        · rename_i hge
          have hge' : k % d.toNat + 1 = d.toNat := by omega
          have e1 : (k + 1) % d.toNat = 0 := by
            rw [Nat.add_mod, ]
            by_cases h1 : d.toNat = 1
            · rw [h1]; omega
            · rw [Nat.mod_eq_of_lt (a := 1) (by omega), hge', Nat.mod_self]
          have e2 : (k + 1) / d.toNat = k / d.toNat + 1 := by
            have h3 := Nat.div_add_mod k d.toNat
            have : k + 1 = d.toNat * (k / d.toNat + 1) := by rw [Nat.mul_add]; omega
            rw [this, Nat.mul_div_cancel_left _ (by omega)]
          rw [hj, inc0] at ih'
          rw [ih', oDigits, e1, e2]; simp
        · rename_i hlt'
          have e1 : (k + 1) % d.toNat = k % d.toNat + 1 := by
            rw [Nat.add_mod, Nat.mod_eq_of_lt (a := 1) (by omega), Nat.mod_eq_of_lt (by omega)]
          have e2 : (k + 1) / d.toNat = k / d.toNat := by
            have h3 := Nat.div_add_mod k d.toNat
            have : k + 1 = (k % d.toNat + 1) + d.toNat * (k / d.toNat) := by omega
            rw [this, Nat.add_mul_div_left _ _ (by omega), Nat.div_eq_of_lt (by omega)]; simp
          rw [← hj, carry_fix (fun x hx => hpos x (by simp [hx])), oDigits, e1, e2]; simp

theorem oDigits_last {ds : List Int} (hne : ds ≠ []) (hpos : ∀ d ∈ ds, 0 < d) (k : Nat) :
    ((oDigits ds k).getLastD 0 ≥ ds.getLastD 0) ↔ prodN ds ≤ k := by
  induction ds generalizing k with
  | nil => simp at hne
  | cons d ds ih =>
    cases ds with
    | nil => have := hpos d (by simp); simp [oDigits, prodN]
    | cons d2 ds =>
      obtain ⟨j, is, hj⟩ := oDigits_ne_nil (d := d2) (ds := ds) (k := k / d.toNat)
      have ih' := ih (by simp) (fun x hx => hpos x (by simp [hx])) (k / d.toNat)
      have hd := hpos d (by simp)
      rw [oDigits]
      rw [hj] at ih' ⊢
      have e : ∀ (a b : Int) (l : List Int), (a :: b :: l).getLastD 0 = (b :: l).getLastD 0 := by
        intro a b l; simp [List.getLastD]
      rw [e, e, ih']
      conv_rhs => rw [prodN]
      rw [Nat.le_div_iff_mul_le (by omega), Nat.mul_comm]

theorem oDigits_eq_dDigits {ds : List Int} (hpos : ∀ d ∈ ds, 0 < d) {k : Nat} (hk : k < prodN ds) :
    oDigits ds k = dDigits ds k := by
  induction ds generalizing k with
  | nil => simp [oDigits, dDigits]
  | cons d ds ih =>
    have hd := hpos d (by simp)
    cases ds with
    | nil =>
      simp only [prodN, Nat.mul_one] at hk
      simp [oDigits, dDigits, Nat.mod_eq_of_lt hk]
    | cons d2 ds =>
      rw [oDigits, dDigits, ih (fun x hx => hpos x (by simp [hx]))]
      exact Nat.div_lt_of_lt_mul hk

/-! ## sub-blocks of one piece -/

def mkSub (p : Piece) (inc blk : List Int) : Piece :=
  ⟨p.proc, subLo p.plo inc blk, subHi (subLo p.plo inc blk) p.phi blk⟩

/-- the sub-blocks emitted for one piece -/
def subPieces (es M : Int) (p : Piece) : Option (List Piece) :=
  if pieceOK p.plo p.phi then
    if es * prodI (edges p.plo p.phi) > M then
      let blk := splitSizes es M (edges p.plo p.phi)
      if blk.any (· = 0) then none
      else
        let bd := blkDims (edges p.plo p.phi) blk
        some ((List.range (prodN bd)).map fun k => mkSub p (dDigits bd k) blk)
    else some [p]
  else some []

theorem splitLoop_length (es M : Int) (fuel : Nat) (sizes : List Int) (mi : Nat) (mx : Int) :
    (splitLoop es M fuel sizes mi mx).length = sizes.length := by
  induction fuel generalizing sizes mi mx with
  | zero => rfl
  | succ f ih => simp only [splitLoop]; split <;> simp [ih]

theorem splitLoop_bounds (es M : Int) (fuel : Nat) (sizes : List Int) (mi : Nat) (mx : Int)
    (h : ∀ s ∈ sizes, 0 ≤ s) : ∀ s ∈ splitLoop es M fuel sizes mi mx, 0 ≤ s := by
  induction fuel generalizing sizes mi mx with
  | zero => simpa [splitLoop] using h
  | succ f ih =>
    simp only [splitLoop]; split
    · apply ih
      intro s hs
      rcases List.mem_or_eq_of_mem_set hs with h' | rfl
      · exact h s h'
      · apply Int.ediv_nonneg _ (by omega)
        rw [List.getD_eq_getElem?_getD]
        cases hh : sizes[(scanMax sizes 0 mi mx).1]? with
        | none => simp
        | some v => simpa using h v (List.mem_of_getElem? hh)
    · exact h

theorem blkDims_pos {sizes blk : List Int} (hs : ∀ s ∈ sizes, 0 < s) (hb : ∀ b ∈ blk, 0 < b) :
    ∀ d ∈ blkDims sizes blk, 0 < d := by
  induction sizes generalizing blk with
  | nil => simp [blkDims]
  | cons s ss ih =>
    cases blk with
    | nil => simp [blkDims]
    | cons b bs =>
      intro d hd
      simp only [blkDims, List.mem_cons] at hd
      have hs' := hs s (by simp)
      have hb' := hb b (by simp)
      rcases hd with rfl | hd
      · have := Int.ediv_nonneg (a := s) (b := b) (by omega) (by omega)
        split
        · omega
        · rename_i h
          by_contra hc
          have h0 : s / b = 0 := by omega
          rw [h0] at h
          omega
      · exact ih (fun x hx => hs x (by simp [hx])) (fun x hx => hb x (by simp [hx])) d hd

theorem edges_pos {lo hi : List Int} (h : pieceOK lo hi = true) : ∀ s ∈ edges lo hi, 0 < s := by
  induction lo generalizing hi with
  | nil => simp [edges]
  | cons l lo ih =>
    cases hi with
    | nil => simp [edges]
    | cons hh hi =>
      simp only [pieceOK, Bool.and_eq_true, decide_eq_true_eq] at h
      intro s hs
      simp only [edges, List.mem_cons] at hs
      rcases hs with rfl | hs
      · omega
      · exact ih h.2 s hs

def subAxes : List Int → List Int → List Int → List (List (Int × Int))
  | l :: lo, h :: hi, b :: bs =>
    let s := h - l + 1
    let d := if s / b * b < s then s / b + 1 else s / b
    ((List.range d.toNat).map fun (j : Nat) =>
      ((l + j * b, if l + j * b + b - 1 < h then l + j * b + b - 1 else h) : Int × Int))
      :: subAxes lo hi bs
  | _, _, _ => []

theorem subs_eq_grid {lo hi bs : List Int} (h1 : hi.length = lo.length) (h2 : bs.length = lo.length) :
    ((List.range (prodN (blkDims (edges lo hi) bs))).map fun k =>
      let inc := dDigits (blkDims (edges lo hi) bs) k
      (subLo lo inc bs, subHi (subLo lo inc bs) hi bs)) = gridProd (subAxes lo hi bs) := by
  induction lo generalizing hi bs with
  | nil =>
    simp only [List.length_nil, List.length_eq_zero_iff] at h1 h2
    subst h1 h2
    rfl
  | cons l lo ih =>
    match hi, bs, h1, h2 with
    | h :: hi, b :: bs, h1, h2 =>
      have ih' := ih (hi := hi) (bs := bs) (by simpa using h1) (by simpa using h2)
      simp only [edges, blkDims, prodN, subAxes, gridProd]
      generalize (if (h - l + 1) / b * b < h - l + 1 then (h - l + 1) / b + 1
        else (h - l + 1) / b) = d
      rw [range_mul_map, ← ih', List.flatMap_map]
      apply List.flatMap_congr
      intro q _
      rw [List.map_map]
      apply List.map_congr_left
      intro r hr
      rw [List.mem_range] at hr
      simp only [dDigits, Function.comp]
      rw [Nat.add_mul_mod_self_left, Nat.mod_eq_of_lt hr, Nat.add_mul_div_left _ _ (by omega),
        Nat.div_eq_of_lt hr, Nat.zero_add]
      simp [subLo, subHi]

theorem subAxes_part {lo hi bs : List Int} (hok : pieceOK lo hi = true)
    (h1 : hi.length = lo.length) (h2 : bs.length = lo.length) (hb : ∀ b ∈ bs, 0 < b) :
    AxesPart (subAxes lo hi bs) lo hi := by
  induction lo generalizing hi bs with
  | nil =>
    simp only [List.length_nil, List.length_eq_zero_iff] at h1 h2
    subst h1 h2
    simp [subAxes, AxesPart]
  | cons l lo ih =>
    match hi, bs, h1, h2 with
    | h :: hi, b :: bs, h1, h2 =>
      simp only [pieceOK, Bool.and_eq_true, decide_eq_true_eq] at hok
      simp only [subAxes, AxesPart]
      refine ⟨?_, ih hok.2 (by simpa using h1) (by simpa using h2) (fun x hx => hb x (by simp [hx]))⟩
      have hb' := hb b (by simp)
      rw [List.flatMap_map]
      have hdm := Int.mul_ediv_add_emod (h - l + 1) b
      have hm0 := Int.emod_nonneg (h - l + 1) (b := b) (by omega)
      have hm1 := Int.emod_lt_of_pos (h - l + 1) hb'
      have hq := Int.ediv_nonneg (a := h - l + 1) (b := b) (by omega) (by omega)
      generalize (h - l + 1) / b = q at *
      generalize (h - l + 1) % b = r at *
      rw [Int.mul_comm b q] at hdm
      rw [irange_chop]
      · exact hb'
      · split
        · rw [Int.toNat_of_nonneg (by omega)]
          rw [Int.add_mul]; omega
        · rw [Int.toNat_of_nonneg (by omega)]; omega
      · intro j hj
        have : (j : Int) * b < h - l + 1 := by
          split at hj
          · have : (j : Int) ≤ q := by omega
            have := Int.mul_le_mul_of_nonneg_right this (by omega : 0 ≤ b)
            omega
          · have : (j : Int) + 1 ≤ q := by omega
            have := Int.mul_le_mul_of_nonneg_right this (by omega : 0 ≤ b)
            rw [Int.add_mul] at this
            omega
        omega

theorem box_nil_of_not_ok {lo hi : List Int} (h : pieceOK lo hi = false) : box lo hi = [] := by
  induction lo generalizing hi with
  | nil => cases hi <;> simp [pieceOK] at h
  | cons l lo ih =>
    cases hi with
    | nil => simp [pieceOK] at h
    | cons hh hi =>
      simp only [pieceOK, Bool.and_eq_false_iff, decide_eq_false_iff_not] at h
      simp only [box]
      rcases h with h | h
      · rw [irange_empty (by omega)]; simp
      · rw [ih h]; rfl

theorem splitSizes_pos {es M : Int} {sizes : List Int} (hs : ∀ s ∈ sizes, 0 < s)
    (h : (splitSizes es M sizes).any (· = 0) = false) : ∀ b ∈ splitSizes es M sizes, 0 < b := by
  intro b hb
  have h1 := splitLoop_bounds es M (sumNat sizes + 1) sizes 0 0 (fun s hs' => by have := hs s hs'; omega) b hb
  have h2 : ¬ b = 0 := by
    intro h0
    rw [List.any_eq_false] at h
    have := h b hb
    simp [h0] at this
  omega

theorem edges_length {lo hi : List Int} (h : hi.length = lo.length) :
    (edges lo hi).length = lo.length := by
  induction lo generalizing hi with
  | nil => cases hi <;> simp_all [edges]
  | cons l lo ih =>
    cases hi with
    | nil => simp at h
    | cons hh hi => simp [edges, ih (by simpa using h)]

/-- The sub-blocks of a piece partition it and stay on the same process. -/
theorem subPieces_cover {es M : Int} {p : Piece} {qs : List Piece}
    (hlen : p.phi.length = p.plo.length) (h : subPieces es M p = some qs) :
    (cover qs).Perm (box p.plo p.phi) ∧ ∀ q ∈ qs, q.proc = p.proc := by
  unfold subPieces at h
  split at h
  · rename_i hok
    split at h
    · simp only at h
      split at h
      · simp at h
      · rename_i hany
        have hany : (splitSizes es M (edges p.plo p.phi)).any (· = 0) = false :=
            Bool.eq_false_of_not_eq_true hany
        have hpos := splitSizes_pos (edges_pos hok) hany
        have hl : (splitSizes es M (edges p.plo p.phi)).length = p.plo.length := by
          rw [splitSizes, splitLoop_length, edges_length hlen]
        have e := subs_eq_grid hlen hl
        have hp := gridProd_perm (subAxes_part hok hlen hl hpos)
        rw [← e, List.flatMap_map] at hp
        rw [← Option.some.inj h]
        refine ⟨?_, ?_⟩
        · unfold cover; rw [List.flatMap_map]; exact hp
        · intro q hq
          rw [List.mem_map] at hq
          obtain ⟨k, _, rfl⟩ := hq
          rfl
    · rw [← Option.some.inj h]
      simp [cover]
  · rename_i hok
    rw [← Option.some.inj h, box_nil_of_not_ok (by simpa using hok)]
    simp [cover]

/-! ## the iterator as a state machine -/

theorem regNext_fuel (es M : Int) (ps : List Piece) (perm : List Nat) (k k' : Nat) (h : RegHdl)
    (hk : ps.length < k + h.count) (hk' : ps.length < k' + h.count) :
    regNext es M ps perm k h = regNext es M ps perm k' h := by
  induction k generalizing k' h with
  | zero =>
    cases k' with
    | zero => rfl
    | succ k' => simp only [regNext]; rw [if_pos (by omega)]
  | succ k ih =>
    cases k' with
    | zero => simp only [regNext]; rw [if_pos (by omega)]
    | succ k' =>
      simp only [regNext]
      split
      · rfl
      · split
        · rfl
        · exact ih k' _ (by simp only; omega) (by simp only; omega)

/-- pieces in visiting order, from position `i` on -/
def visit (ps : List Piece) (perm : List Nat) (i : Nat) : List Piece :=
  (perm.drop i).map fun j => ps.getD j ⟨0, [], []⟩

theorem collect_zero (es M : Int) (ps : List Piece) (perm : List Nat) (h : RegHdl) (f : Nat)
    (hc : ps.length ≤ h.count) : regCollect es M ps perm (f + 1) h = some [] := by
  simp only [regCollect, regNext]
  rw [if_pos hc]

/-- inner loop over the sub-blocks of an oversized piece -/
theorem collect_over (es M : Int) (ps : List Piece) (perm : List Nat) (p : Piece) (i : Nat)
    (bd blk : List Int) (hi : i < ps.length) (hp : ps.getD (perm.getD i 0) ⟨0, [], []⟩ = p)
    (hok : pieceOK p.plo p.phi = true) (hne : bd ≠ []) (hpos : ∀ d ∈ bd, 0 < d)
    (rest : Option (List Piece)) (N : Nat)
    (hrest : ∀ h : RegHdl, h.oversize = false → h.count = i + 1 → ∀ f, N ≤ f →
      regCollect es M ps perm f h = rest)
    (n k : Nat) (hnk : n + k = prodN bd) (hn : 0 < n) (h : RegHdl) (h1 : h.oversize = true)
    (h2 : h.count = i) (h3 : h.blkSize = blk) (h4 : h.blkDim = bd) (h5 : h.blkInc = oDigits bd k) :
    ∀ f, N + n ≤ f → regCollect es M ps perm f h =
      rest.map (((List.range n).map fun j => mkSub p (dDigits bd (k + j)) blk) ++ ·) := by
  induction n generalizing k h with
  | zero => omega
  | succ n ih =>
    intro f hf
    obtain ⟨f, rfl⟩ : ∃ f', f = f' + 1 := ⟨f - 1, by omega⟩
    have hnext : regNext es M ps perm (ps.length + 1) h =
        .piece (mkSub p (oDigits bd k) blk) (regAdvance h) := by
      simp only [regNext]
      rw [if_neg (by omega), h2, hp, if_pos hok]
      simp [regEmit, h1, h3, h5, mkSub]
    rw [regCollect, hnext]
    simp only
    have hadv : regAdvance h = (if prodN bd ≤ k + 1 then
        { h with blkInc := oDigits bd (k + 1), count := i + 1, oversize := false }
        else { h with blkInc := oDigits bd (k + 1) }) := by
      unfold regAdvance
      simp only [h1, Bool.not_true, Bool.false_eq_true, if_false]
      rw [h4, h5, carry_succ hpos]
      by_cases hc : prodN bd ≤ k + 1
      · rw [if_pos hc, if_pos ((oDigits_last hne hpos _).2 hc), h2]
      · rw [if_neg hc, if_neg (fun h' => hc ((oDigits_last hne hpos _).1 h'))]
    rw [oDigits_eq_dDigits hpos (by omega)]
    rw [List.range_succ_eq_map]
    by_cases hn0 : n = 0
    · subst hn0
      rw [hadv, if_pos (by omega), hrest _ rfl rfl f (by omega)]
      simp
    · rw [hadv, if_neg (by omega)]
      rw [ih (k + 1) (by omega) (by omega) { h with blkInc := oDigits bd (k + 1) } h1 h2 h3 h4 rfl f
        (by omega)]
      rw [Option.map_map]
      congr 1
      funext b
      simp [Function.comp_def, Nat.add_assoc, Nat.add_comm 1]

/-- all sub-blocks of a list of pieces -/
def allSubs (es M : Int) : List Piece → Option (List Piece)
  | [] => some []
  | p :: ps => (subPieces es M p).bind fun a => (allSubs es M ps).map fun b => a ++ b

theorem prodN_pos {ds : List Int} (h : ∀ d ∈ ds, 0 < d) : 0 < prodN ds := by
  induction ds with
  | nil => simp [prodN]
  | cons d ds ih =>
    simp only [prodN]
    have := h d (by simp)
    exact Nat.mul_pos (by omega) (ih fun x hx => h x (by simp [hx]))

theorem blkDims_length {a b : List Int} (h : b.length = a.length) : (blkDims a b).length = a.length := by
  induction a generalizing b with
  | nil => cases b <;> simp_all [blkDims]
  | cons x a ih =>
    cases b with
    | nil => simp at h
    | cons y b => simp [blkDims, ih (by simpa using h)]

theorem dDigits_zero (ds : List Int) : dDigits ds 0 = ds.map fun _ => 0 := by
  induction ds with
  | nil => rfl
  | cons d ds ih => simp [dDigits, ih]

theorem collect_main (es M : Int) (ps : List Piece) (perm : List Nat)
    (hperm : perm.length = ps.length)
    (hlen : ∀ p ∈ visit ps perm 0, p.phi.length = p.plo.length ∧ p.plo ≠ [])
    (n i : Nat) (hni : n + i = ps.length) :
    ∃ N, (∀ qs, allSubs es M (visit ps perm i) = some qs → N ≤ qs.length + 1) ∧
      ∀ h : RegHdl, h.oversize = false → h.count = i → ∀ f, N ≤ f →
      regCollect es M ps perm f h = allSubs es M (visit ps perm i) := by
  induction n generalizing i with
  | zero =>
    have : visit ps perm i = [] := by
      unfold visit; rw [List.drop_eq_nil_of_le (by omega)]; rfl
    rw [this]
    refine ⟨1, fun _ _ => by omega, fun h _ hc f hf => ?_⟩
    obtain ⟨f, rfl⟩ : ∃ f', f = f' + 1 := ⟨f - 1, by omega⟩
    rw [collect_zero _ _ _ _ _ _ (by omega)]
    simp [allSubs]
  | succ n ih =>
    have hi : i < ps.length := by omega
    have hv : visit ps perm i = ps.getD (perm.getD i 0) ⟨0, [], []⟩ :: visit ps perm (i + 1) := by
      unfold visit
      rw [List.drop_eq_getElem_cons (by omega), List.map_cons]
      simp [List.getD_eq_getElem?_getD, hperm, hi]
    rw [hv]
    generalize hp : ps.getD (perm.getD i 0) ⟨0, [], []⟩ = p
    have hpl : p.phi.length = p.plo.length ∧ p.plo ≠ [] := by
      apply hlen
      rw [← hp]
      unfold visit
      rw [List.drop_zero, List.mem_map]
      refine ⟨perm[i], by simp, by simp [List.getD_eq_getElem?_getD, hperm, hi]⟩
    obtain ⟨N, hNl, hN⟩ := ih (i + 1) (by omega)
    simp only [allSubs]
    generalize allSubs es M (visit ps perm (i + 1)) = R at *
    cases ha : subPieces es M p with
    | none =>
      refine ⟨1, by simp, fun h h1 h2 f hf => ?_⟩
      obtain ⟨f, rfl⟩ : ∃ f', f = f' + 1 := ⟨f - 1, by omega⟩
      unfold subPieces at ha
      split at ha
      · rename_i hok
        split at ha
        · rename_i hbig
          simp only at ha
          split at ha
          · rename_i hany
            have hnext : regNext es M ps perm (ps.length + 1) h = .crash := by
              simp only [regNext]
              rw [if_neg (by omega), h2, hp, if_pos hok]
              simp only [regEmit, h1, Bool.not_false, Bool.true_and, decide_eq_true_eq, hbig,
                if_true, hany, Option.map_none]
            rw [regCollect, hnext]
            rfl
          · simp at ha
        · simp at ha
      · simp at ha
    | some a =>
      simp only [Option.bind_some]
      unfold subPieces at ha
      split at ha
      · rename_i hok
        split at ha
        · rename_i hbig
          simp only at ha
          split at ha
          · simp at ha
          · rename_i hany
            have hany : (splitSizes es M (edges p.plo p.phi)).any (· = 0) = false :=
              Bool.eq_false_of_not_eq_true hany
            have hpos := splitSizes_pos (edges_pos hok) hany
            have hbp := blkDims_pos (edges_pos hok) hpos
            have hel := edges_length hpl.1
            have hl : (splitSizes es M (edges p.plo p.phi)).length = (edges p.plo p.phi).length := by
              rw [splitSizes, splitLoop_length]
            have hbl := blkDims_length hl
            have hne : blkDims (edges p.plo p.phi) (splitSizes es M (edges p.plo p.phi)) ≠ [] := by
              intro h0
              rw [h0, hel] at hbl
              have := hpl.2
              cases hh : p.plo <;> simp_all
            have hP := prodN_pos hbp
            generalize hbd : blkDims (edges p.plo p.phi) (splitSizes es M (edges p.plo p.phi)) = bd at *
            generalize hblk : splitSizes es M (edges p.plo p.phi) = blk at *
            rw [← Option.some.inj ha]
            refine ⟨N + prodN bd, ?_, fun h h1 h2 f hf => ?_⟩
            · intro qs hqs
              rw [Option.map_eq_some_iff] at hqs
              obtain ⟨b, hb, rfl⟩ := hqs
              have := hNl b hb
              simp only [List.length_append, List.length_map, List.length_range]; omega
            have hz : oDigits bd 0 = (edges p.plo p.phi).map fun _ => 0 := by
              rw [oDigits_eq_dDigits hbp hP, dDigits_zero]
              apply List.ext_getElem
              · simp [hbl]
              · intro j h1 h2; simp
            -- the first step behaves like the state with oversize already set
            have hstep : regCollect es M ps perm f h =
                regCollect es M ps perm f
                  { h with oversize := true, blkSize := blk, blkDim := bd, blkInc := oDigits bd 0 } := by
              obtain ⟨f, rfl⟩ : ∃ f', f = f' + 1 := ⟨f - 1, by omega⟩
              simp only [regCollect, regNext]
              have hc : ¬ h.count ≥ ps.length := by omega
              simp only [hc, if_false, h2, hp, hok, if_true]
              simp [regEmit, h1, h2, hbig, hblk, hany, hbd, hz]
            rw [hstep]
            have := collect_over es M ps perm p i bd blk hi hp hok hne hbp R N hN (prodN bd) 0
              (by omega) hP
              { h with oversize := true, blkSize := blk, blkDim := bd, blkInc := oDigits bd 0 }
              rfl h2 rfl rfl rfl f hf
            rw [this]
            simp
        · rename_i hsmall
          rw [← Option.some.inj ha]
          refine ⟨N + 1, ?_, fun h h1 h2 f hf => ?_⟩
          · intro qs hqs
            rw [Option.map_eq_some_iff] at hqs
            obtain ⟨b, hb, rfl⟩ := hqs
            have := hNl b hb
            simp only [List.length_append, List.length_cons, List.length_nil]; omega
          obtain ⟨f, rfl⟩ : ∃ f', f = f' + 1 := ⟨f - 1, by omega⟩
          have hnext : regNext es M ps perm (ps.length + 1) h =
              .piece p { h with count := i + 1 } := by
            simp only [regNext]
            rw [if_neg (by omega), h2, hp, if_pos hok]
            simp [regEmit, h1, hsmall, regAdvance, h2]
          rw [regCollect, hnext]
          simp only
          rw [hN { h with count := i + 1 } h1 rfl f (by omega)]
          rfl
      · rename_i hok
        rw [← Option.some.inj ha]
        refine ⟨N, by simpa using hNl, fun h h1 h2 f hf => ?_⟩
        have hnext : regNext es M ps perm (ps.length + 1) h =
            regNext es M ps perm (ps.length + 1) { h with count := i + 1 } := by
          conv_lhs => rw [regNext]
          rw [if_neg (by omega)]
          simp only [h2, hp, hok]
          apply regNext_fuel <;> simp <;> omega
        have : regCollect es M ps perm f h = regCollect es M ps perm f { h with count := i + 1 } := by
          cases f with
          | zero => rfl
          | succ f => simp only [regCollect, hnext]
        rw [this, hN { h with count := i + 1 } h1 rfl f (by omega)]
        simp

theorem regCollect_mono (es M : Int) (ps : List Piece) (perm : List Nat) (f : Nat) (h : RegHdl)
    {qs : List Piece} (hq : regCollect es M ps perm f h = some qs) (g : Nat) (hg : f ≤ g) :
    regCollect es M ps perm g h = some qs := by
  induction f generalizing h qs g with
  | zero => simp [regCollect] at hq
  | succ f ih =>
    obtain ⟨g, rfl⟩ : ∃ g', g = g' + 1 := ⟨g - 1, by omega⟩
    simp only [regCollect] at hq ⊢
    split at hq
    · exact hq
    · exact hq
    · rw [Option.map_eq_some_iff] at hq ⊢
      obtain ⟨a, ha, rfl⟩ := hq
      exact ⟨a, ih _ ha g (by omega), rfl⟩

/-- With enough fuel the iterator computes exactly the sub-blocks of the pieces in visiting
order; with less it computes nothing else. -/
theorem collect_iff (es M : Int) (ps : List Piece) (perm : List Nat)
    (hperm : perm.length = ps.length)
    (hlen : ∀ p ∈ visit ps perm 0, p.phi.length = p.plo.length ∧ p.plo ≠ []) (f : Nat)
    (qs : List Piece) :
    (regCollect es M ps perm f regInit = some qs → allSubs es M (visit ps perm 0) = some qs) ∧
    (allSubs es M (visit ps perm 0) = some qs → qs.length < f →
      regCollect es M ps perm f regInit = some qs) := by
  obtain ⟨N, hN, hc⟩ := collect_main es M ps perm hperm hlen ps.length 0 (by omega)
  constructor
  · intro h
    have := regCollect_mono es M ps perm f regInit h (f + N) (by omega)
    rwa [hc regInit rfl rfl (f + N) (by omega)] at this
  · intro h hf
    rw [hc regInit rfl rfl f (by have := hN qs h; omega), h]

/-- componentwise `0 < a ≤ b` -/
def PosLe : List Int → List Int → Prop
  | a :: as, b :: bs => (0 < a ∧ a ≤ b) ∧ PosLe as bs
  | [], [] => True
  | _, _ => False

theorem PosLe.prod {a b : List Int} (h : PosLe a b) : 0 < prodI a ∧ prodI a ≤ prodI b := by
  induction a generalizing b with
  | nil => cases b <;> simp_all [PosLe, prodI]
  | cons x a ih =>
    cases b with
    | nil => simp [PosLe] at h
    | cons y b =>
      simp only [PosLe] at h
      obtain ⟨h1, h2⟩ := ih h.2
      simp only [prodI]
      exact ⟨Int.mul_pos h.1.1 h1, Int.mul_le_mul h.1.2 h2 (by omega) (by omega)⟩

theorem subAxes_mem {lo hi bs a b : List Int} (hok : pieceOK lo hi = true)
    (hlen : hi.length = lo.length) (hl : bs.length = lo.length) (hpos : ∀ b ∈ bs, 0 < b)
    (hq : (a, b) ∈ gridProd (subAxes lo hi bs)) :
    InPatch a b a ∧ a.length = lo.length ∧ PosLe (edges a b) bs := by
  induction lo generalizing hi bs a b with
  | nil =>
    simp only [List.length_nil, List.length_eq_zero_iff] at hlen hl
    subst hlen hl
    simp only [subAxes, gridProd, List.mem_singleton, Prod.mk.injEq] at hq
    rw [hq.1, hq.2]
    simp [InPatch, edges, PosLe]
  | cons l lo ih =>
    match hi, bs, hlen, hl with
    | h :: hi, c :: bs, hlen, hl =>
      simp only [pieceOK, Bool.and_eq_true, decide_eq_true_eq] at hok
      simp only [subAxes, gridProd, List.mem_flatMap, List.mem_map] at hq
      obtain ⟨⟨a', b'⟩, hr, ⟨_, ⟨j, hj, rfl⟩, hab⟩⟩ := hq
      rw [Prod.mk.injEq] at hab
      obtain ⟨rfl, rfl⟩ := hab
      obtain ⟨i1, i2, i3⟩ := ih hok.2 (by simpa using hlen) (by simpa using hl)
        (fun x hx => hpos x (by simp [hx])) hr
      have hc := hpos c (by simp)
      rw [List.mem_range] at hj
      have hlt : (j : Int) * c < h - l + 1 := by
        have hdm := Int.mul_ediv_add_emod (h - l + 1) c
        have hm0 := Int.emod_nonneg (h - l + 1) (b := c) (by omega)
        have hq := Int.ediv_nonneg (a := h - l + 1) (b := c) (by omega) (by omega)
        generalize (h - l + 1) / c = q at *
        generalize (h - l + 1) % c = r at *
        rw [Int.mul_comm c q] at hdm
        split at hj
        · have : (j : Int) ≤ q := by omega
          have := Int.mul_le_mul_of_nonneg_right this (by omega : 0 ≤ c)
          omega
        · have : (j : Int) + 1 ≤ q := by omega
          have := Int.mul_le_mul_of_nonneg_right this (by omega : 0 ≤ c)
          rw [Int.add_mul] at this
          omega
      simp only [InPatch, edges, PosLe, List.length_cons, i2]
      refine ⟨⟨⟨le_refl _, ?_⟩, i1⟩, trivial, ⟨?_, ?_⟩, i3⟩ <;> split <;> omega

theorem scanMax_lt (ss : List Int) (i mi : Nat) (mx : Int) {n : Nat} (h1 : mi < n)
    (h2 : i + ss.length ≤ n) : (scanMax ss i mi mx).1 < n := by
  induction ss generalizing i mi mx with
  | nil => simpa [scanMax] using h1
  | cons s ss ih =>
    simp only [List.length_cons] at h2
    simp only [scanMax]
    split
    · exact ih _ _ _ (by omega) (by omega)
    · exact ih _ _ _ h1 (by omega)

theorem sumNat_set {ss : List Int} {i : Nat} (hi : i < ss.length) (v : Int)
    (hv : v.toNat < (ss.getD i 0).toNat) : sumNat (ss.set i v) < sumNat ss := by
  induction ss generalizing i with
  | nil => simp at hi
  | cons s ss ih =>
    cases i with
    | zero => simp only [List.set_cons_zero, sumNat, List.getD_cons_zero] at hv ⊢; omega
    | succ i =>
      simp only [List.set_cons_succ, sumNat, List.getD_cons_succ, List.length_cons] at hv hi ⊢
      have := ih (i := i) (by omega) hv
      omega

theorem prodI_zero {ss : List Int} {i : Nat} (hi : i < ss.length) (h : ss.getD i 0 = 0) :
    prodI ss = 0 := by
  induction ss generalizing i with
  | nil => simp at hi
  | cons s ss ih =>
    cases i with
    | zero => simp only [List.getD_cons_zero] at h; simp [prodI, h]
    | succ i => simp only [List.getD_cons_succ] at h; simp [prodI, ih (by simpa using hi) h]

/-- the fuel of the splitting loop suffices: afterwards the block fits -/
theorem splitLoop_done {es M : Int} (hM : 0 ≤ M) (fuel : Nat) (ss : List Int) (mi : Nat)
    (mx : Int) (hn : ∀ s ∈ ss, 0 ≤ s) (hmi : mi < ss.length) (hf : sumNat ss < fuel) :
    es * prodI (splitLoop es M fuel ss mi mx) ≤ M := by
  induction fuel generalizing ss mi mx with
  | zero => omega
  | succ f ih =>
    simp only [splitLoop]
    split
    · rename_i hbig
      have hlt := scanMax_lt ss 0 mi mx hmi (by simp)
      generalize hr : scanMax ss 0 mi mx = r at *
      have hge : 0 ≤ ss.getD r.1 0 := by
        rw [List.getD_eq_getElem?_getD]
        cases hh : ss[r.1]? with
        | none => simp
        | some v => simpa using hn v (List.mem_of_getElem? hh)
      have hne : ss.getD r.1 0 ≠ 0 := by
        intro h0
        rw [prodI_zero hlt h0] at hbig
        omega
      apply ih
      · intro s hs
        rcases List.mem_or_eq_of_mem_set hs with h' | rfl
        · exact hn s h'
        · omega
      · simpa using hlt
      · have := sumNat_set hlt (ss.getD r.1 0 / 2) (by omega)
        omega
    · omega

/-- Every emitted sub-block contains its own lower corner and has at most `M` bytes. -/
theorem subPieces_ok {es M : Int} {p : Piece} {qs : List Piece} (hM : 0 ≤ M) (hes : 0 ≤ es)
    (hne : p.plo ≠ [])
    (hlen : p.phi.length = p.plo.length) (h : subPieces es M p = some qs) :
    ∀ q ∈ qs, InPatch q.plo q.phi q.plo ∧ q.plo.length = p.plo.length ∧
      es * prodI (edges q.plo q.phi) ≤ M := by
  unfold subPieces at h
  split at h
  · rename_i hok
    split at h
    · simp only at h
      split at h
      · simp at h
      · rename_i hany
        have hany : (splitSizes es M (edges p.plo p.phi)).any (· = 0) = false :=
            Bool.eq_false_of_not_eq_true hany
        have hpos := splitSizes_pos (edges_pos hok) hany
        have hl : (splitSizes es M (edges p.plo p.phi)).length = p.plo.length := by
          rw [splitSizes, splitLoop_length, edges_length hlen]
        have e := subs_eq_grid hlen hl
        rw [← Option.some.inj h]
        intro q hq
        have hq' : (q.plo, q.phi) ∈ gridProd (subAxes p.plo p.phi
            (splitSizes es M (edges p.plo p.phi))) := by
          rw [← e]
          rw [List.mem_map] at hq ⊢
          obtain ⟨k, hk, rfl⟩ := hq
          exact ⟨k, hk, rfl⟩
        obtain ⟨a, b, c⟩ := subAxes_mem hok hlen hl hpos hq'
        refine ⟨a, b, ?_⟩
        have hfin : es * prodI (splitSizes es M (edges p.plo p.phi)) ≤ M := by
          apply splitLoop_done hM
          · intro s hs; have := edges_pos hok s hs; omega
          · rw [edges_length hlen]; exact List.length_pos_iff.2 hne
          · omega
        have := Int.mul_le_mul_of_nonneg_left c.prod.2 hes
        omega
    · rename_i hsm
      rw [← Option.some.inj h]
      intro q hq
      rw [List.mem_singleton] at hq
      subst hq
      refine ⟨?_, rfl, by omega⟩
      rwa [← pieceOK_iff hlen]
  · rw [← Option.some.inj h]; simp

theorem allSubs_spec {es M : Int} {ps qs : List Piece} (h : allSubs es M ps = some qs)
    (hM : 0 ≤ M) (hes : 0 ≤ es)
    (hlen : ∀ p ∈ ps, p.phi.length = p.plo.length ∧ p.plo ≠ []) :
    (cover qs).Perm (cover ps) ∧ ∀ q ∈ qs, ∃ p ∈ ps, q.proc = p.proc ∧
      InPatch q.plo q.phi q.plo ∧ q.plo.length = p.plo.length ∧
      es * prodI (edges q.plo q.phi) ≤ M ∧
      ∀ x, InPatch q.plo q.phi x → InPatch p.plo p.phi x := by
  induction ps generalizing qs with
  | nil =>
    simp only [allSubs, Option.some.injEq] at h
    subst h; simp [cover]
  | cons p ps ih =>
    simp only [allSubs, Option.bind_eq_some_iff, Option.map_eq_some_iff] at h
    obtain ⟨a, ha, b, hb, rfl⟩ := h
    obtain ⟨i1, i2⟩ := ih hb fun p' h' => hlen p' (by simp [h'])
    have hl := hlen p (by simp)
    obtain ⟨c1, c2⟩ := subPieces_cover hl.1 ha
    have c3 := subPieces_ok hM hes hl.2 hl.1 ha
    constructor
    · unfold cover at *
      simp only [List.flatMap_append, List.flatMap_cons]
      exact c1.append i1
    · intro q hq
      rcases List.mem_append.1 hq with hq | hq
      · refine ⟨p, by simp, c2 q hq, (c3 q hq).1, (c3 q hq).2.1, (c3 q hq).2.2, ?_⟩
        intro x hx
        rw [← mem_box]
        apply (c1.mem_iff).1
        exact List.mem_flatMap.2 ⟨q, hq, mem_box.2 hx⟩
      · obtain ⟨p', hp', r⟩ := i2 q hq
        exact ⟨p', by simp [hp'], r⟩

theorem visit_perm {ps : List Piece} {perm : List Nat} (h : perm.Perm (List.range ps.length)) :
    (visit ps perm 0).Perm ps := by
  unfold visit
  rw [List.drop_zero]
  refine (h.map _).trans ?_
  apply List.Perm.of_eq
  apply List.ext_getElem
  · simp
  · intro i h1 h2; simp [List.getD_eq_getElem?_getD, h2]

theorem cover_length_ge {qs : List Piece} (h : ∀ q ∈ qs, InPatch q.plo q.phi q.plo) :
    qs.length ≤ (cover qs).length := by
  induction qs with
  | nil => simp
  | cons q qs ih =>
    have := ih fun q' h' => h q' (by simp [h'])
    have h0 : q.plo ∈ box q.plo q.phi := mem_box.2 (h q (by simp))
    have := List.length_pos_of_mem h0
    unfold cover at *
    simp only [List.flatMap_cons, List.length_append, List.length_cons]
    omega

theorem box_length {lo hi : List Int} (h : InPatch lo hi lo) :
    (box lo hi).length = (initLoopElems lo hi).toNat := by
  induction lo generalizing hi with
  | nil => cases hi <;> simp_all [box, initLoopElems, InPatch]
  | cons l lo ih =>
    cases hi with
    | nil => simp [InPatch] at h
    | cons hh hi =>
      simp only [InPatch] at h
      have hnn := initLoopElems_nonneg ⟨lo, h.2⟩
      simp only [box, initLoopElems]
      rw [Int.toNat_mul (by omega) hnn, List.length_flatMap]
      simp only [List.length_map, irange_length, List.map_const', List.sum_replicate_nat, ih h.2]
      rw [Nat.mul_comm]
      congr 1; omega

end GA
