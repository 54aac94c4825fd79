import Verif.Model.BlockAccess
import Verif.Lemmas.BlockCreate

/-! # Lemmas: direct access to blocks -/

namespace GA
open Spec Model
variable {A : BArray}

theorem bProc_eq (h : BOK A) {b : Nat} (hb : b < bTotal A) :
    bProc A b = procC A (digits A.nblocks b) := by
  unfold bProc procC
  cases hk : A.kind with
  | cyclic => simp only [if_true]; rw [undigits_digits hb]
  | scalapack => simp only [reduceCtorEq, if_false, procOfIdx_eq, splitIdx_eq]
  | tiled => simp only [reduceCtorEq, if_false, procOfIdx_eq, splitIdx_eq]
  | tiledIrreg => simp only [reduceCtorEq, if_false, procOfIdx_eq, splitIdx_eq]

theorem idxOK_of {ns idx : List Nat} (h : CoordOK ns idx) : idxOK ns idx = true := by
  induction ns generalizing idx with
  | nil => cases idx <;> simp [idxOK]
  | cons n ns ih =>
    match idx, h with
    | i :: is, h =>
      have h1 : i < n := h.1
      simp [idxOK, ih h.2, h1]

theorem extents_prod (l h : List Int) : prodI (extents l h) = blkSize l h := by
  induction l generalizing h with
  | nil => simp [extents, blkSize, prodI]
  | cons a l ih => cases h <;> simp [extents, blkSize, prodI, ih]

theorem extents_dropLast {l h : List Int} (hl : h.length = l.length) :
    (extents l h).dropLast = blkLd l h := by
  induction l generalizing h with
  | nil => cases h <;> simp [extents, blkLd]
  | cons a l ih =>
    match l, h, hl with
    | [], [_], _ => simp [extents, blkLd]
    | b :: l, c :: d :: h, hl =>
      have := ih (h := d :: h) (by simpa using hl)
      simp only [extents, blkLd] at this ⊢
      rw [List.dropLast_cons_of_ne_nil (by simp), this]

theorem blkOff_self {l h : List Int} {o t : Int} (hl : h.length = l.length) : blkOff l l h o t = o := by
  induction l generalizing h o t with
  | nil => simp [blkOff]
  | cons a l ih =>
    match h, hl with
    | b :: h, hl =>
      simp only [blkOff, sub_self, Int.zero_mul, Int.add_zero]
      exact ih (by simpa using hl)

/-! ## offset of a block in tiled layouts -/

/-- elements of the axis before local block `k` -/
def preSum (n : Nat) (d : Int) (m : List Int) (g c k : Nat) : Int :=
  sumI ((List.range k).map fun k => extB n d m (c + g * k))

/-- the offset formula -/
def genOff : (ns : List Nat) → (ds m : List Int) → (gs cs ks : List Nat) → Int
  | n :: ns, d :: ds, m, g :: gs, c :: cs, k :: ks =>
    preSum n d m g c k *
        blkSize (coordLo ns (m.drop n) (toIdx cs gs ks)) (coordHi ns ds (m.drop n) (toIdx cs gs ks)) +
      preSum n d m g c (cnt c n g) * genOff ns ds (m.drop n) gs cs ks
  | _, _, _, _, _, _ => 0

theorem genOff_eq {ns : List Nat} {ds m : List Int} {gs cs ks : List Nat}
    (h1 : ds.length = ns.length) (h2 : gs.length = ns.length) (h3 : cs.length = ns.length)
    (hk : CoordOK (cnts cs ns gs) ks) :
    sumI ((List.range (undigits (cnts cs ns gs) ks)).map fun t =>
      blkSize (coordLo ns m (toIdx cs gs (digits (cnts cs ns gs) t)))
        (coordHi ns ds m (toIdx cs gs (digits (cnts cs ns gs) t)))) = genOff ns ds m gs cs ks := by
  induction ns generalizing ds m gs cs ks with
  | nil =>
    match ds, gs, cs, ks, h1, h2, h3, hk with
    | [], [], [], [], _, _, _, _ => simp [cnts, undigits, genOff, sumI]
  | cons n ns ih =>
    match ds, gs, cs, ks, h1, h2, h3, hk with
    | d :: ds, g :: gs, c :: cs, k :: ks, h1, h2, h3, hk =>
      have ih' := ih (ds := ds) (m := m.drop n) (gs := gs) (cs := cs) (ks := ks) (by simpa using h1)
        (by simpa using h2) (by simpa using h3) hk.2
      have hk1 : k < cnt c n g := hk.1
      have hdig := digits_undigits hk.2
      have key : ∀ r q, r < cnt c n g →
          blkSize (coordLo (n :: ns) m (toIdx (c :: cs) (g :: gs)
              (digits (cnts (c :: cs) (n :: ns) (g :: gs)) (r + cnt c n g * q))))
            (coordHi (n :: ns) (d :: ds) m (toIdx (c :: cs) (g :: gs)
              (digits (cnts (c :: cs) (n :: ns) (g :: gs)) (r + cnt c n g * q)))) =
          extB n d m (c + g * r) *
            blkSize (coordLo ns (m.drop n) (toIdx cs gs (digits (cnts cs ns gs) q)))
              (coordHi ns ds (m.drop n) (toIdx cs gs (digits (cnts cs ns gs) q))) := by
        intro r q hr
        have e1 : (r + cnt c n g * q) % cnt c n g = r := by
          rw [Nat.add_mul_mod_self_left, Nat.mod_eq_of_lt hr]
        have e2 : (r + cnt c n g * q) / cnt c n g = q := by
          rw [Nat.add_mul_div_left _ _ (by omega), Nat.div_eq_of_lt hr, Nat.zero_add]
        simp only [cnts, digits, e1, e2, toIdx, coordLo, coordHi, blkSize, extB]
      simp only [genOff]
      have hu : undigits (cnts (c :: cs) (n :: ns) (g :: gs)) (k :: ks) =
          cnt c n g * undigits (cnts cs ns gs) ks + k := by
        simp only [cnts, undigits]; ring
      rw [hu, List.range_add, List.map_append, sumI_append, range_mul_map, sumI_flatMap, ← ih',
        ← sumI_mul', Int.add_comm]
      congr 1
      · rw [preSum, ← sumI_mul, List.map_map]
        congr 1
        apply List.map_congr_left
        intro r hr
        have hr' := List.mem_range.1 hr
        have := key r (undigits (cnts cs ns gs) ks) (by omega)
        simp only [Function.comp_apply]
        rw [Nat.add_comm, this, hdig]
      · congr 1
        apply List.map_congr_left
        intro q _
        rw [preSum, ← sumI_mul]
        congr 1
        apply List.map_congr_left
        intro r hr
        exact key r q (List.mem_range.1 hr)

/-- the per-dimension numbers of the code are the ones of the formula -/
def OffArgs : (ns : List Nat) → (ds m : List Int) → (gs cs ks : List Nat) →
    (lld lead trail : List Int) → Prop
  | n :: ns, d :: ds, m, g :: gs, c :: cs, k :: ks, l :: lld, a :: lead, t :: trail =>
    (l = preSum n d m g c (cnt c n g) ∧ a = preSum n d m g c k ∧ t = extB n d m (c + g * k)) ∧
      OffArgs ns ds (m.drop n) gs cs ks lld lead trail
  | [], [], _, [], [], [], [], [], [] => True
  | _, _, _, _, _, _, _, _, _ => False

theorem OffArgs.trail {ns : List Nat} {ds m : List Int} {gs cs ks : List Nat}
    {lld lead trail : List Int} (h : OffArgs ns ds m gs cs ks lld lead trail) :
    prodI trail = blkSize (coordLo ns m (toIdx cs gs ks)) (coordHi ns ds m (toIdx cs gs ks)) := by
  induction ns generalizing ds m gs cs ks lld lead trail with
  | nil =>
    match ds, gs, cs, ks, lld, lead, trail, h with
    | [], [], [], [], [], [], [], _ => simp [prodI, blkSize, coordLo]
  | cons n ns ih =>
    match ds, gs, cs, ks, lld, lead, trail, h with
    | d :: ds, g :: gs, c :: cs, k :: ks, l :: lld, a :: lead, t :: trail, h =>
      obtain ⟨⟨_, _, h1⟩, h2⟩ := h
      simp only [prodI, toIdx, coordLo, coordHi, blkSize, ih h2, h1, extB]

theorem tileOff_eq {ns : List Nat} {ds m : List Int} {gs cs ks : List Nat}
    {lld lead trail : List Int} (h : OffArgs ns ds m gs cs ks lld lead trail) (pre : Int) :
    tileOff pre lld lead trail = pre * genOff ns ds m gs cs ks := by
  induction ns generalizing ds m gs cs ks lld lead trail pre with
  | nil =>
    match ds, gs, cs, ks, lld, lead, trail, h with
    | [], [], [], [], [], [], [], _ => simp [tileOff, genOff]
  | cons n ns ih =>
    match ds, gs, cs, ks, lld, lead, trail, h with
    | d :: ds, g :: gs, c :: cs, k :: ks, l :: lld, a :: lead, t :: trail, h =>
      obtain ⟨⟨h0, h1, _⟩, h2⟩ := h
      simp only [tileOff, genOff, ih h2, h2.trail, h0, h1]
      ring

/-- irregular tiles -/
theorem irr_offArgs {ns : List Nat} {ds m : List Int} {gs idx : List Nat}
    (h1 : ds.length = ns.length) (h2 : gs.length = ns.length) (hg : ∀ g ∈ gs, 0 < g)
    (hi : CoordOK ns idx) :
    OffArgs ns ds m gs (modL gs idx) (divL gs idx) (irrLlds ds m ns gs (modL gs idx))
      (irrLead ds m ns gs (modL gs idx) idx) (extents (coordLo ns m idx) (coordHi ns ds m idx)) := by
  induction ns generalizing ds m gs idx with
  | nil =>
    match ds, gs, idx, h1, h2, hi with
    | [], [], [], _, _, _ =>
      simp [OffArgs, modL, divL, irrLlds, irrLead, extents, coordLo]
  | cons n ns ih =>
    match ds, gs, idx, h1, h2, hi with
    | d :: ds, g :: gs, i :: is, h1, h2, hi =>
      have hg0 := hg g (by simp)
      have hlt : i < n := hi.1
      have hmd := Nat.mod_add_div i g
      refine ⟨⟨irrLen_eq hg0, ?_, ?_⟩, ih (by simpa using h1) (by simpa using h2)
        (fun x hx => hg x (by simp [hx])) hi.2⟩
      · unfold irrBefore preSum
        rw [forStep_eq _ _ _ _ hg0 (cnt_le hg0), List.map_map]
        have hcnt : i / g < cnt (i % g) n g := (lt_cnt hg0).2 (by omega)
        obtain ⟨r, hr⟩ : ∃ r, cnt (i % g) n g = i / g + r := ⟨cnt (i % g) n g - i / g, by omega⟩
        rw [hr, List.range_add, List.map_append, sumI_append, List.map_map]
        have hz : sumI ((List.range r).map
            (((fun j : Nat => if j < i then
              (if j < n - 1 then m.getD (j + 1) 0 - 1 else d) - m.getD j 0 + 1 else 0) ∘
                fun k => i % g + g * k) ∘ fun x => i / g + x)) = 0 := by
          have : ∀ l : List Nat, sumI (l.map
            (((fun j : Nat => if j < i then
              (if j < n - 1 then m.getD (j + 1) 0 - 1 else d) - m.getD j 0 + 1 else 0) ∘
                fun k => i % g + g * k) ∘ fun x => i / g + x)) = 0 := by
            intro l
            induction l with
            | nil => rfl
            | cons x l ihl =>
              simp only [List.map_cons, sumI, ihl, Function.comp_apply]
              rw [if_neg]
              · rfl
              · have : g * (i / g + x) = g * (i / g) + g * x := by ring
                omega
          exact this _
        rw [hz, Int.add_zero]
        congr 1
        apply List.map_congr_left
        intro k hk
        have hk' := List.mem_range.1 hk
        have : g * (k + 1) ≤ g * (i / g) := Nat.mul_le_mul_left g (by omega)
        have e : g * (k + 1) = g * k + g := by ring
        simp only [Function.comp_apply]
        rw [if_pos (by omega), if_pos (by omega), extB, if_neg (by omega)]
      · rw [hmd]
        simp only [extB]

/-- uniform tiles on a grid of extent 2 in every dimension -/
theorem tiled_offArgs {ds bs : List Int} {ns gs idx : List Nat} (hu : UnifOK ds bs ns)
    (h2 : gs.length = ns.length) (hg : ∀ g ∈ gs, g = 2) (hi : CoordOK ns idx) :
    OffArgs ns ds (unifStarts bs ns) gs (modL gs idx) (divL gs idx)
      (tiledLlds ds bs ns gs (modL gs idx)) (tiledLead bs gs (modL gs idx) idx)
      (tiledTrail ds bs ns gs (modL gs idx) idx) := by
  induction ds generalizing bs ns gs idx with
  | nil =>
    match bs, ns, gs, idx, hu, h2, hi with
    | [], [], [], [], _, _, _ =>
      simp [OffArgs, modL, divL, tiledLlds, tiledLead, tiledTrail]
  | cons d ds ih =>
    match bs, ns, gs, idx, hu, h2, hi with
    | b :: bs, n :: ns, g :: gs, i :: is, hu, h2, hi =>
      obtain ⟨⟨u1, u2, u3⟩, u4⟩ := hu
      obtain rfl : g = 2 := hg g (by simp)
      have hlt : i < n := hi.1
      obtain ⟨n1, n2, n3⟩ := numBlk_spec u1 u2
      rw [← u3] at n1 n2 n3
      have hdrop : (unifStarts (b :: bs) (n :: ns)).drop n = unifStarts bs ns := by
        simp only [unifStarts]
        rw [List.drop_append_of_le_length (by simp), List.drop_of_length_le (by simp)]
        simp
      -- extent of a block
      have hext : ∀ j, j < n → extB n d (unifStarts (b :: bs) (n :: ns)) j =
          if j = n - 1 then d - (j : Int) * b else b := by
        intro j hj
        unfold extB
        simp only [unifStarts]
        rw [range_map_append_getD _ _ hj]
        split
        · ring
        · rw [range_map_append_getD _ _ (by omega)]
          push_cast; ring
      -- sums of full blocks
      have hpre : ∀ k, (i % 2 + 2 * k ≤ n ∨ i % 2 + 2 * k = n + 1) →
          preSum n d (unifStarts (b :: bs) (n :: ns)) 2 (i % 2) k =
          if i % 2 + 2 * k = n + 1 then ((k : Int) - 1) * b + (d - ((n : Int) - 1) * b) else k * b := by
        intro k
        induction k with
        | zero =>
          intro _
          rw [if_neg (by omega)]
          simp [preSum, sumI]
        | succ k ihk =>
          intro hk
          have := ihk (by omega)
          unfold preSum at this ⊢
          rw [List.range_succ, List.map_append, sumI_append, this]
          simp only [List.map_cons, List.map_nil, sumI, Int.add_zero]
          rw [hext _ (by omega), if_neg (by omega)]
          by_cases hl : i % 2 + 2 * k = n - 1
          · rw [if_pos hl, if_pos (by omega)]
            have : ((i % 2 + 2 * k : Nat) : Int) = n - 1 := by omega
            rw [this]
            push_cast; ring
          · rw [if_neg hl, if_neg (by omega)]
            push_cast; ring
      have hcnt : cnt (i % 2) n 2 = (n - i % 2 + 1) / 2 := by unfold cnt; simp
      have hmod : d % b = if d % b = 0 then 0 else d - ((n : Int) - 1) * b := by
        split
        · assumption
        · rename_i hne
          rw [u3, numBlk, if_pos hne]
          have h0 : 0 ≤ d / b := Int.ediv_nonneg (by omega) (by omega)
          have e : ((d / b + 1).toNat : Int) = d / b + 1 := Int.toNat_of_nonneg (by omega)
          rw [e]
          have := Int.emod_add_mul_ediv d b
          have e2 : (d / b + 1 - 1) * b = b * (d / b) := by ring
          omega
      have hfull : d % b = 0 → d = (n : Int) * b := by
        intro h0
        rw [u3, numBlk, if_neg (by simpa using h0)]
        have h0' : 0 ≤ d / b := Int.ediv_nonneg (by omega) (by omega)
        rw [Int.toNat_of_nonneg h0']
        have := Int.emod_add_mul_ediv d b
        have e2 : d / b * b = b * (d / b) := by ring
        omega
      have eidx : tiledIdx i 2 (i % 2) = ((i / 2 : Nat) : Int) := by unfold tiledIdx; omega
      have ecnt : tiledCnt n 2 (i % 2) = ((cnt (i % 2) n 2 : Nat) : Int) := by
        unfold tiledCnt; rw [hcnt]; omega
      have enb : ((n : Int) - 1) * b = n * b - b := by ring
      have eib : ((i : Int) + 1) * b = i * b + b := by ring
      refine ⟨⟨?_, ?_, ?_⟩, ?_⟩
      · show tiledLld d b n 2 (i % 2) = _
        rw [hpre _ (by rw [hcnt]; omega)]
        unfold tiledLld
        rw [ecnt]
        by_cases hpar : ((n : Int) - (i % 2 : Nat) + 1) % (2 : Nat) = 0
        · have hcc : i % 2 + 2 * cnt (i % 2) n 2 = n + 1 := by rw [hcnt]; omega
          rw [if_pos hpar, if_pos hcc]
          by_cases h0 : d % b = 0
          · have := hfull h0
            rw [if_neg (by simpa using h0)]
            rw [Int.sub_mul]; omega
          · rw [if_pos h0]
            rw [if_neg h0] at hmod
            omega
        · rw [if_neg hpar, if_neg (by rw [hcnt]; omega)]
      · show tiledIdx i 2 (i % 2) * b = _
        rw [eidx, hpre _ (by omega), if_neg (by omega)]
      · show (if tiledIdx i 2 (i % 2) = tiledCnt n 2 (i % 2) - 1 then _ else b) = _
        rw [Nat.mod_add_div, hext _ hlt, eidx, ecnt]
        by_cases hl : i = n - 1
        · have hin : (i : Int) = n - 1 := by omega
          rw [if_pos (by rw [hcnt]; omega), if_pos hl, hin]
          have : ((n : Int) - 1 + 1) * b = n * b := by ring
          rw [this]
          split <;> omega
        · rw [if_neg hl]
          have hin : (i : Int) + 1 ≤ n - 1 := by omega
          have : ((i : Int) + 1) * b ≤ (n - 1) * b := Int.mul_le_mul_of_nonneg_right hin (by omega)
          split
          · rw [if_neg (by omega)]; omega
          · rfl
      · rw [hdrop]
        exact ih u4 (by simpa using h2) (fun x hx => hg x (by simp [hx])) hi.2

/-- offset of a block in the layouts that store blocks one after the other -/
theorem offAt_pos (h : BOK A) (hc : A.kind ≠ .cyclic) {idx : List Nat}
    (hi : CoordOK A.nblocks idx) :
    offAt A (procC A idx) (posC A idx) =
      genOff A.nblocks A.dims (starts A) A.grid (modL A.grid idx) (divL A.grid idx) := by
  have hl := h.lens hc
  have hl2 := mapOK_length h.map
  obtain ⟨d1, d2⟩ := divL_ok hl (h.grid hc).2.1 hi
  have hml := (modL_ok (gs := A.grid) (idx := idx) (by rw [hi.length, hl]) (h.grid hc).2.1).length
  rw [← genOff_eq (by omega) (by omega) (by omega) d1, offAt_eq]
  have e := procC_modL h hc hi
  unfold vis posC sizeC cLo cHi
  simp only [hc, if_false, e]

theorem slBlockOff_eq {ds bs : List Int} {ns gs idx : List Nat} (hu : UnifOK ds bs ns)
    (hl : gs.length = ds.length) (hg : ∀ g ∈ gs, 0 < g) (hi : CoordOK ns idx) (o t : Int) :
    slBlockOff ds bs gs (modL gs idx) idx o t =
      slOff ds bs gs (modL gs idx) (unifLo bs idx) (unifLo bs idx) o t := by
  induction ds generalizing bs ns gs idx o t with
  | nil => simp [slBlockOff, slOff]
  | cons d ds ih =>
    match bs, ns, gs, idx, hu, hl, hi with
    | b :: bs, n :: ns, g :: gs, i :: is, hu, hl, hi =>
      simp only [slBlockOff, slOff, modL, unifLo]
      rw [ih hu.2 (by simpa using hl) (fun x hx => hg x (by simp [hx])) hi.2]
      congr 1
      have hg0 := hg g (by simp)
      have hb : 1 ≤ b := hu.1.2.1
      have e1 : ((i : Int) * b + 1 - 1) / (b * g) = ((i / g : Nat) : Int) := by
        have : (i : Int) * b + 1 - 1 = b * i := by ring
        rw [this, Int.mul_ediv_mul_of_pos _ _ (by omega : 0 < b)]
        rfl
      have e2 : ((i : Int) - (i % g : Nat)) / g = ((i / g : Nat) : Int) := by
        have := Nat.mod_add_div i g
        have e : (i : Int) - (i % g : Nat) = g * (i / g : Nat) := by
          have : ((i % g + g * (i / g) : Nat) : Int) = i := by rw [this]
          push_cast at this ⊢
          omega
        rw [e, Int.mul_ediv_cancel_left _ (by omega)]
      rw [e1, e2]
      ring

/-- the layouts for which the block pointers are right -/
def PtrKind (A : BArray) : Prop := A.kind = .tiled → ∀ g ∈ A.grid, g = 2

instance (A : BArray) : Decidable (PtrKind A) := by unfold PtrKind; infer_instance

theorem accessGrid_some (h : BOK A) (hc : A.kind ≠ .cyclic) {idx : List Nat}
    (hi : CoordOK A.nblocks idx) : ∃ off ld, accessGrid A idx = some (procC A idx, off, ld) := by
  unfold accessGrid
  rw [if_neg hc, idxOK_of hi]
  have e : procOfIdx A.grid idx = procC A idx := by
    rw [procOfIdx_eq]; unfold procC; rw [if_neg hc]
  simp only [Bool.not_true, Bool.false_eq_true, if_false, e]
  cases hk : A.kind with
  | cyclic => exact absurd hk hc
  | scalapack => exact ⟨_, _, rfl⟩
  | tiled => exact ⟨_, _, rfl⟩
  | tiledIrreg => exact ⟨_, _, rfl⟩

theorem accessGrid_cell (h : BOK A) (hpk : PtrKind A) {idx : List Nat}
    (hi : CoordOK A.nblocks idx) {q : Nat} {off : Int} {ld : List Int}
    (ha : accessGrid A idx = some (q, off, ld)) {x : List Int}
    (hx : InPatch (cLo A idx) (cHi A idx) x) :
    cellB A x = ((q : Int), off + bufPos (cLo A idx) ld x) := by
  unfold accessGrid at ha
  by_cases hc : A.kind = .cyclic
  · simp [hc] at ha
  rw [if_neg hc, idxOK_of hi] at ha
  have e : procOfIdx A.grid idx = procC A idx := by
    rw [procOfIdx_eq]; unfold procC; rw [if_neg hc]
  obtain ⟨c1, c2, c3⟩ := cLo_edge h hi
  have hne : cLo A idx ≠ [] := by
    intro hn; rw [hn] at c2; exact h.ne (List.length_eq_zero_iff.1 c2.symm)
  have hxl := hx.length
  have hl := h.lens hc
  have hl2 := mapOK_length h.map
  obtain ⟨g1, g2, g3⟩ := h.grid hc
  simp only [Bool.not_true, Bool.false_eq_true, if_false, e, splitIdx_eq, procC_modL h hc hi] at ha
  rw [cellB, (blkC_unique h hi hx).2]
  obtain ⟨b1, b2⟩ := itBounds_eq h hi
  have hstep := blk_step (x := x) (p := cLo A idx) (l := cLo A idx) (h := cHi A idx)
    (by omega) rfl (by omega) hne
  rw [blkOff_self (by omega)] at hstep
  cases hk : A.kind with
  | cyclic => exact absurd hk hc
  | scalapack =>
    obtain ⟨l1, l2⟩ := slLens h hk
    have hn : A.kind ≠ .tiledIrreg := by simp [hk]
    simp only [hk, Option.some.injEq, Prod.mk.injEq] at ha
    obtain ⟨rfl, rfl, rfl⟩ := ha
    simp only [if_true]
    rw [procC_modL h hc hi, slBlockOff_eq (h.unif hn) l2 g2 hi, ← (slStart h hk hi).1,
      sl_step h.ne l1 l2 (by rw [(modL_ok (by rw [hi.length, hl]) g2).length, l2]) (by omega) (by omega) (by omega)]
  | tiled =>
    have hn : A.kind ≠ .tiledIrreg := by simp [hk]
    simp only [hk, Option.some.injEq, Prod.mk.injEq] at ha
    obtain ⟨rfl, rfl, rfl⟩ := ha
    have b1' : unifLo A.bdims idx = cLo A idx := by
      have : itLo A idx = cLo A idx := b1
      rw [← this]; simp [itLo, hk]
    have b2' : unifHi A.dims A.bdims idx = cHi A idx := by
      have : itHi A idx = cHi A idx := b2
      rw [← this]; simp [itHi, hk]
    simp only [reduceCtorEq, if_false]
    have ho := tiled_offArgs (h.unif hn) (by omega) (hpk hk) hi
    have hs : starts A = unifStarts A.bdims A.nblocks := by simp [starts, hk]
    rw [offAt_pos h hc hi, hs, tileOff_eq ho, Int.one_mul, b1', b2',
      extents_dropLast (by omega), ← hstep]
    congr 1
    ring
  | tiledIrreg =>
    simp only [hk, Option.some.injEq, Prod.mk.injEq] at ha
    obtain ⟨rfl, rfl, rfl⟩ := ha
    have hs : starts A = A.mapc := by simp [starts, hk]
    have ho := irr_offArgs (ns := A.nblocks) (ds := A.dims) (m := A.mapc) (by omega) (by omega) g2 hi
    have b1' : irrLo A.nblocks A.mapc idx = cLo A idx := by rw [irrLo_eq, cLo, hs]
    have b2' : irrHi A.nblocks A.dims A.mapc idx = cHi A idx := by rw [irrHi_eq hi, cHi, hs]
    have b1'' : coordLo A.nblocks A.mapc idx = cLo A idx := by rw [cLo, hs]
    have b2'' : coordHi A.nblocks A.dims A.mapc idx = cHi A idx := by rw [cHi, hs]
    simp only [reduceCtorEq, if_false]
    rw [b1'', b2''] at ho
    rw [offAt_pos h hc hi, hs, b1', b2', tileOff_eq ho, Int.one_mul, extents_dropLast (by omega),
      ← hstep]
    congr 1
    ring

theorem accessBlock_some (h : BOK A) {b : Nat} (hb : b < bTotal A) :
    ∃ off ld, accessBlock A b = some (bProc A b, off, ld) := by
  unfold accessBlock
  rw [if_neg (by omega), bProc_eq h hb]
  simp only [Int.toNat_natCast]
  by_cases hc : A.kind = .cyclic
  · rw [if_pos hc]
    unfold procC
    rw [if_pos hc, undigits_digits hb]
    exact ⟨_, _, rfl⟩
  · rw [if_neg hc, splitIdx_eq]
    exact accessGrid_some h hc (digits_ok hb)

theorem accessBlock_cell (h : BOK A) (hpk : PtrKind A) {b : Nat} (hb : b < bTotal A) {q : Nat}
    {off : Int} {ld : List Int} (ha : accessBlock A b = some (q, off, ld)) {x : List Int}
    (hx : InPatch (bOwns A b).1 (bOwns A b).2 x) :
    cellB A x = ((q : Int), off + bufPos (bOwns A b).1 ld x) := by
  unfold accessBlock at ha
  rw [if_neg (by omega)] at ha
  simp only [Int.toNat_natCast] at ha
  have hi := digits_ok hb
  have ho := bOwns_eq h hb
  by_cases hc : A.kind = .cyclic
  · rw [if_pos hc] at ha
    simp only [Option.some.injEq, Prod.mk.injEq] at ha
    obtain ⟨rfl, rfl, rfl⟩ := ha
    have ho' : bOwns A b = (cLo A (digits A.nblocks b), cHi A (digits A.nblocks b)) := ho
    rw [ho'] at hx ⊢
    obtain ⟨c1, c2, c3⟩ := cLo_edge h hi
    have hne : cLo A (digits A.nblocks b) ≠ [] := by
      intro hn; rw [hn] at c2; exact h.ne (List.length_eq_zero_iff.1 c2.symm)
    simp only at hx ⊢
    have hxl := hx.length
    rw [cellB, (blkC_unique h hi hx).2]
    have hstep := blk_step (x := x) (p := cLo A (digits A.nblocks b))
      (l := cLo A (digits A.nblocks b)) (h := cHi A (digits A.nblocks b)) (by omega) rfl (by omega) hne
    rw [blkOff_self (by omega)] at hstep
    have hp : procC A (digits A.nblocks b) = b % A.nproc := by
      unfold procC; rw [if_pos hc, undigits_digits hb]
    have hpos : posC A (digits A.nblocks b) = b / A.nproc := by
      unfold posC; rw [if_pos hc, undigits_digits hb]
    have hmd := Nat.mod_add_div b A.nproc
    have hcn : cnt (b % A.nproc) b A.nproc = b / A.nproc := by
      have hnp := h.np
      apply le_antisymm
      · by_contra hlt
        have := (lt_cnt (c := b % A.nproc) (n := b) hnp (k := b / A.nproc)).1 (by omega)
        omega
      · rcases Nat.eq_zero_or_pos (b / A.nproc) with h0 | h0
        · omega
        · have := (lt_cnt (c := b % A.nproc) (n := b) hnp (k := b / A.nproc - 1)).2 (by
            have e : A.nproc * (b / A.nproc) = A.nproc * (b / A.nproc - 1) + A.nproc := by
              conv_lhs => rw [show b / A.nproc = b / A.nproc - 1 + 1 by omega, Nat.mul_add]
              simp
            omega)
          omega
    have hk : A.kind ≠ .scalapack := by simp [hc]
    simp only [hk, if_false, hp, hpos]
    rw [extents_dropLast (by omega), ← hstep, offAt_eq,
      forStep_eq _ _ _ _ h.np (cnt_le h.np), hcn, List.map_map]
    have hsum : (List.range (b / A.nproc)).map (fun k => sizeC A (vis A (b % A.nproc) k)) =
        (List.range (b / A.nproc)).map
          ((fun i => blkSize (bOwns A i).1 (bOwns A i).2) ∘ fun k => b % A.nproc + A.nproc * k) := by
      apply List.map_congr_left
      intro k hk'
      have hlt := (lt_cnt (c := b % A.nproc) (n := b) h.np (k := k)).1
        (by rw [hcn]; exact List.mem_range.1 hk')
      have hbo := bOwns_eq h (show b % A.nproc + A.nproc * k < bTotal A by omega)
      simp only [Function.comp_apply, sizeC, vis, hc, if_true, hbo, cLo, cHi]
    rw [hsum]
    congr 1
    ring
  · rw [if_neg hc, splitIdx_eq] at ha
    have ho' : bOwns A b = (cLo A (digits A.nblocks b), cHi A (digits A.nblocks b)) := ho
    rw [ho'] at hx ⊢
    exact accessGrid_cell h hpk hi ha hx

/-! ## the local iterator -/

/-- the item for a block -/
def itemC (A : BArray) (idx : List Nat) : LItem :=
  match (if A.kind = .cyclic then accessBlock A (undigits A.nblocks idx) else accessGrid A idx) with
  | some (q, off, ld) => ⟨cLo A idx, cHi A idx, q, off, ld⟩
  | none => ⟨[], [], 0, 0, []⟩

theorem localCyclic_eq (h : BOK A) (hc : A.kind = .cyclic) {p : Nat} (hp : p < A.nproc) :
    ∀ (j k f : Nat), k + j = vcount A p → j < f →
      localCyclic A f (p + A.nproc * k) =
        some ((List.range' k j).map fun k => itemC A (vis A p k))
  | 0, k, f + 1, hk, _ => by
    have hnot : ¬ p + A.nproc * k < bTotal A := by
      rw [← lt_cnt h.np]
      simp only [vcount, hc, if_true] at hk
      omega
    simp only [localCyclic, List.range'_zero, List.map_nil]
    rw [if_pos (by omega)]
  | j + 1, k, f + 1, hk, hf => by
    have hlt : p + A.nproc * k < bTotal A := by
      rw [← lt_cnt h.np]
      simp only [vcount, hc, if_true] at hk
      omega
    have ih := localCyclic_eq h hc hp j (k + 1) f (by omega) (by omega)
    have e : p + A.nproc * (k + 1) = p + A.nproc * k + A.nproc := by ring
    rw [e] at ih
    obtain ⟨off, ld, ha⟩ := accessBlock_some h hlt
    simp only [localCyclic]
    rw [if_neg (by omega), ih, ha]
    simp only [List.range'_succ, List.map_cons]
    congr 2
    unfold itemC vis
    simp only [hc, if_true]
    rw [undigits_digits hlt, ha, bOwns_eq h hlt]
    rfl

theorem localGrid_eq (h : BOK A) (hc : A.kind ≠ .cyclic) {p : Nat} (hp : p < A.nproc) :
    ∀ (j k f : Nat), k + (j + 1) = vcount A p → j + 1 < f →
      localGrid A (splitIdx A.grid p) f (vis A p k) =
        some ((List.range' k (j + 1)).map fun k => itemC A (vis A p k)) := by
  have hne : A.grid ≠ [] := by
    intro e; have := (h.grid hc).1; rw [e] at this
    exact h.ne (List.length_eq_zero_iff.1 (by simpa using this.symm))
  have hne2 : A.nblocks ≠ [] := by
    intro e; have := h.lens hc; rw [e] at this
    exact hne (List.length_eq_zero_iff.1 (by simpa using this.symm))
  intro j
  induction j with
  | zero =>
    intro k f hk hf
    obtain ⟨f, rfl⟩ : ∃ f', f = f' + 2 := ⟨f - 2, by omega⟩
    obtain ⟨v1, v2, v3⟩ := vis_ok h hp (by omega : k < vcount A p)
    obtain ⟨off, ld, ha⟩ := accessGrid_some h hc v1
    have hk' : k < gridSize (cnts (digits A.grid p) A.nblocks A.grid) := by
      simp only [vcount, hc, if_false] at hk; omega
    obtain ⟨_, s2⟩ := bInc_digits (h.lens hc) (digits_length A.grid p) hne (h.grid hc).2.1 hk'
    have hlast : bLastOut A.nblocks (bInc A.grid A.nblocks (splitIdx A.grid p) (vis A p k)) = true := by
      rw [splitIdx_eq]
      unfold vis; rw [if_neg hc]
      exact s2 (by simp only [vcount, hc, if_false] at hk; omega)
    have hnext : localGrid A (splitIdx A.grid p) (f + 1)
        (bInc A.grid A.nblocks (splitIdx A.grid p) (vis A p k)) = some [] := by
      simp only [localGrid, hlast, if_true]
    rw [show f + 2 = (f + 1) + 1 from rfl, localGrid]
    rw [bLastOut_in v1 hne2]
    simp only [Bool.false_eq_true, if_false, ha, hnext]
    obtain ⟨b1, b2⟩ := itBounds_eq h v1
    have b3 : (if A.kind = .tiledIrreg then irrHi A.nblocks A.dims A.mapc (vis A p k)
        else unifHi A.dims A.bdims (vis A p k)) = cHi A (vis A p k) := by
      rw [cHi, ← b2]; unfold itHi
      split
      · rw [irrHi_eq v1, itIrrHi_eq]
      · rfl
    simp only [List.range'_succ, List.range'_zero, List.map_cons, List.map_nil, itemC, hc, if_false, ha, b3]
    rw [b1]; rfl
  | succ j ih =>
    intro k f hk hf
    obtain ⟨f, rfl⟩ : ∃ f', f = f' + 1 := ⟨f - 1, by omega⟩
    obtain ⟨v1, v2, v3⟩ := vis_ok h hp (by omega : k < vcount A p)
    obtain ⟨off, ld, ha⟩ := accessGrid_some h hc v1
    have hk' : k < gridSize (cnts (digits A.grid p) A.nblocks A.grid) := by
      simp only [vcount, hc, if_false] at hk; omega
    obtain ⟨s1, _⟩ := bInc_digits (h.lens hc) (digits_length A.grid p) hne (h.grid hc).2.1 hk'
    have hinc : bInc A.grid A.nblocks (splitIdx A.grid p) (vis A p k) = vis A p (k + 1) := by
      rw [splitIdx_eq]
      unfold vis; rw [if_neg hc, if_neg hc]
      exact s1 (by simp only [vcount, hc, if_false] at hk; omega)
    rw [localGrid, bLastOut_in v1 hne2]
    simp only [Bool.false_eq_true, if_false, ha, hinc, ih (k + 1) f (by omega) (by omega)]
    obtain ⟨b1, b2⟩ := itBounds_eq h v1
    have b3 : (if A.kind = .tiledIrreg then irrHi A.nblocks A.dims A.mapc (vis A p k)
        else unifHi A.dims A.bdims (vis A p k)) = cHi A (vis A p k) := by
      rw [cHi, ← b2]; unfold itHi
      split
      · rw [irrHi_eq v1, itIrrHi_eq]
      · rfl
    rw [List.range'_succ (n := j + 1)]
    simp only [List.map_cons, itemC, hc, if_false, ha, b3]
    rw [b1]; rfl

theorem localIter_eq (h : BOK A) (hg : A.kind ≠ .cyclic → GridLe A.grid A.nblocks) {p : Nat}
    (hp : p < A.nproc) :
    localIter A p = some ((List.range (vcount A p)).map fun k => itemC A (vis A p k)) := by
  unfold localIter
  have hle := vcount_le h p
  by_cases hc : A.kind = .cyclic
  · rw [if_pos hc]
    have := localCyclic_eq h hc hp (vcount A p) 0 (bTotal A + 1) (by omega) (by omega)
    rw [Nat.mul_zero, Nat.add_zero p] at this
    rw [this, List.range_eq_range']
  · rw [if_neg hc]
    have hpos : 0 < vcount A p := by
      unfold vcount; rw [if_neg hc]
      obtain ⟨g1, g2, g3⟩ := h.grid hc
      exact cnts_pos (h.lens hc) (digits_ok (by omega)) (hg hc)
    obtain ⟨j, hj⟩ : ∃ j, vcount A p = j + 1 := ⟨vcount A p - 1, by omega⟩
    have := localGrid_eq h hc hp j 0 (bTotal A + 1) (by omega) (by omega)
    have hz : vis A p 0 = splitIdx A.grid p := by
      unfold vis; rw [if_neg hc, splitIdx_eq]
      exact toIdx_zero _ (h.lens hc) (digits_length _ _)
    rw [hz] at this
    rw [this, List.range_eq_range', hj]

end GA
