import Verif.Lemmas.BlockCyclic

/-! # Lemmas: the order in which the iterator visits the blocks -/

namespace GA
open Spec Model

/-- number of `i` in `for (i=c; i<n; i+=g)` -/
def cnt (c n g : Nat) : Nat := (n - c + g - 1) / g

theorem lt_cnt {c n g k : Nat} (hg : 0 < g) : k < cnt c n g ↔ c + g * k < n := by
  unfold cnt
  rw [Nat.lt_iff_add_one_le, Nat.le_div_iff_mul_le hg]
  have e : (k + 1) * g = g * k + g := by ring
  rw [e]
  omega

/-- block coordinates from local block coordinates -/
def toIdx : (cs gs ks : List Nat) → List Nat
  | c :: cs, g :: gs, k :: ks => (c + g * k) :: toIdx cs gs ks
  | _, _, _ => []

/-- number of local blocks per dimension -/
def cnts : (cs ns gs : List Nat) → List Nat
  | c :: cs, n :: ns, g :: gs => cnt c n g :: cnts cs ns gs
  | _, _, _ => []

theorem toIdx_ok {cs ns gs ks : List Nat} (hl : ns.length = gs.length) (hc : cs.length = gs.length)
    (hg : ∀ g ∈ gs, 0 < g) (h : CoordOK (cnts cs ns gs) ks) : CoordOK ns (toIdx cs gs ks) := by
  induction gs generalizing cs ns ks with
  | nil => cases ns <;> cases cs <;> simp_all [toIdx, CoordOK]
  | cons g gs ih =>
    match cs, ns, ks, hl, hc, h with
    | c :: cs, n :: ns, k :: ks, hl, hc, h =>
      exact ⟨(lt_cnt (hg g (by simp))).1 h.1,
        ih (by simpa using hl) (by simpa using hc) (fun g' h' => hg g' (by simp [h'])) h.2⟩

theorem carry_id {gs ns ps is : List Nat} (h : CoordOK ns is) : bCarry gs ns ps is = is := by
  induction ns generalizing gs ps is with
  | nil => cases is <;> cases gs <;> simp_all [bCarry, CoordOK]
  | cons n ns ih =>
    match gs, ps, is, h with
    | _ :: g' :: gs, p :: ps, i :: i' :: is, h =>
      have h1 : i < n := h.1
      simp only [bCarry]
      rw [if_neg (by omega), ih h.2]
    | [], _, _, _ => simp [bCarry]
    | [_], _, _, _ => simp [bCarry]
    | _ :: _ :: _, [], _, _ => simp [bCarry]
    | _ :: _ :: _, _ :: _, [], _ => simp [bCarry]
    | _ :: _ :: _, _ :: _, [_], _ => simp [bCarry]

theorem bInc_cons {g g' n p i i' : Nat} {gs ns ps is : List Nat} (h : CoordOK ns (i' :: is)) :
    bInc (g :: g' :: gs) (n :: ns) (p :: ps) (i :: i' :: is) =
      if i + g ≥ n then p :: bInc (g' :: gs) ns ps (i' :: is) else (i + g) :: i' :: is := by
  simp only [bInc, bCarry]
  split
  · rfl
  · rw [carry_id h]

theorem bLastOut_in {ns is : List Nat} (h : CoordOK ns is) (hne : ns ≠ []) :
    bLastOut ns is = false := by
  induction ns generalizing is with
  | nil => exact absurd rfl hne
  | cons n ns ih =>
    match ns, is, h with
    | [], [i], h => have h1 : i < n := h.1; simp [bLastOut]; omega
    | n' :: ns, i :: i' :: is, h => simp only [bLastOut]; exact ih h.2 (by simp)
    | [], _ :: _ :: _, h => simp [CoordOK] at h
    | _ :: _, [_], h => simp [CoordOK] at h

/-- the odometer of the iterator counts through the local blocks -/
theorem bInc_digits {gs ns cs : List Nat} (hl : ns.length = gs.length) (hc : cs.length = gs.length)
    (hne : gs ≠ []) (hg : ∀ g ∈ gs, 0 < g) {t : Nat} (ht : t < gridSize (cnts cs ns gs)) :
    (t + 1 < gridSize (cnts cs ns gs) →
      bInc gs ns cs (toIdx cs gs (digits (cnts cs ns gs) t)) =
        toIdx cs gs (digits (cnts cs ns gs) (t + 1))) ∧
    (t + 1 = gridSize (cnts cs ns gs) →
      bLastOut ns (bInc gs ns cs (toIdx cs gs (digits (cnts cs ns gs) t))) = true) := by
  induction gs generalizing cs ns t with
  | nil => exact absurd rfl hne
  | cons g gs ih =>
    have hg0 : 0 < g := hg g (by simp)
    match gs, cs, ns, hl, hc with
    | [], [c], [n], _, _ =>
      simp only [cnts, gridSize, digits, toIdx, bInc, bCarry, Nat.mul_one] at ht ⊢
      have hk := Nat.mod_eq_of_lt ht
      constructor
      · intro h
        rw [hk, Nat.mod_eq_of_lt h]
        congr 1
        ring
      · intro h
        have h2 : ¬ c + g * (t + 1) < n := by rw [← lt_cnt hg0]; omega
        have e : g * (t + 1) = g * t + g := by ring
        rw [hk]
        simp only [bLastOut, ge_iff_le, decide_eq_true_eq]
        omega
    | g' :: gs, c :: c' :: cs, n :: n' :: ns, hl, hc =>
      have hl' : (n' :: ns).length = (g' :: gs).length := by simpa using hl
      have hc' : (c' :: cs).length = (g' :: gs).length := by simpa using hc
      have hg' : ∀ x ∈ g' :: gs, 0 < x := fun x hx => hg x (List.mem_cons_of_mem _ hx)
      have hpos : 0 < cnt c n g := by
        rcases Nat.eq_zero_or_pos (cnt c n g) with h | h
        · simp only [cnts, gridSize, h, Nat.zero_mul] at ht; omega
        · exact h
      have hq : t / cnt c n g < gridSize (cnts (c' :: cs) (n' :: ns) (g' :: gs)) := by
        apply Nat.div_lt_of_lt_mul; exact ht
      have hok := toIdx_ok hl' hc' hg' (digits_ok hq)
      have hdec := Nat.mod_add_div t (cnt c n g)
      have hmod := Nat.mod_lt t hpos
      obtain ⟨i1, i2⟩ := ih hl' hc' (by simp) hg' hq
      have hshape : toIdx (c :: c' :: cs) (g :: g' :: gs)
          (digits (cnts (c :: c' :: cs) (n :: n' :: ns) (g :: g' :: gs)) t) =
          (c + g * (t % cnt c n g)) :: toIdx (c' :: cs) (g' :: gs)
            (digits (cnts (c' :: cs) (n' :: ns) (g' :: gs)) (t / cnt c n g)) := rfl
      have hshape' : toIdx (c :: c' :: cs) (g :: g' :: gs)
          (digits (cnts (c :: c' :: cs) (n :: n' :: ns) (g :: g' :: gs)) (t + 1)) =
          (c + g * ((t + 1) % cnt c n g)) :: toIdx (c' :: cs) (g' :: gs)
            (digits (cnts (c' :: cs) (n' :: ns) (g' :: gs)) ((t + 1) / cnt c n g)) := rfl
      have hG : gridSize (cnts (c :: c' :: cs) (n :: n' :: ns) (g :: g' :: gs)) =
          cnt c n g * gridSize (cnts (c' :: cs) (n' :: ns) (g' :: gs)) := rfl
      rw [hshape, hshape', hG]
      rw [hG] at ht
      generalize hK : cnt c n g = K at *
      generalize hGG : gridSize (cnts (c' :: cs) (n' :: ns) (g' :: gs)) = G at *
      have hcons : ∃ i' is, toIdx (c' :: cs) (g' :: gs)
          (digits (cnts (c' :: cs) (n' :: ns) (g' :: gs)) (t / K)) = i' :: is := ⟨_, _, rfl⟩
      obtain ⟨i', is, hcons⟩ := hcons
      rw [hcons] at hok i1 i2 ⊢
      rw [bInc_cons hok]
      have eg : g * (t % K + 1) = g * (t % K) + g := by ring
      by_cases hlast : t % K + 1 < K
      · have hin : c + g * (t % K + 1) < n := by
          rw [← lt_cnt hg0, hK]; exact hlast
        rw [if_neg (by omega)]
        have em : (t + 1) % K = t % K + 1 := by
          rw [Nat.add_mod, Nat.mod_eq_of_lt (by omega : 1 < K), Nat.mod_eq_of_lt hlast]
        have ed : (t + 1) / K = t / K := by
          rw [← hdec]
          have : t % K + K * (t / K) + 1 = (t % K + 1) + K * (t / K) := by omega
          rw [this, Nat.add_mul_div_left _ _ hpos, Nat.add_mul_div_left _ _ hpos,
            Nat.div_eq_of_lt hlast, Nat.div_eq_of_lt hmod]
        constructor
        · intro _
          rw [em, ed, hcons]
          congr 1
          omega
        · intro h
          exfalso
          rw [h] at em
          rw [Nat.mul_mod_right] at em
          omega
      · have hin : ¬ c + g * (t % K + 1) < n := by
          rw [← lt_cnt hg0, hK]; exact hlast
        rw [if_pos (by omega)]
        have e1 : t + 1 = K * (t / K + 1) := by
          have : K * (t / K + 1) = K * (t / K) + K := by ring
          omega
        have em : (t + 1) % K = 0 := by rw [e1, Nat.mul_mod_right]
        have ed : (t + 1) / K = t / K + 1 := by
          rw [e1, Nat.mul_div_cancel_left _ hpos]
        constructor
        · intro h
          rw [em, ed]
          have : t / K + 1 < G := by
            rw [e1] at h
            exact Nat.lt_of_mul_lt_mul_left h
          rw [i1 this]
          simp
        · intro h
          have : t / K + 1 = G := by
            rw [e1] at h
            exact Nat.eq_of_mul_eq_mul_left hpos h
          have := i2 this
          cases hb : bInc (g' :: gs) (n' :: ns) (c' :: cs) (i' :: is) with
          | nil => rw [hb] at this; simp [bLastOut]
          | cons a as =>
            rw [hb] at this
            simp only [bLastOut]; exact this

theorem mapOK_length {ns : List Nat} {ds m : List Int} (h : MapOK ns ds m) :
    ns.length = ds.length := by
  induction ns generalizing ds m with
  | nil => cases ds <;> simp_all [MapOK]
  | cons n ns ih =>
    cases ds with
    | nil => simp [MapOK] at h
    | cons d ds => simp [ih h.2]

theorem digits_length (ns : List Nat) (t : Nat) : (digits ns t).length = ns.length := by
  induction ns generalizing t with
  | nil => rfl
  | cons n ns ih => simp [digits, ih]

theorem toIdx_zero {cs gs : List Nat} (ns : List Nat) (hl : ns.length = gs.length)
    (hc : cs.length = gs.length) : toIdx cs gs (digits (cnts cs ns gs) 0) = cs := by
  induction gs generalizing cs ns with
  | nil => cases cs <;> simp_all [toIdx]
  | cons g gs ih =>
    match cs, ns, hl, hc with
    | c :: cs, n :: ns, hl, hc =>
      simp only [cnts, digits, toIdx, Nat.zero_mod, Nat.zero_div, Nat.mul_zero, Nat.add_zero]
      rw [ih ns (by simpa using hl) (by simpa using hc)]

/-- every process has at least one block (so that the iterator works) -/
def GridLe : (grid nb : List Nat) → Prop
  | g :: gs, n :: ns => g ≤ n ∧ GridLe gs ns
  | _, _ => True

instance decGridLe : (a b : List Nat) → Decidable (GridLe a b)
  | g :: gs, n :: ns =>
    have := decGridLe gs ns
    inferInstanceAs (Decidable (_ ∧ _))
  | [], _ => isTrue trivial
  | _ :: _, [] => isTrue trivial

/-- There are at least as many blocks as processes: in total for the simple layout, in every
dimension for the layouts with a process grid. -/
def EnoughBlocks (A : BArray) : Prop :=
  (A.kind = .cyclic → A.nproc ≤ bTotal A) ∧ (A.kind ≠ .cyclic → GridLe A.grid A.nblocks)

instance (A : BArray) : Decidable (EnoughBlocks A) := by unfold EnoughBlocks; infer_instance

/-! ## visits -/

/-- the number of blocks of process `p` -/
def vcount (A : BArray) (p : Nat) : Nat :=
  if A.kind = .cyclic then cnt p (bTotal A) A.nproc
  else gridSize (cnts (digits A.grid p) A.nblocks A.grid)

/-- coordinates of the `k`-th block of process `p` -/
def vis (A : BArray) (p k : Nat) : List Nat :=
  if A.kind = .cyclic then digits A.nblocks (p + A.nproc * k)
  else toIdx (digits A.grid p) A.grid (digits (cnts (digits A.grid p) A.nblocks A.grid) k)

/-- process holding the block with coordinates `idx` -/
def procC (A : BArray) (idx : List Nat) : Nat :=
  if A.kind = .cyclic then undigits A.nblocks idx % A.nproc
  else undigits A.grid (modL A.grid idx)

/-- componentwise quotient -/
def divL : (grid idx : List Nat) → List Nat
  | g :: gs, i :: is => (i / g) :: divL gs is
  | _, _ => []

/-- position of a block in the list of its process -/
def posC (A : BArray) (idx : List Nat) : Nat :=
  if A.kind = .cyclic then undigits A.nblocks idx / A.nproc
  else undigits (cnts (modL A.grid idx) A.nblocks A.grid) (divL A.grid idx)

theorem divL_ok {ns gs idx : List Nat} (hl : ns.length = gs.length) (hg : ∀ g ∈ gs, 0 < g)
    (h : CoordOK ns idx) : CoordOK (cnts (modL gs idx) ns gs) (divL gs idx) ∧
      toIdx (modL gs idx) gs (divL gs idx) = idx := by
  induction gs generalizing ns idx with
  | nil => cases ns <;> cases idx <;> simp_all [CoordOK, modL, cnts, divL, toIdx]
  | cons g gs ih =>
    match ns, idx, hl, h with
    | n :: ns, i :: is, hl, h =>
      obtain ⟨a, b⟩ := ih (by simpa using hl) (fun g' h' => hg g' (by simp [h'])) h.2
      have := Nat.mod_add_div i g
      refine ⟨⟨?_, a⟩, ?_⟩
      · rw [lt_cnt (hg g (by simp)), this]; exact h.1
      · simp only [modL, divL, toIdx, this, b]

theorem modL_toIdx {gs ns cs ks : List Nat} (hl : ns.length = gs.length) (hc : CoordOK gs cs)
    (hk : CoordOK (cnts cs ns gs) ks) :
    modL gs (toIdx cs gs ks) = cs ∧ divL gs (toIdx cs gs ks) = ks := by
  induction gs generalizing ns cs ks with
  | nil => cases ns <;> cases cs <;> cases ks <;> simp_all [CoordOK, modL, divL, cnts]
  | cons g gs ih =>
    match ns, cs, ks, hl, hc, hk with
    | n :: ns, c :: cs, k :: ks, hl, hc, hk =>
      obtain ⟨a, b⟩ := ih (by simpa using hl) hc.2 hk.2
      have h1 : c < g := hc.1
      simp only [toIdx, modL, divL, a, b, Nat.add_mul_mod_self_left, Nat.mod_eq_of_lt h1,
        Nat.add_mul_div_left _ _ (by omega : 0 < g), Nat.div_eq_of_lt h1, Nat.zero_add, and_self]

section
variable {A : BArray}

theorem BOK.lens (h : BOK A) (hk : A.kind ≠ .cyclic) : A.nblocks.length = A.grid.length := by
  rw [mapOK_length h.map, (h.grid hk).1]

theorem vis_ok (h : BOK A) {p k : Nat} (hp : p < A.nproc) (hk : k < vcount A p) :
    CoordOK A.nblocks (vis A p k) ∧ procC A (vis A p k) = p ∧ posC A (vis A p k) = k := by
  unfold vis vcount procC posC at *
  by_cases hc : A.kind = .cyclic
  · simp only [hc, if_true] at hk ⊢
    have hlt := (lt_cnt h.np).1 hk
    rw [undigits_digits hlt, Nat.add_mul_mod_self_left, Nat.mod_eq_of_lt hp,
      Nat.add_mul_div_left _ _ h.np, Nat.div_eq_of_lt hp]
    exact ⟨digits_ok hlt, rfl, by omega⟩
  · simp only [hc, if_false] at hk ⊢
    obtain ⟨g1, g2, g3⟩ := h.grid hc
    have hcc : CoordOK A.grid (digits A.grid p) := digits_ok (by omega)
    obtain ⟨e1, e2⟩ := modL_toIdx (h.lens hc) hcc (digits_ok hk)
    refine ⟨toIdx_ok (h.lens hc) (digits_length _ _) g2 (digits_ok hk), ?_, ?_⟩
    · rw [e1, undigits_digits (by omega)]
    · rw [e1, e2, undigits_digits hk]

theorem vis_surj (h : BOK A) {idx : List Nat} (hi : CoordOK A.nblocks idx) :
    procC A idx < A.nproc ∧ posC A idx < vcount A (procC A idx) ∧
      vis A (procC A idx) (posC A idx) = idx := by
  unfold vis vcount procC posC
  by_cases hc : A.kind = .cyclic
  · simp only [hc, if_true]
    have e := Nat.mod_add_div (undigits A.nblocks idx) A.nproc
    refine ⟨Nat.mod_lt _ h.np, ?_, ?_⟩
    · rw [lt_cnt h.np, e]; exact undigits_lt hi
    · rw [e, digits_undigits hi]
  · simp only [hc, if_false]
    obtain ⟨g1, g2, g3⟩ := h.grid hc
    have hm : CoordOK A.grid (modL A.grid idx) :=
      modL_ok (by rw [hi.length]; exact h.lens hc) g2
    obtain ⟨d1, d2⟩ := divL_ok (h.lens hc) g2 hi
    rw [digits_undigits hm]
    refine ⟨?_, undigits_lt d1, ?_⟩
    · rw [← g3]; exact undigits_lt hm
    · rw [digits_undigits d1, d2]

theorem cnts_pos {cs ns gs : List Nat} (hl : ns.length = gs.length) (hc : CoordOK gs cs)
    (hle : GridLe gs ns) : 0 < gridSize (cnts cs ns gs) := by
  induction gs generalizing cs ns with
  | nil => cases ns <;> cases cs <;> simp_all [cnts, gridSize]
  | cons g gs ih =>
    match cs, ns, hl, hc, hle with
    | c :: cs, n :: ns, hl, hc, hle =>
      have h1 : c < g := hc.1
      have h2 : g ≤ n := hle.1
      have : 0 < cnt c n g := by rw [lt_cnt (by omega)]; omega
      exact Nat.mul_pos this (ih (by simpa using hl) hc.2 hle.2)

theorem vcount_pos (h : BOK A) (he : EnoughBlocks A) {p : Nat} (hp : p < A.nproc) :
    0 < vcount A p := by
  unfold vcount
  by_cases hc : A.kind = .cyclic
  · simp only [hc, if_true]
    rw [lt_cnt h.np]
    have := he.1 hc
    omega
  · simp only [hc, if_false]
    obtain ⟨g1, g2, g3⟩ := h.grid hc
    exact cnts_pos (h.lens hc) (digits_ok (by omega)) (he.2 hc)

theorem cnt_le {c n g : Nat} (hg : 0 < g) : cnt c n g ≤ n := by
  by_contra hlt
  have := (lt_cnt hg).1 (by omega : n < cnt c n g)
  have : n ≤ g * n := Nat.le_mul_of_pos_left n hg
  omega

theorem cnts_le {cs ns gs : List Nat} (hl : ns.length = gs.length) (hc : cs.length = gs.length)
    (hg : ∀ g ∈ gs, 0 < g) : gridSize (cnts cs ns gs) ≤ gridSize ns := by
  induction gs generalizing cs ns with
  | nil => cases ns <;> cases cs <;> simp_all [cnts, gridSize]
  | cons g gs ih =>
    match cs, ns, hl, hc with
    | c :: cs, n :: ns, hl, hc =>
      exact Nat.mul_le_mul (cnt_le (hg g (by simp)))
        (ih (by simpa using hl) (by simpa using hc) fun g' h' => hg g' (by simp [h']))

theorem vcount_le (h : BOK A) (p : Nat) : vcount A p ≤ bTotal A := by
  unfold vcount
  by_cases hc : A.kind = .cyclic
  · simp only [hc, if_true]; exact cnt_le h.np
  · simp only [hc, if_false]
    exact cnts_le (h.lens hc) (digits_length _ _) (h.grid hc).2.1

/-- corners of the block with coordinates `idx` -/
def cLo (A : BArray) (idx : List Nat) : List Int := coordLo A.nblocks (starts A) idx
def cHi (A : BArray) (idx : List Nat) : List Int := coordHi A.nblocks A.dims (starts A) idx

/-- iterator position at the `k`-th block of process `p` -/
def stAt (A : BArray) (p k : Nat) (off : Int) : BState :=
  if A.kind = .cyclic then ⟨p, p + A.nproc * k, splitIdx A.grid 0, splitIdx A.grid 0, off⟩
  else ⟨p, 0, vis A p k, splitIdx A.grid p, off⟩

/-- the piece for a block -/
def pieceC (A : BArray) (p : Nat) (off : Int) (idx : List Nat) (lo hi : List Int) : RPiece :=
  let clo := patchLo (cLo A idx) (cHi A idx) lo
  let chi := patchHi (cLo A idx) (cHi A idx) hi
  if A.kind = .scalapack then ⟨p, clo, chi,
      slOff A.dims A.bdims A.grid (digits A.grid p) clo (cLo A idx) 0 1,
      slLds A.dims A.bdims A.grid (digits A.grid p)⟩
  else ⟨p, clo, chi, blkOff clo (cLo A idx) (cHi A idx) 0 1 + off, blkLd (cLo A idx) (cHi A idx)⟩

/-- what one round emits -/
def emitC (A : BArray) (lo hi : List Int) (p : Nat) (off : Int) (idx : List Nat) : List RPiece :=
  if overlap (cLo A idx) (cHi A idx) lo hi then [pieceC A p off idx lo hi] else []

/-- size of a block -/
def sizeC (A : BArray) (idx : List Nat) : Int := blkSize (cLo A idx) (cHi A idx)

theorem bRound_eq (h : BOK A) (lo hi : List Int) {p k : Nat} (hp : p < A.nproc)
    (hk : k < vcount A p) (off : Int) :
    bRound A lo hi (stAt A p k off) = (emitC A lo hi p off (vis A p k),
      if k + 1 < vcount A p then stAt A p (k + 1) (off + sizeC A (vis A p k))
      else stAt A (p + 1) 0 0) := by
  obtain ⟨hv, _, _⟩ := vis_ok h hp hk
  unfold bRound stAt emitC sizeC
  cases hkind : A.kind with
  | cyclic =>
    simp only [if_true, vcount, hkind, vis] at hk hv ⊢
    have hlt := (lt_cnt h.np).1 hk
    rw [bOwns_eq h hlt]
    simp only [← show cLo A (digits A.nblocks (p + A.nproc * k)) = coordLo A.nblocks (starts A)
        (digits A.nblocks (p + A.nproc * k)) from rfl,
      ← show cHi A (digits A.nblocks (p + A.nproc * k)) = coordHi A.nblocks A.dims (starts A)
        (digits A.nblocks (p + A.nproc * k)) from rfl]
    refine Prod.ext ?_ ?_
    · simp only [bPiece, pieceC, hkind, Nat.add_mul_mod_self_left, Nat.mod_eq_of_lt hp]
      simp
    · simp only [cycAdvance]
      have e : A.nproc * (k + 1) = A.nproc * k + A.nproc := by ring
      have hiff : k + 1 < cnt p (bTotal A) A.nproc ↔ p + A.nproc * (k + 1) < bTotal A :=
        lt_cnt h.np
      by_cases hn : k + 1 < cnt p (bTotal A) A.nproc
      · rw [if_pos hn, if_neg (by have := hiff.1 hn; omega), e]
        simp [Nat.add_assoc]
      · rw [if_neg hn, if_pos (by have := mt hiff.2 hn; omega)]
        simp
  | scalapack =>
    have hc : A.kind ≠ .cyclic := by simp [hkind]
    have hne : A.grid ≠ [] := by
      intro e; have := (h.grid hc).1; rw [e] at this
      exact h.ne (List.length_eq_zero_iff.1 (by simpa using this.symm))
    obtain ⟨b1, b2⟩ := itBounds_eq h hv
    simp only [reduceCtorEq, if_false, b1, b2]
    refine Prod.ext ?_ ?_
    · simp only [bPiece, pieceC, hkind, Nat.mod_eq_of_lt hp, splitIdx_eq, cLo, cHi]
      simp
    · simp only [gridAdvance, splitIdx_eq]
      simp only [vcount, vis, hc, if_false] at hk hv ⊢
      obtain ⟨s1, s2⟩ := bInc_digits (h.lens hc) (digits_length A.grid p) hne (h.grid hc).2.1 hk
      by_cases hn : k + 1 < gridSize (cnts (digits A.grid p) A.nblocks A.grid)
      · rw [if_pos hn, s1 hn, if_neg]
        · rfl
        · rw [bLastOut_in (toIdx_ok (h.lens hc) (digits_length _ _) (h.grid hc).2.1 (digits_ok hn))]
          · simp
          · intro e; have := h.lens hc; rw [e] at this
            exact hne (List.length_eq_zero_iff.1 (by simpa using this.symm))
      · rw [if_neg hn, s2 (by omega), if_pos rfl,
          toIdx_zero _ (h.lens hc) (digits_length _ _)]
  | tiled =>
    have hc : A.kind ≠ .cyclic := by simp [hkind]
    have hne : A.grid ≠ [] := by
      intro e; have := (h.grid hc).1; rw [e] at this
      exact h.ne (List.length_eq_zero_iff.1 (by simpa using this.symm))
    obtain ⟨b1, b2⟩ := itBounds_eq h hv
    simp only [reduceCtorEq, if_false, b1, b2]
    refine Prod.ext ?_ ?_
    · simp only [bPiece, pieceC, hkind, Nat.mod_eq_of_lt hp, cLo, cHi]
      simp
    · simp only [gridAdvance, splitIdx_eq]
      simp only [vcount, vis, hc, if_false] at hk hv ⊢
      obtain ⟨s1, s2⟩ := bInc_digits (h.lens hc) (digits_length A.grid p) hne (h.grid hc).2.1 hk
      by_cases hn : k + 1 < gridSize (cnts (digits A.grid p) A.nblocks A.grid)
      · rw [if_pos hn, s1 hn, if_neg]
        · rfl
        · rw [bLastOut_in (toIdx_ok (h.lens hc) (digits_length _ _) (h.grid hc).2.1 (digits_ok hn))]
          · simp
          · intro e; have := h.lens hc; rw [e] at this
            exact hne (List.length_eq_zero_iff.1 (by simpa using this.symm))
      · rw [if_neg hn, s2 (by omega), if_pos rfl,
          toIdx_zero _ (h.lens hc) (digits_length _ _)]
  | tiledIrreg =>
    have hc : A.kind ≠ .cyclic := by simp [hkind]
    have hne : A.grid ≠ [] := by
      intro e; have := (h.grid hc).1; rw [e] at this
      exact h.ne (List.length_eq_zero_iff.1 (by simpa using this.symm))
    obtain ⟨b1, b2⟩ := itBounds_eq h hv
    simp only [reduceCtorEq, if_false, b1, b2]
    refine Prod.ext ?_ ?_
    · simp only [bPiece, pieceC, hkind, Nat.mod_eq_of_lt hp, cLo, cHi]
      simp
    · simp only [gridAdvance, splitIdx_eq]
      simp only [vcount, vis, hc, if_false] at hk hv ⊢
      obtain ⟨s1, s2⟩ := bInc_digits (h.lens hc) (digits_length A.grid p) hne (h.grid hc).2.1 hk
      by_cases hn : k + 1 < gridSize (cnts (digits A.grid p) A.nblocks A.grid)
      · rw [if_pos hn, s1 hn, if_neg]
        · rfl
        · rw [bLastOut_in (toIdx_ok (h.lens hc) (digits_length _ _) (h.grid hc).2.1 (digits_ok hn))]
          · simp
          · intro e; have := h.lens hc; rw [e] at this
            exact hne (List.length_eq_zero_iff.1 (by simpa using this.symm))
      · rw [if_neg hn, s2 (by omega), if_pos rfl,
          toIdx_zero _ (h.lens hc) (digits_length _ _)]

/-- elements stored before the `k`-th block of process `p` -/
def offAt (A : BArray) (p : Nat) : Nat → Int
  | 0 => 0
  | k + 1 => offAt A p k + sizeC A (vis A p k)

/-- the pieces emitted for process `p` -/
def procPieces (A : BArray) (lo hi : List Int) (p : Nat) : List RPiece :=
  (List.range (vcount A p)).flatMap fun k => emitC A lo hi p (offAt A p k) (vis A p k)

theorem bCollect_proc (h : BOK A) (lo hi : List Int) {p : Nat} (hp : p < A.nproc) (f : Nat)
    (rest : List RPiece) (hr : bCollect A lo hi f (stAt A (p + 1) 0 0) = some rest) :
    ∀ (j k : Nat), 0 < j → k + j = vcount A p →
      bCollect A lo hi (j + f) (stAt A p k (offAt A p k)) =
        some (((List.range' k j).flatMap fun k => emitC A lo hi p (offAt A p k) (vis A p k)) ++ rest)
  | 0, _, h0, _ => absurd h0 (by omega)
  | j + 1, k, _, hk => by
    have hip : (stAt A p k (offAt A p k)).iproc = p := by unfold stAt; split <;> rfl
    have e1 : j + 1 + f = (j + f) + 1 := by omega
    rw [e1, bCollect, hip, if_neg (by omega), bRound_eq h lo hi hp (by omega)]
    simp only
    rw [List.range'_succ, List.flatMap_cons]
    by_cases hj : j = 0
    · subst hj
      rw [if_neg (by omega), Nat.zero_add, hr]
      simp
    · rw [if_pos (by omega)]
      have := bCollect_proc h lo hi hp f rest hr j (k + 1) (by omega) (by omega)
      rw [offAt] at this
      rw [this]
      simp

theorem bCollect_mono (lo hi : List Int) (f : Nat) (s : BState) (ps : List RPiece)
    (h : bCollect A lo hi f s = some ps) (m : Nat) : bCollect A lo hi (f + m) s = some ps := by
  induction f generalizing s ps with
  | zero => simp [bCollect] at h
  | succ f ih =>
    have e : f + 1 + m = (f + m) + 1 := by omega
    rw [e]
    rw [bCollect] at h ⊢
    split at h
    · rename_i hc; rw [if_pos hc]; exact h
    · rename_i hc
      rw [if_neg hc]
      split at h
      · exact absurd h (by simp)
      · rename_i ps' he
        rw [ih _ _ he]
        exact h

theorem bCollect_all (h : BOK A) (he : EnoughBlocks A) (lo hi : List Int) (j p : Nat)
    (hj : p + j = A.nproc) :
    bCollect A lo hi (j * bTotal A + 1) (stAt A p 0 0) =
      some ((List.range' p j).flatMap (procPieces A lo hi)) := by
  induction j generalizing p with
  | zero =>
    have hip : (stAt A p 0 0).iproc = p := by unfold stAt; split <;> rfl
    simp only [Nat.zero_mul, Nat.zero_add, bCollect, hip]
    rw [if_pos (by omega)]
    simp
  | succ j ih =>
    have hp : p < A.nproc := by omega
    have hr := ih (p + 1) (by omega)
    have := bCollect_proc h lo hi hp _ _ hr (vcount A p) 0 (vcount_pos h he hp) (by omega)
    have hle := vcount_le h p
    have e : (j + 1) * bTotal A + 1 = (vcount A p + (j * bTotal A + 1)) + (bTotal A - vcount A p) := by
      have : (j + 1) * bTotal A = j * bTotal A + bTotal A := by ring
      omega
    rw [e, List.range'_succ, List.flatMap_cons]
    apply bCollect_mono
    rw [offAt] at this
    rw [this, procPieces, List.range_eq_range']

theorem bPieces_eq (h : BOK A) (he : EnoughBlocks A) (lo hi : List Int) :
    bPieces A lo hi = some ((List.range A.nproc).flatMap (procPieces A lo hi)) := by
  unfold bPieces
  have hs : bReset A = stAt A 0 0 0 := by
    unfold bReset stAt
    by_cases hc : A.kind = .cyclic
    · simp [hc]
    · simp only [hc, if_false, vis, splitIdx_eq]
      rw [toIdx_zero _ (h.lens hc) (digits_length _ _)]
  rw [hs, bCollect_all h he lo hi A.nproc 0 (by omega), List.range_eq_range']

end

end GA
