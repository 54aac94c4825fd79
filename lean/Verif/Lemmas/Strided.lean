import Verif.Model.Strided
import Verif.Spec.Strided
import Verif.Lemmas.OneSided

/-! # Lemmas: block offsets of strided messages -/

namespace GA
open Spec Model

theorem n1dim_eq (cs : List Nat) : n1dim cs = prodNat cs := by
  induction cs with
  | nil => rfl
  | cons c cs ih => simp [n1dim, prodNat, ih]

theorem gridSize_eq (cs : List Nat) : gridSize cs = prodNat cs := by
  induction cs with
  | nil => rfl
  | cons c cs ih => simp [gridSize, prodNat, ih]

theorem idxOK_iff (cs is : List Nat) : IdxOK cs is ↔ CoordOK cs is := by
  induction cs generalizing is with
  | nil => cases is <;> simp [IdxOK, CoordOK]
  | cons c cs ih => cases is <;> simp [IdxOK, CoordOK, ih]

theorem packPos_eq (cs is : List Nat) : packPos cs is = undigits cs is := by
  induction cs generalizing is with
  | nil => cases is <;> simp [packPos, undigits]
  | cons c cs ih => cases is <;> simp [packPos, undigits, ih]

/-- digits with a running unit -/
def uDigits (i : Nat) : Nat → List Nat → List Nat
  | u, c :: cs => (i / u % c) :: uDigits i (u * c) cs
  | _, [] => []

theorem uDigits_eq (i u : Nat) (cs : List Nat) : uDigits i u cs = digits cs (i / u) := by
  induction cs generalizing u with
  | nil => rfl
  | cons c cs ih => simp only [uDigits, digits, ih, Nat.div_div_eq_div_mul]

theorem succ_div_step (i u : Nat) (hu : 0 < u) :
    (i + 1) / u = if (i + 1) % u = 0 then i / u + 1 else i / u := by
  rw [Nat.succ_div]
  by_cases h : (i + 1) % u = 0
  · rw [if_pos h, if_pos (Nat.dvd_of_mod_eq_zero h)]
  · rw [if_neg h, if_neg (fun h' => h (Nat.mod_eq_zero_of_dvd h'))]; omega

theorem succ_mod_step (a c : Nat) (hc : 0 < c) :
    (a + 1) % c = if a % c + 1 > c - 1 then 0 else a % c + 1 := by
  rw [Nat.add_mod]
  have := Nat.mod_lt a hc
  by_cases h1 : c = 1
  · subst h1; simp [Nat.mod_one]
  · rw [Nat.mod_eq_of_lt (by omega : 1 < c)]
    split
    · have : a % c + 1 = c := by omega
      rw [this, Nat.mod_self]
    · exact Nat.mod_eq_of_lt (by omega)

theorem packRow_eq (i u : Nat) (cs : List Nat) (ss : List Int) (hu : 0 < u) (hpos : ∀ c ∈ cs, 0 < c)
    (hl : ss.length = cs.length) :
    packRow i (uDigits i u cs) (bunits u cs) cs ss =
      (strideSum ss (uDigits i u cs), uDigits (i + 1) u cs) := by
  induction cs generalizing u ss with
  | nil => cases ss <;> simp [packRow, uDigits, strideSum, bunits]
  | cons c cs ih =>
    cases ss with
    | nil => simp at hl
    | cons s ss =>
      have hc := hpos c (by simp)
      simp only [uDigits, bunits, packRow, strideSum]
      rw [ih (u * c) ss (Nat.mul_pos hu hc) (fun x hx => hpos x (by simp [hx])) (by simpa using hl)]
      congr 1
      congr 1
      rw [succ_div_step i u hu]
      have := Nat.mod_lt (i / u) hc
      split
      · rw [succ_mod_step _ _ hc]
      · rw [if_neg (by omega)]

theorem packOffs_eq (cs : List Nat) (ss : List Int) (hpos : ∀ c ∈ cs, 0 < c)
    (hl : ss.length = cs.length) (n i : Nat) :
    packOffs (bunits 1 cs) cs ss n i (digits cs i) =
      (List.range n).map fun k => strideSum ss (digits cs (i + k)) := by
  induction n generalizing i with
  | zero => rfl
  | succ n ih =>
    have h1 : uDigits i 1 cs = digits cs i := by rw [uDigits_eq, Nat.div_one]
    have h2 : uDigits (i + 1) 1 cs = digits cs (i + 1) := by rw [uDigits_eq, Nat.div_one]
    have := packRow_eq i 1 cs ss (by omega) hpos hl
    rw [h1, h2] at this
    rw [packOffs, this, List.range_succ_eq_map]
    simp only [List.map_cons, Nat.add_zero, ih, List.map_map, Function.comp_def]
    congr 1
    apply List.map_congr_left
    intro k _
    congr 2; omega

theorem digits_zero (cs : List Nat) : digits cs 0 = cs.map fun _ => 0 := by
  induction cs with
  | nil => rfl
  | cons c cs ih => simp [digits, ih]

theorem prodNat_zero {cs : List Nat} (h : ¬ ∀ c ∈ cs, 0 < c) : prodNat cs = 0 := by
  induction cs with
  | nil => simp at h
  | cons c cs ih =>
    simp only [prodNat]
    by_cases hc : c = 0
    · simp [hc]
    · rw [ih, Nat.mul_zero]
      intro h'
      apply h
      intro x hx
      rcases List.mem_cons.1 hx with rfl | hx
      · omega
      · exact h' x hx

/-- the block offsets, in closed form -/
theorem blockOffs_eq (ss : List Int) (cs : List Nat) (hl : ss.length = cs.length) :
    blockOffs ss cs = (List.range (prodNat cs)).map fun k => strideSum ss (digits cs k) := by
  unfold blockOffs
  rw [n1dim_eq]
  by_cases hpos : ∀ c ∈ cs, 0 < c
  · rw [← digits_zero, packOffs_eq cs ss hpos hl]
    simp
  · rw [prodNat_zero hpos]; rfl

/-! ## stride iterator -/

/-- digits whose last component is unbounded -/
def oDig : List Nat → Nat → List Nat
  | [], _ => []
  | [_], k => [k]
  | c :: c' :: cs, k => (k % c) :: oDig (c' :: cs) (k / c)

theorem oDig_ne {c : Nat} {cs : List Nat} {k : Nat} : ∃ a as, oDig (c :: cs) k = a :: as := by
  cases cs <;> simp [oDig]

theorem strideCarry_step (c : Nat) (cs : List Nat) (hpos : ∀ x ∈ c :: cs, 0 < x) (k : Nat)
    (hk : k < prodNat (c :: cs)) :
    ∃ a as, oDig (c :: cs) k = a :: as ∧
      strideCarry ((a + 1) :: as) (c :: cs) = some (oDig (c :: cs) (k + 1)) := by
  induction cs generalizing c k with
  | nil =>
    refine ⟨k, [], rfl, ?_⟩
    simp only [prodNat, Nat.mul_one] at hk
    simp [strideCarry, oDig]; omega
  | cons c' cs ih =>
    have hc := hpos c (by simp)
    obtain ⟨a, as, h1, h2⟩ := ih c' (fun x hx => hpos x (by simp at hx ⊢; tauto)) (k / c)
      (Nat.div_lt_of_lt_mul hk)
    refine ⟨k % c, a :: as, by simp [oDig, h1], ?_⟩
    have hm := Nat.mod_lt k hc
    simp only [strideCarry, oDig]
    have hdm := Nat.div_add_mod k c
    by_cases he : k % c + 1 = c
    · rw [if_pos he, h2, Option.map_some]
      have e : k + 1 = c * (k / c + 1) := by rw [Nat.mul_add]; omega
      rw [e, Nat.mul_mod_right, Nat.mul_div_cancel_left _ hc]
    · rw [if_neg he, if_pos (by omega)]
      have e : k + 1 = (k % c + 1) + c * (k / c) := by omega
      have e1 : (k + 1) % c = k % c + 1 := by
        rw [e, Nat.add_mul_mod_self_left, Nat.mod_eq_of_lt (by omega)]
      have e2 : (k + 1) / c = k / c := by
        conv_lhs => rw [e]
        rw [Nat.add_mul_div_left _ _ hc, Nat.div_eq_of_lt (by omega), Nat.zero_add]
      rw [e1, e2, h1]

theorem oDig_eq {cs : List Nat} {k : Nat} (hk : k < prodNat cs) : oDig cs k = digits cs k := by
  induction cs generalizing k with
  | nil => rfl
  | cons c cs ih =>
    cases cs with
    | nil =>
      simp only [prodNat, Nat.mul_one] at hk
      simp [oDig, digits, Nat.mod_eq_of_lt hk]
    | cons c' cs =>
      rw [oDig, digits, ih]
      exact Nat.div_lt_of_lt_mul hk

theorem segOff_eq (is : List Nat) (ss : List Int) : segOff is ss = strideSum ss is := by
  induction is generalizing ss with
  | nil => cases ss <;> simp [segOff, strideSum]
  | cons i is ih => cases ss <;> simp [segOff, strideSum, ih]

theorem oDig_zero (cs : List Nat) : oDig cs 0 = cs.map fun _ => 0 := by
  induction cs with
  | nil => rfl
  | cons c cs ih => cases cs <;> simp_all [oDig]

theorem strideVisit_eq (ss : List Int) (c0 : Nat) (cs : List Nat) (hpos : ∀ c ∈ cs, 0 < c)
    (n k f : Nat) (hn : k + n = prodNat cs) (hf : n ≤ f) :
    strideVisit f ⟨ss, c0, cs, prodNat cs, k, oDig cs k⟩ =
      some ((List.range n).map fun j => strideSum ss (digits cs (k + j))) := by
  induction n generalizing k f with
  | zero =>
    have hm : strideMore ⟨ss, c0, cs, prodNat cs, k, oDig cs k⟩ = false := by
      simp [strideMore]; omega
    cases f <;> simp [strideVisit, hm]
  | succ n ih =>
    obtain ⟨f, rfl⟩ : ∃ f', f = f' + 1 := ⟨f - 1, by omega⟩
    have hm : strideMore ⟨ss, c0, cs, prodNat cs, k, oDig cs k⟩ = true := by
      simp [strideMore]; omega
    have hnext : strideNext ⟨ss, c0, cs, prodNat cs, k, oDig cs k⟩ =
        some ⟨ss, c0, cs, prodNat cs, k + 1, oDig cs (k + 1)⟩ := by
      unfold strideNext
      simp only
      rw [if_pos (by omega)]
      cases cs with
      | nil => simp [oDig]
      | cons c cs =>
        obtain ⟨a, as, h1, h2⟩ := strideCarry_step c cs hpos k (by omega)
        rw [h1]
        simp [h2]
    rw [strideVisit, hm, if_pos rfl, hnext]
    simp only
    rw [ih (k + 1) f (by omega) (by omega), segOff_eq, oDig_eq (by omega), List.range_succ_eq_map]
    simp only [Option.map_some, List.map_cons, Nat.add_zero, List.map_map, Function.comp_def]
    congr 2
    apply List.map_congr_left
    intro j _
    congr 2; omega

theorem strideAsserts_iff {w : Int} {ss : List Int} {cs : List Nat} (hl : ss.length = cs.length) :
    strideAsserts w ss cs = true ↔ StrideFit w ss cs := by
  induction cs generalizing w ss with
  | nil => cases ss <;> simp_all [strideAsserts, StrideFit]
  | cons c cs ih =>
    cases ss with
    | nil => simp at hl
    | cons s ss =>
      simp only [strideAsserts, StrideFit, Bool.and_eq_true, decide_eq_true_eq,
        ih (by simpa using hl : ss.length = cs.length)]

/-- the iterator visits the same offsets in the same order as pack/unpack -/
theorem stridedSegs_eq {ss : List Int} {c0 : Nat} {cs : List Nat} (hl : ss.length = cs.length)
    (hc0 : 0 < c0) (hpos : ∀ c ∈ cs, 0 < c) (hfit : StrideFit c0 ss cs) :
    stridedSegs ss c0 cs = some (blockOffs ss cs) := by
  have hp : 0 < prodNat cs := by
    clear * - hpos
    induction cs with
    | nil => simp [prodNat]
    | cons c cs ih =>
      exact Nat.mul_pos (hpos c (by simp)) (ih fun x hx => hpos x (by simp [hx]))
  unfold stridedSegs strideInit
  rw [if_pos hc0, (strideAsserts_iff hl).2 hfit, n1dim_eq, blockOffs_eq ss cs hl]
  simp only [Bool.true_and, decide_eq_true_eq, gt_iff_lt, hp, if_true, Option.bind_some]
  rw [← oDig_zero, strideVisit_eq ss c0 cs hpos (prodNat cs) 0 _ (by omega) (by omega)]
  simp

/-! ## disjointness of segments -/

theorem strideSum_sep {w : Int} {ss : List Int} {cs : List Nat} {a b : List Nat} (hw : 0 ≤ w)
    (hfit : StrideFit w ss cs) (ha : IdxOK cs a) (hb : IdxOK cs b) (hne : a ≠ b) :
    strideSum ss a + w ≤ strideSum ss b ∨ strideSum ss b + w ≤ strideSum ss a := by
  induction cs generalizing w ss a b with
  | nil => cases a <;> cases b <;> simp_all [IdxOK]
  | cons c cs ih =>
    match ss, a, b, hfit, ha, hb with
    | s :: ss, i :: a, j :: b, hfit, ha, hb =>
      simp only [StrideFit] at hfit
      simp only [IdxOK] at ha hb
      simp only [strideSum]
      by_cases hab : a = b
      · subst hab
        have hij : i ≠ j := fun e => hne (by rw [e])
        rcases Nat.lt_or_gt_of_ne hij with h | h
        · left
          have : ((i : Int) + 1) * s ≤ j * s := Int.mul_le_mul_of_nonneg_right (by omega) (by omega)
          rw [Int.add_mul] at this
          omega
        · right
          have : ((j : Int) + 1) * s ≤ i * s := Int.mul_le_mul_of_nonneg_right (by omega) (by omega)
          rw [Int.add_mul] at this
          omega
      · have hs : 0 ≤ s := by omega
        have hi : ((i : Int) + 1) * s ≤ c * s := Int.mul_le_mul_of_nonneg_right (by omega) hs
        have hj : ((j : Int) + 1) * s ≤ c * s := Int.mul_le_mul_of_nonneg_right (by omega) hs
        have hi0 : 0 ≤ (i : Int) * s := Int.mul_nonneg (by omega) hs
        have hj0 : 0 ≤ (j : Int) * s := Int.mul_nonneg (by omega) hs
        rw [Int.add_mul] at hi hj
        have e : s * (c : Int) = c * s := Int.mul_comm _ _
        rcases ih (Int.mul_nonneg hs (by omega)) hfit.2 ha.2 hb.2 hab with h | h
        · left; omega
        · right; omega

/-! ## effects -/

section
variable {V : Type}

theorem writeSeg_miss (mem : Int → V) (a : Int) (seg : Nat → V) (n : Nat) (x : Int)
    (h : x < a ∨ a + n ≤ x) : writeSeg mem a seg n x = mem x := by
  induction n with
  | zero => rfl
  | succ n ih =>
    simp only [writeSeg, upd]
    rw [if_neg (by omega), ih (by omega)]

theorem writeSeg_hit (mem : Int → V) (a : Int) (seg : Nat → V) (n b : Nat) (hb : b < n) :
    writeSeg mem a seg n (a + b) = seg b := by
  induction n with
  | zero => omega
  | succ n ih =>
    simp only [writeSeg, upd]
    by_cases h : b = n
    · subst h; simp
    · rw [if_neg (by omega), ih (by omega)]

theorem unpackLoop_miss (buf : Nat → V) (base : Int) (c0 : Nat) (os : List Int) (pos : Nat)
    (mem : Int → V) (x : Int) (h : ∀ o ∈ os, x < base + o ∨ base + o + c0 ≤ x) :
    unpackLoop buf base c0 os pos mem x = mem x := by
  induction os generalizing pos mem with
  | nil => rfl
  | cons o os ih =>
    simp only [unpackLoop]
    rw [ih _ _ fun o' h' => h o' (by simp [h']), writeSeg_miss _ _ _ _ _ (h o (by simp))]

theorem unpackLoop_hit (buf : Nat → V) (base : Int) (c0 : Nat) (os : List Int) (pos : Nat)
    (mem : Int → V) (hsep : os.Pairwise fun (o o' : Int) => o + c0 ≤ o' ∨ o' + c0 ≤ o)
    (k b : Nat) (hk : k < os.length) (hb : b < c0) :
    unpackLoop buf base c0 os pos mem (base + os[k] + b) = buf (pos + k * c0 + b) := by
  induction os generalizing pos mem k with
  | nil => simp at hk
  | cons o os ih =>
    rw [List.pairwise_cons] at hsep
    simp only [unpackLoop]
    cases k with
    | zero =>
      simp only [List.getElem_cons_zero]
      rw [unpackLoop_miss]
      · rw [writeSeg_hit _ _ _ _ _ hb]; simp
      · intro o' h'
        have := hsep.1 o' h'
        omega
    | succ k =>
      simp only [List.getElem_cons_succ]
      rw [ih _ _ hsep.2 k (by simpa using hk)]
      congr 1
      rw [Nat.add_mul]; omega

theorem flatMap_getElem? {α β} (l : List α) (f : α → List β) (c : Nat)
    (hf : ∀ a ∈ l, (f a).length = c) (k b : Nat) (hk : k < l.length) (hb : b < c) :
    (l.flatMap f)[b + c * k]? = (f l[k])[b]? := by
  induction l generalizing k with
  | nil => simp at hk
  | cons a l ih =>
    rw [List.flatMap_cons]
    have ha := hf a (by simp)
    cases k with
    | zero =>
      rw [List.getElem?_append_left (by omega)]
      simp
    | succ k =>
      rw [List.getElem?_append_right (by rw [ha, Nat.mul_add]; omega)]
      have e : b + c * (k + 1) - (f a).length = b + c * k := by rw [ha, Nat.mul_add]; omega
      rw [e, ih (fun x hx => hf x (by simp [hx])) k (by simpa using hk)]
      simp

theorem flatMap_length_const {α β} (l : List α) (f : α → List β) (c : Nat)
    (hf : ∀ a ∈ l, (f a).length = c) : (l.flatMap f).length = c * l.length := by
  induction l with
  | nil => simp
  | cons a l ih =>
    rw [List.flatMap_cons, List.length_append, hf a (by simp), ih fun x hx => hf x (by simp [hx]),
      List.length_cons, Nat.mul_add]
    omega

theorem blockOffs_sep {ss : List Int} {c0 : Nat} {cs : List Nat} (hl : ss.length = cs.length)
    (hfit : StrideFit c0 ss cs) :
    (blockOffs ss cs).Pairwise fun (o o' : Int) => o + c0 ≤ o' ∨ o' + c0 ≤ o := by
  rw [blockOffs_eq ss cs hl, List.pairwise_map]
  have hnd := List.nodup_iff_pairwise_ne.1 (List.nodup_range (n := prodNat cs))
  refine List.Pairwise.imp_of_mem ?_ hnd
  intro a b ha hb hab
  rw [List.mem_range, ← gridSize_eq] at ha hb
  apply strideSum_sep (by omega) hfit
  · rw [idxOK_iff]; exact digits_ok ha
  · rw [idxOK_iff]; exact digits_ok hb
  · intro e
    apply hab
    rw [← undigits_digits ha, ← undigits_digits hb, e]

theorem blockOffs_getElem? {ss : List Int} {cs : List Nat} (hl : ss.length = cs.length) {is : List Nat}
    (his : IdxOK cs is) : (blockOffs ss cs)[packPos cs is]? = some (strideSum ss is) := by
  rw [idxOK_iff] at his
  have := undigits_lt his
  rw [gridSize_eq] at this
  rw [blockOffs_eq ss cs hl, packPos_eq, List.getElem?_map, List.getElem?_range this]
  simp [digits_undigits his]

/-- the packed message: length and content -/
theorem pack_spec (src : Int → V) (base : Int) {ss : List Int} (c0 : Nat) {cs : List Nat}
    (hl : ss.length = cs.length) :
    (pack src base ss c0 cs).length = prodNat (c0 :: cs) ∧
    ∀ idx, IdxOK (c0 :: cs) idx →
      (pack src base ss c0 cs)[packPos (c0 :: cs) idx]? = some (src (base + strAddr ss idx)) := by
  have hlen : ∀ o ∈ blockOffs ss cs, (readSeg src (base + o) c0).length = c0 := by
    intro o _; simp [readSeg]
  constructor
  · unfold pack
    rw [flatMap_length_const _ _ c0 hlen, blockOffs_eq ss cs hl]
    simp [prodNat]
  · intro idx hidx
    cases idx with
    | nil => simp [IdxOK] at hidx
    | cons b is =>
      simp only [IdxOK] at hidx
      have hg := blockOffs_getElem? hl hidx.2
      obtain ⟨hk, hv⟩ := List.getElem?_eq_some_iff.1 hg
      unfold pack
      simp only [packPos, strAddr]
      rw [flatMap_getElem? _ _ c0 hlen _ b hk hidx.1, hv]
      simp only [readSeg, List.getElem?_map, List.getElem?_range hidx.1, Option.map_some]
      congr 2; omega

/-- the effect of scattering a packed message -/
theorem unpack_spec (buf : Nat → V) (dst : Int → V) (base : Int) {ss : List Int} (c0 : Nat)
    {cs : List Nat} (hl : ss.length = cs.length) (hfit : StrideFit c0 ss cs) :
    (∀ idx, IdxOK (c0 :: cs) idx →
      unpack buf dst base ss c0 cs (base + strAddr ss idx) = buf (packPos (c0 :: cs) idx)) ∧
    (∀ x, (∀ idx, IdxOK (c0 :: cs) idx → base + strAddr ss idx ≠ x) →
      unpack buf dst base ss c0 cs x = dst x) := by
  constructor
  · intro idx hidx
    cases idx with
    | nil => simp [IdxOK] at hidx
    | cons b is =>
      simp only [IdxOK] at hidx
      have hg := blockOffs_getElem? hl hidx.2
      obtain ⟨hk, hv⟩ := List.getElem?_eq_some_iff.1 hg
      have := unpackLoop_hit buf base c0 (blockOffs ss cs) 0 dst (blockOffs_sep hl hfit) _ b hk hidx.1
      rw [hv] at this
      unfold unpack
      have e : base + strAddr ss (b :: is) = base + strideSum ss is + b := by
        simp only [strAddr]; omega
      rw [e, this]
      congr 1
      simp only [packPos]
      rw [Nat.mul_comm]; omega
  · intro x hx
    unfold unpack
    apply unpackLoop_miss
    intro o ho
    rw [blockOffs_eq ss cs hl, List.mem_map] at ho
    obtain ⟨k, hk, rfl⟩ := ho
    rw [List.mem_range, ← gridSize_eq] at hk
    by_contra hc
    have h1 : base + strideSum ss (digits cs k) ≤ x ∧ x < base + strideSum ss (digits cs k) + c0 := by
      omega
    apply hx ((x - (base + strideSum ss (digits cs k))).toNat :: digits cs k)
    · simp only [IdxOK]
      exact ⟨by omega, (idxOK_iff _ _).2 (digits_ok hk)⟩
    · simp only [strAddr]; omega

end

end GA

/-! ## strided messages and the piece transfers of `Model.OneSided` -/

namespace GA
open Spec Model

/-- `count[1..]` of a patch, as computed by `gam_ComputeCount` -/
def natEdges (lo hi : List Int) : List Nat := (edges lo hi).map Int.toNat

theorem strideSum_dotI (ss : List Int) (is : List Nat) :
    strideSum ss is = dotI ss (is.map Int.ofNat) := by
  induction ss generalizing is with
  | nil => cases is <;> simp [strideSum, dotI]
  | cons s ss ih =>
    cases is with
    | nil => simp [strideSum, dotI]
    | cons i is => simp [strideSum, dotI, ih, Int.mul_comm]

theorem strAddr_strideOff (ss : List Int) (is : List Nat) :
    strAddr ss is = strideOff ss (is.map Int.ofNat) := by
  cases is <;> simp [strAddr, strideOff, strideSum_dotI]

theorem idxOK_natEdges {lo hi : List Int} (h : InPatch lo hi lo) (is : List Nat) :
    IdxOK (natEdges lo hi) is ↔
      InPatch (lo.map fun _ => 0) ((edges lo hi).map (· - 1)) (is.map Int.ofNat) := by
  induction lo generalizing hi is with
  | nil =>
    cases hi with
    | nil => cases is <;> simp [natEdges, edges, IdxOK, InPatch]
    | cons => simp [InPatch] at h
  | cons l lo ih =>
    cases hi with
    | nil => simp [InPatch] at h
    | cons hh hi =>
      simp only [InPatch] at h
      cases is with
      | nil => simp [natEdges, edges, IdxOK, InPatch]
      | cons i is =>
        have := ih h.2 is
        unfold natEdges at this
        simp only [natEdges, edges, List.map_cons, IdxOK, InPatch, this]
        constructor <;> (rintro ⟨a, b⟩; refine ⟨?_, b⟩; simp at a ⊢; omega)

theorem nonneg_lift {lo hi i : List Int} (h : InPatch (lo.map fun _ => 0) hi i) :
    (i.map Int.toNat).map Int.ofNat = i := by
  induction lo generalizing hi i with
  | nil => cases hi <;> cases i <;> simp_all [InPatch]
  | cons l lo ih =>
    cases hi with
    | nil => cases i <;> simp [InPatch] at h
    | cons hh hi =>
      cases i with
      | nil => simp [InPatch] at h
      | cons i is =>
        simp only [List.map_cons, InPatch] at h
        simp only [List.map_cons, ih h.2]
        congr 1
        simp; omega

/-- the patch strides of GA never overlap when the leading dimensions are large enough -/
theorem strideFit_setstride {lo hi ld : List Int} (h : LdOK lo hi ld) (hne : InPatch lo hi lo)
    {w0 : Nat} {cs : List Nat} (hc : natEdges lo hi = w0 :: cs) (a : Int) (ha : 0 ≤ a) :
    StrideFit (a * w0) (setstride a ld) cs := by
  induction lo generalizing hi ld a w0 cs with
  | nil => simp [natEdges, edges] at hc
  | cons l lo ih =>
    match lo, hi, ld, h with
    | [], [hh], [], _ =>
      simp only [natEdges, edges, List.map_cons, List.map_nil, List.cons.injEq] at hc
      obtain ⟨rfl, rfl⟩ := hc
      simp [setstride, StrideFit]
    | l' :: lo, hh :: h' :: hi, d :: ld, h =>
      simp only [LdOK] at h
      simp only [InPatch] at hne
      have e : natEdges (l :: l' :: lo) (hh :: h' :: hi) =
        (hh - l + 1).toNat :: natEdges (l' :: lo) (h' :: hi) := rfl
      rw [e, List.cons.injEq] at hc
      obtain ⟨rfl, hc⟩ := hc
      obtain ⟨w1, cs, rfl⟩ : ∃ w1 cs', cs = w1 :: cs' := by
        cases cs with
        | nil => simp [natEdges, edges] at hc
        | cons a b => exact ⟨a, b, rfl⟩
      simp only [setstride, StrideFit]
      refine ⟨Int.mul_le_mul_of_nonneg_left (by omega) ha, ?_⟩
      exact ih h.2 (by simp only [InPatch]; exact hne.2) hc (a * d)
        (Int.mul_nonneg ha (by omega))

theorem mem_loopAll_zero {lo hi i : List Int} (h : InPatch lo hi lo) :
    i ∈ loopAll (lo.map fun _ => 0) ((edges lo hi).map (· - 1)) ↔
      InPatch (lo.map fun _ => 0) ((edges lo hi).map (· - 1)) i := by
  rw [loopAll_eq_box, mem_box]
  refine ⟨lo.map fun _ => 0, ?_⟩
  clear * - h
  induction lo generalizing hi with
  | nil => cases hi <;> simp_all [edges, InPatch]
  | cons l lo ih =>
    cases hi with
    | nil => simp [InPatch] at h
    | cons hh hi =>
      simp only [InPatch] at h
      simp only [List.map_cons, edges, InPatch]
      exact ⟨by omega, ih h.2⟩

end GA
