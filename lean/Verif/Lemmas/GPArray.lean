import Verif.Model.GPArray
import Verif.Lemmas.OneSided
import Verif.Lemmas.Index
import Verif.Lemmas.Region

/-! # Lemmas about global pointer arrays -/

namespace GA.GP
open GA.Spec GA.Model

theorem rel_length {x lo : List Int} (h : x.length = lo.length) : (rel x lo).length = lo.length := by
  induction lo generalizing x with
  | nil => cases x <;> simp_all [rel]
  | cons l lo ih => cases x with
    | nil => simp at h
    | cons a x => simp [rel, ih (by simpa using h)]

theorem offset_rel {x lo : List Int} (ld : List Int) (h : x.length = lo.length) : offset ld (rel x lo) = bufPos lo ld x := by
  induction lo generalizing x ld with
  | nil => cases x <;> cases ld <;> simp_all [rel, offset, bufPos]
  | cons l lo ih => cases x with
    | nil => simp at h
    | cons a x =>
      cases ld with
      | nil => simp [rel, offset, bufPos]
      | cons d ld => simp only [rel, offset, bufPos, ih ld (by simpa using h)]; ring

theorem shift_rel {x plo lo : List Int} (h1 : x.length = plo.length) (h2 : plo.length = lo.length) :
    shift (rel x plo) plo lo = rel x lo := by
  induction lo generalizing x plo with
  | nil => cases plo <;> cases x <;> simp_all [rel, shift]
  | cons l lo ih =>
    cases plo with
    | nil => simp at h2
    | cons p plo => cases x with
      | nil => simp at h1
      | cons a x =>
        simp only [rel, shift]
        rw [ih (by simpa using h1) (by simpa using h2)]
        congr 1; omega

theorem shift_zero {x lo : List Int} (h : x.length = lo.length) : shift (rel x lo) lo (lo.map fun _ => 0) = x := by
  induction lo generalizing x with
  | nil => cases x <;> simp_all [rel, shift]
  | cons l lo ih =>
    cases x with
    | nil => simp at h
    | cons a x =>
      simp only [rel, shift, List.map_cons]
      rw [ih (by simpa using h)]
      congr 1; omega

private theorem range_mul (n m : Nat) : List.range (n * m) = (List.range m).flatMap fun i => (List.range n).map fun k => n * i + k := by
  induction m with
  | zero => simp
  | succ m ih =>
    rw [Nat.mul_succ, List.range_add, ih, List.range_succ, List.flatMap_append]
    simp

private theorem prodI_pos {lo hi : List Int} (h : ∃ x, InPatch lo hi x) : 0 < prodI (edges lo hi) := by
  obtain ⟨x, hx⟩ := h
  induction lo generalizing hi x with
  | nil => cases hi <;> simp [edges, prodI]
  | cons l lo ih =>
    cases hi with
    | nil => simp [edges, prodI]
    | cons h hi =>
      cases x with
      | nil => simp [InPatch] at hx
      | cons x xs =>
        simp only [InPatch] at hx
        simp only [edges, prodI]
        exact Int.mul_pos (by omega) (ih _ hx.2)

private theorem irange_map {l h : Int} (e : List Int → List Int) (r : List Int) :
    (irange l h).map (fun x => (x - l) :: e r) = (List.range (h - l + 1).toNat).map fun k : Nat => (k : Int) :: e r := by
  unfold irange
  rw [List.map_map]
  have : (h + 1 - l).toNat = (h - l + 1).toNat := by omega
  rw [this]
  apply List.map_congr_left
  intro k _
  simp

/-- the loop over `j` visits the elements of the patch -/
theorem elemIndex_range {lo hi : List Int} (hne : lo ≠ []) (h : ∃ x, InPatch lo hi x) :
    (List.range (prodI (edges lo hi)).toNat).map (fun j : Nat => elemIndex (edges lo hi).dropLast j) = (box lo hi).map fun x => rel x lo := by
  induction lo generalizing hi with
  | nil => exact absurd rfl hne
  | cons l lo ih =>
    obtain ⟨x, hx⟩ := h
    match hi, x, hx with
    | [], [], hx => simp [InPatch] at hx
    | h :: hi, x :: xs, hx =>
      simp only [InPatch] at hx
      have hbox : (box (l :: lo) (h :: hi)).map (fun x => rel x (l :: lo)) = ((box lo hi).map fun x => rel x lo).flatMap fun e =>
          (List.range (h - l + 1).toNat).map fun k : Nat => (k : Int) :: e := by
        simp only [box, List.map_flatMap, List.flatMap_map, List.map_map]
        congr 1
        funext r
        rw [← irange_map (fun r => rel r lo) r]
        rfl
      rw [hbox]
      have hn : 0 < h - l + 1 := by omega
      cases lo with
      | nil =>
        cases hi with
        | cons a b => cases xs <;> simp [InPatch] at hx
        | nil => simp [edges, prodI, elemIndex, box, rel]
      | cons l' lo =>
        cases hi with
        | nil => cases xs <;> simp [InPatch] at hx
        | cons h' hi =>
          rw [← ih (by simp) ⟨xs, hx.2⟩]
          have hp := prodI_pos ⟨xs, hx.2⟩
          have e1 : (edges (l :: l' :: lo) (h :: h' :: hi)).dropLast = (h - l + 1) :: (edges (l' :: lo) (h' :: hi)).dropLast := by
            simp [edges]
          have e2 : (prodI (edges (l :: l' :: lo) (h :: h' :: hi))).toNat = (h - l + 1).toNat * (prodI (edges (l' :: lo) (h' :: hi))).toNat := by
            have : prodI (edges (l :: l' :: lo) (h :: h' :: hi)) = (h - l + 1) * prodI (edges (l' :: lo) (h' :: hi)) := rfl
            rw [this, Int.toNat_mul (by omega) (by omega)]
          rw [e1, e2, range_mul, List.map_flatMap, List.flatMap_map]
          congr 1
          funext i
          rw [List.map_map]
          apply List.map_congr_left
          intro k hk
          have hk' := List.mem_range.1 hk
          have hN : ((h - l + 1).toNat : Int) = h - l + 1 := by omega
          simp only [Function.comp_apply, elemIndex]
          have hm : (((h - l + 1).toNat * i + k : Nat) : Int) % (h - l + 1) = k := by
            rw [Nat.cast_add, Nat.cast_mul, hN, Int.mul_add_emod_self_left]
            exact Int.emod_eq_of_lt (by omega) (by omega)
          have hd : ((((h - l + 1).toNat * i + k : Nat) : Int) - k) / (h - l + 1) = i := by
            rw [Nat.cast_add, Nat.cast_mul, hN, Int.add_sub_cancel]
            exact Int.mul_ediv_cancel_left _ (by omega)
          rw [hm, hd]

/-! ## writing to lists -/

theorem foldl_upd {α β : Type} (pos : α → Int) (f : α → β) (L : List α) (buf : Int → β) (o : Int) :
    ((∀ x ∈ L, pos x ≠ o) → (L.foldl (fun b x => upd b (pos x) (f x)) buf) o = buf o) ∧
    ∀ v, (∀ x ∈ L, pos x = o → f x = v) → (∃ x ∈ L, pos x = o) → (L.foldl (fun b x => upd b (pos x) (f x)) buf) o = v := by
  induction L generalizing buf with
  | nil => simp
  | cons a L ih =>
    obtain ⟨i1, i2⟩ := ih (upd buf (pos a) (f a))
    constructor
    · intro h
      rw [List.foldl_cons, i1 fun x hx => h x (List.mem_cons_of_mem _ hx)]
      have := h a (List.mem_cons_self ..)
      simp [upd, Ne.symm this]
    · intro v hv hx
      rw [List.foldl_cons]
      by_cases q : ∃ x ∈ L, pos x = o
      · exact i2 v (fun x hx => hv x (List.mem_cons_of_mem _ hx)) q
      · rw [i1 fun x hx e => q ⟨x, hx, e⟩]
        obtain ⟨x, hx, e⟩ := hx
        rcases List.mem_cons.1 hx with rfl | hx
        · rw [← hv x (List.mem_cons_self ..) e]; simp [upd, e]
        · exact absurd ⟨x, hx, e⟩ q

theorem arrGet_eq {α : Type} (f : List Int → α) {lo hi : List Int} (ld : List Int) (buf : Int → α) (h : ∃ x, InPatch lo hi x) :
    arrGet f lo hi ld buf = (box lo hi).foldl (fun b x => upd b (bufPos lo ld x) (f x)) buf := by
  unfold arrGet
  rw [loopAll_eq_box h]
  have : ∀ (L : List (List Int)) (b : Int → α), (∀ x ∈ L, InPatch lo hi x) →
      L.foldl (fun b x => upd b (offset ld (rel x lo)) (f x)) b = L.foldl (fun b x => upd b (bufPos lo ld x) (f x)) b := by
    intro L
    induction L with
    | nil => intros; rfl
    | cons a L ih =>
      intro b hL
      rw [List.foldl_cons, List.foldl_cons, ih _ fun x hx => hL x (List.mem_cons_of_mem _ hx),
        offset_rel _ (hL a (List.mem_cons_self ..)).length.1]
  exact this _ _ fun x hx => mem_box.1 hx

theorem arrGet_in {α : Type} (f : List Int → α) {lo hi ld : List Int} (buf : Int → α) (hl : LdOK lo hi ld) {x : List Int} (hx : InPatch lo hi x) :
    arrGet f lo hi ld buf (bufPos lo ld x) = f x := by
  rw [arrGet_eq f ld buf ⟨x, hx⟩]
  refine (foldl_upd _ f _ buf _).2 (f x) ?_ ⟨x, mem_box.2 hx, rfl⟩
  intro y hy e
  rw [bufPos_inj hl (mem_box.1 hy) hx e]

theorem arrGet_out {α : Type} (f : List Int → α) {lo hi : List Int} (ld : List Int) (buf : Int → α) (h : ∃ x, InPatch lo hi x) {o : Int}
    (ho : ∀ x, InPatch lo hi x → bufPos lo ld x ≠ o) : arrGet f lo hi ld buf o = buf o := by
  rw [arrGet_eq f ld buf h]
  exact (foldl_upd _ f _ buf o).1 fun x hx => ho x (mem_box.1 hx)

theorem ldOK_tight {lo hi : List Int} (hne : lo ≠ []) (hl : hi.length = lo.length) : LdOK lo hi (edges lo hi).dropLast := by
  induction lo generalizing hi with
  | nil => exact absurd rfl hne
  | cons l lo ih =>
    match lo, hi, hl with
    | [], [h], _ => simp [edges, LdOK]
    | l' :: lo, h :: h' :: hi, hl =>
      have := ih (hi := h' :: hi) (by simp) (by simpa using hl)
      simp only [edges, List.dropLast_cons₂, LdOK] at this ⊢
      exact ⟨Int.le_refl _, this⟩

/-! ## the list of places -/

/-- the loop that makes the places, over subscripts -/
def placeLoop (lo ld ldSz : List Int) (b0 : Int) (bs : Int → Int) : List (List Int) → (Int → Int) → Int → (Int → Int) × Int
  | [], bp, off => (bp, off)
  | x :: xs, bp, off => placeLoop lo ld ldSz b0 bs xs (upd bp (bufPos lo ld x) (b0 + off)) (off + bs (bufPos lo ldSz x))

private theorem ptrLoop_place {lo ld ldSz ext : List Int} {b0 : Int} {bs : Int → Int} (js : List Nat) (xs : List (List Int))
    (h : js.map (fun j : Nat => elemIndex ext j) = xs.map fun x => rel x lo) (hx : ∀ x ∈ xs, x.length = lo.length) (bp : Int → Int) (off : Int) :
    ptrLoop ext ld ldSz b0 bs js bp off = placeLoop lo ld ldSz b0 bs xs bp off := by
  induction js generalizing xs bp off with
  | nil => cases xs <;> simp_all [ptrLoop, placeLoop]
  | cons j js ih =>
    cases xs with
    | nil => simp at h
    | cons x xs =>
      simp only [List.map_cons, List.cons.injEq] at h
      have hl := hx x (List.mem_cons_self ..)
      simp only [ptrLoop, placeLoop, h.1, offset_rel _ hl]
      exact ih xs h.2 (fun y hy => hx y (List.mem_cons_of_mem _ hy)) _ _

theorem ptrLoop_eq {lo hi ld ldSz : List Int} {b0 : Int} {bs bp : Int → Int} (hne : lo ≠ []) (h : ∃ x, InPatch lo hi x) :
    ptrLoop (edges lo hi).dropLast ld ldSz b0 bs (List.range (prodI (edges lo hi)).toNat) bp 0 = placeLoop lo ld ldSz b0 bs (box lo hi) bp 0 :=
  ptrLoop_place _ _ (elemIndex_range hne h) (fun _ hx => (mem_box.1 hx).length.1) _ _

theorem placeLoop_spec {lo hi ld ldSz : List Int} (hl : LdOK lo hi ld) {b0 : Int} {bs : Int → Int} (L : List (List Int)) (hL : ∀ x ∈ L, InPatch lo hi x)
    (hn : L.Nodup) (h0 : ∀ x ∈ L, 0 ≤ bs (bufPos lo ldSz x)) (bp : Int → Int) (off : Int) :
    (placeLoop lo ld ldSz b0 bs L bp off).2 = off + (L.map fun x => bs (bufPos lo ldSz x)).sum ∧
    off ≤ (placeLoop lo ld ldSz b0 bs L bp off).2 ∧
    (∀ o, (∀ x ∈ L, bufPos lo ld x ≠ o) → (placeLoop lo ld ldSz b0 bs L bp off).1 o = bp o) ∧
    (∀ x ∈ L, b0 + off ≤ (placeLoop lo ld ldSz b0 bs L bp off).1 (bufPos lo ld x) ∧
      (placeLoop lo ld ldSz b0 bs L bp off).1 (bufPos lo ld x) + bs (bufPos lo ldSz x) ≤ b0 + (placeLoop lo ld ldSz b0 bs L bp off).2) ∧
    ∀ x ∈ L, ∀ y ∈ L, x ≠ y →
      (placeLoop lo ld ldSz b0 bs L bp off).1 (bufPos lo ld x) + bs (bufPos lo ldSz x) ≤ (placeLoop lo ld ldSz b0 bs L bp off).1 (bufPos lo ld y) ∨
      (placeLoop lo ld ldSz b0 bs L bp off).1 (bufPos lo ld y) + bs (bufPos lo ldSz y) ≤ (placeLoop lo ld ldSz b0 bs L bp off).1 (bufPos lo ld x) := by
  induction L generalizing bp off with
  | nil => simp [placeLoop]
  | cons a L ih =>
    have ha := h0 a (List.mem_cons_self ..)
    obtain ⟨i1, i2, i3, i4, i5⟩ := ih (fun x hx => hL x (List.mem_cons_of_mem _ hx)) (List.nodup_cons.1 hn).2
      (fun x hx => h0 x (List.mem_cons_of_mem _ hx)) (upd bp (bufPos lo ld a) (b0 + off)) (off + bs (bufPos lo ldSz a))
    have hna : ∀ x ∈ L, bufPos lo ld x ≠ bufPos lo ld a := fun x hx e =>
      (List.nodup_cons.1 hn).1 (bufPos_inj hl (hL x (List.mem_cons_of_mem _ hx)) (hL a (List.mem_cons_self ..)) e ▸ hx)
    have hpa := i3 _ hna
    simp only [upd, if_true] at hpa
    simp only [placeLoop, List.map_cons, List.sum_cons]
    refine ⟨by rw [i1]; ring, by omega, ?_, ?_, ?_⟩
    · intro o ho
      rw [i3 o fun x hx => ho x (List.mem_cons_of_mem _ hx)]
      simp [upd, Ne.symm (ho a (List.mem_cons_self ..))]
    · intro x hx
      rcases List.mem_cons.1 hx with rfl | hx
      · rw [hpa]; omega
      · have := i4 x hx
        omega
    · intro x hx y hy hxy
      rcases List.mem_cons.1 hx with rfl | hx
      · rcases List.mem_cons.1 hy with rfl | hy
        · exact absurd rfl hxy
        · have := i4 y hy
          rw [hpa]; omega
      · rcases List.mem_cons.1 hy with rfl | hy
        · have := i4 x (by assumption)
          rw [hpa]; omega
        · exact i5 x (by assumption) y hy hxy

/-! ## transfers -/

theorem descs_eq {B : Type} (st : St B) {plo phi lo : List Int} (ld ldSz : List Int) (bs bp : Int → Int) (hne : plo ≠ [])
    (hl : plo.length = lo.length) (h : ∃ x, InPatch plo phi x) :
    descs st plo phi lo ld ldSz bs bp = (box plo phi).filterMap fun x =>
      if 0 < bs (bufPos lo ldSz x) then some ((st.pt x).addr, bp (bufPos lo ld x), bs (bufPos lo ldSz x)) else none := by
  unfold descs
  simp only
  have key : ∀ (js : List Nat) (xs : List (List Int)), js.map (fun j : Nat => elemIndex (edges plo phi).dropLast j) = xs.map (fun x => rel x plo) →
      (∀ x ∈ xs, InPatch plo phi x) →
      (js.filterMap fun j : Nat =>
        if 0 < bs (offset ldSz (shift (elemIndex (edges plo phi).dropLast j) plo lo)) then
          some ((arrGet st.pt plo phi (edges plo phi).dropLast (fun _ => ⟨0, 0⟩) (offset (edges plo phi).dropLast (elemIndex (edges plo phi).dropLast j))).addr,
            bp (offset ld (shift (elemIndex (edges plo phi).dropLast j) plo lo)),
            bs (offset ldSz (shift (elemIndex (edges plo phi).dropLast j) plo lo))) else none) =
      xs.filterMap fun x => if 0 < bs (bufPos lo ldSz x) then some ((st.pt x).addr, bp (bufPos lo ld x), bs (bufPos lo ldSz x)) else none := by
    intro js
    induction js with
    | nil => intro xs h _; cases xs <;> simp_all
    | cons j js ih =>
      intro xs h hx
      cases xs with
      | nil => simp at h
      | cons x xs =>
        simp only [List.map_cons, List.cons.injEq] at h
        have hp := hx x (List.mem_cons_self ..)
        have hxl := hp.length
        rw [List.filterMap_cons, List.filterMap_cons, ih xs h.2 fun y hy => hx y (List.mem_cons_of_mem _ hy), h.1,
          shift_rel hxl.1 hl, offset_rel _ (hxl.1.trans hl), offset_rel _ (hxl.1.trans hl), offset_rel _ hxl.1,
          arrGet_in _ _ (ldOK_tight hne hxl.2) hp]
  exact key _ _ (elemIndex_range hne h) fun x hx => mem_box.1 hx

/-! ## pieces are not empty if no block is empty -/

private theorem findblocks_le {ns : List Nat} {ds m lo hi : List Int} {cT cB : List Nat} (hm : MapOK ns ds m) (hcT : CandOK ns cT) (hcB : CandOK ns cB)
    (h1 : InArray ds lo) (h2 : InArray ds hi) (h3 : InPatch lo hi lo) :
    InPatch ((findblocks ns m cT lo).map Int.ofNat) ((findblocks ns m cB hi).map Int.ofNat) ((findblocks ns m cT lo).map Int.ofNat) := by
  induction ns generalizing ds m lo hi cT cB with
  | nil => simp [findblocks, InPatch]
  | cons n ns ih =>
    match ds, lo, hi, cT, cB, hm, hcT, hcB, h1, h2, h3 with
    | d :: ds, l :: lo, h :: hi, t :: cT, b :: cB, hm, hcT, hcB, h1, h2, h3 =>
      simp only [MapOK] at hm
      simp only [CandOK] at hcT hcB
      have h1' : (1 ≤ l ∧ l ≤ d) ∧ InArray ds lo := h1
      have h2' : (1 ≤ h ∧ h ≤ d) ∧ InArray ds hi := h2
      simp only [InPatch] at h3
      obtain ⟨⟨hn, hlen, hd, hok⟩, hm⟩ := hm
      have s := AxisOK.start hn hok
      have hT : BlockOf m n l (findblock m n t l) := findblock_spec hn hcT.1 (by omega)
      have hB : BlockOf m n h (findblock m n b h) := findblock_spec hn hcB.1 (by omega)
      simp only [findblocks, List.map_cons, InPatch]
      refine ⟨⟨le_refl _, ?_⟩, ih hm hcT.2 hcB.2 h1'.2 h2'.2 h3.2⟩
      by_contra hlt
      simp only [Int.ofNat_eq_natCast] at hlt
      have mono := pairwise_getD hok.2.1 (i := findblock m n b h + 1) (j := findblock m n t l)
        (by omega) (by simp; have := hT.1; omega)
      rw [getD_take (by have := hT.1; omega), getD_take hT.1] at mono
      have := hB.2.2 (by have := hT.1; omega)
      have := hT.2.1
      omega
    | [], _, _, _, _, hm, _, _, _, _, _ => simp [MapOK] at hm
    | _, _, _, [], _, _, hcT, _, _, _, _ => simp [CandOK] at hcT
    | _, _, _, _, [], _, _, hcB, _, _, _ => simp [CandOK] at hcB
    | _ :: _, [], _, _, _, _, _, _, h1, _, _ => simp [InArray, InPatch] at h1
    | _ :: _, _, [], _, _, _, _, _, _, h2, _ => simp [InArray, InPatch] at h2

private theorem clip_ne {ns : List Nat} {ds m lo hi s x : List Int} {cT cB : List Nat} (hm : MapOK ns ds m) (hcT : CandOK ns cT) (hcB : CandOK ns cB)
    (h1 : InArray ds lo) (h2 : InArray ds hi) (h3 : InPatch lo hi lo)
    (hs : InPatch ((findblocks ns m cT lo).map Int.ofNat) ((findblocks ns m cB hi).map Int.ofNat) s)
    (hx : InPatch (coordLo ns m (s.map Int.toNat)) (coordHi ns ds m (s.map Int.toNat)) x) :
    InPatch (clipLo lo (coordLo ns m (s.map Int.toNat))) (clipHi hi (coordHi ns ds m (s.map Int.toNat)))
      (clipLo lo (coordLo ns m (s.map Int.toNat))) := by
  induction ns generalizing ds m lo hi cT cB s x with
  | nil => cases lo <;> cases hi <;> simp [coordLo, coordHi, clipLo, clipHi, InPatch]
  | cons n ns ih =>
    match ds, lo, hi, cT, cB, s, x, hm, hcT, hcB, h1, h2, h3, hs, hx with
    | d :: ds, l :: lo, h :: hi, t :: cT, b :: cB, c :: s, x :: xs, hm, hcT, hcB, h1, h2, h3, hs, hx =>
      simp only [MapOK] at hm
      simp only [CandOK] at hcT hcB
      have h1' : (1 ≤ l ∧ l ≤ d) ∧ InArray ds lo := h1
      have h2' : (1 ≤ h ∧ h ≤ d) ∧ InArray ds hi := h2
      simp only [InPatch] at h3
      obtain ⟨⟨hn, hlen, hd, hok⟩, hm⟩ := hm
      have st := AxisOK.start hn hok
      have hT : BlockOf m n l (findblock m n t l) := findblock_spec hn hcT.1 (by omega)
      have hB : BlockOf m n h (findblock m n b h) := findblock_spec hn hcB.1 (by omega)
      simp only [findblocks, List.map_cons, InPatch, Int.ofNat_eq_natCast] at hs
      simp only [List.map_cons, coordLo, coordHi, clipLo, clipHi, InPatch] at hx ⊢
      refine ⟨⟨Int.le_refl _, ?_⟩, ih hm hcT.2 hcB.2 h1'.2 h2'.2 h3.2 hs.2 hx.2⟩
      have mono : ∀ {i j : Nat}, i ≤ j → j < n → m.getD i 0 ≤ m.getD j 0 := by
        intro i j hij hj
        have := pairwise_getD hok.2.1 hij (by simp; omega)
        rwa [getD_take (by omega), getD_take hj] at this
      have hcn : c.toNat < n := by have := hB.1; omega
      have k1 := mono (i := c.toNat) (j := findblock m n b h) (by omega) hB.1
      have k2 : l ≤ (if c.toNat = n - 1 then d else m.getD (c.toNat + 1) 0 - 1) := by
        by_cases e : c.toNat = n - 1
        · rw [if_pos e]; omega
        · rw [if_neg e]
          have := mono (i := findblock m n t l + 1) (j := c.toNat + 1) (by omega) (by omega)
          have := hT.2.2 (by omega)
          omega
      have := hB.2.1
      generalize (if c.toNat = n - 1 then d else m.getD (c.toNat + 1) 0 - 1) = u at *
      split <;> split <;> omega
    | [], _, _, _, _, _, _, hm, _, _, _, _, _, _, _ => simp [MapOK] at hm
    | _, _, _, [], _, _, _, _, hcT, _, _, _, _, _, _ => simp [CandOK] at hcT
    | _, _, _, _, [], _, _, _, _, hcB, _, _, _, _, _ => simp [CandOK] at hcB
    | _ :: _, [], _, _, _, _, _, _, _, _, h1, _, _, _, _ => simp [InArray, InPatch] at h1
    | _ :: _, _, [], _, _, _, _, _, _, _, _, h2, _, _, _ => simp [InArray, InPatch] at h2
    | _ :: _, _ :: _, _ :: _, _ :: _, _ :: _, [], _, _, _, _, _, _, _, hs, _ => simp [findblocks, InPatch] at hs
    | _ :: _, _ :: _, _ :: _, _ :: _, _ :: _, _ :: _, [], _, _, _, _, _, _, _, hx => simp [coordLo, coordHi, InPatch] at hx

theorem pieces_ne {A : RegArray} {cT cB : List Nat} {lo hi : List Int} {ps : List Piece} (hm : MapOK A.nblock A.dims A.mapc)
    (hcT : CandOK A.nblock cT) (hcB : CandOK A.nblock cB)
    (hf : ∀ c, CoordOK A.nblock c → ∃ x, InPatch (coordLo A.nblock A.mapc c) (coordHi A.nblock A.dims A.mapc c) x)
    (h : locateRegion A cT cB lo hi = some ps) : ∀ p ∈ ps, InPatch p.plo p.phi p.plo := by
  unfold locateRegion at h
  by_cases hr : regionOK A.dims lo hi = true
  · rw [if_pos hr] at h
    obtain ⟨h1, h2, h3⟩ := regionOK_iff.1 hr
    have hT := findblocks_coordOK hm hcT h1
    have hB := findblocks_coordOK hm hcB h2
    have hps := Option.some.inj h
    rw [loopAll_eq_box ⟨_, findblocks_le hm hcT hcB h1 h2 h3⟩] at hps
    intro p hp
    rw [← hps, List.mem_map] at hp
    obtain ⟨s, hs, rfl⟩ := hp
    rw [mem_box] at hs
    obtain ⟨a, b⟩ := coord_between hT hB hs
    have e : computeIndex s (A.nblock.map Int.ofNat) = (undigits A.nblock (s.map Int.toNat) : Nat) := by
      rw [← b, computeIndex_eq, horner_cast, b]
    simp only [e, owns_of_coord a]
    obtain ⟨x, hx⟩ := hf _ a
    exact clip_ne hm hcT hcB h1 h2 h3 hs hx
  · rw [if_neg hr] at h; simp at h

/-- a list of copies: what is at address `a` afterwards -/
theorem foldl_memcpy {B α : Type} (L : List α) (n s d : α → Int) (src : α → Int → B) (dst : Int → B) (a : Int) :
    ((∀ x ∈ L, ¬ (d x ≤ a ∧ a < d x + n x)) → (L.foldl (fun l x => memcpy (n x) (src x) (s x) (d x) l) dst) a = dst a) ∧
    ∀ v, (∀ x ∈ L, d x ≤ a → a < d x + n x → src x (s x + (a - d x)) = v) → (∃ x ∈ L, d x ≤ a ∧ a < d x + n x) →
      (L.foldl (fun l x => memcpy (n x) (src x) (s x) (d x) l) dst) a = v := by
  induction L generalizing dst with
  | nil => simp
  | cons b L ih =>
    obtain ⟨i1, i2⟩ := ih (memcpy (n b) (src b) (s b) (d b) dst)
    constructor
    · intro h
      rw [List.foldl_cons, i1 fun x hx => h x (List.mem_cons_of_mem _ hx)]
      simp [memcpy, h b (List.mem_cons_self ..)]
    · intro v hv hx
      rw [List.foldl_cons]
      by_cases q : ∃ x ∈ L, d x ≤ a ∧ a < d x + n x
      · exact i2 v (fun x hx => hv x (List.mem_cons_of_mem _ hx)) q
      · rw [i1 fun x hx e => q ⟨x, hx, e⟩]
        obtain ⟨x, hx, e⟩ := hx
        rcases List.mem_cons.1 hx with rfl | hx
        · rw [← hv x (List.mem_cons_self ..) e.1 e.2]; simp [memcpy, e]
        · exact absurd ⟨x, hx, e⟩ q

/-- the same for copies to several processes -/
theorem foldl_memcpy2 {B α : Type} (L : List α) (n s d p : α → Int) (src : Int → B) (mem : Int → Int → B) (q a : Int) :
    ((∀ x ∈ L, ¬ (p x = q ∧ d x ≤ a ∧ a < d x + n x)) →
      (L.foldl (fun m x => upd m (p x) (memcpy (n x) src (s x) (d x) (m (p x)))) mem) q a = mem q a) ∧
    ∀ v, (∀ x ∈ L, p x = q → d x ≤ a → a < d x + n x → src (s x + (a - d x)) = v) → (∃ x ∈ L, p x = q ∧ d x ≤ a ∧ a < d x + n x) →
      (L.foldl (fun m x => upd m (p x) (memcpy (n x) src (s x) (d x) (m (p x)))) mem) q a = v := by
  induction L generalizing mem with
  | nil => simp
  | cons b L ih =>
    obtain ⟨i1, i2⟩ := ih (upd mem (p b) (memcpy (n b) src (s b) (d b) (mem (p b))))
    constructor
    · intro h
      rw [List.foldl_cons, i1 fun x hx => h x (List.mem_cons_of_mem _ hx)]
      have := h b (List.mem_cons_self ..)
      by_cases e : q = p b
      · subst e; simp [memcpy, upd]; intro h1 h2; exact absurd ⟨rfl, h1, h2⟩ this
      · simp [upd, e]
    · intro v hv hx
      rw [List.foldl_cons]
      by_cases q' : ∃ x ∈ L, p x = q ∧ d x ≤ a ∧ a < d x + n x
      · exact i2 v (fun x hx => hv x (List.mem_cons_of_mem _ hx)) q'
      · rw [i1 fun x hx e => q' ⟨x, hx, e⟩]
        obtain ⟨x, hx, e⟩ := hx
        rcases List.mem_cons.1 hx with rfl | hx
        · rw [← hv x (List.mem_cons_self ..) e.1 e.2.1 e.2.2]; simp [memcpy, upd, e]
        · exact absurd ⟨x, hx, e⟩ q'

end GA.GP
