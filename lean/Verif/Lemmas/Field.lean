import Verif.Model.Field
import Verif.Spec.Field
import Verif.Lemmas.PutGet
import Verif.Lemmas.GhostWin

/-!
# Fields of elements: which bytes move
-/

namespace GA.Field
open Spec Model Ghost

variable {V : Type}

theorem setstride_scale (c a : Int) (l : List Int) : setstride (c * a) l = (setstride a l).map (c * ·) := by
  induction l generalizing a with
  | nil => rfl
  | cons d l ih => simp only [setstride, List.map_cons, Int.mul_assoc, ih]

theorem setstride_one (c : Int) (l : List Int) : setstride c l = (setstride 1 l).map (c * ·) := by
  have := setstride_scale c 1 l
  rwa [Int.mul_one] at this

theorem dotI_scale (c : Int) (a b : List Int) : dotI (a.map (c * ·)) b = c * dotI a b := by
  induction a generalizing b with
  | nil => simp [dotI]
  | cons x a ih =>
    cases b with
    | nil => simp [dotI]
    | cons y b => simp only [List.map_cons, dotI, ih, Int.mul_add, Int.mul_assoc]

theorem rescale_setstride {size : Int} (hs : size ≠ 0) (fs : Int) (l : List Int) :
    (setstride size l).map (rescale size fs) = (setstride 1 l).map (fs * ·) := by
  rw [setstride_one, List.map_map]
  apply List.map_congr_left
  intro s _
  simp only [Function.comp, rescale]
  rw [Int.mul_tdiv_cancel_left _ hs, Int.mul_comm]

/-- positions for one index vector -/
theorem idx_pos {lo ld : List Int} {p : RPiece} {i : List Int} (hl : i.length = p.plo.length)
    (h1 : p.plo.length = lo.length) (h2 : ld.length + 1 = lo.length) (h3 : p.ldrem.length + 1 = lo.length) :
    patchIndex lo p.plo ld + strideOff (setstride 1 ld) i = bufPos lo ld (addL p.plo i) ∧
    strideOff (setstride 1 p.ldrem) i = bufPos p.plo p.ldrem (addL p.plo i) := by
  have ha : (addL p.plo i).length = p.plo.length := addL_length hl
  rw [patchIndex_eq h1 h2, bufPos_eq h1 h2, bufPos_eq (ha.trans h1) h2, bufPos_eq ha (by omega),
    strideOff_eq (by omega), strideOff_eq (by omega), subL_addL hl,
    subL_addL' (by omega) h1, horner_add (by rw [subL_length (by omega)]; exact hl)]
  exact ⟨rfl, rfl⟩

theorem mem_counted {count : List Int} (h : ∀ n ∈ count, 0 < n) {i : List Int} :
    i ∈ counted count ↔ InPatch (count.map fun _ => 0) (count.map (· - 1)) i := by
  unfold counted
  rw [loopAll_eq_box ⟨count.map fun _ => 0, ?_⟩, mem_box]
  induction count with
  | nil => trivial
  | cons n ns ih =>
    have := h n List.mem_cons_self
    refine ⟨?_, ih fun k hk => h k (List.mem_cons_of_mem _ hk)⟩
    dsimp only
    omega

theorem edges_pos {lo hi : List Int} (h : InPatch lo hi lo) : ∀ n ∈ edges lo hi, 0 < n := by
  induction lo generalizing hi with
  | nil => simp [edges]
  | cons l lo ih =>
    match hi, h with
    | b :: hi, h =>
      have h' : (l ≤ l ∧ l ≤ b) ∧ InPatch lo hi lo := h
      intro n hn
      simp only [edges, List.mem_cons] at hn
      rcases hn with rfl | hn
      · omega
      · exact ih h'.2 n hn

theorem edges_zero {plo phi : List Int} (h : phi.length = plo.length) :
    (edges plo phi).map (fun _ => (0 : Int)) = plo.map fun _ => 0 := by
  induction plo generalizing phi with
  | nil => cases phi <;> simp [edges]
  | cons a plo ih =>
    match phi, h with
    | b :: phi, h => simp only [edges, List.map_cons, ih (by simpa using h)]

/-- the subscripts of a piece and their index vectors -/
theorem piece_idx {plo phi : List Int} (hp : InPatch plo phi plo) :
    (∀ i, InPatch ((edges plo phi).map fun _ => 0) ((edges plo phi).map (· - 1)) i →
      InPatch plo phi (addL plo i) ∧ i.length = plo.length) ∧
    ∀ x, InPatch plo phi x → ∃ i, InPatch ((edges plo phi).map fun _ => 0) ((edges plo phi).map (· - 1)) i ∧
      i.length = plo.length ∧ addL plo i = x := by
  have hl : phi.length = plo.length := (inPatch_iff.1 hp).1
  rw [edges_zero hl]
  refine ⟨fun i hi => add_inWin hi hl, ?_⟩
  intro x hx
  have hxl : x.length = plo.length := (inPatch_iff.1 hx).2.1
  refine ⟨subL x plo, sub_inZero hx, by rw [subL_length (by omega)]; omega, ?_⟩
  apply list_ext
  · rw [addL_length (by rw [subL_length (by omega)]; omega)]; omega
  · intro j hj
    rw [addL_length (by rw [subL_length (by omega)]; omega)] at hj
    rw [addL_getD (by rw [subL_length (by omega)]; omega) (by omega), subL_getD (by omega) (by omega)]
    omega

/-- effective field: negative sizes and the size of the element mean the whole element -/
def effSize (size fs : Int) : Int := if fs < 0 then size else fs
/-- effective offset -/
def effOff (size foff fs : Int) : Int := if fs < 0 ∨ fs = size then 0 else foff

theorem mem_fieldPiece {size foff fs : Int} (hs : 0 < size) (hf : fs ≠ 0) {lo ld : List Int} {p : RPiece}
    (hp : InPatch p.plo p.phi p.plo) (h1 : p.plo.length = lo.length) (h2 : ld.length + 1 = lo.length)
    (h3 : p.ldrem.length + 1 = lo.length) (t : Xfer) :
    t ∈ fieldPiece size foff fs lo ld p ↔ ∃ x, InPatch p.plo p.phi x ∧ ∃ j, 0 ≤ j ∧ j < effSize size fs ∧
      t = ⟨effSize size fs * bufPos lo ld x + j,
        (p.proc, size * (p.prem + bufPos p.plo p.ldrem x) + effOff size foff fs + j)⟩ := by
  obtain ⟨hin, hex⟩ := piece_idx hp
  have hep := edges_pos hp
  unfold fieldPiece
  by_cases hw : fs < 0 ∨ fs = size
  · have e1 : effSize size fs = size := by unfold effSize; split <;> omega
    have e2 : effOff size foff fs = 0 := by unfold effOff; rw [if_pos hw]
    rw [if_pos hw, e1, e2]
    -- at least one dimension
    obtain ⟨n, ns, he⟩ : ∃ n ns, edges p.plo p.phi = n :: ns := by
      have hne : p.plo ≠ [] := by
        intro h
        rw [h] at h1
        simp only [List.length_nil] at h1
        omega
      match hpp : p.plo, hpq : p.phi, hne with
      | a :: l, b :: h, _ => exact ⟨_, _, rfl⟩
      | a :: l, [], _ =>
        rw [hpp, hpq] at hp
        exact absurd hp (by simp [InPatch])
    rw [he] at hin hex hep ⊢
    have hn : 0 < n := hep n List.mem_cons_self
    have hpos : ∀ k ∈ (n * size) :: ns, 0 < k := by
      intro k hk
      rcases List.mem_cons.1 hk with rfl | hk
      · exact Int.mul_pos hn hs
      · exact hep k (List.mem_cons_of_mem _ hk)
    have hcalc : ∀ k i0 j is, (i0 :: is).length = p.plo.length → k = size * i0 + j →
        (⟨size * patchIndex lo p.plo ld + strideOff (setstride size ld) (k :: is),
          (p.proc, size * p.prem + strideOff (setstride size p.ldrem) (k :: is))⟩ : Xfer) =
        ⟨size * bufPos lo ld (addL p.plo (i0 :: is)) + j,
          (p.proc, size * (p.prem + bufPos p.plo p.ldrem (addL p.plo (i0 :: is))) + 0 + j)⟩ := by
      intro k i0 j is hl hk
      obtain ⟨q1, q2⟩ := idx_pos hl h1 h2 h3
      rw [← q1, ← q2]
      simp only [strideOff]
      rw [setstride_one size ld, setstride_one size p.ldrem, dotI_scale, dotI_scale, hk]
      congr 1
      · simp only [Int.mul_add]; omega
      · congr 1
        simp only [Int.mul_add]; omega
    simp only [List.mem_map, mem_counted hpos]
    constructor
    · rintro ⟨i, hi, rfl⟩
      match i, hi with
      | k :: is, hi =>
        have hi' : (0 ≤ k ∧ k ≤ n * size - 1) ∧ InPatch (ns.map fun _ => 0) (ns.map (· - 1)) is := hi
        have hk0 : 0 ≤ k / size := Int.ediv_nonneg hi'.1.1 (by omega)
        have hk1 : k / size < n := by
          apply Int.ediv_lt_of_lt_mul hs
          omega
        have hm : InPatch ((n :: ns).map fun _ => 0) ((n :: ns).map (· - 1)) (k / size :: is) :=
          ⟨⟨hk0, by dsimp only; omega⟩, hi'.2⟩
        obtain ⟨m1, m2⟩ := hin _ hm
        refine ⟨_, m1, k % size, Int.emod_nonneg _ (by omega), Int.emod_lt_of_pos _ hs, ?_⟩
        exact hcalc k (k / size) (k % size) is m2 (Int.mul_ediv_add_emod k size).symm
    · rintro ⟨x, hx, j, hj0, hj1, rfl⟩
      obtain ⟨i, hi, hil, rfl⟩ := hex x hx
      match i, hi, hil with
      | i0 :: is, hi, hil =>
        have hi' : (0 ≤ i0 ∧ i0 ≤ n - 1) ∧ InPatch (ns.map fun _ => 0) (ns.map (· - 1)) is := hi
        refine ⟨(size * i0 + j) :: is, ⟨⟨?_, ?_⟩, hi'.2⟩, hcalc _ i0 j is hil rfl⟩
        · have := Int.mul_nonneg (show 0 ≤ size by omega) hi'.1.1
          dsimp only; omega
        · have : size * i0 ≤ size * (n - 1) := Int.mul_le_mul_of_nonneg_left hi'.1.2 (by omega)
          rw [Int.mul_sub, Int.mul_one, Int.mul_comm size n] at this
          dsimp only; omega
  · have e1 : effSize size fs = fs := by unfold effSize; split <;> omega
    have e2 : effOff size foff fs = foff := by unfold effOff; rw [if_neg hw]
    rw [if_neg hw, e1, e2]
    have hpos : ∀ k ∈ fs :: edges p.plo p.phi, 0 < k := by
      intro k hk
      rcases List.mem_cons.1 hk with rfl | hk
      · omega
      · exact hep k hk
    have hcalc : ∀ j i, i.length = p.plo.length →
        (⟨(size * patchIndex lo p.plo ld).tdiv size * fs +
            strideOff (fs :: (setstride size ld).map (rescale size fs)) (j :: i),
          (p.proc, size * p.prem + foff + strideOff (size :: setstride size p.ldrem) (j :: i))⟩ : Xfer) =
        ⟨fs * bufPos lo ld (addL p.plo i) + j,
          (p.proc, size * (p.prem + bufPos p.plo p.ldrem (addL p.plo i)) + foff + j)⟩ := by
      intro j i hl
      obtain ⟨q1, q2⟩ := idx_pos hl h1 h2 h3
      rw [← q1, ← q2, Int.mul_tdiv_cancel_left _ (by omega), rescale_setstride (by omega), setstride_one size p.ldrem]
      cases i with
      | nil => simp only [List.length_nil] at hl; omega
      | cons i0 is =>
        simp only [strideOff, dotI, dotI_scale]
        congr 1
        · simp only [Int.mul_add, Int.mul_comm _ fs]; omega
        · congr 1
          simp only [Int.mul_add]; omega
    simp only [List.mem_map, mem_counted hpos]
    constructor
    · rintro ⟨i, hi, rfl⟩
      match i, hi with
      | j :: is, hi =>
        have hi' : (0 ≤ j ∧ j ≤ fs - 1) ∧ InPatch ((edges p.plo p.phi).map fun _ => 0)
            ((edges p.plo p.phi).map (· - 1)) is := hi
        obtain ⟨m1, m2⟩ := hin _ hi'.2
        exact ⟨_, m1, j, hi'.1.1, by omega, hcalc j is m2⟩
    · rintro ⟨x, hx, j, hj0, hj1, rfl⟩
      obtain ⟨i, hi, hil, rfl⟩ := hex x hx
      exact ⟨j :: i, ⟨⟨hj0, by dsimp only; omega⟩, hi⟩, hcalc j i hil⟩

/-- The machine address of byte `b` of element `x`: the cell of the element, in bytes. -/
def byteAddr (A : RegArray) (size : Int) (x : List Int) (b : Int) : Addr :=
  ((cell A x).1, size * (cell A x).2 + b)

theorem byteAddr_inj {A : RegArray} (hA : ArrOK A) {size : Int} {x y : List Int} {b c : Int}
    (hx : InArray A.dims x) (hy : InArray A.dims y) (hb : 0 ≤ b ∧ b < size) (hc : 0 ≤ c ∧ c < size)
    (h : byteAddr A size x b = byteAddr A size y c) : x = y ∧ b = c := by
  unfold byteAddr at h
  rw [Prod.mk.injEq] at h
  have hs : 0 < size := by omega
  have e1 : (size * (cell A x).2 + b) / size = (cell A x).2 := by
    rw [Int.add_comm, Int.add_mul_ediv_left _ _ (by omega), Int.ediv_eq_zero_of_lt hb.1 hb.2]; omega
  have e2 : (size * (cell A y).2 + c) / size = (cell A y).2 := by
    rw [Int.add_comm, Int.add_mul_ediv_left _ _ (by omega), Int.ediv_eq_zero_of_lt hc.1 hc.2]; omega
  have e3 : (cell A x).2 = (cell A y).2 := by rw [← e1, ← e2, h.2]
  refine ⟨cell_inj hA hx hy (Prod.ext h.1 e3), ?_⟩
  have := h.2
  rw [e3] at this
  omega

theorem mem_fieldXfers {A : RegArray} {E : Env} (hA : ArrOK A) (hE : EnvOK E A) (hs : 0 < E.elemsize) {foff fs : Int}
    (hf : fs ≠ 0) {lo hi ld : List Int} {rs : List RPiece} (h : regPieces E A lo hi = some rs)
    (hld : LdOK lo hi ld) : PatchOK A.dims lo hi ∧ ∀ t, t ∈ fieldXfers E foff fs lo ld rs ↔
      ∃ x, InPatch lo hi x ∧ ∃ j, 0 ≤ j ∧ j < effSize E.elemsize fs ∧
        t = ⟨effSize E.elemsize fs * bufPos lo ld x + j,
          byteAddr A E.elemsize x (effOff E.elemsize foff fs + j)⟩ := by
  obtain ⟨h1, h2, h3⟩ := regPieces_spec hA hE h
  refine ⟨h1, ?_⟩
  intro t
  unfold fieldXfers
  simp only [List.mem_flatMap, (twoPass_perm E.isLocal rs).mem_iff]
  constructor
  · rintro ⟨r, hr, ht⟩
    obtain ⟨a, b, -, d, e⟩ := h3 r hr
    obtain ⟨x, hx, j, j0, j1, rfl⟩ := (mem_fieldPiece hs hf a b hld.length.2 d t).1 ht
    obtain ⟨x1, -, x3⟩ := e x hx
    refine ⟨x, x1, j, j0, j1, ?_⟩
    unfold byteAddr
    rw [← x3]
    simp only [Int.add_assoc]
  · rintro ⟨x, hx, j, j0, j1, rfl⟩
    obtain ⟨r, hr, hxr⟩ := List.mem_flatMap.1 (h2.mem_iff.2 (mem_box.2 hx))
    obtain ⟨a, b, -, d, e⟩ := h3 r hr
    refine ⟨r, hr, (mem_fieldPiece hs hf a b hld.length.2 d _).2 ⟨x, mem_box.1 hxr, j, j0, j1, ?_⟩⟩
    unfold byteAddr
    rw [← (e x (mem_box.1 hxr)).2.2]
    simp only [Int.add_assoc]

/-- last write wins, and all writes to a place agree -/
theorem fold_upd_agree {α τ : Type} [DecidableEq α] (key : τ → α) (val : τ → V) (ts : List τ) (b : α → V) (a : α)
    (w : V) (hall : ∀ t ∈ ts, key t = a → val t = w) (hex : ∃ t ∈ ts, key t = a) :
    ts.foldl (fun m t => upd m (key t) (val t)) b a = w := by
  induction ts generalizing b with
  | nil => obtain ⟨t, ht, _⟩ := hex; cases ht
  | cons t ts ih =>
    rw [List.foldl_cons]
    by_cases h : ∃ t' ∈ ts, key t' = a
    · exact ih _ (fun t' ht' => hall t' (List.mem_cons_of_mem _ ht')) h
    · rw [foldl_upd_miss ts key (fun _ t => val t) _ a fun t' ht' e => h ⟨t', ht', e⟩]
      have ht : key t = a := by
        obtain ⟨t', ht', e⟩ := hex
        rcases List.mem_cons.1 ht' with rfl | ht'
        · exact e
        · exact absurd ⟨t', ht', e⟩ h
      unfold upd
      rw [if_pos ht.symm]
      exact hall t List.mem_cons_self ht

/-- buffer positions of different bytes differ -/
theorem bufByte_inj {lo hi ld : List Int} (hld : LdOK lo hi ld) {fs : Int} {x y : List Int} {i j : Int}
    (hx : InPatch lo hi x) (hy : InPatch lo hi y) (hi' : 0 ≤ i ∧ i < fs) (hj : 0 ≤ j ∧ j < fs)
    (h : fs * bufPos lo ld x + i = fs * bufPos lo ld y + j) : x = y ∧ i = j := by
  have hs : 0 < fs := by omega
  have e1 : (fs * bufPos lo ld x + i) / fs = bufPos lo ld x := by
    rw [Int.add_comm, Int.add_mul_ediv_left _ _ (by omega), Int.ediv_eq_zero_of_lt hi'.1 hi'.2]; omega
  have e2 : (fs * bufPos lo ld y + j) / fs = bufPos lo ld y := by
    rw [Int.add_comm, Int.add_mul_ediv_left _ _ (by omega), Int.ediv_eq_zero_of_lt hj.1 hj.2]; omega
  have e3 : bufPos lo ld x = bufPos lo ld y := by rw [← e1, ← e2, h]
  refine ⟨bufPos_inj hld hx hy e3, ?_⟩
  rw [e3] at h
  omega

end GA.Field
