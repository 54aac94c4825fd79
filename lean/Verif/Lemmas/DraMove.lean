import Verif.Model.Dra
import Verif.Lemmas.GPArray
import Verif.Lemmas.AddDot
import Verif.Lemmas.Select

/-! # Lemmas: transfers between the buffer and the global array -/

namespace GA.Dra
open GA.Spec GA.Model
open GA.GP (arrGet rel offset)

/-- the element of the global array that belongs to element `x` of the disk array -/
def dest (tr : Bool) (dlo glo x : List Int) : List Int := if tr then trDestIdx x dlo glo else destIdx x dlo glo

theorem destIdx_length {x dlo glo : List Int} (h1 : dlo.length = x.length) (h2 : glo.length = x.length) : (destIdx x dlo glo).length = x.length := by
  induction x generalizing dlo glo with
  | nil => simp [destIdx]
  | cons x xs ih =>
    match dlo, glo, h1, h2 with
    | d :: ds, g :: gs, h1, h2 => simp [destIdx, ih (by simpa using h1) (by simpa using h2)]

theorem destIdx_inj {x y dlo glo : List Int} (h1 : dlo.length = x.length) (h2 : glo.length = x.length) (h3 : y.length = x.length)
    (h : destIdx x dlo glo = destIdx y dlo glo) : x = y := by
  induction x generalizing y dlo glo with
  | nil => cases y <;> simp_all
  | cons x xs ih =>
    match y, dlo, glo, h1, h2, h3 with
    | y :: ys, d :: ds, g :: gs, h1, h2, h3 =>
      simp only [destIdx, List.cons.injEq] at h
      rw [ih (by simpa using h1) (by simpa using h2) (by simpa using h3) h.2, show x = y by omega]

theorem destIdx_patch {lo hi dlo glo y : List Int} (h1 : dlo.length = lo.length) (h2 : glo.length = lo.length) (h3 : hi.length = lo.length) :
    InPatch (destIdx lo dlo glo) (destIdx hi dlo glo) y ↔ ∃ x, InPatch lo hi x ∧ y = destIdx x dlo glo := by
  induction lo generalizing hi dlo glo y with
  | nil =>
    cases hi <;> cases dlo <;> cases glo <;> simp_all [destIdx]
    cases y
    · exact ⟨fun _ => ⟨⟨[], trivial⟩, rfl⟩, fun _ => trivial⟩
    · simp [InPatch]
  | cons l lo ih =>
    match hi, dlo, glo, h1, h2, h3 with
    | h :: hi, d :: ds, g :: gs, h1, h2, h3 =>
      cases y with
      | nil =>
        simp only [destIdx, InPatch, false_iff]
        rintro ⟨x, hx, he⟩
        cases x with
        | nil => exact hx.elim
        | cons _ _ => simp [destIdx] at he
      | cons y ys =>
        simp only [destIdx, InPatch]
        rw [ih (by simpa using h1) (by simpa using h2) (by simpa using h3)]
        constructor
        · rintro ⟨a, x, hx, rfl⟩
          refine ⟨(y - g + d) :: x, ?_, ?_⟩
          · simp only [InPatch]; exact ⟨by omega, hx⟩
          · simp only [destIdx]; congr 1; omega
        · rintro ⟨x, hx, he⟩
          cases x with
          | nil => simp [InPatch] at hx
          | cons x xs =>
            simp only [destIdx, List.cons.injEq] at he
            simp only [InPatch] at hx
            exact ⟨by omega, xs, hx.2, he.2⟩

theorem rel_dest {x lo dlo glo : List Int} (h1 : dlo.length = lo.length) (h2 : glo.length = lo.length) (h3 : x.length = lo.length) :
    rel (destIdx x dlo glo) (destIdx lo dlo glo) = rel x lo := by
  induction lo generalizing x dlo glo with
  | nil => cases x <;> simp_all [rel, destIdx]
  | cons l lo ih =>
    match x, dlo, glo, h1, h2, h3 with
    | x :: xs, d :: ds, g :: gs, h1, h2, h3 =>
      simp only [destIdx, rel]
      rw [ih (by simpa using h1) (by simpa using h2) (by simpa using h3)]
      congr 1; omega

theorem dest_length {tr : Bool} {x dlo glo : List Int} (h1 : dlo.length = x.length) (h2 : glo.length = x.length) : (dest tr dlo glo x).length = x.length := by
  cases tr
  · exact destIdx_length h1 h2
  · simp only [dest, trDestIdx, if_true, List.length_reverse]; exact destIdx_length h1 (by simpa using h2)

theorem dest_inj {tr : Bool} {x y dlo glo : List Int} (h1 : dlo.length = x.length) (h2 : glo.length = x.length) (h3 : y.length = x.length)
    (h : dest tr dlo glo x = dest tr dlo glo y) : x = y := by
  cases tr
  · exact destIdx_inj h1 h2 h3 h
  · exact destIdx_inj h1 (by simpa using h2) h3 (List.reverse_injective h)

theorem dest_patch {tr : Bool} {lo hi dlo glo y : List Int} (h1 : dlo.length = lo.length) (h2 : glo.length = lo.length) (h3 : hi.length = lo.length) :
    InPatch (dest tr dlo glo lo) (dest tr dlo glo hi) y ↔ ∃ x, InPatch lo hi x ∧ y = dest tr dlo glo x := by
  cases tr
  · exact destIdx_patch h1 h2 h3
  · simp only [dest, trDestIdx, if_true]
    constructor
    · intro h
      have := inPatch_reverse h
      rw [List.reverse_reverse, List.reverse_reverse, destIdx_patch h1 (by simpa using h2) h3] at this
      obtain ⟨x, hx, he⟩ := this
      exact ⟨x, hx, by rw [← he, List.reverse_reverse]⟩
    · rintro ⟨x, hx, rfl⟩
      exact inPatch_reverse ((destIdx_patch h1 (by simpa using h2) h3).2 ⟨x, hx, rfl⟩)

/-! ## positions -/

theorem offset_snoc (xs ld : List Int) (j : Int) (h : ld.length = xs.length) :
    offset ld (xs ++ [j]) = offset (ld.take (xs.length - 1)) xs + prodI ld * j := by
  induction xs generalizing ld with
  | nil => cases ld <;> simp_all [offset, prodI]
  | cons x xs ih =>
    match ld, h with
    | d :: ds, h =>
      cases xs with
      | nil =>
        cases ds with
        | cons _ _ => simp at h
        | nil => simp [offset, prodI]; ring
      | cons x2 xs =>
        have := ih ds (by simpa using h)
        have e1 : offset (d :: ds) (x :: x2 :: xs ++ [j]) = offset ds (x2 :: xs ++ [j]) * d + x := rfl
        have e2 : (d :: ds).take ((x :: x2 :: xs).length - 1) = d :: ds.take ((x2 :: xs).length - 1) := by
          simp
        rw [e1, this, e2]
        have e3 : ∀ l, offset (d :: l) (x :: x2 :: xs) = offset l (x2 :: xs) * d + x := fun _ => rfl
        rw [e3]
        simp only [prodI]
        ring

theorem rel_reverse {x lo : List Int} (h : x.length = lo.length) : rel x.reverse lo.reverse = (rel x lo).reverse := by
  have e : ∀ (a b : List Int), rel a b = List.zipWith (fun x y => x - y) a b := by
    intro a b
    induction a generalizing b with
    | nil => simp [rel]
    | cons x a ih => cases b <;> simp [rel, ih]
  rw [e, e, List.reverse_zipWith h]

/-- row `i` of the patch `gl..gh`: an element, its position -/
theorem row_index {gl gh : List Int} (h : InPatch gl gh gl) (hne : gl ≠ []) :
    (∀ i : Nat, i < (prodI (edges gl gh)).toNat → ∃ y, InPatch gl gh y ∧ GA.GP.elemIndex (edges gl gh).dropLast i = rel y gl ∧ bufPos gl (edges gl gh).dropLast y = i) ∧
    ∀ y, InPatch gl gh y → ∃ i : Nat, i < (prodI (edges gl gh)).toNat ∧ GA.GP.elemIndex (edges gl gh).dropLast i = rel y gl ∧ bufPos gl (edges gl gh).dropLast y = i := by
  have h1 := GA.GP.elemIndex_range hne ⟨gl, h⟩
  have h2 := box_tight h hne
  have hlen : (box gl gh).length = (prodI (edges gl gh)).toNat := by
    have := congrArg List.length h2
    simpa using this
  have key : ∀ (i : Nat) (hi : i < (box gl gh).length), GA.GP.elemIndex (edges gl gh).dropLast i = rel (box gl gh)[i] gl ∧ bufPos gl (edges gl gh).dropLast (box gl gh)[i] = i := by
    intro i hi
    have a1 := congrArg (fun l => l[i]?) h1
    have a2 := congrArg (fun l => l[i]?) h2
    simp only [List.getElem?_map, List.getElem?_range (show i < (prodI (edges gl gh)).toNat by omega), List.getElem?_eq_getElem hi, Option.map_some,
      Option.some.injEq] at a1 a2
    exact ⟨a1, a2⟩
  constructor
  · intro i hi
    have hi' : i < (box gl gh).length := by omega
    exact ⟨_, mem_box.1 (List.getElem_mem hi'), key i hi'⟩
  · intro y hy
    obtain ⟨i, hi, rfl⟩ := List.getElem_of_mem (mem_box.2 hy)
    exact ⟨i, by omega, key i hi⟩

theorem offset_tight {y gl ld : List Int} (d : List Int) (h : y.length = gl.length) (hd : ld.length + 1 = gl.length) : offset (ld ++ d) (rel y gl) = bufPos gl ld y := by
  induction gl generalizing y ld with
  | nil => simp at hd
  | cons g gl ih =>
    match y, h with
    | y :: ys, h =>
      cases ld with
      | nil =>
        cases gl with
        | cons _ _ => simp at hd
        | nil =>
          cases ys with
          | cons _ _ => simp at h
          | nil => cases d <;> simp [rel, offset, bufPos]
      | cons e ld =>
        simp only [List.cons_append, rel, offset, bufPos]
        rw [ih (by simpa using h) (by simpa using hd)]; ring

/-- the double loop of the transposed copy: pairs `(i, j)` and elements of the patch -/
theorem pair_index {gl gh ldb : List Int} (h : InPatch gl gh gl) (hne : gl ≠ []) (hl : ldb.length + 1 = gl.length) :
    (∀ i j : Nat, i < (prodI (edges gl gh).tail).toNat → j < ((edges gl gh).headD 0).toNat → ∃ y, InPatch gl gh y ∧
      nelem3 ldb (edges gl gh).tail i + prodI ldb * j = offset ldb (rel y gl).reverse ∧ (edges gl gh).headD 0 * i + j = bufPos gl (edges gl gh).dropLast y) ∧
    ∀ y, InPatch gl gh y → ∃ i j : Nat, i < (prodI (edges gl gh).tail).toNat ∧ j < ((edges gl gh).headD 0).toNat ∧
      nelem3 ldb (edges gl gh).tail i + prodI ldb * j = offset ldb (rel y gl).reverse ∧ (edges gl gh).headD 0 * i + j = bufPos gl (edges gl gh).dropLast y := by
  match gl, gh, h with
  | g :: gs, k :: ks, h =>
    have hsl := h.length
    simp only [InPatch] at h
    simp only [edges, List.tail_cons, List.headD_cons]
    have main : ∀ (i j : Nat) (ys : List Int), InPatch gs ks ys → (gs = [] → i = 0) → (gs ≠ [] → GA.GP.elemIndex (edges gs ks).dropLast i = rel ys gs ∧
        bufPos gs (edges gs ks).dropLast ys = i) →
        nelem3 ldb (edges gs ks) i + prodI ldb * j = offset ldb (rel ((g + j) :: ys) (g :: gs)).reverse ∧
        (k - g + 1) * i + j = bufPos (g :: gs) ((k - g + 1) :: edges gs ks).dropLast ((g + j) :: ys) := by
      intro i j ys hys h0 h1
      have hl1 := hys.length
      have hrl : (rel ys gs).reverse.length = ldb.length := by
        rw [List.length_reverse, GA.GP.rel_length hl1.1]; simpa using hl.symm
      have e1 : (rel ((g + j) :: ys) (g :: gs)).reverse = (rel ys gs).reverse ++ [(j : Int)] := by
        simp only [rel, List.reverse_cons]; congr 2; omega
      rw [e1, offset_snoc _ _ _ hrl.symm]
      have hedl : (edges gs ks).length = gs.length := edges_len hl1.2
      cases hgs : gs with
      | nil =>
        subst hgs
        have hi0 := h0 rfl
        have : ks = [] := by cases ks <;> simp_all
        subst this
        have : ys = [] := by cases ys <;> simp_all
        subst this
        subst hi0
        simp [nelem3, edges, rel, offset, bufPos]
      | cons g2 gs2 =>
        rw [hgs] at h1 hrl hedl hys hl1
        obtain ⟨h2, h3⟩ := h1 (by simp)
        have hene : edges (g2 :: gs2) ks ≠ [] := by intro h; rw [h] at hedl; simp at hedl
        constructor
        · unfold nelem3
          rw [if_neg hene, h2]
          congr 2
          rw [List.length_reverse, GA.GP.rel_length hl1.1, hedl]
        · rw [List.dropLast_cons_of_ne_nil hene]
          simp only [bufPos]
          rw [h3]; ring
    by_cases hgs : gs = []
    · subst hgs
      have : ks = [] := by cases ks <;> simp_all
      subst this
      constructor
      · intro i j hi hj
        have hi0 : i = 0 := by simp [edges, prodI] at hi; omega
        have := main i j [] trivial (fun _ => hi0) (fun h => absurd rfl h)
        refine ⟨[g + j], ?_, this⟩
        simp only [InPatch]; exact ⟨by omega, trivial⟩
      · intro y hy
        match y, hy with
        | [y], hy =>
          simp only [InPatch] at hy
          have := main 0 (y - g).toNat [] trivial (fun _ => rfl) (fun h => absurd rfl h)
          have e : g + ((y - g).toNat : Int) = y := by omega
          rw [e] at this
          exact ⟨0, (y - g).toNat, by simp [edges, prodI], by omega, this⟩
    · obtain ⟨r1, r2⟩ := row_index h.2 hgs
      constructor
      · intro i j hi hj
        obtain ⟨ys, hys, h2, h3⟩ := r1 i hi
        refine ⟨(g + j) :: ys, ?_, main i j ys hys (fun h => absurd h hgs) (fun _ => ⟨h2, h3⟩)⟩
        simp only [InPatch]; exact ⟨by omega, hys⟩
      · intro y hy
        match y, hy with
        | y :: ys, hy =>
          simp only [InPatch] at hy
          obtain ⟨i, hi, h2, h3⟩ := r2 ys hy.2
          have := main i (y - g).toNat ys hy.2 (fun h => absurd h hgs) (fun _ => ⟨h2, h3⟩)
          have e : g + ((y - g).toNat : Int) = y := by omega
          rw [e] at this
          exact ⟨i, (y - g).toNat, hi, by omega, this⟩

theorem foldl_pairs {α β γ : Type} (N m : Nat) (f : α → Nat → Nat → α) (b : α) :
    (List.range N).foldl (fun b i => (List.range m).foldl (fun b j => f b i j) b) b =
      ((List.range N).flatMap fun i => (List.range m).map fun j => (i, j)).foldl (fun b p => f b p.1 p.2) b := by
  rw [List.foldl_flatMap]
  congr 1
  funext b i
  rw [List.foldl_map]

/-! ## the transfers -/

variable {V : Type}

theorem upd_apply {α : Type} [DecidableEq α] (m : α → V) (a : α) (v : V) (b : α) : upd m a v b = if b = a then v else m b := rfl

/-- a loop of stores -/
theorem foldl_upd' {α β κ : Type} [DecidableEq κ] (pos : α → κ) (f : α → β) (L : List α) (buf : κ → β) (o : κ) :
    ((∀ x ∈ L, pos x ≠ o) → (L.foldl (fun b x => upd b (pos x) (f x)) buf) o = buf o) ∧
    ∀ v, (∀ x ∈ L, pos x = o → f x = v) → (∃ x ∈ L, pos x = o) → (L.foldl (fun b x => upd b (pos x) (f x)) buf) o = v := by
  induction L generalizing buf with
  | nil => simp
  | cons a L ih =>
    simp only [List.foldl_cons]
    constructor
    · intro h
      rw [(ih _).1 fun x hx => h x (List.mem_cons_of_mem _ hx)]
      unfold upd
      rw [if_neg fun e => h a List.mem_cons_self e.symm]
    · intro v h1 h2
      by_cases h3 : ∃ x ∈ L, pos x = o
      · exact (ih _).2 v (fun x hx => h1 x (List.mem_cons_of_mem _ hx)) h3
      · rw [(ih _).1 fun x hx e => h3 ⟨x, hx, e⟩]
        obtain ⟨x, hx, e⟩ := h2
        rcases List.mem_cons.1 hx with rfl | hx
        · unfold upd; rw [if_pos e.symm]; exact h1 x List.mem_cons_self e
        · exact absurd ⟨x, hx, e⟩ h3

theorem ldOK_shift {lo hi dlo glo ld : List Int} (h1 : dlo.length = lo.length) (h2 : glo.length = lo.length) (h : LdOK lo hi ld) :
    LdOK (destIdx lo dlo glo) (destIdx hi dlo glo) ld := by
  induction lo generalizing hi dlo glo ld with
  | nil => simp [LdOK] at h
  | cons l lo ih =>
    match dlo, glo, h1, h2 with
    | d :: ds, g :: gs, h1, h2 =>
      cases lo with
      | nil =>
        match hi, ld, h with
        | [h'], [], _ => 
          cases ds <;> cases gs <;> simp_all [destIdx, LdOK]
        | h' :: h'' :: hi, ld, h => simp [LdOK] at h
        | [], ld, h => simp [LdOK] at h
        | [h'], e :: ld, h => simp [LdOK] at h
      | cons l2 lo =>
        match hi, ld, h with
        | h' :: h'' :: hi, e :: ld, h =>
          simp only [LdOK] at h
          have := @ih (h'' :: hi) ds gs ld (by simpa using h1) (by simpa using h2) h.2
          match ds, gs, h1, h2 with
          | d2 :: ds, g2 :: gs, h1, h2 =>
            simp only [destIdx, LdOK] at this ⊢
            exact ⟨by omega, this⟩
        | [], ld, h => simp [LdOK] at h
        | [h'], ld, h => simp [LdOK] at h
        | h' :: h'' :: hi, [], h => simp [LdOK] at h

theorem arrPut_eq (f : List Int → V) {lo hi : List Int} (ld : List Int) (buf : Int → V) (h : ∃ x, InPatch lo hi x) :
    arrPut f lo hi ld buf = (box lo hi).foldl (fun f x => upd f x (buf (offset ld (rel x lo)))) f := by
  unfold arrPut; rw [loopAll_eq_box h]

theorem arrPut_in (f : List Int → V) {lo hi : List Int} (ld : List Int) (buf : Int → V) {x : List Int} (h : InPatch lo hi x) :
    arrPut f lo hi ld buf x = buf (offset ld (rel x lo)) := by
  rw [arrPut_eq f ld buf ⟨x, h⟩]
  exact (foldl_upd' (fun x => x) _ _ f x).2 _ (fun y _ e => by rw [e]) ⟨x, mem_box.2 h, rfl⟩

theorem arrPut_out (f : List Int → V) {lo hi : List Int} (ld : List Int) (buf : Int → V) (hne : ∃ x, InPatch lo hi x) {x : List Int} (h : ¬ InPatch lo hi x) :
    arrPut f lo hi ld buf x = f x := by
  rw [arrPut_eq f ld buf hne]
  exact (foldl_upd' (fun x => x) _ _ f x).1 fun y hy e => h (by rw [← e]; exact mem_box.1 hy)

/-- a section and the places it goes to -/
structure MoveOK (dlo glo lo hi ldb : List Int) : Prop where
  dl : dlo.length = lo.length
  gl : glo.length = lo.length
  ne : InPatch lo hi lo
  ld : LdOK lo hi ldb

theorem LdOK_length {lo hi ld : List Int} (h : LdOK lo hi ld) : ld.length + 1 = lo.length := h.length.2

theorem MoveOK.lo_ne {dlo glo lo hi ldb : List Int} (h : MoveOK dlo glo lo hi ldb) : lo ≠ [] := by
  have := LdOK_length h.ld
  rintro rfl
  simp at this

theorem trans_pos {dlo glo lo hi ldb : List Int} (h : MoveOK dlo glo lo hi ldb) {x : List Int} (hx : x.length = lo.length) :
    offset ldb (rel (trDestIdx x dlo glo) (trDestIdx lo dlo glo)).reverse = bufPos lo ldb x := by
  unfold trDestIdx
  rw [rel_reverse (by rw [destIdx_length (by rw [h.dl, hx]) (by rw [List.length_reverse, h.gl, hx]), destIdx_length h.dl (by simp [h.gl]), hx])]
  rw [List.reverse_reverse, rel_dest h.dl (by simp [h.gl]) hx, GA.GP.offset_rel _ hx]

theorem moveLoad_spec (tr : Bool) (ga : List Int → V) {dlo glo lo hi ldb : List Int} (h : MoveOK dlo glo lo hi ldb) (b : Int → V) :
    (∀ x, InPatch lo hi x → moveLoad tr ga dlo glo lo hi ldb b (bufPos lo ldb x) = ga (dest tr dlo glo x)) ∧
    ∀ o, (∀ x, InPatch lo hi x → bufPos lo ldb x ≠ o) → moveLoad tr ga dlo glo lo hi ldb b o = b o := by
  have hhl := h.ne.length
  have hpatch := fun y => dest_patch (tr := tr) (y := y) h.dl h.gl hhl.2
  have hl : ∀ x, InPatch lo hi x → x.length = lo.length := fun x hx => hx.length.1
  cases tr
  · have e : ∀ b, moveLoad false ga dlo glo lo hi ldb b = arrGet ga (destIdx lo dlo glo) (destIdx hi dlo glo) ldb b := fun b => by simp [moveLoad]
    rw [e]
    have pos : ∀ x, InPatch lo hi x → bufPos (destIdx lo dlo glo) ldb (destIdx x dlo glo) = bufPos lo ldb x := by
      intro x hx
      rw [← GA.GP.offset_rel _ (by rw [destIdx_length (by rw [h.dl, hl x hx]) (by rw [h.gl, hl x hx]), destIdx_length h.dl h.gl, hl x hx]),
        rel_dest h.dl h.gl (hl x hx), GA.GP.offset_rel _ (hl x hx)]
    constructor
    · intro x hx
      rw [← pos x hx]
      exact GA.GP.arrGet_in ga b (ldOK_shift h.dl h.gl h.ld) ((hpatch _).2 ⟨x, hx, rfl⟩)
    · intro o ho
      refine GA.GP.arrGet_out ga ldb b ⟨_, (hpatch _).2 ⟨lo, h.ne, rfl⟩⟩ fun y hy => ?_
      obtain ⟨x, hx, rfl⟩ := (hpatch y).1 hy
      have := ho x hx
      rw [← pos x hx] at this
      exact this
  · have hgl : InPatch (trDestIdx lo dlo glo) (trDestIdx hi dlo glo) (trDestIdx lo dlo glo) := (hpatch _).2 ⟨lo, h.ne, rfl⟩
    have hlen : (trDestIdx lo dlo glo).length = lo.length := dest_length (tr := true) h.dl h.gl
    have hgne : trDestIdx lo dlo glo ≠ [] := by
      intro h0; rw [h0] at hlen; exact h.lo_ne (by cases lo <;> simp_all)
    have hpi := pair_index hgl hgne (ldb := ldb) (by rw [hlen]; exact LdOK_length h.ld)
    simp only [moveLoad, if_true]
    rw [foldl_pairs (β := Unit) (γ := Unit)]
    have htmp : ∀ y, InPatch (trDestIdx lo dlo glo) (trDestIdx hi dlo glo) y →
        arrGet ga (trDestIdx lo dlo glo) (trDestIdx hi dlo glo) (edges (trDestIdx lo dlo glo) (trDestIdx hi dlo glo)).dropLast b
          (bufPos (trDestIdx lo dlo glo) (edges (trDestIdx lo dlo glo) (trDestIdx hi dlo glo)).dropLast y) = ga y :=
      fun y hy => GA.GP.arrGet_in ga b (GA.GP.ldOK_tight hgne hgl.length.2) hy
    have hmem : ∀ i j N m : Nat, (i, j) ∈ ((List.range N).flatMap fun i => (List.range m).map fun j => (i, j)) ↔ i < N ∧ j < m := by
      intro i j N m; simp
    constructor
    · intro x hx
      refine (GA.GP.foldl_upd _ _ _ b _).2 (ga (trDestIdx x dlo glo)) ?_ ?_
      · rintro ⟨i, j⟩ hij e
        rw [hmem] at hij
        obtain ⟨y, hy, p1, p2⟩ := hpi.1 i j hij.1 hij.2
        obtain ⟨x', hx', rfl⟩ := (hpatch y).1 hy
        dsimp only at e ⊢
        rw [p2, htmp _ hy]
        rw [p1] at e
        have e' : bufPos lo ldb x' = bufPos lo ldb x := by
          rw [← trans_pos h (hl x' hx'), ← e]; rfl
        rw [bufPos_inj h.ld hx' hx e']
        rfl
      · obtain ⟨i, j, hi, hj, p1, p2⟩ := hpi.2 _ ((hpatch (trDestIdx x dlo glo)).2 ⟨x, hx, rfl⟩)
        refine ⟨(i, j), (hmem _ _ _ _).2 ⟨hi, hj⟩, ?_⟩
        dsimp only
        rw [p1, trans_pos h (hl x hx)]
    · intro o ho
      refine (GA.GP.foldl_upd _ _ _ b o).1 ?_
      rintro ⟨i, j⟩ hij
      rw [hmem] at hij
      obtain ⟨y, hy, p1, p2⟩ := hpi.1 i j hij.1 hij.2
      obtain ⟨x', hx', rfl⟩ := (hpatch y).1 hy
      dsimp only
      rw [p1]
      have := trans_pos h (hl x' hx')
      intro e
      apply ho x' hx'
      rw [← this, ← e]
      rfl

theorem moveStore_spec (tr : Bool) (ga : List Int → V) {dlo glo lo hi ldb : List Int} (h : MoveOK dlo glo lo hi ldb) (b : Int → V) :
    (∀ x, InPatch lo hi x → moveStore tr b dlo glo lo hi ldb ga (dest tr dlo glo x) = b (bufPos lo ldb x)) ∧
    ∀ y, (∀ x, InPatch lo hi x → dest tr dlo glo x ≠ y) → moveStore tr b dlo glo lo hi ldb ga y = ga y := by
  have hhl := h.ne.length
  have hpatch := fun y => dest_patch (tr := tr) (y := y) h.dl h.gl hhl.2
  have hl : ∀ x, InPatch lo hi x → x.length = lo.length := fun x hx => hx.length.1
  have hne : ∃ y, InPatch (dest tr dlo glo lo) (dest tr dlo glo hi) y := ⟨_, (hpatch _).2 ⟨lo, h.ne, rfl⟩⟩
  have hout : ∀ y, (∀ x, InPatch lo hi x → dest tr dlo glo x ≠ y) → ¬ InPatch (dest tr dlo glo lo) (dest tr dlo glo hi) y := by
    intro y hy hp
    obtain ⟨x, hx, rfl⟩ := (hpatch y).1 hp
    exact hy x hx rfl
  cases tr
  · have e : moveStore false b dlo glo lo hi ldb ga = arrPut ga (destIdx lo dlo glo) (destIdx hi dlo glo) ldb b := by simp [moveStore]
    rw [e]
    constructor
    · intro x hx
      have := arrPut_in ga ldb b ((hpatch _).2 ⟨x, hx, rfl⟩)
      refine this.trans ?_
      show b (offset ldb (rel (destIdx x dlo glo) (destIdx lo dlo glo))) = _
      rw [rel_dest h.dl h.gl (hl x hx), GA.GP.offset_rel _ (hl x hx)]
    · intro y hy
      exact arrPut_out ga ldb b hne (hout y hy)
  · have hgl : InPatch (trDestIdx lo dlo glo) (trDestIdx hi dlo glo) (trDestIdx lo dlo glo) := (hpatch _).2 ⟨lo, h.ne, rfl⟩
    have hlen : (trDestIdx lo dlo glo).length = lo.length := dest_length (tr := true) h.dl h.gl
    have hgne : trDestIdx lo dlo glo ≠ [] := by
      intro h0; rw [h0] at hlen; exact h.lo_ne (by cases lo <;> simp_all)
    have hpi := pair_index hgl hgne (ldb := ldb) (by rw [hlen]; exact LdOK_length h.ld)
    have hldt : (edges lo hi).tail.reverse = (edges (trDestIdx lo dlo glo) (trDestIdx hi dlo glo)).dropLast := by
      unfold trDestIdx
      rw [edges_reverse _ _ (by rw [destIdx_length h.dl (by simp [h.gl]), destIdx_length (by rw [h.dl, hhl.2]) (by simp [h.gl, hhl.2]), hhl.2])]
      have : edges (destIdx lo dlo glo.reverse) (destIdx hi dlo glo.reverse) = edges lo hi := by
        have key : ∀ (lo hi dlo glo : List Int), dlo.length = lo.length → glo.length = lo.length → hi.length = lo.length →
            edges (destIdx lo dlo glo) (destIdx hi dlo glo) = edges lo hi := by
          intro lo
          induction lo with
          | nil => intro hi dlo glo _ _ h3; cases hi <;> simp_all [destIdx, edges]
          | cons l lo ih =>
            intro hi dlo glo h1 h2 h3
            match hi, dlo, glo, h1, h2, h3 with
            | h :: hi, d :: ds, g :: gs, h1, h2, h3 =>
              simp only [destIdx, edges]
              rw [ih hi ds gs (by simpa using h1) (by simpa using h2) (by simpa using h3)]
              congr 1; omega
        exact key lo hi dlo glo.reverse h.dl (by simp [h.gl]) hhl.2
      rw [this, List.dropLast_reverse]
    simp only [moveStore, if_true]
    rw [foldl_pairs (β := Unit) (γ := Unit), hldt]
    have hmem : ∀ i j N m : Nat, (i, j) ∈ ((List.range N).flatMap fun i => (List.range m).map fun j => (i, j)) ↔ i < N ∧ j < m := by
      intro i j N m; simp
    constructor
    · intro x hx
      have hy := (hpatch (trDestIdx x dlo glo)).2 ⟨x, hx, rfl⟩
      refine (arrPut_in ga _ _ hy).trans ?_
      show _ = _
      rw [GA.GP.offset_rel _ (by exact hy.length.1)]
      refine (GA.GP.foldl_upd _ _ _ b _).2 _ ?_ ?_
      · rintro ⟨i, j⟩ hij e
        rw [hmem] at hij
        obtain ⟨y, hy', p1, p2⟩ := hpi.1 i j hij.1 hij.2
        dsimp only at e ⊢
        rw [p2] at e
        have := bufPos_inj (GA.GP.ldOK_tight hgne hgl.length.2) hy' hy e
        subst this
        rw [p1, trans_pos h (hl x hx)]
      · obtain ⟨i, j, hi, hj, p1, p2⟩ := hpi.2 _ hy
        exact ⟨(i, j), (hmem _ _ _ _).2 ⟨hi, hj⟩, p2⟩
    · intro y hy
      exact arrPut_out ga _ _ hne (hout y hy)

end GA.Dra
