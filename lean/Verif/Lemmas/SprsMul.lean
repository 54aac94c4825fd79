import Verif.Lemmas.SprsTab
import Verif.Lemmas.SprsSum

/-! # Lemmas: products of sparse arrays -/

namespace GA.Sprs
open GA.Model GA.Spec.Sprs

variable {V : Type}

theorem foldlM_flatMap {α β σ : Type} (f : α → List β) (g : σ → β → Option σ) (L : List α) (t : σ) :
    (L.flatMap f).foldlM g t = L.foldlM (fun t a => (f a).foldlM g t) t := by
  induction L generalizing t with
  | nil => rfl
  | cons a L ih =>
    rw [List.flatMap_cons, List.foldlM_append, List.foldlM_cons]
    cases h : (f a).foldlM g t with
    | none => rfl
    | some t' => exact ih t'

theorem foldlM_congr {α σ : Type} {f g : σ → α → Option σ} {L : List α} (h : ∀ a ∈ L, ∀ t, f t a = g t a) (t : σ) : L.foldlM f t = L.foldlM g t := by
  induction L generalizing t with
  | nil => rfl
  | cons a L ih =>
    rw [List.foldlM_cons, List.foldlM_cons, h a List.mem_cons_self]
    congr 1
    funext t'
    exact ih (fun a ha => h a (List.mem_cons_of_mem _ ha)) t'

theorem flatMap_swap {α β γ : Type} (L : List α) (M : List β) (f : α → β → List γ) :
    (L.flatMap fun a => M.flatMap fun b => f a b).Perm (M.flatMap fun b => L.flatMap fun a => f a b) := by
  induction L with
  | nil => simp
  | cons a L ih =>
    rw [List.flatMap_cons]
    refine (ih.append_left _).trans ?_
    have : ∀ M : List β, ((M.flatMap fun b => f a b) ++ M.flatMap fun b => L.flatMap fun a => f a b).Perm
        (M.flatMap fun b => (a :: L).flatMap fun a => f a b) := by
      intro M
      induction M with
      | nil => simp
      | cons b M ihM =>
        simp only [List.flatMap_cons] at ihM ⊢
        rw [List.append_assoc, List.append_assoc]
        refine List.Perm.append_left _ ?_
        rw [← List.append_assoc]
        refine (List.perm_append_comm.append_right _).trans ?_
        rw [List.append_assoc]
        exact ihM.append_left _
    exact this M

/-- products of the rows of two blocks: `ra r` are the rows of `A`, `rb k` those of `B` -/
def rowProds [Mul V] (ilo : Int) (nrows : Nat) (ra : Nat → List (Int × V)) (rb : Int → List (Int × V)) : List (El V) :=
  (List.range nrows).flatMap fun r => (ra r).flatMap fun jv => (rb jv.1).map fun kv => ⟨ilo + r, kv.1, jv.2 * kv.2⟩

theorem mulCells_eq [Add V] [Mul V] {jdim : Int} {bufsize : Nat} {ilo : Int} {wa : View V} {ilob ihib : Int} {wb : View V} {nrows : Nat} (t : Tab V)
    (h : ∀ r, r < nrows → ∀ jv ∈ csrRow wa.idx wa.jdx wa.val r, 0 ≤ jv.1 - ilob ∧ jv.1 - ilob ≤ ihib - ilob) :
    (cells nrows wa).foldlM (mulCell jdim bufsize ilo wa ilob ihib wb) t =
      (rowProds ilo nrows (csrRow wa.idx wa.jdx wa.val) fun k => csrRow wb.idx wb.jdx wb.val (k - ilob).toNat).foldlM (accumulate jdim bufsize) t := by
  rw [rowProds, foldlM_flatMap, cells, foldlM_flatMap]
  apply foldlM_congr
  intro r hr t
  have hr := List.mem_range.1 hr
  rw [foldlM_flatMap, csrRow, List.foldlM_map, List.foldlM_map]
  apply foldlM_congr
  intro k hk t
  have hin := h r hr (wa.jdx (wa.idx r + k), wa.val (wa.idx r + k)) (by
    rw [csrRow]
    exact List.mem_map_of_mem (f := fun k => (wa.jdx (wa.idx r + k), wa.val (wa.idx r + k))) hk)
  simp only [mulCell]
  rw [if_pos hin]
  simp only [csrRow, List.map_map]
  rfl

section good
variable [Semiring V] {n : Nat} {idim kdim jdim : Int} {locA locB : Nat → Loc V} {A B : List (Entry V)}

/-- the products of one element of `A` -/
def prods (B : List (Entry V)) (a : Entry V) : List (El V) := (B.filter fun b => b.row = a.col).map fun b => ⟨a.row, b.col, a.val * b.val⟩

/-- all products of process `p`, in the order of the loops -/
def allProds (n : Nat) (locA : Nat → Loc V) (BA : List (List (List (Int × V)))) (locB : Nat → Loc V) (BB : Nat → List (List (List (Int × V)))) (p : Nat) :
    List (El V) :=
  (List.range n).flatMap fun l => (List.range n).flatMap fun c =>
    rowProds (locA p).ilo (locA p).nrows (fun r => rowIn (locA p).blkidx BA l r) fun k => rowIn (locB l).blkidx (BB l) c (k - (locB l).ilo).toNat

theorem localProduct_eq {BA : List (List (List (Int × V)))} {BB : Nat → List (List (List (Int × V)))} {p : Nat} (bufsize : Nat) (t : Tab V)
    (hA : Holds (locA p) BA) (hB : ∀ l, l < n → Holds (locB l) (BB l))
    (hr : ∀ l r, l < n → r < (locA p).nrows → ∀ jv ∈ rowIn (locA p).blkidx BA l r, (locB l).ilo ≤ jv.1 ∧ jv.1 ≤ (locB l).ihi) :
    localProduct jdim n bufsize locA locB p t = (allProds n locA BA locB BB p).foldlM (accumulate jdim bufsize) t := by
  rw [localProduct, allProds, foldlM_flatMap]
  apply foldlM_congr
  intro l hl t
  have hl := List.mem_range.1 hl
  rw [foldlM_flatMap]
  apply foldlM_congr
  intro c hc t
  have hnone : ∀ {l' : Loc V} {B' : List (List (List (Int × V)))} {c' : Nat}, accessColBlock l' c' = none → ∀ r, rowIn l'.blkidx B' c' r = [] := by
    intro l' B' c' h r
    have hf : findBlock l'.blkidx c' = none := by simpa [accessColBlock] using h
    simp [rowIn, hf]
  cases hwa : accessColBlock (locA p) l with
  | none =>
    have : (rowProds (locA p).ilo (locA p).nrows (fun r => rowIn (locA p).blkidx BA l r) fun k =>
        rowIn (locB l).blkidx (BB l) c (k - (locB l).ilo).toNat) = [] := by
      simp [rowProds, hnone hwa]
    rw [this]
    rfl
  | some wa =>
    cases hwb : accessColBlock (locB l) c with
    | none =>
      have : (rowProds (locA p).ilo (locA p).nrows (fun r => rowIn (locA p).blkidx BA l r) fun k =>
          rowIn (locB l).blkidx (BB l) c (k - (locB l).ilo).toNat) = [] := by
        simp [rowProds, hnone hwb]
      rw [this]
      rfl
    | some wb =>
      have hr' : ∀ r, r < (locA p).nrows → ∀ jv ∈ csrRow wa.idx wa.jdx wa.val r, 0 ≤ jv.1 - (locB l).ilo ∧ jv.1 - (locB l).ilo ≤ (locB l).ihi - (locB l).ilo := by
        intro r h jv hjv
        rw [csr_rowIn hA hwa h] at hjv
        have := hr l r hl h jv hjv
        omega
      refine Eq.trans (mulCells_eq t hr') ?_
      congr 1
      unfold rowProds
      rw [List.flatMap_def, List.flatMap_def]
      congr 1
      apply List.map_congr_left
      intro r h
      have h := List.mem_range.1 h
      rw [csr_rowIn hA hwa h]
      rw [List.flatMap_def, List.flatMap_def]
      congr 1
      apply List.map_congr_left
      intro jv hjv
      have := hr l r hl h jv hjv
      have hk : (jv.1 - (locB l).ilo).toNat < (locB l).nrows := by
        simp only [Loc.nrows]
        omega
      dsimp only
      rw [csr_rowIn (hB l hl) hwb hk]

/-- the products of process `p` are those of its elements of `A` -/
theorem allProds_perm {BA : List (List (List (Int × V)))} {BB : Nat → List (List (List (Int × V)))} {p : Nat} (hp : p < n)
    (hi : (n : Int) ≤ idim) (hk : (n : Int) ≤ kdim) (hj : (n : Int) ≤ jdim) (hinA : ∀ e ∈ A, e.In idim kdim) (hinB : ∀ e ∈ B, e.In kdim jdim)
    (a1 : (locA p).ilo = bound idim n p) (a2 : (locA p).ihi = limHi idim n p)
    (a3 : ∀ c r, c < n → r < (locA p).nrows → (rowIn (locA p).blkidx BA c r).Perm (rowPart A ((locA p).ilo + r) (bound kdim n c) (limHi kdim n c)))
    (b1 : ∀ l, l < n → (locB l).ilo = bound kdim n l ∧ (locB l).ihi = limHi kdim n l)
    (b3 : ∀ l, l < n → ∀ c r, c < n → r < (locB l).nrows →
      (rowIn (locB l).blkidx (BB l) c r).Perm (rowPart B ((locB l).ilo + r) (bound jdim n c) (limHi jdim n c))) :
    (allProds n locA BA locB BB p).Perm ((owned idim n A p).flatMap (prods B)) := by
  have hn : 0 < n := by omega
  have hcol : ∀ l r, l < n → r < (locA p).nrows → ∀ jv ∈ rowIn (locA p).blkidx BA l r, bound kdim n l ≤ jv.1 ∧ jv.1 ≤ limHi kdim n l := by
    intro l r hl hr jv hjv
    rw [(a3 l r hl hr).mem_iff] at hjv
    obtain ⟨e, he, rfl⟩ := List.mem_map.1 hjv
    have := (List.mem_filter.1 he).2
    simp only [decide_eq_true_eq] at this
    exact this.2
  let g : Nat → Int × V → List (El V) := fun r jv => (B.filter fun b => b.row = jv.1).map fun b => ⟨(locA p).ilo + r, b.col, jv.2 * b.val⟩
  -- the blocks of one row of `B`
  have s1 : (allProds n locA BA locB BB p).Perm
      ((List.range n).flatMap fun l => (List.range (locA p).nrows).flatMap fun r => (rowIn (locA p).blkidx BA l r).flatMap (g r)) := by
    refine flatMap_perm fun l hl => ?_
    have hl := List.mem_range.1 hl
    unfold rowProds
    refine (flatMap_swap _ _ _).trans (flatMap_perm fun r hr => ?_)
    have hr := List.mem_range.1 hr
    refine (flatMap_swap _ _ _).trans (flatMap_perm fun jv hjv => ?_)
    have hjv := hcol l r hl hr jv hjv
    obtain ⟨c1, c2⟩ := b1 l hl
    have hkr : (jv.1 - (locB l).ilo).toNat < (locB l).nrows := by
      simp only [Loc.nrows]
      omega
    have e1 : ((List.range n).flatMap fun c => rowIn (locB l).blkidx (BB l) c (jv.1 - (locB l).ilo).toNat).Perm
        ((B.filter fun b => b.row = jv.1).map fun b => (b.col, b.val)) := by
      refine (flatMap_perm fun c hc => b3 l hl c _ (List.mem_range.1 hc) hkr).trans ?_
      have : (locB l).ilo + ((jv.1 - (locB l).ilo).toNat : Int) = jv.1 := by omega
      rw [this]
      exact row_blocks hn hj hinB jv.1
    have e2 := e1.map fun kv : Int × V => (⟨(locA p).ilo + r, kv.1, jv.2 * kv.2⟩ : El V)
    rw [List.map_flatMap, List.map_map] at e2
    exact e2
  have s2 : ((List.range n).flatMap fun l => (List.range (locA p).nrows).flatMap fun r => (rowIn (locA p).blkidx BA l r).flatMap (g r)).Perm
      ((List.range (locA p).nrows).flatMap fun r : Nat => (A.filter fun a => a.row = (locA p).ilo + r).flatMap (prods B)) := by
    refine (flatMap_swap _ _ _).trans (flatMap_perm fun r hr => ?_)
    have hr := List.mem_range.1 hr
    have e1 : ((List.range n).flatMap fun l => rowIn (locA p).blkidx BA l r).Perm
        ((A.filter fun a => a.row = (locA p).ilo + r).map fun a => (a.col, a.val)) :=
      (flatMap_perm fun c hc => a3 c r (List.mem_range.1 hc) hr).trans (row_blocks hn hk hinA _)
    have e2 := e1.flatMap_right (g r)
    rw [List.flatMap_assoc, List.flatMap_map] at e2
    refine e2.trans (List.Perm.of_eq ?_)
    rw [List.flatMap_def, List.flatMap_def]
    congr 1
    apply List.map_congr_left
    intro a ha
    have := (List.mem_filter.1 ha).2
    simp only [decide_eq_true_eq] at this
    simp only [g, prods, this]
  refine s1.trans (s2.trans ?_)
  have s3 : ((List.range (locA p).nrows).flatMap fun r : Nat => A.filter fun a => a.row = (locA p).ilo + r).Perm (owned idim n A p) := by
    have := bucket_perm (owned idim n A p) (fun e => (e.row - (locA p).ilo).toNat) (n := (locA p).nrows) (by
      intro e he
      obtain ⟨h1, h2⟩ := List.mem_filter.1 he
      simp only [decide_eq_true_eq] at h2
      obtain ⟨m1, m2, -⟩ := hinA e h1
      have := (owner_iff hi hp m1 m2).1 h2
      simp only [Loc.nrows]
      omega)
    refine List.Perm.trans (List.Perm.of_eq ?_) this
    rw [List.flatMap_def, List.flatMap_def]
    congr 1
    apply List.map_congr_left
    intro r hr
    have hr := List.mem_range.1 hr
    rw [owned, List.filter_filter]
    apply List.filter_congr
    intro e he
    obtain ⟨m1, m2, -⟩ := hinA e he
    have o := owner_iff hi hp m1 m2
    rw [Bool.eq_iff_iff]
    simp only [Bool.and_eq_true, decide_eq_true_eq]
    rw [o]
    simp only [Loc.nrows] at hr
    omega
  have s4 := s3.flatMap_right (prods B)
  rw [List.flatMap_assoc] at s4
  exact s4

/-! ## sizes -/

theorem le_foldl_max {L : List Nat} {x a : Nat} (h : x ∈ L ∨ x ≤ a) : x ≤ L.foldl max a := by
  induction L generalizing a with
  | nil => simpa using h
  | cons y L ih =>
    rw [List.foldl_cons]
    apply ih
    rcases h with h | h
    · rcases List.mem_cons.1 h with rfl | h
      · exact Or.inr (Nat.le_max_right _ _)
      · exact Or.inl h
    · exact Or.inr (Nat.le_trans h (Nat.le_max_left _ _))

omit [Semiring V] in
theorem row_le_max {loc : Nat → Loc V} {M : List (Entry V)} (hn : 0 < n) (hi : (n : Int) ≤ idim) (hj : (n : Int) ≤ jdim)
    (hM : ∀ e ∈ M, e.In idim jdim) (h : Good n idim jdim loc M) (i : Int) :
    (M.filter fun e => e.row = i).length ≤ maxNnz n loc := by
  by_cases hr : 0 ≤ i ∧ i < idim
  · obtain ⟨h0, h1⟩ := hr
    have hp : owner idim n i < n := owner_lt hn
    have hrange := (owner_iff hi hp h0 h1).1 rfl
    generalize owner idim n i = p at hp hrange
    obtain ⟨B, b1, b2, b3, b4, b5⟩ := h p hp
    obtain ⟨r, hri⟩ : ∃ r : Nat, i = (loc p).ilo + r := ⟨(i - (loc p).ilo).toNat, by omega⟩
    have hr : r < (loc p).nrows := by
      simp only [Loc.nrows]
      omega
    have e1 := (row_blocks hn hj hM i).length_eq
    rw [List.length_map] at e1
    have e2 : ((List.range n).flatMap fun c : Nat => rowPart M i (bound jdim n c) (limHi jdim n c)).length =
        ((List.range n).map fun c => (rowIn (loc p).blkidx B c r).length).sum := by
      rw [List.length_flatMap]
      congr 1
      apply List.map_congr_left
      intro c hc
      rw [hri]
      exact ((b5 c r (List.mem_range.1 hc) hr).length_eq).symm
    have e3 : ((List.range n).map fun c => (rowIn (loc p).blkidx B c r).length).sum = ((loc p).blkidx.map fun c => (rowIn (loc p).blkidx B c r).length).sum := by
      have hperm : ((List.range n).filter fun c => c ∈ (loc p).blkidx).Perm (loc p).blkidx := by
        rw [List.perm_ext_iff_of_nodup (List.Nodup.filter _ List.nodup_range) b1.hnodup]
        intro c
        simp only [List.mem_filter, List.mem_range, decide_eq_true_eq]
        exact ⟨fun h => h.2, fun h => ⟨b4 c h, h⟩⟩
      rw [← (hperm.map _).sum_eq]
      generalize List.range n = L
      induction L with
      | nil => rfl
      | cons c L ih =>
        rw [List.map_cons, List.sum_cons, List.filter_cons]
        by_cases hc : c ∈ (loc p).blkidx
        · simp [hc, ih]
        · have : rowIn (loc p).blkidx B c r = [] := by simp [rowIn, find_none.2 hc]
          simp [hc, ih, this]
    have e4 : ((loc p).blkidx.map fun c => (rowIn (loc p).blkidx B c r).length) =
        (List.range (loc p).blkidx.length).map fun x =>
          (loc p).gi (x * ((loc p).nrows + 1) + (r + 1)) - (loc p).gi (x * ((loc p).nrows + 1) + r) := by
      apply List.ext_getElem
      · simp
      · intro x hx hx'
        simp only [List.length_map] at hx
        simp only [List.getElem_map, List.getElem_range]
        have hf : findBlock (loc p).blkidx (loc p).blkidx[x] = some x := (find_some b1.hnodup).2 (List.getElem?_eq_getElem hx)
        obtain ⟨b, hb⟩ := b1.block hf
        have hbl := b1.hrows b (List.mem_of_getElem? hb)
        have hrow : b[r]? = some b[r] := List.getElem?_eq_getElem (by omega)
        rw [(b1.row_len hb hrow).1]
        simp [rowIn, hf, hb, hrow]
    have e5 : rowNnz (loc p) r = (M.filter fun e => e.row = i).length := by
      rw [← e1, e2, e3, e4]
      rfl
    rw [← e5]
    refine le_foldl_max (Or.inl ?_)
    refine List.mem_flatMap.2 ⟨p, List.mem_range.2 hp, ?_⟩
    exact List.mem_map_of_mem (f := fun r => rowNnz (loc p) r) (List.mem_range.2 hr)
  · have : (M.filter fun e => e.row = i) = [] := by
      rw [List.filter_eq_nil_iff]
      intro e he
      obtain ⟨m1, m2, -⟩ := hM e he
      simp only [decide_eq_true_eq]
      omega
    rw [this]
    exact Nat.zero_le _

theorem prods_bound {ma mb : Nat} {p : Nat} (hp : p < n) (hi : (n : Int) ≤ idim) (hinA : ∀ e ∈ A, e.In idim kdim) (hinB : ∀ e ∈ B, e.In kdim jdim)
    (hma : ∀ i, (A.filter fun e => e.row = i).length ≤ ma) (hmb : ∀ i, (B.filter fun e => e.row = i).length ≤ mb) (hj : 0 ≤ jdim)
    (L : List (Int × Int)) (hL : L.Nodup) (hmem : ∀ x ∈ L, x ∈ ((owned idim n A p).flatMap (prods B)).map pos) :
    L.length ≤ bufSize (limHi idim n p - bound idim n p + 1).toNat jdim ma mb := by
  have hx : ∀ x ∈ L, ∃ a ∈ A, ∃ b ∈ B, owner idim n a.row = p ∧ b.row = a.col ∧ x = (a.row, b.col) := by
    intro x hx
    obtain ⟨e, he, rfl⟩ := List.mem_map.1 (hmem x hx)
    obtain ⟨a, ha, he⟩ := List.mem_flatMap.1 he
    obtain ⟨b, hb, rfl⟩ := List.mem_map.1 he
    obtain ⟨ha1, ha2⟩ := List.mem_filter.1 ha
    obtain ⟨hb1, hb2⟩ := List.mem_filter.1 hb
    exact ⟨a, ha1, b, hb1, by simpa using ha2, by simpa using hb2, rfl⟩
  have hlim := limits_nonempty hp hi
  have hrows : ∀ x ∈ L, bound idim n p ≤ x.1 ∧ x.1 < bound idim n p + ((limHi idim n p - bound idim n p + 1).toNat : Int) := by
    intro x h
    obtain ⟨a, ha, b, hb, h1, h2, rfl⟩ := hx x h
    obtain ⟨m1, m2, -⟩ := hinA a ha
    have := (owner_iff hi hp m1 m2).1 h1
    dsimp only
    omega
  have hnd : ∀ r : Nat, ((L.filter fun x => x.1 = bound idim n p + (r : Int)).map (·.2)).Nodup := by
    intro r
    rw [List.nodup_map_iff_inj_on (hL.filter _)]
    intro x h y h' hxy
    have h1 := (List.mem_filter.1 h).2
    have h2 := (List.mem_filter.1 h').2
    simp only [decide_eq_true_eq] at h1 h2
    exact Prod.ext (h1.trans h2.symm) hxy
  have hcols : ∀ r : Nat, (L.filter fun x => x.1 = bound idim n p + (r : Int)).length ≤ jdim.toNat := by
    intro r
    have hsub : ((L.filter fun x => x.1 = bound idim n p + (r : Int)).map fun x => x.2.toNat).Nodup := by
      rw [List.nodup_map_iff_inj_on (hL.filter _)]
      intro x h y h' hxy
      obtain ⟨a, ha, b, hb, h1, h2, rfl⟩ := hx x (List.mem_filter.1 h).1
      obtain ⟨a', ha', b', hb', h1', h2', rfl⟩ := hx y (List.mem_filter.1 h').1
      have k1 := (List.mem_filter.1 h).2
      have k2 := (List.mem_filter.1 h').2
      simp only [decide_eq_true_eq] at k1 k2
      obtain ⟨-, -, m3, m4⟩ := hinB b hb
      obtain ⟨-, -, m5, m6⟩ := hinB b' hb'
      dsimp only at hxy
      exact Prod.ext (k1.trans k2.symm) (by dsimp only; omega)
    have : ((L.filter fun x => x.1 = bound idim n p + (r : Int)).map fun x => x.2.toNat).length ≤ (List.range jdim.toNat).length := by
      apply List.Subperm.length_le
      apply List.subperm_of_subset hsub
      intro y hy
      obtain ⟨x, h, rfl⟩ := List.mem_map.1 hy
      obtain ⟨a, ha, b, hb, h1, h2, rfl⟩ := hx x (List.mem_filter.1 h).1
      obtain ⟨-, -, m3, m4⟩ := hinB b hb
      rw [List.mem_range]
      dsimp only
      omega
    simpa using this
  have hprod : ∀ r : Nat, (L.filter fun x => x.1 = bound idim n p + (r : Int)).length ≤ ma * mb := by
    intro r
    have : ((L.filter fun x => x.1 = bound idim n p + (r : Int)).map (·.2)).length ≤
        ((A.filter fun a => a.row = bound idim n p + (r : Int)).flatMap fun a => (B.filter fun b => b.row = a.col).map fun b => b.col).length := by
      apply List.Subperm.length_le
      apply List.subperm_of_subset (hnd r)
      intro y hy
      obtain ⟨x, h, rfl⟩ := List.mem_map.1 hy
      obtain ⟨h1, h2⟩ := List.mem_filter.1 h
      obtain ⟨a, ha, b, hb, g1, g2, rfl⟩ := hx x h1
      simp only [decide_eq_true_eq] at h2
      refine List.mem_flatMap.2 ⟨a, List.mem_filter.2 ⟨ha, by simpa using h2⟩, ?_⟩
      exact List.mem_map.2 ⟨b, List.mem_filter.2 ⟨hb, by simpa using g2⟩, rfl⟩
    rw [List.length_map] at this
    refine Nat.le_trans this ?_
    have hb : ∀ M : List (Entry V), (M.flatMap fun a => (B.filter fun b => b.row = a.col).map fun b => b.col).length ≤ M.length * mb := by
      intro M
      induction M with
      | nil => simp
      | cons a M ih =>
        rw [List.flatMap_cons, List.length_append, List.length_cons, Nat.succ_mul, List.length_map]
        have := hmb a.col
        omega
    exact Nat.le_trans (hb _) (Nat.mul_le_mul_right _ (hma _))
  unfold bufSize
  split
  · exact rows_bound hrows fun r _ => hcols r
  · rw [Nat.mul_assoc]
    exact rows_bound hrows fun r _ => hprod r

end good

end GA.Sprs
