import Verif.Lemmas.SprsBins

/-! # Lemmas: compressed rows of sparse arrays -/

namespace GA.Sprs
open GA.Model GA.Spec.Sprs

variable {V : Type}

/-! ## contiguous pieces -/

theorem putPiece_nil {α : Type} (g : Nat → α) (lo : Nat) : putPiece g lo [] = g := by
  funext x
  simp [putPiece]

theorem putPiece_cons {α : Type} (g : Nat → α) (lo : Nat) (a : α) (l : List α) : putPiece (upd g lo a) (lo + 1) l = putPiece g lo (a :: l) := by
  funext x
  simp only [putPiece, upd]
  by_cases h1 : x = lo
  · subst h1
    rw [if_neg (by omega)]
    simp
  · by_cases h2 : lo ≤ x
    · rw [if_pos (by omega), if_pos h2, if_neg h1]
      obtain ⟨d, rfl⟩ : ∃ d, x = lo + (d + 1) := ⟨x - lo - 1, by omega⟩
      rw [show lo + (d + 1) - (lo + 1) = d by omega, show lo + (d + 1) - lo = d + 1 by omega]
      simp
    · rw [if_neg (by omega), if_neg h2, if_neg h1]

theorem putPiece_append {α : Type} (g : Nat → α) (lo : Nat) (l m : List α) :
    putPiece (putPiece g lo l) (lo + l.length) m = putPiece g lo (l ++ m) := by
  induction l generalizing g lo with
  | nil => simp [putPiece_nil]
  | cons a l ih =>
    rw [← putPiece_cons, List.cons_append, ← putPiece_cons, ← ih]
    simp [Nat.add_assoc, Nat.add_comm 1]

theorem putPiece_in {α : Type} {g : Nat → α} {lo x : Nat} {l : List α} (h : x < l.length) : putPiece g lo l (lo + x) = l[x] := by
  simp [putPiece, List.getElem?_eq_getElem h]

theorem putPiece_out {α : Type} {g : Nat → α} {lo y : Nat} {l : List α} (h : y < lo ∨ lo + l.length ≤ y) : putPiece g lo l y = g y := by
  simp only [putPiece]
  rcases h with h | h
  · rw [if_neg (by omega)]
  · have : l[y - lo]? = none := List.getElem?_eq_none (by omega)
    simp [this]

/-! ## sums of lengths -/

/-- the first positions of consecutive lists from position `i` -/
def pre {α : Type} : (i : Nat) → List (List α) → List Nat
  | _, [] => []
  | i, l :: ls => i :: pre (i + l.length) ls

theorem pre_length {α : Type} (i : Nat) (ls : List (List α)) : (pre i ls).length = ls.length := by
  induction ls generalizing i with
  | nil => rfl
  | cons l ls ih => simp [pre, ih]

theorem pre_get {α : Type} {i r : Nat} {ls : List (List α)} (h : r < ls.length) : (pre i ls)[r]? = some (i + (ls.take r).flatten.length) := by
  induction ls generalizing i r with
  | nil => simp at h
  | cons l ls ih =>
    cases r with
    | zero => simp [pre]
    | succ r =>
      simp only [pre, List.getElem?_cons_succ]
      rw [ih (by simpa using h)]
      simp [Nat.add_assoc]

theorem flatten_get {α : Type} {L : List (List α)} {r k : Nat} {l : List α} (h : L[r]? = some l) (hk : k < l.length) :
    L.flatten[(L.take r).flatten.length + k]? = l[k]? := by
  induction L generalizing r with
  | nil => simp at h
  | cons m L ih =>
    cases r with
    | zero =>
      simp only [List.getElem?_cons_zero, Option.some.injEq] at h
      subst h
      rw [List.flatten_cons, List.getElem?_append_left (by simpa using hk)]
      simp
    | succ r =>
      simp only [List.getElem?_cons_succ] at h
      rw [← ih h, List.flatten_cons, List.take_succ_cons, List.flatten_cons, List.length_append, Nat.add_assoc, List.getElem?_append_right (by omega)]
      congr 1
      omega

theorem chunk_get {α β : Type} {f : α → List β} {m b r : Nat} {L : List α} {a : α} (hm : ∀ a ∈ L, (f a).length = m) (h : L[b]? = some a) (hr : r < m) :
    (L.flatMap f)[b * m + r]? = (f a)[r]? := by
  induction L generalizing b with
  | nil => simp at h
  | cons c L ih =>
    have hc := hm c List.mem_cons_self
    cases b with
    | zero =>
      simp only [List.getElem?_cons_zero, Option.some.injEq] at h
      subst h
      rw [List.flatMap_cons, Nat.zero_mul, Nat.zero_add, List.getElem?_append_left (by omega)]
    | succ b =>
      simp only [List.getElem?_cons_succ] at h
      rw [List.flatMap_cons, List.getElem?_append_right (by rw [hc, Nat.succ_mul]; omega), hc,
        show (b + 1) * m + r - m = b * m + r by rw [Nat.succ_mul]; omega]
      exact ih (fun a ha => hm a (List.mem_cons_of_mem _ ha)) h

/-! ## the copy loops -/

theorem copyRow_eq (ncnt : Nat) (row : List (El V)) (i : Nat) (gj : Nat → Int) (gv : Nat → V) :
    copyRow ncnt row (i, ncnt + i, gj, gv) = (i + row.length, ncnt + (i + row.length), putPiece gj (ncnt + i) (row.map (·.col)),
      putPiece gv (ncnt + i) (row.map (·.val))) := by
  induction row generalizing i gj gv with
  | nil => simp [copyRow, putPiece_nil]
  | cons e row ih =>
    simp only [copyRow]
    rw [Nat.add_assoc ncnt i 1, ih (i + 1)]
    simp only [List.length_cons, List.map_cons]
    rw [← putPiece_cons, ← putPiece_cons]
    simp [Nat.add_assoc, Nat.add_comm 1]

theorem copyRows_eq (base ncnt : Nat) (rows : List (List (El V))) (r i : Nat) (gi : Nat → Nat) (gj : Nat → Int) (gv : Nat → V) :
    copyRows base ncnt rows r (gi, i, ncnt + i, gj, gv) = (putPiece gi (base + r) (pre i rows), i + rows.flatten.length,
      ncnt + (i + rows.flatten.length), putPiece gj (ncnt + i) (rows.flatten.map (·.col)), putPiece gv (ncnt + i) (rows.flatten.map (·.val))) := by
  induction rows generalizing r i gi gj gv with
  | nil => simp [copyRows, pre, putPiece_nil]
  | cons row rows ih =>
    simp only [copyRows, copyRow_eq]
    rw [ih]
    simp only [pre, List.flatten_cons, List.length_append, List.map_append]
    rw [← putPiece_cons, ← putPiece_append, ← putPiece_append]
    simp [Nat.add_assoc]

theorem copyBlock_eq {nrows i : Nat} {rows : List (List (El V))} {s : CState V} (hr : rows.length = nrows) (hne : rows.flatten ≠ [])
    (hs : s.jcnt = s.ncnt) :
    copyBlock nrows i rows.flatten.length rows s =
      { gi := putPiece s.gi (i * (nrows + 1)) (pre 0 rows ++ [rows.flatten.length]), gj := putPiece s.gj s.ncnt (rows.flatten.map (·.col)),
        gv := putPiece s.gv s.ncnt (rows.flatten.map (·.val)), ncnt := s.ncnt + rows.flatten.length, jcnt := s.ncnt + rows.flatten.length,
        off := s.off ++ [s.ncnt] } := by
  have h := copyRows_eq (i * (nrows + 1)) s.ncnt rows 0 0 s.gi s.gj s.gv
  simp only [Nat.add_zero, Nat.zero_add] at h
  have hpos : rows.flatten.length > 0 := List.length_pos_iff.2 hne
  have hgi : upd (putPiece s.gi (i * (nrows + 1)) (pre 0 rows)) (i * (nrows + 1) + nrows) rows.flatten.length
      = putPiece s.gi (i * (nrows + 1)) (pre 0 rows ++ [rows.flatten.length]) := by
    rw [← putPiece_append, pre_length, hr, ← putPiece_cons, putPiece_nil]
  simp only [copyBlock]
  rw [hs, h]
  simp only [hpos, if_true, hgi]

theorem copyBlocks_eq {nrows : Nat} {bs : List (List (List (El V)))} {i : Nat} {s : CState V} (hr : ∀ b ∈ bs, b.length = nrows)
    (hne : ∀ b ∈ bs, b.flatten ≠ []) (hs : s.jcnt = s.ncnt) :
    copyBlocks nrows bs i s =
      { gi := putPiece s.gi (i * (nrows + 1)) (bs.flatMap fun b => pre 0 b ++ [b.flatten.length]),
        gj := putPiece s.gj s.ncnt ((bs.map List.flatten).flatten.map (·.col)),
        gv := putPiece s.gv s.ncnt ((bs.map List.flatten).flatten.map (·.val)), ncnt := s.ncnt + (bs.map List.flatten).flatten.length,
        jcnt := s.ncnt + (bs.map List.flatten).flatten.length, off := s.off ++ pre s.ncnt (bs.map List.flatten) } := by
  induction bs generalizing i s with
  | nil =>
    obtain ⟨gi, gj, gv, ncnt, jcnt, off⟩ := s
    simp only at hs
    subst hs
    simp [copyBlocks, putPiece_nil, pre]
  | cons b bs ih =>
    have hb := hr b List.mem_cons_self
    simp only [copyBlocks]
    rw [copyBlock_eq hb (hne b List.mem_cons_self) hs, ih (fun b h => hr b (List.mem_cons_of_mem _ h)) (fun b h => hne b (List.mem_cons_of_mem _ h)) rfl]
    have e1 : (i + 1) * (nrows + 1) = i * (nrows + 1) + (pre 0 b ++ [b.flatten.length]).length := by
      simp [pre_length, hb, Nat.succ_mul]
    have e2 : s.ncnt + b.flatten.length = s.ncnt + (b.flatten.map (·.col)).length := by rw [List.length_map]
    have e3 : s.ncnt + b.flatten.length = s.ncnt + (b.flatten.map (·.val)).length := by rw [List.length_map]
    congr 1
    · rw [e1, putPiece_append, List.flatMap_cons]
    · rw [e2, putPiece_append, List.map_cons, List.flatten_cons, List.map_append]
    · rw [e3, putPiece_append, List.map_cons, List.flatten_cons, List.map_append]
    · simp [Nat.add_assoc]
    · simp [Nat.add_assoc]
    · simp [pre]

/-! ## what a process holds -/

/-- number of rows -/
def Loc.nrows (l : Loc V) : Nat := (l.ihi - l.ilo + 1).toNat

/-- the local arrays hold the blocks `B`: rows of columns and values -/
structure Holds (l : Loc V) (B : List (List (List (Int × V)))) : Prop where
  hrows : ∀ b ∈ B, b.length = l.nrows
  hne : ∀ b ∈ B, b.flatten ≠ []
  hlen : l.blkidx.length = B.length
  hnodup : l.blkidx.Nodup
  hoff : l.off = pre 0 (B.map List.flatten)
  hgi : ∀ x b, B[x]? = some b → ∀ r, r ≤ l.nrows → l.gi (x * (l.nrows + 1) + r) = (b.take r).flatten.length
  hmem : ∀ y (h : y < (B.map List.flatten).flatten.length), (l.gj y, l.gv y) = (B.map List.flatten).flatten[y]
  htot : l.tot = (B.map List.flatten).flatten.length
  hpos : 0 ≤ l.ihi - l.ilo + 1

/-- `binned` twice -/
def toPair (e : El V) : Int × V := (e.col, e.val)

theorem flatten_map_toPair (bs : List (List (List (El V)))) :
    ((bs.map fun b => b.map fun r => r.map toPair).map List.flatten).flatten = (bs.map List.flatten).flatten.map toPair := by
  induction bs with
  | nil => rfl
  | cons b bs ih =>
    simp only [List.map_cons, List.flatten_cons, List.map_append, ih]
    congr 1
    rw [List.map_flatten]

/-- the blocks of `layout` -/
def sortedBlocks (raw : Nat → Int) (jdim : Int) (n : Nat) (ilo : Int) (nrows : Nat) (es : List (El V)) : List (List (List (El V))) :=
  (colBlocks raw jdim n es).map fun b => blockRows raw ilo nrows b.2

theorem colBlocks_eq (raw : Nat → Int) (jdim : Int) (n : Nat) (es : List (El V)) :
    colBlocks raw jdim n es = ((List.range n).filter fun c => (es.filter fun e => owner jdim n e.col = c) ≠ []).map fun c =>
      (c, (es.filter fun e => owner jdim n e.col = c).reverse) := by
  unfold colBlocks
  congr 1
  · funext c
    rw [binned_eq]
  · apply List.filter_congr
    intro c _
    have := binTop_eq raw (fun e : El V => owner jdim n e.col) es c
    simp only [decide_eq_decide]
    exact this

theorem blockRows_eq (raw : Nat → Int) (ilo : Int) (nrows : Nat) (es : List (El V)) :
    blockRows raw ilo nrows es = (List.range nrows).map fun r => (es.filter fun e => (e.row - ilo).toNat = r).reverse := by
  unfold blockRows
  congr 1
  funext r
  rw [binned_eq]

/-- the rows together are the block -/
theorem rows_length {α : Type} {nrows : Nat} {key : α → Nat} {es : List α} (h : ∀ e ∈ es, key e < nrows) :
    ((List.range nrows).map fun r => (es.filter fun e => key e = r).reverse).flatten.Perm es := by
  induction es with
  | nil =>
    have : ((List.range nrows).map fun r => (([] : List α).filter fun e => key e = r).reverse) = (List.range nrows).map fun _ => [] := by simp
    rw [this]
    have : ((List.range nrows).map fun _ => ([] : List α)).flatten = [] := by
      rw [List.flatten_eq_nil_iff]
      simp
    rw [this]
  | cons e es ih =>
    have ih := ih fun e h' => h e (List.mem_cons_of_mem _ h')
    have he := h e List.mem_cons_self
    have hsplit : List.range nrows = List.range (key e) ++ key e :: (List.range' (key e + 1) (nrows - key e - 1)) := by
      rw [List.range_eq_range', List.range_eq_range']
      have : nrows = key e + (1 + (nrows - key e - 1)) := by omega
      conv_lhs => rw [this]
      rw [← List.range'_append_1, Nat.zero_add, ← List.range'_append_1]
      rfl
    rw [hsplit] at ih ⊢
    simp only [List.map_append, List.map_cons, List.flatten_append, List.flatten_cons] at ih ⊢
    have hl : ((List.range (key e)).map fun r => ((e :: es).filter fun e => key e = r).reverse)
        = (List.range (key e)).map fun r => (es.filter fun e => key e = r).reverse := by
      apply List.map_congr_left
      intro r hr
      have := List.mem_range.1 hr
      rw [List.filter_cons_of_neg (by simp; omega)]
    have hr : ((List.range' (key e + 1) (nrows - key e - 1)).map fun r => ((e :: es).filter fun e => key e = r).reverse)
        = (List.range' (key e + 1) (nrows - key e - 1)).map fun r => (es.filter fun e => key e = r).reverse := by
      apply List.map_congr_left
      intro r hr
      have := (List.mem_range'_1.1 hr).1
      rw [List.filter_cons_of_neg (by simp; omega)]
    rw [hl, hr, List.filter_cons_of_pos (by simp), List.reverse_cons, List.append_assoc]
    refine List.Perm.trans ?_ (ih.cons e)
    rw [List.singleton_append, ← List.append_assoc]
    refine List.perm_middle.trans ?_
    rw [List.append_assoc]

theorem layout_holds {raw : Raw V} {jdim : Int} {n : Nat} {ilo ihi : Int} {es : List (El V)} (hin : ∀ e ∈ es, ilo ≤ e.row ∧ e.row ≤ ihi)
    (hpos : 0 ≤ ihi - ilo + 1) (hn : 0 < n) (hcol : ∀ e ∈ es, owner jdim n e.col < n) :
    ∃ l, layout raw jdim n ilo ihi es = some l ∧ l.ilo = ilo ∧ l.ihi = ihi ∧
      l.blkidx = ((List.range n).filter fun c => (es.filter fun e => owner jdim n e.col = c) ≠ []) ∧
      Holds l (l.blkidx.map fun c => (List.range l.nrows).map fun r =>
        (((es.filter fun e => owner jdim n e.col = c).reverse.filter fun e => (e.row - ilo).toNat = r).reverse).map toPair) := by
  have hall : (es.all fun e => decide (0 ≤ e.row - ilo ∧ e.row - ilo < ihi - ilo + 1)) = true := by
    rw [List.all_eq_true]
    intro e he
    have := hin e he
    simp only [decide_eq_true_eq]
    omega
  generalize hcs : ((List.range n).filter fun c => (es.filter fun e => owner jdim n e.col = c) ≠ []) = cs
  have hcb : colBlocks raw.list jdim n es = cs.map fun c => (c, (es.filter fun e => owner jdim n e.col = c).reverse) := by
    rw [colBlocks_eq, ← hcs]
  have hrws : ((colBlocks raw.list jdim n es).map fun b => blockRows raw.list ilo (ihi - ilo + 1).toNat b.2) = cs.map fun c =>
      (List.range (ihi - ilo + 1).toNat).map fun r =>
        ((es.filter fun e => owner jdim n e.col = c).reverse.filter fun e => (e.row - ilo).toNat = r).reverse := by
    rw [hcb, List.map_map]
    apply List.map_congr_left
    intro c _
    simp only [Function.comp]
    rw [blockRows_eq]
  generalize hbs : (cs.map fun c => (List.range (ihi - ilo + 1).toNat).map fun r =>
        ((es.filter fun e => owner jdim n e.col = c).reverse.filter fun e => (e.row - ilo).toNat = r).reverse) = bs at hrws
  have hperm : ∀ c ∈ cs, ((List.range (ihi - ilo + 1).toNat).map fun r =>
        ((es.filter fun e => owner jdim n e.col = c).reverse.filter fun e => (e.row - ilo).toNat = r).reverse).flatten.Perm
          (es.filter fun e => owner jdim n e.col = c).reverse := by
    intro c _
    apply rows_length
    intro e he
    have := hin e (List.mem_filter.1 (List.mem_reverse.1 he)).1
    omega
  have hr1 : ∀ b ∈ bs, b.length = (ihi - ilo + 1).toNat := by
    rw [← hbs]
    intro b hb
    obtain ⟨c, -, rfl⟩ := List.mem_map.1 hb
    simp
  have hne1 : ∀ b ∈ bs, b.flatten ≠ [] := by
    rw [← hbs]
    intro b hb
    obtain ⟨c, hc, rfl⟩ := List.mem_map.1 hb
    intro h0
    have := hperm c hc
    rw [h0] at this
    have h1 := List.nil_perm.1 this
    rw [← hcs] at hc
    have h2 := (List.mem_filter.1 hc).2
    simp only [ne_eq, decide_not, Bool.not_eq_true', decide_eq_false_iff_not] at h2
    exact h2 (List.reverse_eq_nil_iff.1 h1)
  have hcopy := copyBlocks_eq (i := 0) (s := ⟨raw.gi, raw.gj, raw.gv, 0, 0, []⟩) hr1 hne1 rfl
  simp only [Nat.zero_mul, Nat.zero_add, List.nil_append] at hcopy
  have hlay : layout raw jdim n ilo ihi es = some {
      ilo := ilo, ihi := ihi, blkidx := cs, off := pre 0 (bs.map List.flatten),
      blksize := cs.map fun c => (es.filter fun e => owner jdim n e.col = c).reverse.length,
      gi := putPiece raw.gi 0 (bs.flatMap fun b => pre 0 b ++ [b.flatten.length]), gj := putPiece raw.gj 0 ((bs.map List.flatten).flatten.map (·.col)),
      gv := putPiece raw.gv 0 ((bs.map List.flatten).flatten.map (·.val)), tot := es.length } := by
    simp only [layout]
    rw [if_pos hall, hrws, hcopy, hcb]
    simp [List.map_map, Function.comp_def]
  refine ⟨_, hlay, rfl, rfl, rfl, ?_⟩
  have hB : (cs.map fun c => (List.range (ihi - ilo + 1).toNat).map fun r =>
        (((es.filter fun e => owner jdim n e.col = c).reverse.filter fun e => (e.row - ilo).toNat = r).reverse).map toPair)
      = bs.map fun b => b.map fun r => r.map toPair := by
    rw [← hbs, List.map_map]
    apply List.map_congr_left
    intro c _
    simp [Function.comp_def]
  show Holds _ (cs.map fun c => (List.range (ihi - ilo + 1).toNat).map fun r =>
        (((es.filter fun e => owner jdim n e.col = c).reverse.filter fun e => (e.row - ilo).toNat = r).reverse).map toPair)
  rw [hB]
  refine ⟨?_, ?_, ?_, ?_, ?_, ?_, ?_, ?_, hpos⟩
  · intro b hb
    obtain ⟨b', hb', rfl⟩ := List.mem_map.1 hb
    rw [List.length_map]
    exact hr1 b' hb'
  · intro b hb
    obtain ⟨b', hb', rfl⟩ := List.mem_map.1 hb
    rw [← List.map_flatten]
    simpa using hne1 b' hb'
  · rw [← hbs]
    simp
  · show cs.Nodup
    rw [← hcs]
    exact List.nodup_range.filter _
  · show pre 0 (bs.map List.flatten) = _
    have : ∀ (i : Nat) (bs : List (List (List (El V)))),
        pre i (bs.map List.flatten) = pre i ((bs.map fun b => b.map fun r => r.map toPair).map List.flatten) := by
      intro i bs
      induction bs generalizing i with
      | nil => rfl
      | cons b bs ih =>
        simp only [List.map_cons, pre]
        rw [← List.map_flatten, List.length_map, ih]
    exact this 0 bs
  · intro x b hb r hr
    rw [List.getElem?_map] at hb
    obtain ⟨b', hb', rfl⟩ := Option.map_eq_some_iff.1 hb
    have hbl := hr1 b' (List.mem_of_getElem? hb')
    have hr : r ≤ (ihi - ilo + 1).toNat := hr
    have hc := chunk_get (f := fun b : List (List (El V)) => pre 0 b ++ [b.flatten.length]) (m := (ihi - ilo + 1).toNat + 1) (r := r) (L := bs)
      (fun a ha => by simp [pre_length, hr1 a ha]) hb' (by omega)
    show putPiece raw.gi 0 _ (x * ((ihi - ilo + 1).toNat + 1) + r) = _
    have hv : (pre 0 b' ++ [b'.flatten.length])[r]? = some (b'.take r).flatten.length := by
      by_cases hlt : r < b'.length
      · rw [List.getElem?_append_left (by rw [pre_length]; exact hlt), pre_get hlt, Nat.zero_add]
      · have : r = b'.length := by omega
        subst this
        rw [List.getElem?_append_right (Nat.le_of_eq (pre_length 0 b')), pre_length, Nat.sub_self, List.take_length]
        rfl
    rw [hv] at hc
    obtain ⟨h1, h2⟩ := List.getElem?_eq_some_iff.1 hc
    have := putPiece_in (g := raw.gi) (lo := 0) h1
    rw [Nat.zero_add] at this
    rw [this, h2, ← List.map_take, ← List.map_flatten, List.length_map]
  · intro y hy
    have hF := flatten_map_toPair bs
    have hy' : y < (bs.map List.flatten).flatten.length := by
      rw [hF, List.length_map] at hy
      exact hy
    have e1 := putPiece_in (g := raw.gj) (lo := 0) (x := y) (l := (bs.map List.flatten).flatten.map (·.col)) (by rw [List.length_map]; exact hy')
    have e2 := putPiece_in (g := raw.gv) (lo := 0) (x := y) (l := (bs.map List.flatten).flatten.map (·.val)) (by rw [List.length_map]; exact hy')
    rw [Nat.zero_add] at e1 e2
    show (putPiece raw.gj 0 _ y, putPiece raw.gv 0 _ y) = _
    rw [e1, e2]
    simp only [hF, List.getElem_map, toPair]
  · show es.length = _
    rw [flatten_map_toPair, List.length_map]
    have h1 : (bs.map List.flatten).flatten.Perm ((cs.map fun c => (es.filter fun e => owner jdim n e.col = c).reverse).flatten) := by
      rw [← hbs, List.map_map]
      have : ∀ cs' : List Nat, (∀ c ∈ cs', c ∈ cs) → ((cs'.map (List.flatten ∘ fun c => (List.range (ihi - ilo + 1).toNat).map fun r =>
        ((es.filter fun e => owner jdim n e.col = c).reverse.filter fun e => (e.row - ilo).toNat = r).reverse)).flatten).Perm
          ((cs'.map fun c => (es.filter fun e => owner jdim n e.col = c).reverse).flatten) := by
        intro cs' hcs'
        induction cs' with
        | nil => exact List.Perm.refl _
        | cons c cs' ih =>
          simp only [List.map_cons, List.flatten_cons, Function.comp]
          exact List.Perm.append (hperm c (hcs' c List.mem_cons_self)) (ih fun c h => hcs' c (List.mem_cons_of_mem _ h))
      exact this cs fun _ h => h
    rw [h1.length_eq]
    have h2 := rows_length (key := fun e : El V => owner jdim n e.col) hcol
    have h3 : ((cs.map fun c => (es.filter fun e => owner jdim n e.col = c).reverse).flatten)
        = ((List.range n).map fun c => (es.filter fun e => owner jdim n e.col = c).reverse).flatten := by
      rw [← hcs]
      have : ∀ R : List Nat, (((R.filter fun c => (es.filter fun e => owner jdim n e.col = c) ≠ []).map fun c =>
            (es.filter fun e => owner jdim n e.col = c).reverse).flatten)
          = (R.map fun c => (es.filter fun e => owner jdim n e.col = c).reverse).flatten := by
        intro R
        induction R with
        | nil => rfl
        | cons c R ih =>
          by_cases hc : (es.filter fun e => decide (owner jdim n e.col = c)) = []
          · rw [List.filter_cons_of_neg (by simp [hc]), ih, List.map_cons, List.flatten_cons, hc]
            simp
          · rw [List.filter_cons_of_pos (by simpa using hc), List.map_cons, List.map_cons, List.flatten_cons, List.flatten_cons, ih]
      exact this _
    rw [h3, h2.length_eq]

end GA.Sprs
