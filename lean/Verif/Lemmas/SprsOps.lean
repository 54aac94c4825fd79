import Verif.Lemmas.SprsLayout
import Mathlib.Algebra.BigOperators.Group.List.Basic

/-! # Lemmas: operations on assembled sparse arrays -/

namespace GA.Sprs
open GA.Model GA.Spec.Sprs

variable {V : Type}

theorem find_none {l : List Nat} {c : Nat} : findBlock l c = none ↔ c ∉ l := by
  rw [findBlock, List.findIdx?_eq_none_iff]
  constructor
  · intro h hm
    simpa using h c hm
  · intro h x hx
    simp only [beq_eq_false_iff_ne]
    rintro rfl
    exact h hx

theorem find_some {l : List Nat} {c x : Nat} (hnd : l.Nodup) : findBlock l c = some x ↔ l[x]? = some c := by
  rw [findBlock, List.findIdx?_eq_some_iff_getElem]
  constructor
  · rintro ⟨h, h1, -⟩
    rw [List.getElem?_eq_getElem h]
    simpa using h1
  · intro h
    obtain ⟨hx, rfl⟩ := List.getElem?_eq_some_iff.1 h
    refine ⟨hx, by simp, ?_⟩
    intro j hj
    simp only [beq_iff_eq]
    intro he
    have := (List.Nodup.getElem_inj_iff hnd).1 he
    omega

/-- row `r` of column block `c` -/
def rowIn (blkidx : List Nat) (B : List (List (List (Int × V)))) (c r : Nat) : List (Int × V) :=
  match findBlock blkidx c with
  | none => []
  | some x => ((B[x]?).bind (·[r]?)).getD []

section holds
variable {l : Loc V} {B : List (List (List (Int × V)))}

theorem Holds.off_get (h : Holds l B) {x : Nat} {b : List (List (Int × V))} (hb : B[x]? = some b) :
    l.off.getD x 0 = ((B.map List.flatten).take x).flatten.length := by
  have hx : x < (B.map List.flatten).length := by
    rw [List.length_map]
    exact (List.getElem?_eq_some_iff.1 hb).1
  rw [h.hoff, List.getD_eq_getElem?_getD, pre_get hx]
  simp

theorem Holds.block (h : Holds l B) {c x : Nat} (hf : findBlock l.blkidx c = some x) : ∃ b, B[x]? = some b := by
  have := (find_some h.hnodup).1 hf
  have hx := (List.getElem?_eq_some_iff.1 this).1
  rw [h.hlen] at hx
  exact ⟨_, List.getElem?_eq_getElem hx⟩

theorem Holds.access (h : Holds l B) {c x : Nat} (hf : findBlock l.blkidx c = some x) :
    accessColBlock l c = some ⟨fun k => l.gi (x * (l.nrows + 1) + k), fun k => l.gj (l.off.getD x 0 + k), fun k => l.gv (l.off.getD x 0 + k)⟩ := by
  have : (l.ihi - l.ilo + 2).toNat = l.nrows + 1 := by
    have := h.hpos
    simp only [Loc.nrows]
    omega
  simp only [accessColBlock, hf, Option.map_some, this]
  simp only [Nat.mul_comm]

/-- the cells of row `r` -/
theorem Holds.cell (h : Holds l B) {x r k : Nat} {b : List (List (Int × V))} {row : List (Int × V)} (hb : B[x]? = some b) (hr : b[r]? = some row)
    (hk : k < row.length) : (l.gj (l.off.getD x 0 + ((b.take r).flatten.length + k)), l.gv (l.off.getD x 0 + ((b.take r).flatten.length + k))) = row[k] := by
  have h1 := flatten_get hr hk
  have hk1 : (b.take r).flatten.length + k < b.flatten.length := by
    rw [List.getElem?_eq_getElem hk] at h1
    exact (List.getElem?_eq_some_iff.1 h1).1
  have h2 := flatten_get (L := B.map List.flatten) (r := x) (l := b.flatten) (by rw [List.getElem?_map, hb]; rfl) hk1
  rw [← h.off_get hb, h1, List.getElem?_eq_getElem hk] at h2
  obtain ⟨h3, h4⟩ := List.getElem?_eq_some_iff.1 h2
  rw [h.hmem _ h3, h4]

theorem Holds.row_len (h : Holds l B) {x r : Nat} {b : List (List (Int × V))} {row : List (Int × V)} (hb : B[x]? = some b) (hr : b[r]? = some row) :
    l.gi (x * (l.nrows + 1) + (r + 1)) - l.gi (x * (l.nrows + 1) + r) = row.length ∧
      l.gi (x * (l.nrows + 1) + r) = (b.take r).flatten.length := by
  have hbl := h.hrows b (List.mem_of_getElem? hb)
  obtain ⟨hr1, hr2⟩ := List.getElem?_eq_some_iff.1 hr
  have e1 := h.hgi x b hb r (by omega)
  have e2 := h.hgi x b hb (r + 1) (by omega)
  rw [e1, e2]
  refine ⟨?_, rfl⟩
  rw [List.take_succ_eq_append_getElem hr1, hr2, List.flatten_append, List.length_append]
  simp

theorem Holds.csr (h : Holds l B) {c x r : Nat} {w : View V} {b : List (List (Int × V))} {row : List (Int × V)}
    (hf : findBlock l.blkidx c = some x) (hw : accessColBlock l c = some w) (hb : B[x]? = some b) (hr : b[r]? = some row) :
    csrRow w.idx w.jdx w.val r = row := by
  rw [h.access hf] at hw
  cases hw
  obtain ⟨h1, h2⟩ := h.row_len hb hr
  simp only [csrRow]
  rw [h1, h2]
  apply List.ext_getElem
  · simp
  · intro k hk hk'
    simp only [List.getElem_map, List.getElem_range]
    exact h.cell hb hr hk'

end holds

theorem csr_rowIn {l : Loc V} {B : List (List (List (Int × V)))} (h : Holds l B) {c r : Nat} {w : View V} (hw : accessColBlock l c = some w)
    (hr : r < l.nrows) : csrRow w.idx w.jdx w.val r = rowIn l.blkidx B c r := by
  cases hf : findBlock l.blkidx c with
  | none => simp [accessColBlock, hf] at hw
  | some x =>
    obtain ⟨b, hb⟩ := h.block hf
    have hbl := h.hrows b (List.mem_of_getElem? hb)
    have hrow : b[r]? = some b[r] := List.getElem?_eq_getElem (by omega)
    rw [h.csr hf hw hb hrow]
    simp [rowIn, hf, hb, hrow]

/-! ## changing the values -/

/-- new values of a block -/
def newBlock (f : Nat → Int → V → V) (b : List (List (Int × V))) : List (List (Int × V)) :=
  b.mapIdx fun r row => row.map fun jv => (jv.1, f r jv.1 jv.2)

theorem newBlock_take_length (f : Nat → Int → V → V) (b : List (List (Int × V))) (m : Nat) :
    ((newBlock f b).take m).flatten.length = (b.take m).flatten.length := by
  have : ∀ m, ((newBlock f b).take m).map List.length = (b.take m).map List.length := by
    intro m
    apply List.ext_getElem?
    intro k
    simp only [List.getElem?_map, List.getElem?_take, newBlock, List.getElem?_mapIdx]
    split
    · cases b[k]? <;> simp
    · rfl
  simp only [List.length_flatten, this]

theorem newBlock_length (f : Nat → Int → V → V) (b : List (List (Int × V))) : (newBlock f b).length = b.length := by simp [newBlock]

theorem newBlock_flatten_length (f : Nat → Int → V → V) (b : List (List (Int × V))) : (newBlock f b).flatten.length = b.flatten.length := by
  have := newBlock_take_length f b b.length
  rwa [List.take_length, List.take_of_length_le (Nat.le_of_eq (newBlock_length f b))] at this

theorem newBlock_fst (f : Nat → Int → V → V) (b : List (List (Int × V))) : (newBlock f b).flatten.map (·.1) = b.flatten.map (·.1) := by
  rw [List.map_flatten, List.map_flatten]
  congr 1
  apply List.ext_getElem?
  intro k
  simp only [List.getElem?_map, newBlock, List.getElem?_mapIdx]
  cases b[k]? <;> simp [Function.comp_def]

theorem fold_row (F : Nat → V → V) (lo : Nat) (len : Nat) (g : Nat → V) :
    (List.range len).foldl (fun g k => upd g (lo + k) (F k (g (lo + k)))) g = putPiece g lo ((List.range len).map fun k => F k (g (lo + k))) := by
  induction len with
  | zero => simp [putPiece_nil]
  | succ n ih =>
    rw [List.range_succ, List.foldl_append, ih, List.map_append, ← putPiece_append]
    simp only [List.foldl_cons, List.foldl_nil, List.map_cons, List.map_nil, List.length_map, List.length_range]
    rw [← putPiece_cons, putPiece_nil, putPiece_out (Or.inr (by simp))]

theorem fold_block {l : Loc V} {B : List (List (List (Int × V)))} (h : Holds l B) {x : Nat} {b : List (List (Int × V))} (hb : B[x]? = some b)
    (f : Nat → Int → V → V) (m : Nat) (hm : m ≤ l.nrows) :
    ((List.range m).flatMap fun r => (List.range (l.gi (x * (l.nrows + 1) + (r + 1)) - l.gi (x * (l.nrows + 1) + r))).map fun k =>
        (r, l.gi (x * (l.nrows + 1) + r) + k)).foldl
      (fun gv c => upd gv (l.off.getD x 0 + c.2) (f c.1 (l.gj (l.off.getD x 0 + c.2)) (gv (l.off.getD x 0 + c.2)))) l.gv
    = putPiece l.gv (l.off.getD x 0) (((newBlock f b).take m).flatten.map (·.2)) := by
  induction m with
  | zero => simp [putPiece_nil]
  | succ m ih =>
    have hbl := h.hrows b (List.mem_of_getElem? hb)
    have hrow : b[m]? = some b[m] := List.getElem?_eq_getElem (by omega)
    obtain ⟨h1, h2⟩ := h.row_len hb hrow
    rw [List.range_succ, List.flatMap_append, List.foldl_append, ih (by omega)]
    simp only [List.flatMap_cons, List.flatMap_nil, List.append_nil, List.foldl_map]
    rw [h1, h2]
    have hlen : (((newBlock f b).take m).flatten.map (·.2)).length = (b.take m).flatten.length := by
      rw [List.length_map, newBlock_take_length]
    have hf := fold_row (fun k v => f m (l.gj (l.off.getD x 0 + ((b.take m).flatten.length + k))) v) (l.off.getD x 0 + (b.take m).flatten.length)
      b[m].length (putPiece l.gv (l.off.getD x 0) (((newBlock f b).take m).flatten.map (·.2)))
    simp only [Nat.add_assoc] at hf
    rw [hf]
    have hv : ((List.range b[m].length).map fun k => f m (l.gj (l.off.getD x 0 + ((b.take m).flatten.length + k)))
          (putPiece l.gv (l.off.getD x 0) (((newBlock f b).take m).flatten.map (·.2)) (l.off.getD x 0 + ((b.take m).flatten.length + k))))
        = (b[m].map fun jv => (jv.1, f m jv.1 jv.2)).map (·.2) := by
      apply List.ext_getElem
      · simp
      · intro k hk hk'
        have hk : k < b[m].length := by simpa using hk
        simp only [List.getElem_map, List.getElem_range]
        rw [putPiece_out (Or.inr (by rw [hlen]; omega))]
        have := h.cell hb hrow hk
        rw [Prod.ext_iff] at this
        dsimp only at this
        rw [this.1, this.2]
    rw [hv]
    have hpos : l.off.getD x 0 + (b.take m).flatten.length = l.off.getD x 0 + (((newBlock f b).take m).flatten.map (·.2)).length := by rw [hlen]
    rw [hpos, putPiece_append]
    congr 1
    rw [← List.map_append]
    congr 1
    have hnl : m < (newBlock f b).length := by
      rw [newBlock_length]
      omega
    rw [List.take_succ_eq_append_getElem hnl, List.flatten_append]
    simp [newBlock]

theorem pre_append {α : Type} (i : Nat) (L M : List (List α)) : pre i (L ++ M) = pre i L ++ pre (i + L.flatten.length) M := by
  induction L generalizing i with
  | nil => simp [pre]
  | cons l L ih => simp [pre, ih, Nat.add_assoc]

theorem mapBlock_eq {l : Loc V} {B : List (List (List (Int × V)))} (h : Holds l B) {c x : Nat} {b : List (List (Int × V))}
    (hf : findBlock l.blkidx c = some x) (hb : B[x]? = some b) (f : Nat → Int → V → V) :
    mapBlock f c l = { l with gv := putPiece l.gv (l.off.getD x 0) ((newBlock f b).flatten.map (·.2)) } := by
  simp only [mapBlock, hf, h.access hf, cells]
  have hbl := h.hrows b (List.mem_of_getElem? hb)
  have := fold_block h hb f l.nrows (Nat.le_refl _)
  rw [List.take_of_length_le (by rw [newBlock_length]; omega)] at this
  congr 1

theorem mapBlock_holds {l : Loc V} {B : List (List (List (Int × V)))} (h : Holds l B) {c x : Nat} {b : List (List (Int × V))}
    (hf : findBlock l.blkidx c = some x) (hb : B[x]? = some b) (f : Nat → Int → V → V) :
    Holds (mapBlock f c l) (B.set x (newBlock f b)) := by
  rw [mapBlock_eq h hf hb f]
  obtain ⟨hx, hbx⟩ := List.getElem?_eq_some_iff.1 hb
  have hmem' : ∀ d ∈ B.set x (newBlock f b), d ∈ B ∨ d = newBlock f b := fun d hd => by
    rcases List.mem_or_eq_of_mem_set hd with hd | hd
    · exact Or.inl hd
    · exact Or.inr hd
  have hbm := List.mem_of_getElem? hb
  have hset : (B.set x (newBlock f b)).map List.flatten = (B.map List.flatten).take x ++ (newBlock f b).flatten :: (B.map List.flatten).drop (x + 1) := by
    rw [List.set_eq_take_append_cons_drop, if_pos hx]
    simp [List.map_take, List.map_drop]
  have hold : B.map List.flatten = (B.map List.flatten).take x ++ b.flatten :: (B.map List.flatten).drop (x + 1) := by
    conv_lhs => rw [← List.take_append_drop x (B.map List.flatten)]
    congr 1
    rw [List.drop_eq_getElem_cons (by simpa using hx)]
    simp [hbx]
  have hoff := h.off_get hb
  generalize hA : (B.map List.flatten).take x = A at hset hold hoff
  generalize hC : (B.map List.flatten).drop (x + 1) = C at hset hold
  have hlen : (A ++ (newBlock f b).flatten :: C).flatten.length = (A ++ b.flatten :: C).flatten.length := by
    rw [List.flatten_append, List.flatten_append, List.flatten_cons, List.flatten_cons, List.length_append, List.length_append, List.length_append,
      List.length_append, newBlock_flatten_length]
  refine ⟨?_, ?_, ?_, h.hnodup, ?_, ?_, ?_, ?_, h.hpos⟩
  · intro d hd
    rcases hmem' d hd with hd | rfl
    · exact h.hrows d hd
    · rw [newBlock_length]
      exact h.hrows b hbm
  · intro d hd
    rcases hmem' d hd with hd | rfl
    · exact h.hne d hd
    · have := h.hne b hbm
      rw [← List.length_pos_iff] at this ⊢
      rwa [newBlock_flatten_length]
  · rw [List.length_set]
    exact h.hlen
  · show l.off = _
    rw [h.hoff, hset, hold, pre_append, pre_append]
    simp only [pre, newBlock_flatten_length]
  · intro y d hd r hr
    rw [List.getElem?_set] at hd
    by_cases hxy : x = y
    · subst hxy
      rw [if_pos rfl, if_pos hx] at hd
      cases hd
      rw [newBlock_take_length]
      exact h.hgi x b hb r hr
    · rw [if_neg hxy] at hd
      exact h.hgi y d hd r hr
  · intro y hy
    show (l.gj y, putPiece l.gv (l.off.getD x 0) ((newBlock f b).flatten.map (·.2)) y) = _
    have hy2 : y < (B.map List.flatten).flatten.length := by
      rw [hset, hlen, ← hold] at hy
      exact hy
    have hold' := h.hmem y hy2
    simp only [hset]
    simp only [hold] at hold'
    rw [hset] at hy
    rw [hoff]
    by_cases h1 : y < A.flatten.length
    · rw [putPiece_out (Or.inl h1)]
      have e1 : (A ++ (newBlock f b).flatten :: C).flatten[y]'hy = A.flatten[y] := by
        simp only [List.flatten_append]
        rw [List.getElem_append_left h1]
      have e2 : (A ++ b.flatten :: C).flatten[y]'(by rw [← hlen]; exact hy) = A.flatten[y] := by
        simp only [List.flatten_append]
        rw [List.getElem_append_left h1]
      rw [e1, hold', e2]
    · obtain ⟨d, rfl⟩ : ∃ d, y = A.flatten.length + d := ⟨y - A.flatten.length, by omega⟩
      by_cases h2 : d < b.flatten.length
      · have h2' : d < (newBlock f b).flatten.length := by
          rw [newBlock_flatten_length]
          exact h2
        rw [putPiece_in (by rw [List.length_map]; exact h2')]
        have e1 : (A ++ (newBlock f b).flatten :: C).flatten[A.flatten.length + d]'hy = (newBlock f b).flatten[d] := by
          simp only [List.flatten_append, List.flatten_cons]
          rw [List.getElem_append_right (by omega), List.getElem_append_left (by omega)]
          simp
        have e2 : (A ++ b.flatten :: C).flatten[A.flatten.length + d]'(by rw [← hlen]; exact hy) = b.flatten[d] := by
          simp only [List.flatten_append, List.flatten_cons]
          rw [List.getElem_append_right (by omega), List.getElem_append_left (by omega)]
          simp
        rw [e2] at hold'
        rw [e1]
        have e3 : ((newBlock f b).flatten[d]).1 = (b.flatten[d]).1 := by
          have := newBlock_fst f b
          have h5 := congrArg (fun L => L[d]?) this
          simp only [List.getElem?_map, List.getElem?_eq_getElem h2, List.getElem?_eq_getElem h2', Option.map_some, Option.some.injEq] at h5
          exact h5
        rw [Prod.ext_iff]
        refine ⟨?_, ?_⟩
        · rw [e3, ← hold']
        · simp only [List.getElem_map]
      · rw [putPiece_out (Or.inr (by rw [List.length_map, newBlock_flatten_length]; omega))]
        have hg : (A ++ (newBlock f b).flatten :: C).flatten[A.flatten.length + d]? = (A ++ b.flatten :: C).flatten[A.flatten.length + d]? := by
          simp only [List.flatten_append, List.flatten_cons]
          rw [List.getElem?_append_right (l₁ := A.flatten) (by omega), List.getElem?_append_right (l₁ := A.flatten) (by omega), Nat.add_sub_cancel_left,
            List.getElem?_append_right (l₁ := (newBlock f b).flatten) (by rw [newBlock_flatten_length]; omega),
            List.getElem?_append_right (l₁ := b.flatten) (by omega), newBlock_flatten_length]
        rw [hold']
        rw [List.getElem?_eq_getElem hy, List.getElem?_eq_getElem (by rw [← hlen]; exact hy)] at hg
        simpa using hg.symm
  · show l.tot = _
    rw [h.htot, hset, hlen, ← hold]

/-- change of all the blocks in `cs` -/
def mapAll (f : Nat → Nat → Int → V → V) (cs : List Nat) (l : Loc V) : Loc V := cs.foldl (fun l c => mapBlock (f c) c l) l

theorem mapBlock_same (f : Nat → Int → V → V) (c : Nat) (l : Loc V) :
    (mapBlock f c l).blkidx = l.blkidx ∧ (mapBlock f c l).ilo = l.ilo ∧ (mapBlock f c l).ihi = l.ihi ∧ (mapBlock f c l).off = l.off := by
  unfold mapBlock
  split <;> exact ⟨rfl, rfl, rfl, rfl⟩

theorem mapAll_same (f : Nat → Nat → Int → V → V) (cs : List Nat) (l : Loc V) :
    (mapAll f cs l).blkidx = l.blkidx ∧ (mapAll f cs l).ilo = l.ilo ∧ (mapAll f cs l).ihi = l.ihi := by
  induction cs generalizing l with
  | nil => exact ⟨rfl, rfl, rfl⟩
  | cons c cs ih =>
    obtain ⟨h1, h2, h3⟩ := ih (mapBlock (f c) c l)
    obtain ⟨g1, g2, g3, -⟩ := mapBlock_same (f c) c l
    exact ⟨h1.trans g1, h2.trans g2, h3.trans g3⟩

theorem mapAll_holds {cs : List Nat} (hcs : cs.Nodup) (f : Nat → Nat → Int → V → V) {l : Loc V} {B : List (List (List (Int × V)))} (h : Holds l B) :
    ∃ B', Holds (mapAll f cs l) B' ∧ ∀ c r, rowIn l.blkidx B' c r =
      if c ∈ cs then (rowIn l.blkidx B c r).map fun jv => (jv.1, f c r jv.1 jv.2) else rowIn l.blkidx B c r := by
  induction cs generalizing l B with
  | nil => exact ⟨B, h, fun c r => by simp⟩
  | cons c cs ih =>
    obtain ⟨hc, hcs⟩ := List.nodup_cons.1 hcs
    cases hf : findBlock l.blkidx c with
    | none =>
      have hl : mapBlock (f c) c l = l := by simp [mapBlock, hf]
      obtain ⟨B', h1, h2⟩ := ih hcs h
      refine ⟨B', by simpa [mapAll, hl] using h1, fun d r => ?_⟩
      rw [h2]
      by_cases hd : d = c
      · subst hd
        simp [hc, rowIn, hf]
      · simp [hd]
    | some x =>
      obtain ⟨b, hb⟩ := h.block hf
      have hm := mapBlock_holds h hf hb (f c)
      obtain ⟨g1, -⟩ := mapBlock_same (f c) c l
      obtain ⟨B', h1, h2⟩ := ih hcs hm
      refine ⟨B', by simpa [mapAll] using h1, fun d r => ?_⟩
      rw [g1] at h2
      rw [h2]
      have hx := (List.getElem?_eq_some_iff.1 hb).1
      by_cases hd : d = c
      · subst hd
        simp only [hc, if_false, List.mem_cons, true_or, if_true]
        simp only [rowIn, hf, hb, List.getElem?_set_self hx, Option.bind_some]
        simp only [newBlock, List.getElem?_mapIdx]
        cases b[r]? <;> simp
      · have hrow : rowIn l.blkidx (B.set x (newBlock (f c) b)) d r = rowIn l.blkidx B d r := by
          simp only [rowIn]
          cases hfd : findBlock l.blkidx d with
          | none => rfl
          | some y =>
            have : x ≠ y := by
              rintro rfl
              have e1 := (find_some h.hnodup).1 hf
              have e2 := (find_some h.hnodup).1 hfd
              rw [e1] at e2
              exact hd (Option.some.inj e2).symm
            simp [List.getElem?_set_ne this]
        rw [hrow]
        simp [hd]

/-- `scale` -/
theorem scale_holds [Mul V] (a : V) {l : Loc V} {B : List (List (List (Int × V)))} (h : Holds l B) :
    ∃ B', Holds (scale a l) B' ∧ ∀ c r, rowIn l.blkidx B' c r = (rowIn l.blkidx B c r).map fun jv => (jv.1, a * jv.2) := by
  refine ⟨B.map fun b => b.map fun row => row.map fun jv => (jv.1, a * jv.2), ?_, ?_⟩
  · have hflat : ((B.map fun b => b.map fun row => row.map fun jv => (jv.1, a * jv.2)).map List.flatten)
        = (B.map List.flatten).map fun b => b.map fun jv => (jv.1, a * jv.2) := by
      simp only [List.map_map]
      apply List.map_congr_left
      intro b _
      simp only [Function.comp]
      rw [List.map_flatten]
    have hflat2 : ((B.map fun b => b.map fun row => row.map fun jv => (jv.1, a * jv.2)).map List.flatten).flatten
        = (B.map List.flatten).flatten.map fun jv => (jv.1, a * jv.2) := by
      rw [hflat, List.map_flatten]
    have hgv := fold_row (fun _ v => a * v) 0 l.tot l.gv
    simp only [Nat.zero_add] at hgv
    refine ⟨?_, ?_, ?_, h.hnodup, ?_, ?_, ?_, ?_, h.hpos⟩
    · intro b hb
      obtain ⟨b', hb', rfl⟩ := List.mem_map.1 hb
      rw [List.length_map]
      exact h.hrows b' hb'
    · intro b hb
      obtain ⟨b', hb', rfl⟩ := List.mem_map.1 hb
      rw [← List.map_flatten]
      simpa using h.hne b' hb'
    · rw [List.length_map]
      exact h.hlen
    · show l.off = _
      rw [h.hoff, hflat]
      have : ∀ (i : Nat) (L : List (List (Int × V))), pre i L = pre i (L.map fun b => b.map fun jv => (jv.1, a * jv.2)) := by
        intro i L
        induction L generalizing i with
        | nil => rfl
        | cons b L ih => simp only [List.map_cons, pre, List.length_map, ← ih]
      exact this 0 _
    · intro y d hd r hr
      rw [List.getElem?_map] at hd
      obtain ⟨d', hd', rfl⟩ := Option.map_eq_some_iff.1 hd
      rw [← List.map_take, ← List.map_flatten, List.length_map]
      exact h.hgi y d' hd' r hr
    · intro y hy
      rw [hflat2, List.length_map] at hy
      have := h.hmem y hy
      show (l.gj y, ((List.range l.tot).foldl (fun gv k => upd gv k (a * gv k)) l.gv) y) = _
      have hin := putPiece_in (g := l.gv) (lo := 0) (x := y) (l := (List.range l.tot).map fun k => a * l.gv k) (by simpa [h.htot] using hy)
      rw [Nat.zero_add] at hin
      rw [hgv, hin]
      simp only [hflat2, List.getElem_map, List.getElem_range]
      rw [← this]
    · show l.tot = _
      rw [hflat2, List.length_map]
      exact h.htot
  · intro c r
    simp only [rowIn]
    cases findBlock l.blkidx c with
    | none => rfl
    | some x =>
      simp only [List.getElem?_map]
      cases B[x]? with
      | none => rfl
      | some b =>
        simp only [Option.map_some, Option.bind_some, List.getElem?_map]
        cases b[r]? <;> rfl

end GA.Sprs
