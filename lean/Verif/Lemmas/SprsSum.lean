import Verif.Lemmas.SprsAssemble
import Verif.Lemmas.GatScat
import Mathlib.Algebra.BigOperators.Ring.List

/-! # Lemmas: operations on sparse arrays, matrix times vector and diagonal -/

namespace GA.Sprs
open GA.Model GA.Spec.Sprs

variable {V : Type}

/-! ## changing all the values -/

/-- the entries with new values -/
def newVals (f : Int → Int → V → V) (M : List (Entry V)) : List (Entry V) := M.map fun e => ⟨e.row, e.col, f e.row e.col e.val⟩

theorem rowPart_newVals (f : Int → Int → V → V) (M : List (Entry V)) (r lo hi : Int) :
    rowPart (newVals f M) r lo hi = (rowPart M r lo hi).map fun jv => (jv.1, f r jv.1 jv.2) := by
  induction M with
  | nil => rfl
  | cons e M ih =>
    simp only [rowPart, newVals, List.map_cons, List.filter_cons] at ih ⊢
    by_cases h : e.row = r ∧ lo ≤ e.col ∧ e.col ≤ hi
    · simp only [h, and_self, decide_true, if_true, List.map_cons, ih]
    · simp only [h, decide_false, Bool.false_eq_true, if_false, ih]

theorem good_map {n : Nat} {idim jdim : Int} {loc loc' : Nat → Loc V} {M : List (Entry V)} (f : Int → Int → V → V) (h : Good n idim jdim loc M)
    (hs : ∀ p, p < n → (loc' p).blkidx = (loc p).blkidx ∧ (loc' p).ilo = (loc p).ilo ∧ (loc' p).ihi = (loc p).ihi)
    (hm : ∀ p, p < n → ∀ B, Holds (loc p) B → ∃ B', Holds (loc' p) B' ∧ ∀ c r, c < n → r < (loc p).nrows →
      rowIn (loc p).blkidx B' c r = (rowIn (loc p).blkidx B c r).map fun jv => (jv.1, f ((loc p).ilo + r) jv.1 jv.2)) :
    Good n idim jdim loc' (newVals f M) := by
  intro p hp
  obtain ⟨B, h1, h2, h3, h4, h5⟩ := h p hp
  obtain ⟨s1, s2, s3⟩ := hs p hp
  obtain ⟨B', g1, g2⟩ := hm p hp B h1
  refine ⟨B', g1, s2.trans h2, s3.trans h3, by rw [s1]; exact h4, ?_⟩
  intro c r hc hr
  have hr' : r < (loc p).nrows := by simpa only [Loc.nrows, s2, s3] using hr
  rw [s1, s2, g2 c r hc hr', rowPart_newVals]
  exact (h5 c r hc hr').map _

theorem good_mapAll {n : Nat} {idim jdim : Int} {loc : Nat → Loc V} {M : List (Entry V)} (F : Nat → Nat → Nat → Int → V → V) (f : Int → Int → V → V)
    (h : Good n idim jdim loc M) (hF : ∀ p c r j v, p < n → F p c r j v = f ((loc p).ilo + r) j v) :
    Good n idim jdim (fun p => mapAll (F p) (List.range n) (loc p)) (newVals f M) := by
  apply good_map f h
  · intro p _
    exact mapAll_same _ _ _
  · intro p hp B hB
    obtain ⟨B', g1, g2⟩ := mapAll_holds List.nodup_range (F p) hB
    refine ⟨B', g1, ?_⟩
    intro c r hc _
    rw [g2, if_pos (List.mem_range.2 hc)]
    apply List.map_congr_left
    intro jv _
    rw [hF p c r jv.1 jv.2 hp]

theorem left_good [Mul V] {n : Nat} {idim jdim : Int} {loc : Nat → Loc V} {M : List (Entry V)} {d : Vec V} (hd : d.len = idim) (h : Good n idim jdim loc M) :
    ∃ loc', (∀ p, leftMultiply idim n d (loc p) = some (loc' p)) ∧ Good n idim jdim loc' (newVals (fun i _ v => d.at' i * v) M) := by
  refine ⟨_, fun p => by simp only [leftMultiply, hd, ne_eq, not_true, if_false]; rfl, ?_⟩
  exact good_mapAll (fun p _ r _ v => getBuf d (loc p).ilo r * v) _ h fun p c r j v _ => rfl

theorem right_good [Mul V] {n : Nat} {idim jdim : Int} {loc : Nat → Loc V} {M : List (Entry V)} {d : Vec V} (hd : d.len = idim) (hj : (n : Int) ≤ jdim)
    (hij : jdim ≤ idim) (h : Good n idim jdim loc M) :
    ∃ loc', (∀ p, rightMultiply idim jdim n d (loc p) = some (loc' p)) ∧ Good n idim jdim loc' (newVals (fun _ j v => v * d.at' j) M) := by
  have hany : ((List.range n).any fun c => decide ((colDistribution jdim n c).2 ≥ d.len)) = false := by
    rw [List.any_eq_false]
    intro c hc
    have := limHi_lt (List.mem_range.1 hc) hj
    rw [decide_eq_true_eq]
    intro hc2
    have hc3 : d.len ≤ limHi jdim n c := hc2
    omega
  refine ⟨_, fun p => by simp only [rightMultiply, hd ▸ hany, hd, ne_eq, not_true, if_false, Bool.false_eq_true]; rfl, ?_⟩
  refine good_mapAll (fun p c _ j v => v * getBuf d (colDistribution jdim n c).1 (j - (colDistribution jdim n c).1)) _ h fun p c r j v _ => ?_
  simp only [getBuf]
  congr 2
  omega

theorem mapAll_ilo (F : Int → Nat → Int → V → V) (cs : List Nat) (l : Loc V) :
    cs.foldl (fun l c => mapBlock (F l.ilo) c l) l = mapAll (fun _ => F l.ilo) cs l := by
  induction cs generalizing l with
  | nil => rfl
  | cons c cs ih =>
    have := (mapBlock_same (F l.ilo) c l).2.1
    rw [List.foldl_cons, ih, this]
    rfl

theorem shift_good [Add V] {n : Nat} {idim jdim : Int} {loc : Nat → Loc V} {M : List (Entry V)} (s : V) (h : Good n idim jdim loc M) :
    Good n idim jdim (fun p => shiftDiag n s (loc p)) (newVals (fun i j v => if i = j then v + s else v) M) := by
  have : (fun p => shiftDiag n s (loc p)) = fun p => mapAll (fun _ r j v => if (loc p).ilo + r = j then v + s else v) (List.range n) (loc p) :=
    funext fun p => mapAll_ilo (fun i r j v => if i + r = j then v + s else v) (List.range n) (loc p)
  rw [this]
  exact good_mapAll (fun p _ r j v => if (loc p).ilo + r = j then v + s else v) _ h fun p c r j v _ => rfl

theorem scale_good [Mul V] {n : Nat} {idim jdim : Int} {loc : Nat → Loc V} {M : List (Entry V)} (a : V) (h : Good n idim jdim loc M) :
    Good n idim jdim (fun p => scale a (loc p)) (newVals (fun _ _ v => a * v) M) := by
  apply good_map _ h
  · intro p _
    exact ⟨rfl, rfl, rfl⟩
  · intro p _ B hB
    obtain ⟨B', g1, g2⟩ := scale_holds a hB
    exact ⟨B', g1, fun c r _ _ => g2 c r⟩

/-! ## sums over the rows -/

theorem fold_cells {A : Type} (F : Nat → A → Int → V → A) (w : View V) (m : Nat) (s : Nat → A) (r : Nat) :
    (cells m w).foldl (fun s c => upd s c.1 (F c.1 (s c.1) (w.jdx c.2) (w.val c.2))) s r =
      if r < m then (csrRow w.idx w.jdx w.val r).foldl (fun a jv => F r a jv.1 jv.2) (s r) else s r := by
  have hrow : ∀ (m : Nat) (L : List Nat) (s : Nat → A) (r : Nat),
      (L.map fun k => (m, w.idx m + k)).foldl (fun s c => upd s c.1 (F c.1 (s c.1) (w.jdx c.2) (w.val c.2))) s r =
        if r = m then (L.map fun k => (w.jdx (w.idx m + k), w.val (w.idx m + k))).foldl (fun a jv => F m a jv.1 jv.2) (s m) else s r := by
    intro m L
    induction L with
    | nil =>
      intro s r
      by_cases h : r = m
      · simp [h]
      · simp [h]
    | cons k L ih =>
      intro s r
      rw [List.map_cons, List.foldl_cons, ih]
      by_cases h : r = m
      · simp [h, upd]
      · simp [h, upd]
  induction m with
  | zero => simp [cells]
  | succ m ih =>
    have hc : cells (m + 1) w = cells m w ++ (List.range (w.idx (m + 1) - w.idx m)).map fun k => (m, w.idx m + k) := by
      simp [cells, List.range_succ]
    rw [hc, List.foldl_append, hrow]
    by_cases h : r = m
    · subst h
      rw [if_pos rfl, if_pos (Nat.lt_succ_self _), ih, if_neg (Nat.lt_irrefl _)]
      rfl
    · rw [if_neg h, ih]
      by_cases h2 : r < m
      · rw [if_pos h2, if_pos (by omega)]
      · rw [if_neg h2, if_neg (by omega)]

theorem foldl_sum [Semiring V] (L : List (Int × V)) (g : Int → V) (a : V) :
    L.foldl (fun a jv => a + jv.2 * g jv.1) a = a + (L.map fun jv => jv.2 * g jv.1).sum := by
  induction L generalizing a with
  | nil => simp
  | cons x L ih => simp [ih, add_assoc]

theorem localSum_eq [Semiring V] {jdim : Int} {n : Nat} {a : Vec V} {vsum : Nat → V} {l : Loc V} {B : List (List (List (Int × V)))} (h : Holds l B)
    (hlt : ∀ c ∈ l.blkidx, c < n) (hne : l.blkidx ≠ []) {r : Nat} (hr : r < l.nrows) :
    localSum realBody jdim n a vsum l r = ((List.range n).map fun c => ((rowIn l.blkidx B c r).map fun jv => jv.2 * a.at' jv.1).sum).sum := by
  have key : ∀ m, ∃ s : Bool × (Nat → V), ((List.range m).foldl (fun (s : Bool × (Nat → V)) c =>
      match accessColBlock l c with
      | none => s
      | some w =>
        let jlo := (colDistribution jdim n c).1
        let s0 := if s.1 then fun _ => 0 else s.2
        (false, (cells (l.ihi - l.ilo + 1).toNat w).foldl (realBody w (getBuf a jlo) jlo) s0)) (true, vsum)) = s ∧
      (s.1 = true → ∀ c, c < m → c ∉ l.blkidx) ∧
      (s.1 = false → s.2 r = ((List.range m).map fun c => ((rowIn l.blkidx B c r).map fun jv => jv.2 * a.at' jv.1).sum).sum) := by
    intro m
    induction m with
    | zero => exact ⟨(true, vsum), rfl, fun _ c hc => absurd hc (Nat.not_lt_zero _), fun h => absurd h (by simp)⟩
    | succ m ih =>
      obtain ⟨s, h1, h2, h3⟩ := ih
      rw [List.range_succ, List.foldl_append, h1]
      simp only [List.foldl_cons, List.foldl_nil]
      cases hw : accessColBlock l m with
      | none =>
        have hf : findBlock l.blkidx m = none := by simpa [accessColBlock] using hw
        have hrow : rowIn l.blkidx B m r = [] := by simp [rowIn, hf]
        refine ⟨s, rfl, ?_, ?_⟩
        · intro hs c hc
          by_cases hcm : c = m
          · subst hcm
            exact find_none.1 hf
          · exact h2 hs c (by omega)
        · intro hs
          rw [h3 hs]
          simp [hrow]
      | some w =>
        refine ⟨_, rfl, fun hs => absurd hs (by simp), fun _ => ?_⟩
        have hfold := fold_cells (fun _ s j v => s + v * getBuf a (colDistribution jdim n m).1 (j - (colDistribution jdim n m).1)) w
          (l.ihi - l.ilo + 1).toNat (if s.1 then fun _ => 0 else s.2) r
        rw [if_pos (show r < (l.ihi - l.ilo + 1).toNat from hr), csr_rowIn h hw hr] at hfold
        refine Eq.trans hfold ?_
        have hbuf : ∀ j, getBuf a (colDistribution jdim n m).1 (j - (colDistribution jdim n m).1) = a.at' j := fun j => by
          simp only [getBuf]
          congr 1
          omega
        simp only [hbuf]
        rw [foldl_sum]
        rw [List.map_append, List.sum_append]
        simp only [List.map_cons, List.map_nil, List.sum_cons, List.sum_nil, add_zero]
        congr 1
        cases hs : s.1 with
        | true =>
          simp only [if_true]
          symm
          apply List.sum_eq_zero
          intro x hx
          obtain ⟨c, hc, rfl⟩ := List.mem_map.1 hx
          have := h2 hs c (List.mem_range.1 hc)
          simp [rowIn, find_none.2 this]
        | false => simpa using h3 hs
  obtain ⟨s, h1, h2, h3⟩ := key n
  have e : localSum realBody jdim n a vsum l = s.2 := congrArg (·.2) h1
  rw [e]
  apply h3
  cases hs : s.1 with
  | false => rfl
  | true =>
    obtain ⟨c, hc⟩ := List.exists_mem_of_ne_nil _ hne
    exact absurd hc (h2 hs c (hlt c hc))

/-- the blocks of a row make up the row -/
theorem row_blocks {n : Nat} {idim jdim : Int} {M : List (Entry V)} (hn : 0 < n) (hj : (n : Int) ≤ jdim) (hM : ∀ e ∈ M, e.In idim jdim) (r : Int) :
    ((List.range n).flatMap fun c : Nat => rowPart M r (bound jdim n c) (limHi jdim n c)).Perm ((M.filter fun e => e.row = r).map fun e => (e.col, e.val)) := by
  have h := (bucket_perm (M.filter fun e => e.row = r) (fun e => owner jdim n e.col) (n := n) fun e _ => owner_lt hn).map fun e => (e.col, e.val)
  rw [List.map_flatMap] at h
  refine List.Perm.trans (List.Perm.of_eq ?_) h
  rw [List.flatMap_def, List.flatMap_def]
  congr 1
  apply List.map_congr_left
  intro c hc
  rw [rowPart, List.filter_filter]
  congr 1
  apply List.filter_congr
  intro e he
  obtain ⟨-, -, e3, e4⟩ := hM e he
  have o1 := owner_iff (dim := jdim) (n := n) (p := c) hj (List.mem_range.1 hc) e3 e4
  rw [Bool.eq_iff_iff]
  simp only [Bool.and_eq_true, decide_eq_true_eq]
  rw [o1]
  exact and_comm

theorem localSum_mulVec [Semiring V] {n : Nat} {idim jdim : Int} {loc : Nat → Loc V} {M : List (Entry V)} {a : Vec V} {vsum : Nat → V} {p : Nat} (hp : p < n)
    (hj : (n : Int) ≤ jdim) (hM : ∀ e ∈ M, e.In idim jdim) (h : Good n idim jdim loc M) (hne : (loc p).blkidx ≠ []) {r : Nat} (hr : r < (loc p).nrows) :
    localSum realBody jdim n a vsum (loc p) r = mulVec M a.at' ((loc p).ilo + r) := by
  obtain ⟨B, h1, -, -, h4, h5⟩ := h p hp
  rw [localSum_eq h1 h4 hne hr]
  have hb := ((row_blocks (n := n) (by omega) hj hM ((loc p).ilo + r)).map fun jv => jv.2 * a.at' jv.1).sum_eq
  rw [mulVec]
  rw [List.map_map] at hb
  refine Eq.trans ?_ hb
  rw [List.map_flatMap]
  have : ∀ (L : List Nat) (g : Nat → List V), (L.flatMap g).sum = (L.map fun c => (g c).sum).sum := by
    intro L g
    induction L with
    | nil => rfl
    | cons c L ih => simp [ih]
  rw [this]
  congr 1
  apply List.map_congr_left
  intro c hc
  exact ((h5 c r (List.mem_range.1 hc) hr).map _).sum_eq

/-- accumulating disjoint pieces -/
theorem fold_acc [AddMonoid V] (f : Nat → Int → V) (mem : Nat → Int → Prop) [∀ p i, Decidable (mem p i)] (ord : List Nat) (g : Int → V) (i : Int) (p : Nat)
    (hnd : ord.Nodup) (hp : p ∈ ord) (hmem : mem p i) (huniq : ∀ q ∈ ord, mem q i → q = p) :
    ord.foldl (fun g q => fun i => if mem q i then g i + f q i else g i) g i = g i + f p i := by
  have hskip : ∀ (ord : List Nat) (g : Int → V), (∀ q ∈ ord, ¬ mem q i) → ord.foldl (fun g q => fun i => if mem q i then g i + f q i else g i) g i = g i := by
    intro ord
    induction ord with
    | nil => intro g _; rfl
    | cons q ord ih =>
      intro g hq
      rw [List.foldl_cons, ih _ fun x hx => hq x (List.mem_cons_of_mem _ hx)]
      exact if_neg (hq q List.mem_cons_self)
  induction ord generalizing g with
  | nil => simp at hp
  | cons q ord ih =>
    obtain ⟨hq, hnd⟩ := List.nodup_cons.1 hnd
    rw [List.foldl_cons]
    by_cases hqp : q = p
    · subst hqp
      rw [hskip ord _ fun x hx hx' => ?_]
      · exact if_pos hmem
      · have := huniq x (List.mem_cons_of_mem _ hx) hx'
        subst this
        exact hq hx
    · have hp' : p ∈ ord := by
        rcases List.mem_cons.1 hp with h | h
        · exact absurd h.symm hqp
        · exact h
      rw [ih _ hnd hp' fun x hx => huniq x (List.mem_cons_of_mem _ hx)]
      have : ¬ mem q i := fun hc => hqp (huniq q List.mem_cons_self hc)
      simp [this]

theorem matvec_eq [Semiring V] {n : Nat} {idim jdim : Int} {loc : Nat → Loc V} {M : List (Entry V)} {a : Vec V} {vsum : Nat → Nat → V} {ord : List Nat}
    (hn : 0 < n) (hi : (n : Int) ≤ idim) (hj : (n : Int) ≤ jdim) (hij : idim ≤ jdim) (hM : ∀ e ∈ M, e.In idim jdim) (h : Good n idim jdim loc M)
    (hne : ∀ p, p < n → (loc p).blkidx ≠ []) (ha : a.len = jdim) (hord : ord.Perm (List.range n)) :
    ∃ g, matvec realBody jdim n a jdim vsum loc ord = some g ∧ ∀ i, 0 ≤ i → i < idim → g i = mulVec M a.at' i := by
  have hlt : ∀ p ∈ ord, p < n := fun p hp => List.mem_range.1 (hord.mem_iff.1 hp)
  have hany : (ord.any fun p => decide ((loc p).ilo ≤ (loc p).ihi ∧ (loc p).ihi ≥ jdim)) = false := by
    rw [List.any_eq_false]
    intro p hp
    obtain ⟨B, -, -, h3, -⟩ := h p (hlt p hp)
    have := limHi_lt (hlt p hp) hi
    simp only [decide_eq_true_eq]
    omega
  simp only [matvec, ha, hany, ne_eq, not_true, or_self, if_false, Bool.false_eq_true]
  refine ⟨_, rfl, ?_⟩
  intro i h0 h1
  have hp : owner idim n i < n := owner_lt hn
  have hrange := (owner_iff hi hp h0 h1).1 rfl
  generalize owner idim n i = p at hp hrange
  obtain ⟨B, b1, b2, b3, b4, b5⟩ := h p hp
  have hf := fold_acc (fun p i => localSum realBody jdim n a (vsum p) (loc p) (i - (loc p).ilo).toNat) (fun p i => (loc p).ilo ≤ i ∧ i ≤ (loc p).ihi)
    ord (fun _ => (0 : V)) i p (hord.nodup_iff.2 List.nodup_range) (hord.mem_iff.2 (List.mem_range.2 hp)) (by rw [b2, b3]; exact hrange) (by
      intro q hq hqi
      obtain ⟨B', -, c2, c3, -⟩ := h q (hlt q hq)
      rw [c2, c3] at hqi
      rw [← (owner_iff hi (hlt q hq) h0 h1).2 hqi, (owner_iff hi hp h0 h1).2 hrange])
  rw [hf]
  simp only [zero_add]
  rw [localSum_mulVec hp hj hM h (hne p hp) (by simp only [Loc.nrows]; omega)]
  congr 1
  omega

/-! ## diagonal -/

theorem foldl_last (L : List (Int × V)) (i : Int) (d : V) (hnd : (L.map (·.1)).Nodup) :
    L.foldl (fun a jv => if i = jv.1 then jv.2 else a) d = ((L.find? fun jv => jv.1 = i).map (·.2)).getD d := by
  induction L generalizing d with
  | nil => rfl
  | cons x L ih =>
    rw [List.map_cons, List.nodup_cons] at hnd
    rw [List.foldl_cons, ih _ hnd.2, List.find?_cons]
    by_cases hx : x.1 = i
    · have hnone : L.find? (fun jv => decide (jv.1 = i)) = none := by
        rw [List.find?_eq_none]
        intro y hy
        simp only [decide_eq_true_eq]
        intro he
        apply hnd.1
        rw [hx, ← he]
        exact List.mem_map_of_mem hy
      simp [hx, hnone]
    · have hx' : ¬ i = x.1 := fun h => hx h.symm
      simp [hx, hx']

theorem getDiag_eq [Zero V] {l : Loc V} {B : List (List (List (Int × V)))} (h : Holds l B) {p : Nat} (hp : p ∈ l.blkidx) :
    ∃ d, getDiag p l = some d ∧ ∀ r, r < l.nrows →
      d r = (rowIn l.blkidx B p r).foldl (fun a jv => if l.ilo + (r : Int) = jv.1 then jv.2 else a) 0 := by
  cases hw : accessColBlock l p with
  | none =>
    have hf : findBlock l.blkidx p = none := by simpa [accessColBlock] using hw
    exact absurd hp (find_none.1 hf)
  | some w =>
    refine ⟨_, by simp only [getDiag, hw, Option.map_some]; rfl, fun r hr => ?_⟩
    have := fold_cells (fun r a j v => if l.ilo + (r : Int) = j then v else a) w (l.ihi - l.ilo + 1).toNat (fun _ => (0 : V)) r
    rw [if_pos (show r < (l.ihi - l.ilo + 1).toNat from hr), csr_rowIn h hw hr] at this
    rw [← this]
    refine congrFun ?_ r
    congr 1
    funext d c
    by_cases hc : l.ilo + (c.1 : Int) = w.jdx c.2
    · simp [hc]
    · simp only [hc, if_false]
      funext x
      simp only [upd]
      split
      · next h => rw [h]
      · rfl

end GA.Sprs
