import Verif.Lemmas.SprsMove
import Verif.Lemmas.SprsLimits
import Verif.Lemmas.SprsOps

/-! # Lemmas: assembled sparse arrays hold the entries -/

namespace GA.Sprs
open GA.Model GA.Spec.Sprs

variable {V : Type}

/-- the local parts hold the matrix `M` -/
def Good (n : Nat) (idim jdim : Int) (loc : Nat → Loc V) (M : List (Entry V)) : Prop :=
  ∀ p, p < n → ∃ B, Holds (loc p) B ∧ (loc p).ilo = bound idim n p ∧ (loc p).ihi = limHi idim n p ∧ (∀ c ∈ (loc p).blkidx, c < n) ∧
    ∀ c r, c < n → r < (loc p).nrows →
      (rowIn (loc p).blkidx B c r).Perm (rowPart M ((loc p).ilo + r) (bound jdim n c) (limHi jdim n c))

/-- the entries of process `q` -/
def owned (idim : Int) (n : Nat) (M : List (Entry V)) (q : Nat) : List (Entry V) := M.filter fun e => owner idim n e.row = q

theorem flatMap_perm {α β : Type} {f g : α → List β} {l : List α} (h : ∀ a ∈ l, (f a).Perm (g a)) : (l.flatMap f).Perm (l.flatMap g) := by
  induction l with
  | nil => exact List.Perm.refl _
  | cons a l ih =>
    rw [List.flatMap_cons, List.flatMap_cons]
    exact (h a List.mem_cons_self).append (ih fun a ha => h a (List.mem_cons_of_mem _ ha))

theorem filter_flatMap {α β : Type} (f : α → List β) (q : β → Bool) (l : List α) : (l.flatMap f).filter q = l.flatMap fun a => (f a).filter q := by
  induction l with
  | nil => rfl
  | cons a l ih => simp [ih]

theorem layout_rows {raw : Raw V} {idim jdim : Int} {n q : Nat} {es : List (El V)} {M : List (Entry V)} (hq : q < n) (hi : (n : Int) ≤ idim)
    (hj : (n : Int) ≤ jdim) (hM : ∀ e ∈ M, e.In idim jdim) (hes : es.Perm (owned idim n M q)) :
    ∃ l B, layout raw jdim n (ownLo idim n q) (limHi idim n q) es = some l ∧ Holds l B ∧ l.ilo = bound idim n q ∧ l.ihi = limHi idim n q ∧
      (l.blkidx = (List.range n).filter fun c => ∃ e ∈ owned idim n M q, owner jdim n e.col = c) ∧
      ∀ c r, c < n → r < l.nrows → (rowIn l.blkidx B c r).Perm (rowPart M (l.ilo + r) (bound jdim n c) (limHi jdim n c)) := by
  have hn : 0 < n := by omega
  have hmem : ∀ e ∈ es, e ∈ M ∧ owner idim n e.row = q := fun e he => by
    have := hes.mem_iff.1 he
    simpa [owned] using this
  have hin : ∀ e ∈ es, ownLo idim n q ≤ e.row ∧ e.row ≤ limHi idim n q := fun e he => by
    obtain ⟨h1, h2⟩ := hmem e he
    obtain ⟨h3, h4, -⟩ := hM e h1
    rw [ownLo_eq hn hi]
    exact (owner_iff hi hq h3 h4).1 h2
  have hne := limits_nonempty hq hi
  obtain ⟨l, h1, h2, h3, h4, h5⟩ := layout_holds (raw := raw) (jdim := jdim) (n := n) hin (by rw [ownLo_eq hn hi]; omega) hn
    fun e _ => owner_lt hn
  refine ⟨l, _, h1, h5, by rw [h2, ownLo_eq hn hi], h3, ?_, ?_⟩
  · rw [h4]
    apply List.filter_congr
    intro c _
    rw [decide_eq_decide]
    constructor
    · intro hc
      obtain ⟨e, he⟩ := List.exists_mem_of_ne_nil _ hc
      obtain ⟨he1, he2⟩ := List.mem_filter.1 he
      exact ⟨e, hes.mem_iff.1 he1, by simpa using he2⟩
    · rintro ⟨e, he, hc⟩ h0
      have : e ∈ es.filter fun e => decide (owner jdim n e.col = c) := List.mem_filter.2 ⟨hes.mem_iff.2 he, by simpa using hc⟩
      rw [h0] at this
      simp at this
  · intro c r hc hr
    -- the row of the block in terms of the elements
    have hrow : rowIn l.blkidx (l.blkidx.map fun c => (List.range l.nrows).map fun r =>
        (((es.filter fun e => owner jdim n e.col = c).reverse.filter fun e => (e.row - ownLo idim n q).toNat = r).reverse).map toPair) c r
        = (((es.filter fun e => owner jdim n e.col = c).reverse.filter fun e => (e.row - ownLo idim n q).toNat = r).reverse).map toPair := by
      simp only [rowIn]
      cases hf : findBlock l.blkidx c with
      | none =>
        have hni := find_none.1 hf
        rw [h4] at hni
        have h0 : (es.filter fun e => decide (owner jdim n e.col = c)) = [] := by
          by_contra h0
          exact hni (List.mem_filter.2 ⟨List.mem_range.2 hc, by simpa using h0⟩)
        simp [h0]
      | some x =>
        have hx := (find_some h5.hnodup).1 hf
        simp only [List.getElem?_map, hx, Option.map_some, Option.bind_some]
        rw [List.getElem?_range hr]
        simp
    rw [hrow]
    have hp1 : (((es.filter fun e => decide (owner jdim n e.col = c)).reverse.filter fun e => decide ((e.row - ownLo idim n q).toNat = r)).reverse).Perm
        ((owned idim n M q).filter fun e => decide (owner jdim n e.col = c) && decide ((e.row - ownLo idim n q).toNat = r)) := by
      refine (List.reverse_perm _).trans ?_
      refine ((List.reverse_perm _).filter _).trans ?_
      rw [List.filter_filter]
      refine (hes.filter _).trans ?_
      apply List.Perm.of_eq
      apply List.filter_congr
      intro e _
      exact Bool.and_comm _ _
    refine (hp1.map toPair).trans ?_
    apply List.Perm.of_eq
    rw [owned, List.filter_filter, rowPart]
    have hlo : l.ilo = bound idim n q := by rw [h2, ownLo_eq hn hi]
    have hnr : (l.nrows : Int) = limHi idim n q - bound idim n q + 1 := by
      simp only [Loc.nrows, hlo, h3]
      omega
    have : (M.filter fun e => decide (owner jdim n e.col = c) && decide ((e.row - ownLo idim n q).toNat = r) && decide (owner idim n e.row = q))
        = M.filter fun e => decide (e.row = l.ilo + r ∧ bound jdim n c ≤ e.col ∧ e.col ≤ limHi jdim n c) := by
      apply List.filter_congr
      intro e he
      obtain ⟨e1, e2, e3, e4⟩ := hM e he
      have o1 := owner_iff (dim := jdim) (n := n) (p := c) hj hc e3 e4
      have o2 := owner_iff (dim := idim) (n := n) (p := q) hi hq e1 e2
      rw [ownLo_eq hn hi, hlo]
      rw [Bool.eq_iff_iff]
      simp only [Bool.and_eq_true, decide_eq_true_eq]
      rw [o1, o2]
      omega
    rw [this]
    rfl

theorem assemble_good {raw : Nat → Raw V} {g0 : Nat → El V} {idim jdim : Int} {n : Nat} {adds : Nat → List (El V)} {s1 s2 : List Ev} (hn : 0 < n)
    (hi : (n : Int) ≤ idim) (hj : (n : Int) ≤ jdim) (hM : ∀ p, p < n → ∀ e ∈ adds p, e.In idim jdim)
    (h1 : Interleaving n (program (fun p => (raw p).list) idim n adds) s1) (h2 : Interleaving n (program (fun p => (raw p).list) idim n adds) s2) :
    ∃ loc : Nat → Loc V, Good n idim jdim loc ((List.range n).flatMap adds) ∧
      (∀ p, p < n → (loc p).blkidx = (List.range n).filter fun c => ∃ e ∈ owned idim n ((List.range n).flatMap adds) p, owner jdim n e.col = c) ∧
      assemble raw g0 idim jdim n adds s1 s2 =
        (if n ≤ ((List.range n).flatMap adds).length ∧
            n ≤ ((List.range n).map fun p => ((loc p).nrows + 1) * (loc p).blkidx.length).sum then
          some fun q => layout (raw q) jdim n (ownLo idim n q) (limHi idim n q)
            (part (fun p q => binned (raw p).list (fun e : El V => owner idim n e.row) (adds p) q) s1 q)
        else none) ∧
      ∀ p, p < n → layout (raw p) jdim n (ownLo idim n p) (limHi idim n p)
            (part (fun p q => binned (raw p).list (fun e : El V => owner idim n e.row) (adds p) q) s1 p) = some (loc p) := by
  generalize hMM : (List.range n).flatMap adds = M
  have hMin : ∀ e ∈ M, e.In idim jdim := by
    rw [← hMM]
    intro e he
    obtain ⟨p, hp, he⟩ := List.mem_flatMap.1 he
    exact hM p (List.mem_range.1 hp) e he
  generalize hbuf : (fun p q => binned (raw p).list (fun e : El V => owner idim n e.row) (adds p) q) = buf
  generalize hcnt : (fun p q => binCount (raw p).list (fun e : El V => owner idim n e.row) (adds p) q) = c
  have hb : ∀ p q, (buf p q).length = c p q := by
    intro p q
    rw [← hbuf, ← hcnt]
    simp only
    rw [binned_eq, binCount_eq, List.length_reverse]
  have hprog : (program (fun p => (raw p).list) idim n adds) = fun p => targets n (c p) p := by
    rw [← hcnt]
    rfl
  rw [hprog] at h1 h2
  have hperm : ∀ q, q < n → (part buf s1 q).Perm (owned idim n M q) := by
    intro q hq
    refine (part_perm hb h1 hq).trans ?_
    rw [owned, ← hMM, filter_flatMap]
    apply flatMap_perm
    intro p _
    rw [← hbuf]
    simp only
    rw [binned_eq]
    exact List.reverse_perm _
  have hlay : ∀ q, q < n → ∃ l B, layout (raw q) jdim n (ownLo idim n q) (limHi idim n q) (part buf s1 q) = some l ∧ Holds l B ∧
      l.ilo = bound idim n q ∧ l.ihi = limHi idim n q ∧
      (l.blkidx = (List.range n).filter fun c => ∃ e ∈ owned idim n M q, owner jdim n e.col = c) ∧
      ∀ c r, c < n → r < l.nrows → (rowIn l.blkidx B c r).Perm (rowPart M (l.ilo + r) (bound jdim n c) (limHi jdim n c)) :=
    fun q hq => layout_rows hq hi hj hMin (hperm q hq)
  have hlay0 := hlay 0 hn
  choose l0 _ using hlay0
  let loc : Nat → Loc V := fun q => if h : q < n then (hlay q h).choose else l0
  have hloc : ∀ q (h : q < n), loc q = (hlay q h).choose := fun q h => dif_pos h
  have hsome : ∀ q, q < n → layout (raw q) jdim n (ownLo idim n q) (limHi idim n q) (part buf s1 q) = some (loc q) := fun q h => by
    obtain ⟨B, hh⟩ := (hlay q h).choose_spec
    rw [hloc q h]
    exact hh.1
  refine ⟨loc, ?_, ?_, ?_, hsome⟩
  · intro p hp
    obtain ⟨B, -, g2, g3, g4, g5, g6⟩ := (hlay p hp).choose_spec
    rw [← hloc p hp] at g2 g3 g4 g5 g6
    refine ⟨B, g2, g3, g4, ?_, g6⟩
    rw [g5]
    intro c hc
    exact List.mem_range.1 (List.mem_filter.1 hc).1
  · intro p hp
    obtain ⟨B, -, g2, g3, g4, g5, g6⟩ := (hlay p hp).choose_spec
    rw [← hloc p hp] at g5
    exact g5
  · have hrec : (fun q => ((List.range ((tickets c s1).next q)).map fun k =>
        puts buf (fun p q => mapOf (tickets c s1).next q + (tickets c s1).off p q) g0 s2 (mapOf (tickets c s1).next q + k))) = fun q => part buf s1 q :=
      funext fun q => received hb h1 h2 g0 q
    have hrec' : ∀ q, ((List.range ((tickets c s1).next q)).map fun k =>
        puts buf (fun p q => mapOf (tickets c s1).next q + (tickets c s1).off p q) g0 s2 (mapOf (tickets c s1).next q + k)) = part buf s1 q :=
      fun q => congrFun hrec q
    have htot : mapOf (tickets c s1).next n = M.length := by
      have e1 : mapOf (tickets c s1).next n = ((List.range n).flatMap fun q => part buf s1 q).length := by
        rw [mapOf, List.length_flatMap]
        congr 1
        apply List.map_congr_left
        intro q _
        rw [part_length hb]
      rw [e1]
      have e2 : ((List.range n).flatMap fun q => part buf s1 q).Perm ((List.range n).flatMap fun q => owned idim n M q) :=
        flatMap_perm fun q hq => hperm q (List.mem_range.1 hq)
      rw [e2.length_eq]
      have e3 := rows_length (nrows := n) (key := fun e : El V => owner idim n e.row) (es := M) fun e _ => owner_lt hn
      rw [← e3.length_eq, List.length_flatten, List.length_flatMap, List.map_map]
      congr 1
      apply List.map_congr_left
      intro q _
      simp [owned]
    simp only [assemble]
    rw [show (fun p q => binCount (raw p).list (fun e : El V => owner idim n e.row) (adds p) q) = c from hcnt,
      show (fun p q => binned (raw p).list (fun e : El V => owner idim n e.row) (adds p) q) = buf from hbuf]
    simp only [hrec', htot, irregOK, decide_eq_true_eq]
    refine if_congr (and_congr Iff.rfl (iff_of_eq (congrArg (n ≤ ·) (congrArg List.sum (List.map_congr_left fun q hq => ?_))))) rfl rfl
    rw [hsome q (List.mem_range.1 hq)]
    rfl

end GA.Sprs
