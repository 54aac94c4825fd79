import Verif.Lemmas.Pieces
import Verif.Lemmas.GatScat
import Mathlib.Algebra.BigOperators.Group.List.Basic

/-!
# C12: scatter and gather address elements by subscript

`NGA_Gather`, `NGA_Scatter`, `NGA_Scatter_acc`: `Model.ngaGather`, `ngaScatter`, `ngaScatterAcc`.
`cand` and `cand'` are the floating point guesses of the block searches.
-/

namespace GA
open Spec Model

/-! ## the transfers -/

private theorem home_eq {G : GArr} (hG : Sound G) {cand : List Nat} (hc : CandG G cand) {x : List Int}
    (hx : InArray G.dims x) : gsHome G cand x = some (cellG G x).1.toNat := by
  cases G with
  | reg A n =>
    obtain ⟨p, h1, h2, h3, h4, _⟩ := reg_bounds hG.1 hG.2 hx
    obtain ⟨q, q1, q2, q3, q4, q5⟩ := (C01_unique_owner A hG.1.ne hG.1.map cand hc x hx.length |>.1 hx)
    have : (p : Int) = q := q5 p h4
    simp only [gsHome, q1, Option.map_some, cellG, h1]
    rw [← this]
  | blk A =>
    have hb := hG.1.ok
    obtain ⟨c, c1, c2, c3⟩ := bLocate_ok hb hc hx
    have hlt : undigits A.nblocks c < bTotal A := undigits_lt c1
    obtain ⟨_, e⟩ := blkC_unique hb c1 c3
    simp only [gsHome, cellG, cellB, c2, bProc_eq hb hlt, digits_undigits c1, e, Int.toNat_natCast]

private theorem ptr_eq {G : GArr} (hG : Sound G) (hp : PtrOK G) {cand : List Nat} (hc : CandG G cand)
    {x : List Int} (hx : InArray G.dims x) :
    gsPtr G cand (cellG G x).1.toNat x = some (cellG G x).2 := by
  cases G with
  | reg A n =>
    obtain ⟨p, h1, h2, h3, h4, _⟩ := reg_bounds hG.1 hG.2 hx
    have hcg : (cellG (.reg A n) x) = cell A x := rfl
    rw [hcg]
    have e : (cell A x).2 = locOffset A p x := by
      have e1 : (cell A x).1.toNat = p := by rw [h1]; simp
      have : ((undigits A.nblock (ownerC A x) : Nat) : Int) = p := h1
      unfold cell
      simp only
      rw [← this]
    rw [h1, Int.toNat_natCast, e]
    simp only [gsPtr]
    rw [if_pos (checkSubscript_of_inPatch h4)]
  | blk A =>
    have hb := hG.1.ok
    obtain ⟨c, c1, c2, c3⟩ := bLocate_ok hb hc hx
    have hlt : undigits A.nblocks c < bTotal A := undigits_lt c1
    obtain ⟨off, ld, ha⟩ := accessBlock_some hb hlt
    have ho : bOwns A (undigits A.nblocks c) = (cLo A c, cHi A c) := by
      rw [bOwns_eq hb hlt, digits_undigits c1]; rfl
    have hcell := accessBlock_cell hb hp hlt ha (x := x) (by rw [ho]; exact c3)
    have hld := accessBlock_ld hb hlt ha
    simp only [gsPtr, cellG, c2, ha, hcell, Int.toNat_natCast, if_true]
    obtain ⟨_, l2, l3⟩ := cLo_edge hb c1
    have hxl := (show InPatch (cLo A c) (cHi A c) x from c3).length
    rw [ho]
    simp only
    rw [cornerOff_eq 1 (by omega) (by omega), Int.one_mul]

/-- The transfers of one call are exactly: position `k` of the vector with the cell of subscript
`k`, for every `k`, each once. -/
theorem gsXfers_spec {G : GArr} (hG : Sound G) (hp : PtrOK G) {cand cand' : Nat → List Nat}
    (hc : ∀ k, CandG G (cand k)) (hc' : ∀ k, CandG G (cand' k)) {subs : List (List Int)}
    (hs : ∀ x ∈ subs, InArray G.dims x) :
    ∃ ts, gsXfers G cand cand' subs = some ts ∧ ts.Perm ((List.range subs.length).map fun k : Nat =>
      (⟨k, cellG G (subs.getD k [])⟩ : Xfer)) := by
  have hin : ∀ k, k < subs.length → InArray G.dims (subs.getD k []) := by
    intro k hk
    rw [List.getD_eq_getElem?_getD, List.getElem?_eq_getElem hk]
    exact hs _ (List.getElem_mem hk)
  have hlt : ∀ k, k < subs.length → (cellG G (subs.getD k [])).1.toNat < G.nproc := by
    intro k hk
    obtain ⟨p, h1, h2, _⟩ := cellG_bounds hG (hin k hk)
    rw [h1]; simpa using h2
  have h0 : ∀ k, k < subs.length → (((cellG G (subs.getD k [])).1.toNat : Nat) : Int) =
      (cellG G (subs.getD k [])).1 := by
    intro k hk
    obtain ⟨p, h1, h2, _⟩ := cellG_bounds hG (hin k hk)
    rw [h1]; simp
  obtain ⟨s, e, hb⟩ := gsBuild_spec (G := G) (cand := cand)
    (home := fun k => (cellG G (subs.getD k [])).1.toNat) (i := 0) (xs := subs) (built_init _)
    (fun k hk => by
      have := home_eq hG (hc (0 + k)) (hin k hk)
      rw [List.getD_eq_getElem?_getD, List.getElem?_eq_getElem hk] at this
      simpa [List.getElem?_eq_getElem hk] using this)
    (fun k hk => by simpa using hlt k hk)
  rw [Nat.zero_add] at hb
  have hproc : ∀ p ∈ List.range G.nproc, gsProc G cand' subs s p = some
      (((List.range subs.length).filter fun k => (cellG G (subs.getD k [])).1.toNat = p).reverse.map
        fun k : Nat => (⟨k, cellG G (subs.getD k [])⟩ : Xfer)) := by
    intro p _
    unfold gsProc
    by_cases hz : 0 < s.nelems p
    · rw [if_pos hz, walk_chain (hb.chain p) (by
        rw [List.length_reverse]
        exact le_trans (List.length_filter_le _ _) (by simp))]
      simp only
      rw [if_pos ⟨by rw [List.length_reverse, hb.count], by
        rw [List.length_reverse, ← hb.count]; exact hb.room p⟩]
      apply mapOpt_map
      intro k hk
      simp only [List.mem_reverse, List.mem_filter, List.mem_range, decide_eq_true_eq] at hk
      have := ptr_eq hG hp (hc' k) (hin k hk.1)
      rw [hk.2] at this
      rw [this]
      simp only [Option.map_some, Option.some.injEq, Xfer.mk.injEq, true_and]
      have h0 := h0 k hk.1
      rw [hk.2] at h0
      rw [h0]
    · rw [if_neg hz]
      have : ((List.range subs.length).filter fun k => decide ((cellG G (subs.getD k [])).1.toNat = p)) = [] := by
        have := hb.count p
        exact List.length_eq_zero_iff.1 (by omega)
      rw [this]; rfl
  refine ⟨_, by simp only [gsXfers, e, mapOpt_map hproc, Option.map_some]; rfl, ?_⟩
  rw [← List.flatMap_def]
  refine List.Perm.trans (List.Perm.flatMap_left (g := fun p => (((List.range subs.length).filter
    fun k => (cellG G (subs.getD k [])).1.toNat = p).map fun k : Nat => (⟨k, cellG G (subs.getD k [])⟩ : Xfer))) _ ?_) ?_
  · intro p _
    exact List.Perm.map _ (List.reverse_perm _)
  · rw [← List.map_flatMap]
    exact (bucket_perm (List.range subs.length) (fun k => (cellG G (subs.getD k [])).1.toNat)
      (fun k hk => hlt k (List.mem_range.1 hk))).map _


section
variable {V : Type}

/-- **C12 (gather).** Every position `k` of the user vector receives the element at subscript `k`,
and nothing else in the user's memory changes; subscripts may occur several times. -/
theorem C12_gather_partial (G : GArr) (hG : Sound G) (hp : PtrOK G) (cand cand' : Nat → List Nat)
    (hc : ∀ k, CandG G (cand k)) (hc' : ∀ k, CandG G (cand' k)) (subs : List (List Int))
    (hs : ∀ x ∈ subs, InArray G.dims x) (v : Int → V) (m : Addr → V) (f : List Int → V)
    (hm : Holds G m f) :
    ∃ v', ngaGather G cand cand' subs v m = some v' ∧
      (∀ k (hk : k < subs.length), v' k = f subs[k]) ∧
      (∀ i : Int, (i < 0 ∨ (subs.length : Int) ≤ i) → v' i = v i) := by
  obtain ⟨ts, e, hperm⟩ := gsXfers_spec hG hp hc hc' hs
  rw [holds_iff hG] at hm
  have hnd : (ts.map Xfer.buf).Nodup := by
    rw [(hperm.map Xfer.buf).nodup_iff, List.map_map]
    refine List.Nodup.map_on ?_ List.nodup_range
    intro a _ b _ h
    simpa using h
  refine ⟨applyGet ts m v, by simp only [ngaGather, e, Option.map_some], ?_, ?_⟩
  · intro k hk
    have hk' : (⟨k, cellG G (subs.getD k [])⟩ : Xfer) ∈ ts := by
      rw [hperm.mem_iff, List.mem_map]
      exact ⟨k, List.mem_range.2 hk, rfl⟩
    have := foldl_upd_hit ts Xfer.buf (fun _ t => m t.addr) v _ hk' hnd (fun _ _ _ => rfl)
    have hg : subs.getD k [] = subs[k] := by
      rw [List.getD_eq_getElem?_getD, List.getElem?_eq_getElem hk]; rfl
    simp only [hg] at this
    unfold applyGet
    rw [this]
    exact hm _ (hs _ (List.getElem_mem hk))
  · intro i hi
    refine foldl_upd_miss ts Xfer.buf (fun _ t => m t.addr) v i ?_
    intro t ht
    rw [hperm.mem_iff, List.mem_map] at ht
    obtain ⟨k, hk, rfl⟩ := ht
    have := List.mem_range.1 hk
    simp only
    omega

/-- the last of several updates of a cell wins -/
private theorem foldl_upd_some (ts : List Xfer) (v : Int → V) (m : Addr → V) (a : Addr) :
    (applyPut ts v m a = m a ∧ ∀ t ∈ ts, t.addr ≠ a) ∨ ∃ t ∈ ts, t.addr = a ∧ applyPut ts v m a = v t.buf := by
  unfold applyPut
  induction ts generalizing m with
  | nil => exact Or.inl ⟨rfl, fun _ h => by simp at h⟩
  | cons t ts ih =>
    simp only [List.foldl_cons]
    rcases ih (upd m t.addr (v t.buf)) with ⟨h1, h2⟩ | ⟨s, h1, h2, h3⟩
    · by_cases ha : t.addr = a
      · right
        refine ⟨t, List.mem_cons_self, ha, ?_⟩
        rw [h1, ← ha]; simp [upd]
      · left
        refine ⟨?_, ?_⟩
        · rw [h1]; unfold upd; rw [if_neg (fun e => ha e.symm)]
        · intro s hs
          rcases List.mem_cons.1 hs with rfl | hs
          · exact ha
          · exact h2 s hs
    · exact Or.inr ⟨s, List.mem_cons_of_mem _ h1, h2, h3⟩

/-- **C12 (scatter).** After the call the element at every listed subscript is one of the values
given for it (the value, if the subscripts are distinct), no other element has changed, and no
memory cell outside the listed elements has changed. -/
theorem C12_scatter_partial (G : GArr) (hG : Sound G) (hp : PtrOK G) (cand cand' : Nat → List Nat)
    (hc : ∀ k, CandG G (cand k)) (hc' : ∀ k, CandG G (cand' k)) (subs : List (List Int))
    (hs : ∀ x ∈ subs, InArray G.dims x) (v : Int → V) (m : Addr → V) (f : List Int → V)
    (hm : Holds G m f) :
    ∃ m' f', ngaScatter G cand cand' subs v m = some m' ∧ Holds G m' f' ∧
      (∀ x ∈ subs, ∃ k, ∃ hk : k < subs.length, subs[k] = x ∧ f' x = v k) ∧
      (subs.Nodup → ∀ k (hk : k < subs.length), f' subs[k] = v k) ∧
      (∀ x, x ∉ subs → f' x = f x) ∧
      (∀ a, (∀ x ∈ subs, cellG G x ≠ a) → m' a = m a) := by
  obtain ⟨ts, e, hperm⟩ := gsXfers_spec hG hp hc hc' hs
  rw [holds_iff hG] at hm
  have hmem : ∀ t, t ∈ ts ↔ ∃ k, ∃ hk : k < subs.length, t = ⟨k, cellG G subs[k]⟩ := by
    intro t
    rw [hperm.mem_iff, List.mem_map]
    constructor
    · rintro ⟨k, hk, rfl⟩
      have hk := List.mem_range.1 hk
      refine ⟨k, hk, ?_⟩
      rw [List.getD_eq_getElem?_getD, List.getElem?_eq_getElem hk]; rfl
    · rintro ⟨k, hk, rfl⟩
      refine ⟨k, List.mem_range.2 hk, ?_⟩
      rw [List.getD_eq_getElem?_getD, List.getElem?_eq_getElem hk]; rfl
  have hit : ∀ x ∈ subs, ∃ k, ∃ hk : k < subs.length, subs[k] = x ∧ applyPut ts v m (cellG G x) = v k := by
    intro x hx
    obtain ⟨j, hj, rfl⟩ := List.getElem_of_mem hx
    rcases foldl_upd_some ts v m (cellG G subs[j]) with ⟨_, h2⟩ | ⟨t, h1, h2, h3⟩
    · exact absurd rfl (h2 ⟨j, cellG G subs[j]⟩ ((hmem _).2 ⟨j, hj, rfl⟩))
    · obtain ⟨k, hk, rfl⟩ := (hmem _).1 h1
      simp only at h2 h3
      exact ⟨k, hk, cellG_inj hG (hs _ (List.getElem_mem _)) (hs _ (List.getElem_mem _)) h2, h3⟩
  have miss : ∀ a, (∀ x ∈ subs, cellG G x ≠ a) → applyPut ts v m a = m a := by
    intro a ha
    rcases foldl_upd_some ts v m a with ⟨h1, _⟩ | ⟨t, h1, h2, _⟩
    · exact h1
    · obtain ⟨k, hk, rfl⟩ := (hmem _).1 h1
      exact absurd h2 (ha _ (List.getElem_mem _))
  refine ⟨applyPut ts v m, fun x => if x ∈ subs then applyPut ts v m (cellG G x) else f x,
    by simp only [ngaScatter, e, Option.map_some], ?_, ?_, ?_, ?_, miss⟩
  · rw [holds_iff hG]
    intro x hx
    by_cases h : x ∈ subs
    · rw [if_pos h]
    · rw [if_neg h, miss _ fun y hy e => h (cellG_inj hG (hs _ hy) hx e ▸ hy), hm x hx]
  · intro x hx
    obtain ⟨k, hk, h1, h2⟩ := hit x hx
    exact ⟨k, hk, h1, by simp only; rw [if_pos hx]; exact h2⟩
  · intro hnd k hk
    obtain ⟨j, hj, h1, h2⟩ := hit subs[k] (List.getElem_mem hk)
    have : j = k := (hnd.getElem_inj_iff).1 h1
    subst this
    simp only
    rw [if_pos (List.getElem_mem hk)]
    exact h2
  · intro x hx
    simp only
    rw [if_neg hx]

/-- **C12 (round trip).** Scatter to distinct subscripts, then gather the same subscripts: the
values come back. -/
theorem C12_roundtrip_partial (G : GArr) (hG : Sound G) (hp : PtrOK G)
    (c1 c2 c3 c4 : Nat → List Nat) (h1 : ∀ k, CandG G (c1 k)) (h2 : ∀ k, CandG G (c2 k))
    (h3 : ∀ k, CandG G (c3 k)) (h4 : ∀ k, CandG G (c4 k)) (subs : List (List Int))
    (hs : ∀ x ∈ subs, InArray G.dims x) (hnd : subs.Nodup) (v w : Int → V) (m : Addr → V) :
    ∃ m' w', ngaScatter G c1 c2 subs v m = some m' ∧ ngaGather G c3 c4 subs w m' = some w' ∧
      ∀ k : Nat, k < subs.length → w' k = v k := by
  have hm : Holds G m fun x => m (cellG G x) := (holds_iff hG).2 fun x _ => rfl
  obtain ⟨m', f', a1, a2, _, a4, _⟩ := C12_scatter_partial G hG hp c1 c2 h1 h2 subs hs v m _ hm
  obtain ⟨w', b1, b2, _⟩ := C12_gather_partial G hG hp c3 c4 h3 h4 subs hs w m' f' a2
  exact ⟨m', w', a1, b1, fun k hk => by rw [b2 k hk, a4 hnd k hk]⟩

end

/-! ## scatter-accumulate -/

section
variable {V : Type} [AddCommMonoid V] [Mul V]

/-- value of an element after the contributions of all positions with its subscript -/
def accumulated (subs : List (List Int)) (alpha : V) (v : Int → V) (x : List Int) (old : V) : V :=
  old + (((List.range subs.length).filter fun k => subs.getD k [] = x).map fun k : Nat => alpha * v k).sum

private theorem foldl_acc (ts : List Xfer) (alpha : V) (v : Int → V) (m : Addr → V) (a : Addr) :
    applyAcc ts alpha v m a = m a + ((ts.filter fun t => t.addr = a).map fun t => alpha * v t.buf).sum := by
  unfold applyAcc
  induction ts generalizing m with
  | nil => simp
  | cons t ts ih =>
    simp only [List.foldl_cons]
    rw [ih]
    by_cases h : t.addr = a
    · subst h
      simp [upd, add_assoc]
    · have e : upd m t.addr (m t.addr + alpha * v t.buf) a = m a := by
        unfold upd; rw [if_neg (fun e => h e.symm)]
      rw [e]
      simp [h]

/-- **C12 (scatter-accumulate).** Every element ends up as its old value plus the sum of
`alpha * v[k]` over all positions `k` that name it, however often it is named; all other elements
and memory cells are unchanged. -/
theorem C12_scatter_acc_partial (G : GArr) (hG : Sound G) (hp : PtrOK G) (cand cand' : Nat → List Nat)
    (hc : ∀ k, CandG G (cand k)) (hc' : ∀ k, CandG G (cand' k)) (subs : List (List Int))
    (hs : ∀ x ∈ subs, InArray G.dims x) (alpha : V) (v : Int → V) (m : Addr → V) (f : List Int → V)
    (hm : Holds G m f) :
    ∃ m', ngaScatterAcc G cand cand' subs alpha v m = some m' ∧
      Holds G m' (fun x => accumulated subs alpha v x (f x)) ∧
      (∀ a, (∀ x ∈ subs, cellG G x ≠ a) → m' a = m a) := by
  obtain ⟨ts, e, hperm⟩ := gsXfers_spec hG hp hc hc' hs
  rw [holds_iff hG] at hm
  have hin : ∀ k, k < subs.length → subs.getD k [] ∈ subs := by
    intro k hk
    rw [List.getD_eq_getElem?_getD, List.getElem?_eq_getElem hk]
    exact List.getElem_mem hk
  refine ⟨applyAcc ts alpha v m, by simp only [ngaScatterAcc, e, Option.map_some], ?_, ?_⟩
  · rw [holds_iff hG]
    intro x hx
    rw [foldl_acc, hm x hx]
    unfold accumulated
    congr 1
    have := ((hperm.filter fun t => decide (t.addr = cellG G x)).map fun t => alpha * v t.buf).sum_eq
    rw [this, List.filter_map, List.map_map]
    have hf : (List.range subs.length).filter ((fun t : Xfer => decide (t.addr = cellG G x)) ∘
        fun k : Nat => (⟨k, cellG G (subs.getD k [])⟩ : Xfer)) =
        (List.range subs.length).filter fun k => decide (subs.getD k [] = x) := by
      apply List.filter_congr
      intro k hk
      simp only [Function.comp_apply, decide_eq_decide]
      constructor
      · exact fun h => cellG_inj hG (hs _ (hin k (List.mem_range.1 hk))) hx h
      · intro h; rw [h]
    rw [hf]
    rfl
  · intro a ha
    rw [foldl_acc]
    have : (ts.filter fun t => decide (t.addr = a)) = [] := by
      rw [List.filter_eq_nil_iff]
      intro t ht
      rw [hperm.mem_iff, List.mem_map] at ht
      obtain ⟨k, hk, rfl⟩ := ht
      simpa using ha _ (hin k (List.mem_range.1 hk))
    rw [this]
    simp

end

/-- **C12 (bad subscripts).** On REGULAR arrays a subscript outside the array ends the call with an
error before any element is moved. -/
theorem C12_bad_subscript (A : RegArray) (n : Nat) (hA : ArrOK A) (cand cand' : Nat → List Nat)
    (hc : ∀ k, CandOK A.nblock (cand k)) (subs : List (List Int))
    (hl : ∀ x ∈ subs, x.length = A.dims.length) (x : List Int) (hx : x ∈ subs) (hb : ¬ InArray A.dims x) :
    gsXfers (.reg A n) cand cand' subs = none := by
  obtain ⟨k, hk, rfl⟩ := List.getElem_of_mem hx
  have h1 := ((C01_unique_owner A hA.ne hA.map (cand (0 + k)) (hc _) subs[k] (hl _ hx)).2 hb).1
  have := gsBuild_none (G := .reg A n) (cand := cand) (i := 0) (s := gsInit) hk (by
    simp only [gsHome, h1, Option.map_none])
  simp only [gsXfers, this]

/-! ## the C interface -/

/-- The C subscript `s` (0-based, last dimension fastest) names the element with the Fortran
subscript obtained by reversing and adding 1. -/
def cToF (s : List Int) : List Int := s.reverse.map (· + 1)

private theorem c2f_eq (s : List Int) : c2f s.length s = cToF s := by
  unfold c2f cToF
  apply List.ext_getElem
  · simp
  · intro i h1 h2
    simp only [List.length_map, List.length_range] at h1
    simp only [List.getElem_map, List.getElem_range, List.getElem_reverse]
    rw [List.getD_eq_getElem?_getD, List.getElem?_eq_getElem (by omega)]
    rfl

/-- `NGA_Gather`, `NGA_Scatter`, `NGA_Scatter_acc` and their `_flat` forms name the right elements. -/
theorem C12_c_subscripts (G : GArr) (subs : List (List Int)) (h : ∀ s ∈ subs, s.length = G.dims.length) :
    subsC G subs = subs.map cToF ∧ subsFlat subs = subs.map cToF := by
  constructor
  · unfold subsC
    apply List.map_congr_left
    intro s hs
    rw [← h s hs, c2f_eq]
  · unfold subsFlat
    apply List.map_congr_left
    intro s _
    simp [cToF]

/-- `NGA_Scatter64`, `NGA_Gather64`, `NGA_Scatter_acc64` work for vectors. -/
theorem C12_c64_vector (G : GArr) (h1 : G.dims.length = 1) (subs : List (List Int))
    (h : ∀ s ∈ subs, ∃ i : Int, s = [i] ∧ 0 ≤ i ∧ i < 2147483648) : subsC64 G subs = subs.map cToF := by
  unfold subsC64
  apply List.map_congr_left
  intro s hs
  obtain ⟨i, rfl, h2, h3⟩ := h s hs
  rw [h1]
  simp only [c2f, words, cToF, List.range_one, List.map_cons, List.map_nil, List.flatMap_cons,
    List.flatMap_nil, List.cons_append, List.nil_append, List.reverse_cons, List.reverse_nil,
    List.cons.injEq, and_true]
  simp only [Nat.sub_self, List.getD_cons_zero, loWord]
  omega

/-- **The code violates C12.** `NGA_Scatter64` on a matrix: the 64-bit subscripts are read as 32-bit
integers, so that the C subscript `(i, j)` names the element `(i, 0)`. -/
theorem C12_scatter64_wrong : ∃ (G : GArr) (s : List Int), G.dims.length = 2 ∧ s.length = 2 ∧
    InArray G.dims (cToF s) ∧ subsC64 G [s] ≠ [cToF s] ∧
    (ngaScatter G (fun _ => [0, 0]) (fun _ => [0, 0]) (subsC64 G [s]) (fun _ => 7) fun _ => (0 : Int)).map
      (fun m' => (m' (cellG G (cToF s)), m' (cellG G [1, 3]))) = some (0, 7) :=
  ⟨.reg exG 7, [2, 4], rfl, rfl, by decide, by decide, by decide +kernel⟩

/-! ## examples -/

example : Sound (.reg exG 7) ∧ PtrOK (.reg exG 7) ∧ (∀ _k : Nat, CandG (.reg exG 7) [1, 0]) ∧
    (∀ x ∈ [[3, 2], [9, 7], [1, 1]], InArray exG.dims x) ∧ [[3, 2], [9, 7], [1, 1]].Nodup := by
  refine ⟨⟨exG_ok, by decide⟩, trivial, fun _ => ?_, by decide, by decide⟩
  simp [CandG, CandOK, exG]
example : (ngaGather (.reg exG 7) (fun _ => [1, 0]) (fun _ => [1, 0]) [[3, 2], [9, 7], [3, 2]] (fun _ => -1)
    (fun a => a.1 * 1000 + a.2)).map (fun v => [v 0, v 1, v 2, v 3]) =
    some [(cell exG [3, 2]).1 * 1000 + (cell exG [3, 2]).2, (cell exG [9, 7]).1 * 1000 + (cell exG [9, 7]).2,
      (cell exG [3, 2]).1 * 1000 + (cell exG [3, 2]).2, -1] := by decide +kernel
example : (ngaScatterAcc (.blk exScl) (fun _ => []) (fun _ => []) [[3, 2], [7, 5], [3, 2]] 10 (fun i => i + 1)
    (fun _ => (5 : Int))).map (fun m => (m (cellB exScl [3, 2]), m (cellB exScl [7, 5]))) = some (45, 25) := by
  decide +kernel

end GA
