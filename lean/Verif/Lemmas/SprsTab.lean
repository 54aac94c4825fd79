import Verif.Model.SprsMul
import Verif.Lemmas.SprsBins
import Mathlib.Algebra.BigOperators.Group.List.Basic
import Mathlib.Data.List.Perm.Subperm

/-! # Lemmas: the table of products -/

namespace GA.Sprs
open GA.Model GA.Spec.Sprs

variable {V : Type}

/-- position -/
def pos (e : El V) : Int × Int := (e.row, e.col)

/-- sum of the values at a position -/
def sumAt [AddCommMonoid V] (L : List (El V)) (x : Int × Int) : V := ((L.filter fun e => pos e = x).map fun e => e.val).sum

theorem search_walk (list : Nat → Int) (data : Nat → El V) (i j : Int) (f : Nat) (h : Int) :
    search list data i j f h = (Bins.walk list f h).find? fun k => pos (data k) = (i, j) := by
  induction f generalizing h with
  | zero => rfl
  | succ f ih =>
    simp only [search, Bins.walk]
    by_cases h0 : 0 ≤ h
    · simp only [h0, if_true, List.find?_cons]
      by_cases hp : (data h.toNat).row = i ∧ (data h.toNat).col = j
      · simp [pos, hp]
      · have : ¬ pos (data h.toNat) = (i, j) := fun hc => hp (Prod.ext_iff.1 hc)
        simp only [hp, if_false, this, decide_false, ih]
    · simp [h0]

/-- the elements in the table -/
def Tab.items (t : Tab V) : List (El V) := (List.range t.cnt).map t.data

/-- the table holds the sums of the products `P` -/
structure TabOk [AddCommMonoid V] (jdim : Int) (bufsize : Nat) (t : Tab V) (P : List (El V)) : Prop where
  bins : ∃ b : Bins, b.top = t.top ∧ b.list = t.list ∧ BinInv (fun k => slot jdim bufsize (t.data k).row (t.data k).col) t.cnt b
  nodup : (t.items.map pos).Nodup
  sum : ∀ x, sumAt t.items x = sumAt P x
  mem : ∀ x, x ∈ t.items.map pos ↔ x ∈ P.map pos

theorem binInv_congr {key key' : Nat → Nat} {i : Nat} {b : Bins} (h : BinInv key i b) (hk : ∀ k, k < i → key k = key' k) : BinInv key' i b := by
  intro q
  have : ((List.range i).filter fun k => key' k = q) = (List.range i).filter fun k => key k = q := by
    apply List.filter_congr
    intro k hk'
    rw [hk k (List.mem_range.1 hk')]
  rw [this]
  exact h q

theorem tabOk_empty [AddCommMonoid V] (jdim : Int) (bufsize : Nat) (d0 : Nat → El V) : TabOk jdim bufsize (Tab.empty d0) [] :=
  ⟨⟨⟨fun _ => -1, fun _ => -1, fun _ => 0⟩, rfl, rfl, fun _ => ⟨rfl, rfl⟩⟩, by simp [Tab.items, Tab.empty], fun _ => rfl, fun _ => by simp [Tab.items, Tab.empty]⟩

theorem sumAt_append [AddCommMonoid V] (L M : List (El V)) (x : Int × Int) : sumAt (L ++ M) x = sumAt L x + sumAt M x := by
  simp [sumAt]

theorem sumAt_single [AddCommMonoid V] (e : El V) (x : Int × Int) : sumAt [e] x = if pos e = x then e.val else 0 := by
  by_cases h : pos e = x
  · simp [sumAt, h]
  · simp [sumAt, h]

/-- items after a change of one element -/
theorem items_upd (t : Tab V) {k : Nat} (hk : k < t.cnt) (e : El V) :
    (List.range t.cnt).map (upd t.data k e) = t.items.set k e := by
  apply List.ext_getElem
  · simp [Tab.items]
  · intro m h1 h2
    simp only [List.getElem_map, List.getElem_range, List.getElem_set, Tab.items, upd]
    by_cases h : m = k
    · simp [h]
    · simp [h, Ne.symm h]

theorem accumulate_ok [AddCommMonoid V] {jdim : Int} {bufsize : Nat} {t : Tab V} {P : List (El V)} {e : El V} (h : TabOk jdim bufsize t P)
    (hb : ∀ L : List (Int × Int), L.Nodup → (∀ x ∈ L, x ∈ (P ++ [e]).map pos) → L.length ≤ bufsize) :
    ∃ t', accumulate jdim bufsize t e = some t' ∧ TabOk jdim bufsize t' (P ++ [e]) := by
  have hb0 : bufsize ≠ 0 := by
    have := hb [pos e] (by simp) (by simp)
    simp at this
    omega
  have hb1 : ¬ (bufsize = 0 ∨ bufsize ≤ slot jdim bufsize e.row e.col) := by
    have := Int.emod_lt_of_pos (e.row * jdim + e.col) (b := (bufsize : Int)) (by omega)
    have := Int.emod_nonneg (e.row * jdim + e.col) (b := (bufsize : Int)) (by omega)
    simp only [slot]
    omega
  obtain ⟨b, b1, b2, b3⟩ := h.bins
  obtain ⟨l1, -⟩ := b3 (slot jdim bufsize e.row e.col)
  rw [b1, b2] at l1
  have hlen : ((List.range t.cnt).filter fun k => decide (slot jdim bufsize (t.data k).row (t.data k).col = slot jdim bufsize e.row e.col)).reverse.length
      ≤ t.cnt := by
    rw [List.length_reverse]
    exact Nat.le_trans (List.length_filter_le _ _) (by simp)
  have hw := walk_linked l1 hlen
  simp only [accumulate, hb1, if_false, search_walk, hw]
  cases hf : List.find? (fun k => decide (pos (t.data k) = (e.row, e.col)))
      ((List.range t.cnt).filter fun k => decide (slot jdim bufsize (t.data k).row (t.data k).col = slot jdim bufsize e.row e.col)).reverse with
  | some k =>
    have hk1 := List.find?_some hf
    have hk2 := List.mem_of_find?_eq_some hf
    rw [decide_eq_true_eq] at hk1
    have hk : k < t.cnt := List.mem_range.1 (List.mem_filter.1 (List.mem_reverse.1 hk2)).1
    refine ⟨_, rfl, ?_⟩
    have hpos : pos (t.data k) = pos e := hk1
    have hki : k < t.items.length := by simpa [Tab.items] using hk
    have hget : t.items[k] = t.data k := by simp [Tab.items]
    have hposes : (t.items.set k ⟨(t.data k).row, (t.data k).col, (t.data k).val + e.val⟩).map pos = t.items.map pos := by
      rw [List.map_set]
      apply List.ext_getElem
      · simp
      · intro m h1 h2
        rw [List.getElem_set]
        split
        · next h =>
          subst h
          simp [hget, pos]
        · rfl
    refine ⟨?_, ?_, ?_, ?_⟩
    · refine ⟨b, b1, b2, binInv_congr b3 fun m hm => ?_⟩
      simp only [upd]
      by_cases hmk : m = k
      · simp [hmk]
      · simp [hmk]
    · show (((List.range t.cnt).map (upd t.data k _)).map pos).Nodup
      rw [items_upd t hk, hposes]
      exact h.nodup
    · intro x
      show sumAt ((List.range t.cnt).map (upd t.data k _)) x = _
      rw [items_upd t hk, sumAt_append, sumAt_single, ← h.sum x]
      rw [List.set_eq_take_append_cons_drop, if_pos hki]
      have hold : t.items = t.items.take k ++ t.items[k] :: t.items.drop (k + 1) := by
        conv_lhs => rw [← List.take_append_drop k t.items]
        rw [List.drop_eq_getElem_cons hki]
      rw [hget] at hold
      have hcons : ∀ (e : El V) (M : List (El V)), sumAt (e :: M) x = sumAt [e] x + sumAt M x := fun e M => sumAt_append [e] M x
      conv_rhs => rw [hold]
      rw [sumAt_append, sumAt_append, hcons, hcons (t.data k), sumAt_single, sumAt_single]
      have hp' : pos (⟨(t.data k).row, (t.data k).col, (t.data k).val + e.val⟩ : El V) = pos e := hpos
      rw [hp', hpos]
      by_cases hx : pos e = x
      · simp only [hx, if_true]
        ac_rfl
      · simp only [hx, if_false, zero_add, add_zero]
    · intro x
      show x ∈ ((List.range t.cnt).map (upd t.data k _)).map pos ↔ _
      rw [items_upd t hk, hposes, h.mem, List.map_append, List.mem_append]
      refine ⟨Or.inl, ?_⟩
      rintro (hx | hx)
      · exact hx
      · simp only [List.map_cons, List.map_nil, List.mem_singleton] at hx
        rw [hx, ← h.mem, ← hpos, ← hget]
        exact List.mem_map_of_mem (List.getElem_mem hki)
  | none =>
    have hnew : pos e ∉ t.items.map pos := by
      intro hc
      obtain ⟨e', he', hp⟩ := List.mem_map.1 hc
      obtain ⟨k, hk, rfl⟩ := List.mem_map.1 he'
      have hk := List.mem_range.1 hk
      rw [List.find?_eq_none] at hf
      have := hf k (by
        rw [List.mem_reverse, List.mem_filter]
        refine ⟨List.mem_range.2 hk, ?_⟩
        obtain ⟨p1, p2⟩ := Prod.ext_iff.1 hp
        dsimp only [pos] at p1 p2
        rw [p1, p2]
        simp)
      exact this (decide_eq_true hp)
    have hcnt : t.cnt < bufsize := by
      have hnd : (t.items.map pos ++ [pos e]).Nodup := by
        rw [List.nodup_append]
        refine ⟨h.nodup, by simp, ?_⟩
        intro a ha b hb' hab
        simp only [List.mem_singleton] at hb'
        rw [hab, hb'] at ha
        exact hnew ha
      have := hb _ hnd (by
        intro x hx
        rw [List.mem_append] at hx
        rw [List.map_append, List.mem_append]
        rcases hx with hx | hx
        · exact Or.inl ((h.mem x).1 hx)
        · exact Or.inr (by simpa using hx))
      simp only [List.length_append, List.length_map, List.length_singleton, Tab.items, List.length_range] at this
      omega
    simp only [hcnt, if_true]
    refine ⟨_, rfl, ?_⟩
    have hitems : (List.range (t.cnt + 1)).map (upd t.data t.cnt e) = t.items ++ [e] := by
      rw [List.range_succ, List.map_append]
      congr 1
      · apply List.map_congr_left
        intro k hk
        have := List.mem_range.1 hk
        simp only [upd]
        rw [if_neg (by omega)]
      · simp [upd]
    refine ⟨?_, ?_, ?_, ?_⟩
    · refine ⟨b.add t.cnt (slot jdim bufsize e.row e.col), by simp [Bins.add, b1], by simp [Bins.add, b1, b2], ?_⟩
      have hkey : (fun k => slot jdim bufsize (upd t.data t.cnt e k).row (upd t.data t.cnt e k).col) t.cnt = slot jdim bufsize e.row e.col := by
        simp [upd]
      rw [← hkey]
      apply binInv_add (key := fun k => slot jdim bufsize (upd t.data t.cnt e k).row (upd t.data t.cnt e k).col)
      refine binInv_congr b3 fun m hm => ?_
      simp only [upd]
      rw [if_neg (by omega)]
    · show (((List.range (t.cnt + 1)).map (upd t.data t.cnt e)).map pos).Nodup
      rw [hitems, List.map_append, List.nodup_append]
      refine ⟨h.nodup, by simp, ?_⟩
      intro a ha b hb' hab
      simp only [List.map_cons, List.map_nil, List.mem_singleton] at hb'
      rw [hab, hb'] at ha
      exact hnew ha
    · intro x
      show sumAt ((List.range (t.cnt + 1)).map (upd t.data t.cnt e)) x = _
      rw [hitems, sumAt_append, sumAt_append, h.sum]
    · intro x
      show x ∈ ((List.range (t.cnt + 1)).map (upd t.data t.cnt e)).map pos ↔ _
      rw [hitems, List.map_append, List.map_append, List.mem_append, List.mem_append, h.mem]

theorem accumulate_all [AddCommMonoid V] {jdim : Int} {bufsize : Nat} {t : Tab V} {P Q : List (El V)} (h : TabOk jdim bufsize t P)
    (hb : ∀ L : List (Int × Int), L.Nodup → (∀ x ∈ L, x ∈ (P ++ Q).map pos) → L.length ≤ bufsize) :
    ∃ t', Q.foldlM (accumulate jdim bufsize) t = some t' ∧ TabOk jdim bufsize t' (P ++ Q) := by
  induction Q generalizing t P with
  | nil => exact ⟨t, rfl, by simpa using h⟩
  | cons e Q ih =>
    obtain ⟨t1, h1, h2⟩ := accumulate_ok (e := e) h fun L hL hm => hb L hL fun x hx => by
      have := hm x hx
      simp only [List.map_append, List.mem_append, List.map_cons, List.map_nil, List.mem_cons, List.not_mem_nil, or_false] at this ⊢
      tauto
    obtain ⟨t2, h3, h4⟩ := ih h2 (by simpa using hb)
    refine ⟨t2, ?_, by simpa using h4⟩
    simp [List.foldlM_cons, h1, h3]

/-- a list of positions in `nrows` rows with at most `m` per row -/
theorem rows_bound {ilo : Int} {nrows m : Nat} {L : List (Int × Int)} (hr : ∀ x ∈ L, ilo ≤ x.1 ∧ x.1 < ilo + nrows)
    (hm : ∀ r, r < nrows → (L.filter fun x => x.1 = ilo + (r : Int)).length ≤ m) : L.length ≤ nrows * m := by
  induction nrows generalizing L with
  | zero =>
    cases L with
    | nil => simp
    | cons x L =>
      have := hr x List.mem_cons_self
      omega
  | succ n ih =>
    have h1 : L.length = (L.filter fun x => x.1 = ilo + (n : Int)).length + (L.filter fun x => ¬ x.1 = ilo + (n : Int)).length := by
      have := (List.filter_append_perm (fun x : Int × Int => decide (x.1 = ilo + (n : Int))) L).length_eq
      rw [List.length_append] at this
      rw [← this]
      congr 2
      apply List.filter_congr
      intro x _
      simp
    have h2 := ih (L := L.filter fun x => ¬ x.1 = ilo + (n : Int)) (by
      intro x hx
      obtain ⟨hx1, hx2⟩ := List.mem_filter.1 hx
      have := hr x hx1
      simp only [decide_eq_true_eq] at hx2
      omega) (by
      intro r hr'
      refine Nat.le_trans ?_ (hm r (by omega))
      rw [List.filter_filter]
      apply List.Sublist.length_le
      apply List.monotone_filter_right
      intro x hx
      simp only [Bool.and_eq_true] at hx
      exact hx.1)
    have h3 := hm n (by omega)
    rw [h1, Nat.succ_mul]
    omega

end GA.Sprs
