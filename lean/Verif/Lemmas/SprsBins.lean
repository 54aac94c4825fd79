import Verif.Model.SprsArray
import Mathlib.Data.List.Nodup
import Mathlib.Data.List.Induction
import Mathlib.Data.List.Perm.Basic

/-! # Lemmas: linked lists of the sparse array code -/

namespace GA.Sprs
open GA.Model

/-- following the links from `h` visits `ks` -/
def Linked (list : Nat → Int) : (h : Int) → (ks : List Nat) → Prop
  | h, [] => h = -1
  | h, k :: ks => h = k ∧ Linked list (list k) ks

theorem linked_upd {list : Nat → Int} {h : Int} {ks : List Nat} {i : Nat} {v : Int} (hc : Linked list h ks) (hi : i ∉ ks) :
    Linked (upd list i v) h ks := by
  induction ks generalizing h with
  | nil => exact hc
  | cons k ks ih =>
    simp only [List.mem_cons, not_or] at hi
    refine ⟨hc.1, ?_⟩
    have : upd list i v k = list k := by simp [upd, Ne.symm hi.1]
    rw [this]
    exact ih hc.2 hi.2

theorem walk_linked {list : Nat → Int} {h : Int} {ks : List Nat} (hc : Linked list h ks) {f : Nat} (hf : ks.length ≤ f) :
    Bins.walk list f h = ks := by
  induction ks generalizing h f with
  | nil =>
    have : h = -1 := hc
    subst this
    cases f <;> simp [Bins.walk]
  | cons k ks ih =>
    obtain ⟨f, rfl⟩ : ∃ g, f = g + 1 := ⟨f - 1, by simp at hf; omega⟩
    obtain ⟨rfl, h2⟩ := hc
    simp only [Bins.walk, Int.natCast_nonneg, if_true, Int.toNat_natCast]
    rw [ih h2 (by simpa using hf)]

/-- the bins after `i` elements with keys `key 0, key 1, ..` -/
def BinInv (key : Nat → Nat) (i : Nat) (b : Bins) : Prop :=
  ∀ q, Linked b.list (b.top q) ((List.range i).filter fun k => key k = q).reverse ∧ b.count q = ((List.range i).filter fun k => key k = q).length

theorem binInv_empty (key : Nat → Nat) (raw : Nat → Int) : BinInv key 0 (Bins.empty raw) := fun _ => ⟨rfl, rfl⟩

theorem binInv_add {key : Nat → Nat} {i : Nat} {b : Bins} (h : BinInv key i b) : BinInv key (i + 1) (b.add i (key i)) := by
  intro q
  have hni : ∀ q, i ∉ ((List.range i).filter fun k => key k = q).reverse := by simp
  obtain ⟨h1, h2⟩ := h q
  rw [List.range_succ, List.filter_append]
  by_cases hq : key i = q
  · subst hq
    simp only [decide_true, List.filter_cons_of_pos, List.filter_nil, List.reverse_append, List.reverse_cons, List.reverse_nil, List.nil_append,
      List.cons_append, List.length_append, List.length_cons, List.length_nil]
    refine ⟨⟨by simp [Bins.add, upd], ?_⟩, ?_⟩
    · have : (b.add i (key i)).list i = b.top (key i) := by simp [Bins.add, upd]
      rw [this]
      exact linked_upd h1 (hni _)
    · simp [Bins.add, upd, h2]
  · have hf : ([i].filter fun k => decide (key k = q)) = [] := by simp [hq]
    rw [hf, List.append_nil]
    have ht : (b.add i (key i)).top q = b.top q := by simp [Bins.add, upd, Ne.symm hq]
    refine ⟨?_, ?_⟩
    · rw [ht]
      exact linked_upd h1 (hni _)
    · rw [← h2]
      simp [Bins.add, upd, Ne.symm hq]

theorem binInv_addAll {key : Nat → Nat} {ks : List Nat} {i : Nat} {b : Bins} (h : BinInv key i b) (hk : ∀ n (hn : n < ks.length), ks[n] = key (i + n)) :
    BinInv key (i + ks.length) (Bins.addAll ks i b) := by
  induction ks generalizing i b with
  | nil => simpa [Bins.addAll] using h
  | cons q qs ih =>
    have h0 := hk 0 (by simp)
    simp only [List.getElem_cons_zero, Nat.add_zero] at h0
    have := ih (i := i + 1) (b := b.add i q) (by rw [h0]; exact binInv_add h) (fun n hn => by
      have := hk (n + 1) (by simpa using hn)
      simpa [Nat.add_assoc, Nat.add_comm 1 n] using this)
    simpa [Bins.addAll, Nat.add_assoc, Nat.add_comm 1] using this

theorem bin_inv {α : Type} (raw : Nat → Int) (key : α → Nat) (es : List α) :
    BinInv (fun k => ((es.map key)[k]?).getD 0) es.length (Bins.addAll (es.map key) 0 (Bins.empty raw)) := by
  have := binInv_addAll (ks := es.map key) (i := 0) (binInv_empty (fun k => ((es.map key)[k]?).getD 0) raw) (fun n hn => by
    rw [Nat.zero_add, List.getElem?_eq_getElem hn]
    rfl)
  simpa using this

theorem range_filter_items {α : Type} (key : α → Nat) (es : List α) (q : Nat) :
    ((List.range es.length).filter fun k => ((es.map key)[k]?).getD 0 = q).filterMap (es[·]?) = es.filter fun e => key e = q := by
  induction es using List.reverseRecOn with
  | nil => rfl
  | append_singleton es e ih =>
    rw [List.length_append, List.length_singleton, List.range_succ, List.filter_append, List.filterMap_append, List.filter_append]
    congr 1
    · rw [← ih]
      have h1 : ((List.range es.length).filter fun k => (((es ++ [e]).map key)[k]?).getD 0 = q)
          = (List.range es.length).filter fun k => ((es.map key)[k]?).getD 0 = q := by
        apply List.filter_congr
        intro k hk
        have hk := List.mem_range.1 hk
        rw [List.map_append, List.getElem?_append_left (by simpa using hk)]
      rw [h1]
      apply List.filterMap_congr
      intro k hk
      have hk := List.mem_range.1 (List.mem_filter.1 hk).1
      rw [List.getElem?_append_left hk]
    · by_cases h : key e = q
      · simp [h]
      · simp [h]

theorem length_filterMap_isSome {α β : Type} {f : α → Option β} {l : List α} (h : ∀ a ∈ l, (f a).isSome) : (l.filterMap f).length = l.length := by
  induction l with
  | nil => rfl
  | cons a l ih =>
    obtain ⟨b, hb⟩ := Option.isSome_iff_exists.1 (h a List.mem_cons_self)
    rw [List.filterMap_cons_some hb, List.length_cons, List.length_cons, ih fun a ha => h a (List.mem_cons_of_mem _ ha)]

theorem binned_eq {α : Type} (raw : Nat → Int) (key : α → Nat) (es : List α) (q : Nat) :
    binned raw key es q = (es.filter fun e => key e = q).reverse := by
  obtain ⟨h1, -⟩ := bin_inv raw key es q
  have hl : ((List.range es.length).filter fun k => ((es.map key)[k]?).getD 0 = q).reverse.length ≤ es.length := by
    rw [List.length_reverse]
    exact Nat.le_trans (List.length_filter_le _ _) (by simp)
  simp only [binned]
  rw [walk_linked h1 hl, ← range_filter_items key es q, ← List.filterMap_reverse]

theorem binCount_eq {α : Type} (raw : Nat → Int) (key : α → Nat) (es : List α) (q : Nat) :
    binCount raw key es q = (es.filter fun e => key e = q).length := by
  obtain ⟨-, h2⟩ := bin_inv raw key es q
  rw [binCount, h2, ← range_filter_items key es q]
  refine (length_filterMap_isSome fun k hk => ?_).symm
  have hk := List.mem_range.1 (List.mem_filter.1 hk).1
  simp [List.getElem?_eq_getElem hk]

theorem binTop_eq {α : Type} (raw : Nat → Int) (key : α → Nat) (es : List α) (q : Nat) :
    0 ≤ binTop raw key es q ↔ (es.filter fun e => key e = q) ≠ [] := by
  obtain ⟨h1, -⟩ := bin_inv raw key es q
  rw [binTop]
  have hb := binned_eq raw key es q
  simp only [binned] at hb
  generalize hks : ((List.range es.length).filter fun k => ((es.map key)[k]?).getD 0 = q).reverse = ks at h1
  have hl : ks.length ≤ es.length := by
    rw [← hks, List.length_reverse]
    exact Nat.le_trans (List.length_filter_le _ _) (by simp)
  rw [walk_linked h1 hl] at hb
  cases ks with
  | nil =>
    have h1 : _ = (-1 : Int) := h1
    rw [h1]
    have : (es.filter fun e => decide (key e = q)) = [] := by simpa using hb.symm
    simp [this]
  | cons k ks =>
    rw [h1.1]
    refine ⟨fun _ h => ?_, fun _ => Int.natCast_nonneg _⟩
    rw [h] at hb
    have hk : k < es.length := by
      have : k ∈ ((List.range es.length).filter fun k => ((es.map key)[k]?).getD 0 = q).reverse := by rw [hks]; simp
      exact List.mem_range.1 (List.mem_filter.1 (List.mem_reverse.1 this)).1
    simp [List.getElem?_eq_getElem hk] at hb

end GA.Sprs
