import Verif.Lemmas.SprsBins
import Mathlib.Data.List.Count

/-! # Lemmas: moving the elements of a sparse array to the owners of the rows -/

namespace GA.Sprs
open GA.Model GA.Spec.Sprs

theorem targets_nodup {n : Nat} {c : Nat → Nat} {me : Nat} : (targets n c me).Nodup := by
  refine List.Nodup.filter _ (List.Nodup.map_on ?_ List.nodup_range)
  intro a ha b hb h
  have ha := List.mem_range.1 ha
  have hb := List.mem_range.1 hb
  have h1 : ∀ a b : Nat, a < n → b < n → a ≤ b → (a + me) % n = (b + me) % n → a = b := by
    intro a b ha hb hab h
    have h2 : (b - a) % n = 0 := by
      have := Nat.sub_mod_eq_zero_of_mod_eq (m := b + me) (n := a + me) (k := n) h.symm
      rwa [show b + me - (a + me) = b - a by omega] at this
    rw [Nat.mod_eq_of_lt (by omega)] at h2
    omega
  rcases Nat.le_total a b with h' | h'
  · exact h1 a b ha hb h' h
  · exact (h1 b a hb ha h' h.symm).symm

theorem mem_targets {n : Nat} {c : Nat → Nat} {me q : Nat} (hme : me < n) : q ∈ targets n c me ↔ q < n ∧ 0 < c q := by
  simp only [targets, List.mem_filter, List.mem_map, List.mem_range, decide_eq_true_eq]
  constructor
  · rintro ⟨⟨i, hi, rfl⟩, h⟩
    exact ⟨Nat.mod_lt _ (by omega), h⟩
  · rintro ⟨hq, h⟩
    refine ⟨⟨(q + (n - me)) % n, Nat.mod_lt _ (by omega), ?_⟩, h⟩
    rw [Nat.mod_add_mod, show q + (n - me) + me = q + n by omega, Nat.add_mod_right, Nat.mod_eq_of_lt hq]

section
variable {n : Nat} {c : Nat → Nat → Nat}

theorem inter_mem {s : List Ev} (h : Interleaving n (fun p => targets n (c p) p) s) {p q : Nat} : (p, q) ∈ s ↔ p < n ∧ q < n ∧ 0 < c p q := by
  constructor
  · intro hm
    have hp := h.1 _ hm
    have h2 := h.2 p hp
    have : q ∈ (s.filter fun e => decide (e.1 = p)).map (·.2) := List.mem_map.2 ⟨(p, q), List.mem_filter.2 ⟨hm, by simp⟩, rfl⟩
    rw [h2] at this
    exact ⟨hp, (mem_targets hp).1 this⟩
  · rintro ⟨hp, hq⟩
    have h2 : _ = targets n (c p) p := h.2 p hp
    have := (mem_targets (c := c p) hp).2 hq
    rw [← h2] at this
    obtain ⟨⟨a, b⟩, hm, rfl⟩ := List.mem_map.1 this
    obtain ⟨hm', ha⟩ := List.mem_filter.1 hm
    have : a = p := by simpa using ha
    subst this
    exact hm'

theorem inter_nodup {s : List Ev} (h : Interleaving n (fun p => targets n (c p) p) s) : s.Nodup := by
  rw [List.nodup_iff_count_le_one]
  rintro ⟨p, q⟩
  by_cases hm : (p, q) ∈ s
  · have hp := h.1 _ hm
    have h2 : ((s.filter fun e => decide (e.1 = p)).map (·.2)).Nodup := by
      rw [h.2 p hp]
      exact targets_nodup
    have h3 := List.nodup_iff_count_le_one.1 (List.Nodup.of_map _ h2) (p, q)
    rwa [List.count_filter (by simp)] at h3
  · rw [List.count_eq_zero_of_not_mem hm]
    omega

/-! ## tickets -/

theorem tickets_append (s t : List Ev) : tickets c (s ++ t) = t.foldl (ticket c) (tickets c s) := by
  rw [tickets, tickets, List.foldl_append]

theorem next_cons (s : List Ev) (e : Ev) (q : Nat) :
    (tickets c (s ++ [e])).next q = (tickets c s).next q + if e.2 = q then c e.1 q else 0 := by
  rw [tickets_append]
  simp only [List.foldl_cons, List.foldl_nil, ticket, upd]
  by_cases h : q = e.2
  · subst h
    simp
  · simp [h, Ne.symm h]

theorem off_unchanged {p q : Nat} {t : List Ev} (h : (p, q) ∉ t) (T : Tickets) : (t.foldl (ticket c) T).off p q = T.off p q := by
  induction t generalizing T with
  | nil => rfl
  | cons e t ih =>
    rw [List.foldl_cons, ih (fun hm => h (List.mem_cons_of_mem _ hm))]
    simp only [ticket, upd]
    by_cases hp : p = e.1
    · subst hp
      by_cases hq : q = e.2
      · exact absurd (by rw [hq]; exact List.mem_cons_self) h
      · simp [upd, hq]
    · simp [hp]

theorem off_eq {p q : Nat} {pre suf : List Ev} (h : (p, q) ∉ suf) : (tickets c (pre ++ (p, q) :: suf)).off p q = (tickets c pre).next q := by
  rw [tickets_append, List.foldl_cons, off_unchanged h]
  simp [ticket, upd]

variable {α : Type}

/-- the content of the part of process `q` -/
def part (buf : Nat → Nat → List α) (s : List Ev) (q : Nat) : List α := (s.filter fun e => e.2 = q).flatMap fun e => buf e.1 q

theorem part_append (buf : Nat → Nat → List α) (s t : List Ev) (q : Nat) : part buf (s ++ t) q = part buf s q ++ part buf t q := by
  simp [part]

theorem part_cons (buf : Nat → Nat → List α) (p : Nat) (t : List Ev) (q : Nat) : part buf ((p, q) :: t) q = buf p q ++ part buf t q := by
  simp [part]

theorem part_length {buf : Nat → Nat → List α} (hb : ∀ p q, (buf p q).length = c p q) (s : List Ev) (q : Nat) :
    (part buf s q).length = (tickets c s).next q := by
  induction s using List.reverseRecOn with
  | nil => rfl
  | append_singleton s e ih =>
    rw [part_append, List.length_append, ih, next_cons]
    congr 1
    by_cases h : e.2 = q
    · simp [part, h, hb]
    · simp [part, h]

theorem ticket_split {s : List Ev} {q x : Nat} (h : x < (tickets c s).next q) :
    ∃ p pre suf, s = pre ++ (p, q) :: suf ∧ (tickets c pre).next q ≤ x ∧ x < (tickets c pre).next q + c p q := by
  induction s using List.reverseRecOn with
  | nil => simp [tickets] at h
  | append_singleton s e ih =>
    by_cases hx : x < (tickets c s).next q
    · obtain ⟨p, pre, suf, rfl, h2⟩ := ih hx
      exact ⟨p, pre, suf ++ [e], by simp, h2⟩
    · rw [next_cons] at h
      obtain ⟨p, q'⟩ := e
      by_cases hq : q' = q
      · subst hq
        simp only [if_true] at h
        exact ⟨p, s, [], rfl, by omega, h⟩
      · simp only [hq, if_false] at h
        omega

/-! ## puts -/

theorem puts_value {buf : Nat → Nat → List α} {lo : Nat → Nat → Nat} {x : Nat} {v : α} {s : List Ev} {g : Nat → α}
    (h1 : ∀ p q, (p, q) ∈ s → lo p q ≤ x → ∀ w, (buf p q)[x - lo p q]? = some w → w = v)
    (h2 : g x = v ∨ ∃ p q, (p, q) ∈ s ∧ lo p q ≤ x ∧ x < lo p q + (buf p q).length) : puts buf lo g s x = v := by
  induction s generalizing g with
  | nil =>
    rcases h2 with h2 | ⟨p, q, h, -⟩
    · exact h2
    · simp at h
  | cons e s ih =>
    obtain ⟨p, q⟩ := e
    simp only [puts, List.foldl_cons]
    refine ih (fun p q hm => h1 p q (List.mem_cons_of_mem _ hm)) ?_
    by_cases hlo : lo p q ≤ x
    · by_cases hx : x < lo p q + (buf p q).length
      · left
        have hx' : x - lo p q < (buf p q).length := by omega
        have := h1 p q List.mem_cons_self hlo _ (List.getElem?_eq_getElem hx')
        simp [putPiece, hlo, List.getElem?_eq_getElem hx', this]
      · rcases h2 with h2 | ⟨p', q', hm, h3⟩
        · left
          have : (buf p q)[x - lo p q]? = none := List.getElem?_eq_none (by omega)
          simp [putPiece, hlo, this, h2]
        · rcases List.mem_cons.1 hm with hm | hm
          · cases hm
            exact absurd h3.2 hx
          · exact Or.inr ⟨p', q', hm, h3⟩
    · rcases h2 with h2 | ⟨p', q', hm, h3⟩
      · left
        simp [putPiece, hlo, h2]
      · rcases List.mem_cons.1 hm with hm | hm
        · cases hm
          exact absurd h3.1 hlo
        · exact Or.inr ⟨p', q', hm, h3⟩

theorem mapOf_succ (size : Nat → Nat) (q : Nat) : mapOf size (q + 1) = mapOf size q + size q := by
  simp [mapOf, List.range_succ]

theorem mapOf_mono {size : Nat → Nat} {q r : Nat} (h : q < r) : mapOf size q + size q ≤ mapOf size r := by
  induction r with
  | zero => omega
  | succ r ih =>
    rw [mapOf_succ]
    by_cases hq : q = r
    · subst hq
      omega
    · have := ih (by omega)
      omega

/-- every process receives the pieces in the order of the tickets -/
theorem received {buf : Nat → Nat → List α} (hb : ∀ p q, (buf p q).length = c p q) {s1 s2 : List Ev}
    (h1 : Interleaving n (fun p => targets n (c p) p) s1) (h2 : Interleaving n (fun p => targets n (c p) p) s2) (g0 : Nat → α) (q : Nat) :
    ((List.range ((tickets c s1).next q)).map fun k =>
      puts buf (fun p q => mapOf (tickets c s1).next q + (tickets c s1).off p q) g0 s2 (mapOf (tickets c s1).next q + k)) = part buf s1 q := by
  apply List.ext_getElem
  · simp [part_length hb]
  · intro x hx hx'
    have hx : x < (tickets c s1).next q := by simpa using hx
    simp only [List.getElem_map, List.getElem_range]
    have hnd := inter_nodup h1
    have key : ∀ p q, (p, q) ∈ s1 → ∃ pre suf, s1 = pre ++ (p, q) :: suf ∧ (tickets c s1).off p q = (tickets c pre).next q ∧
        (tickets c pre).next q + c p q ≤ (tickets c s1).next q := by
      intro p q hm
      obtain ⟨pre, suf, hs⟩ := List.append_of_mem hm
      refine ⟨pre, suf, hs, ?_, ?_⟩
      · have : (p, q) ∉ suf := by
          rw [hs] at hnd
          exact (List.nodup_cons.1 (List.nodup_append.1 hnd).2.1).1
        conv_lhs => rw [hs]
        exact off_eq this
      · rw [← part_length hb, ← part_length hb, hs, part_append, part_cons, List.length_append, List.length_append, hb]
        omega
    apply puts_value
    · intro p q' hm hlo w hw
      have hm1 := (inter_mem h1).2 ((inter_mem h2).1 hm)
      obtain ⟨pre, suf, hs, ho, hle⟩ := key p q' hm1
      have hlen : mapOf (tickets c s1).next q + x - (mapOf (tickets c s1).next q' + (tickets c s1).off p q') < c p q' := by
        rw [← hb p q']
        exact (List.getElem?_eq_some_iff.1 hw).1
      have hq : q' = q := by
        rcases Nat.lt_trichotomy q' q with h | h | h
        · have := mapOf_mono (size := (tickets c s1).next) h
          omega
        · exact h
        · have := mapOf_mono (size := (tickets c s1).next) h
          omega
      subst hq
      have e : mapOf (tickets c s1).next q' + x - (mapOf (tickets c s1).next q' + (tickets c s1).off p q') = x - (tickets c pre).next q' := by omega
      rw [e] at hw
      obtain ⟨hw1, hw2⟩ := List.getElem?_eq_some_iff.1 hw
      have hpre : (part buf pre q').length ≤ x := by
        rw [part_length hb]
        omega
      subst hw2
      have hs' : part buf s1 q' = part buf pre q' ++ (buf p q' ++ part buf suf q') := by rw [hs, part_append, part_cons]
      have hbl := hb p q'
      simp only [hs']
      rw [List.getElem_append_right hpre, List.getElem_append_left (by rw [part_length hb]; omega)]
      simp only [part_length hb]
    · right
      obtain ⟨p, pre, suf, hs, hlo, hhi⟩ := ticket_split hx
      have hm1 : (p, q) ∈ s1 := by
        rw [hs]
        simp
      obtain ⟨pre', suf', hs', ho, -⟩ := key p q hm1
      have : (tickets c s1).off p q = (tickets c pre).next q := by
        have hni : (p, q) ∉ suf := by
          rw [hs] at hnd
          exact (List.nodup_cons.1 (List.nodup_append.1 hnd).2.1).1
        conv_lhs => rw [hs]
        exact off_eq hni
      refine ⟨p, q, (inter_mem h2).2 ((inter_mem h1).1 hm1), ?_, ?_⟩
      · omega
      · rw [hb]
        omega

theorem flatMap_filter_length {β : Type} (f : Nat → List β) (l : List Nat) : (l.filter fun p => 0 < (f p).length).flatMap f = l.flatMap f := by
  induction l with
  | nil => rfl
  | cons p l ih =>
    by_cases h : 0 < (f p).length
    · rw [List.filter_cons_of_pos (by simpa using h), List.flatMap_cons, List.flatMap_cons, ih]
    · rw [List.filter_cons_of_neg (by simpa using h), List.flatMap_cons, ih]
      have : f p = [] := by simpa using h
      simp [this]

theorem part_perm {buf : Nat → Nat → List α} (hb : ∀ p q, (buf p q).length = c p q) {s : List Ev}
    (h : Interleaving n (fun p => targets n (c p) p) s) {q : Nat} (hq : q < n) : (part buf s q).Perm ((List.range n).flatMap fun p => buf p q) := by
  have h1 : part buf s q = ((s.filter fun e => e.2 = q).map (·.1)).flatMap fun p => buf p q := by
    rw [part, List.flatMap_map]
  have h2 : ((s.filter fun e => decide (e.2 = q)).map (·.1)).Perm ((List.range n).filter fun p => 0 < (buf p q).length) := by
    rw [List.perm_ext_iff_of_nodup]
    · intro p
      simp only [List.mem_map, List.mem_filter, decide_eq_true_eq, List.mem_range, hb]
      constructor
      · rintro ⟨⟨p', q'⟩, ⟨hm, rfl⟩, rfl⟩
        have := (inter_mem h).1 hm
        exact ⟨this.1, this.2.2⟩
      · rintro ⟨hp, hc⟩
        exact ⟨(p, q), ⟨(inter_mem h).2 ⟨hp, hq, hc⟩, rfl⟩, rfl⟩
    · refine List.Nodup.map_on ?_ ((inter_nodup h).filter _)
      rintro ⟨a, b⟩ ha ⟨a', b'⟩ ha' hab
      have h1 := (List.mem_filter.1 ha).2
      have h2 := (List.mem_filter.1 ha').2
      simp only [decide_eq_true_eq] at h1 h2 hab
      rw [h1, h2, hab]
    · exact List.nodup_range.filter _
  rw [h1, ← flatMap_filter_length (fun p => buf p q) (List.range n)]
  exact h2.flatMap_right _

end

end GA.Sprs
