import Verif.Model.RegCache
import Mathlib.Tactic.Common

/-!
# C31: lookup of registered memory is unambiguous
-/

namespace GA
open Spec Model

/-- what callers respect: lengths of type `size_t`, and empty segments are not registered
(comex.c 1480, 2447) -/
def ROpOK : ROp → Prop
  | .register _ s => 0 < s.len
  | .deregister _ _ => True
  | .lookup _ _ n => 0 ≤ n

/-- do not overlap -/
def Apart (s t : Seg) : Prop := s.buf + s.len ≤ t.buf ∨ t.buf + t.len ≤ s.buf

/-- invariant of one list -/
structure ListOK (l : List Seg) : Prop where
  pos : ∀ s ∈ l, 0 < s.len
  nz : ∀ s ∈ l, s.buf ≠ 0
  apart : l.Pairwise Apart

theorem segContains_iff {s : Seg} {b n : Int} (hn : 0 ≤ n) :
    segContains s b n = true ↔ s.Contains b n := by
  unfold segContains Seg.Contains InRange Seg.Has
  simp only [Bool.and_eq_true, decide_eq_true_eq]
  constructor
  · rintro ⟨h1, h2⟩ a ha
    split at h2 <;> split at ha <;> omega
  · intro h
    have h1 := h b (by split <;> omega)
    have h2 := h (b + (if n = 0 then 1 else n) - 1) (by split <;> omega)
    split at h2 <;> split <;> omega

theorem apart_iff {s t : Seg} (hs : 0 < s.len) (ht : 0 < t.len) :
    Apart s t ↔ ∀ a, ¬ (s.Has a ∧ t.Has a) := by
  unfold Apart Seg.Has
  constructor
  · intro h a; omega
  · intro h
    have h1 := h s.buf
    have h2 := h t.buf
    omega

/-- the two tests of `reg_cache_insert` together detect every overlap -/
theorem overlap_iff {s t : Seg} (hs : 0 < s.len) (ht : 0 < t.len) :
    (segContains t s.buf s.len = false ∧ segIntersects t s.buf s.len = false) ↔ Apart t s := by
  unfold segContains segIntersects Apart
  have : ¬ s.buf = s.buf + s.len := by omega
  simp only [this, if_false, Bool.and_eq_false_iff, Bool.or_eq_false_iff, decide_eq_false_iff_not]
  omega

theorem noneContains_spec {b n : Int} {l : List Seg} (hb : b ≠ 0) (hz : ∀ s ∈ l, s.buf ≠ 0) :
    noneContains b n l = if (∀ s ∈ l, segContains s b n = false) then some () else none := by
  induction l with
  | nil => simp [noneContains]
  | cons s l ih =>
    have h0 := hz s (by simp)
    have ih' := ih fun s hs => hz s (by simp [hs])
    simp only [noneContains, entryContains, h0, hb, or_self, if_false]
    cases h : segContains s b n
    · simp [h, ih']
    · simp [h]

theorem findFirst_spec {b n : Int} {l : List Seg} (hb : b ≠ 0) (hz : ∀ s ∈ l, s.buf ≠ 0) :
    (findFirst b n l = some (none, []) ∧ ∀ s ∈ l, segContains s b n = false) ∨
    (∃ l1 s l2, l = l1 ++ s :: l2 ∧ segContains s b n = true ∧ findFirst b n l = some (some s, l2)) := by
  induction l with
  | nil => exact .inl ⟨rfl, by simp⟩
  | cons s l ih =>
    have h0 := hz s (by simp)
    simp only [findFirst, entryContains, h0, hb, or_self, if_false]
    cases h : segContains s b n
    · rcases ih fun s hs => hz s (by simp [hs]) with ⟨h1, h2⟩ | ⟨l1, t, l2, h1, h2, h3⟩
      · left; exact ⟨h1, by simpa [h] using h2⟩
      · right; exact ⟨s :: l1, t, l2, by rw [h1]; rfl, h2, h3⟩
    · right; exact ⟨[], s, l, rfl, h, rfl⟩

theorem findFirstI_spec {b n : Int} {l : List Seg} (hb : b ≠ 0) (hz : ∀ s ∈ l, s.buf ≠ 0) :
    (findFirstI b n l = some (none, []) ∧ ∀ s ∈ l, segIntersects s b n = false) ∨
    (∃ s ∈ l, segIntersects s b n = true ∧ ∃ l2, findFirstI b n l = some (some s, l2)) := by
  induction l with
  | nil => exact .inl ⟨rfl, by simp⟩
  | cons s l ih =>
    have h0 := hz s (by simp)
    simp only [findFirstI, entryIntersects, h0, hb, or_self, if_false]
    cases h : segIntersects s b n
    · rcases ih fun s hs => hz s (by simp [hs]) with ⟨h1, h2⟩ | ⟨t, h1, h2, l2, h3⟩
      · left; exact ⟨h1, by simpa [h] using h2⟩
      · right; exact ⟨t, by simp [h1], h2, l2, h3⟩
    · right; exact ⟨s, by simp, h, l, rfl⟩

/-- lookup in a well-formed list -/
theorem listFind_spec {l : List Seg} (hl : ListOK l) {b n : Int} (hb : b ≠ 0) (hn : 0 ≤ n) :
    (listFind l b n = some none ∧ ∀ s ∈ l, ¬ s.Contains b n) ∨
    (∃ s ∈ l, listFind l b n = some (some s) ∧ s.Contains b n) := by
  rcases findFirst_spec (n := n) hb hl.nz with ⟨h1, h2⟩ | ⟨l1, s, l2, h1, h2, h3⟩
  · left
    refine ⟨by simp [listFind, h1, noneContains], ?_⟩
    intro s hs hc
    have := h2 s hs
    rw [(segContains_iff hn).2 hc] at this
    simp at this
  · right
    have hs : s ∈ l := by rw [h1]; simp
    have hc := (segContains_iff hn).1 h2
    refine ⟨s, hs, ?_, hc⟩
    have hz2 : ∀ s ∈ l2, s.buf ≠ 0 := fun t ht => hl.nz t (by rw [h1]; simp [ht])
    have : ∀ t ∈ l2, segContains t b n = false := by
      intro t ht
      apply eq_false_of_ne_true
      intro hct
      have hct' := (segContains_iff hn).1 hct
      have hp := hl.apart
      rw [h1] at hp
      have hp2 := (List.pairwise_append.1 hp).2.1
      have hst := (List.pairwise_cons.1 hp2).1 t ht
      have hin : InRange b n b := by unfold InRange; split <;> omega
      exact (apart_iff (hl.pos s hs) (hl.pos t (by rw [h1]; simp [ht]))).1 hst b
        ⟨hc b hin, hct' b hin⟩
    simp only [listFind, h3, Option.bind_some]
    rw [noneContains_spec hb hz2, if_pos this]
    rfl

/-- removing the entry that starts at `b` -/
theorem unlink_spec {l : List Seg} (hl : ListOK l) (b : Int) :
    (unlink b l = none ∧ ∀ s ∈ l, s.buf ≠ b) ∨
    (∃ s ∈ l, s.buf = b ∧ ∃ l', unlink b l = some l' ∧ ListOK l' ∧ ∀ t, t ∈ l' ↔ t ∈ l ∧ t ≠ s) := by
  induction l with
  | nil => exact .inl ⟨rfl, by simp⟩
  | cons s l ih =>
    have hl' : ListOK l := ⟨fun t ht => hl.pos t (by simp [ht]), fun t ht => hl.nz t (by simp [ht]),
      (List.pairwise_cons.1 hl.apart).2⟩
    have hap := (List.pairwise_cons.1 hl.apart).1
    have hne : ∀ t ∈ l, t.buf ≠ s.buf := by
      intro t ht e
      have h1 := hap t ht
      have h2 := hl.pos s (by simp)
      have h3 := hl.pos t (by simp [ht])
      unfold Apart at h1
      omega
    by_cases h : s.buf = b
    · right
      refine ⟨s, by simp, h, l, by simp [unlink, h], hl', ?_⟩
      intro t
      constructor
      · intro ht
        exact ⟨by simp [ht], fun e => hne t ht (by rw [e])⟩
      · rintro ⟨ht, hts⟩
        rcases List.mem_cons.1 ht with e | ht
        · exact absurd e hts
        · exact ht
    · rcases ih hl' with ⟨h1, h2⟩ | ⟨t, ht, h1, l', h2, h3, h4⟩
      · left
        refine ⟨by simp [unlink, h, h1], ?_⟩
        intro t ht
        rcases List.mem_cons.1 ht with rfl | ht
        · exact h
        · exact h2 t ht
      · right
        have hts : s ≠ t := fun e => h (by rw [e]; exact h1)
        refine ⟨t, by simp [ht], h1, s :: l', by simp [unlink, h, h2], ?_, ?_⟩
        · refine ⟨?_, ?_, ?_⟩
          · intro u hu
            rcases List.mem_cons.1 hu with rfl | hu
            · exact hl.pos u (by simp)
            · exact h3.pos u hu
          · intro u hu
            rcases List.mem_cons.1 hu with rfl | hu
            · exact hl.nz u (by simp)
            · exact h3.nz u hu
          · exact List.pairwise_cons.2 ⟨fun u hu => hap u ((h4 u).1 hu).1, h3.apart⟩
        · intro u
          simp only [List.mem_cons, h4]
          constructor
          · rintro (rfl | ⟨h5, h6⟩)
            · exact ⟨.inl rfl, hts⟩
            · exact ⟨.inr h5, h6⟩
          · rintro ⟨rfl | h5, h6⟩
            · exact .inl rfl
            · exact .inr ⟨h5, h6⟩

/-- invariant of all caches -/
def CacheOK (C : RegCache) : Prop := ∀ r, ListOK (C.lists r)

/-- the abstract content of the cache -/
def content (C : RegCache) : RegSet := fun r s => s ∈ C.lists r

theorem rankOK_iff {C : RegCache} {r : Int} : rankOK C r = true ↔ 0 ≤ r ∧ r < C.nprocs := by
  simp [rankOK]

/-- every call is a correct step of the abstract registry -/
theorem regStep_spec {C : RegCache} (hC : CacheOK C) {o : ROp} (ho : ROpOK o) :
    CacheOK (regStep C o).2 ∧ (regStep C o).2.nprocs = C.nprocs ∧
    RStep C.nprocs (content C) o (regStep C o).1 (content (regStep C o).2) := by
  cases o with
  | register r s =>
    have ho' : 0 < s.len := ho
    simp only [regStep, regInsert]
    by_cases hr : rankOK C r = true
    swap
    · simp only [eq_false_of_ne_true hr, Bool.not_false, if_true]
      exact ⟨hC, by trivial, .registerBad (.inl fun h => hr (rankOK_iff.2 h))⟩
    have hr' := rankOK_iff.1 hr
    simp only [hr, Bool.not_true, Bool.false_eq_true, if_false]
    by_cases hb : s.buf = 0
    · simp only [hb, if_true]
      exact ⟨hC, by trivial, .registerBad (.inr (.inl hb))⟩
    simp only [hb, if_false, show ¬ s.len < 0 by omega]
    have hl := hC r
    rcases listFind_spec hl hb (Int.le_of_lt ho') with ⟨h1, h2⟩ | ⟨t, ht, h1, h2⟩
    swap
    · rw [h1]
      refine ⟨hC, by trivial, .registerBad (.inr (.inr ⟨t, s.buf, ht, ?_, ?_⟩))⟩
      · apply h2
        unfold InRange; split <;> omega
      · unfold Seg.Has; omega
    rw [h1]
    simp only
    rcases findFirstI_spec (n := s.len) hb hl.nz with ⟨k1, k2⟩ | ⟨t, ht, k1, l2, k2⟩
    swap
    · have : ∀ x, listFindI (C.lists r) s.buf s.len = some x → x = some t := by
        intro x
        simp only [listFindI, k2, Option.bind_some, Option.map_eq_some_iff]
        rintro ⟨_, _, rfl⟩; rfl
      have key : ∃ a, t.Has a ∧ s.Has a := by
        have hov := (overlap_iff ho' (hl.pos t ht)).not.1 (by rw [k1]; simp)
        rw [apart_iff (hl.pos t ht) ho'] at hov
        simpa using hov
      obtain ⟨a, ha⟩ := key
      split
      · rename_i heq
        split at heq
        · rename_i hx
          have := this _ hx
          simp at this
        · simp at heq
      · exact ⟨hC, by trivial, .registerBad (.inr (.inr ⟨t, a, ht, ha⟩))⟩
    have hI : listFindI (C.lists r) s.buf s.len = some none := by
      simp [listFindI, k1, noneContains]
    rw [hI]
    simp only
    have hap : ∀ t ∈ C.lists r, Apart t s := by
      intro t ht
      apply (overlap_iff ho' (hl.pos t ht)).1
      refine ⟨?_, k2 t ht⟩
      apply eq_false_of_ne_true
      intro hc
      exact h2 t ht ((segContains_iff (Int.le_of_lt ho')).1 hc)
    refine ⟨?_, rfl, ?_⟩
    · intro r'
      simp only [setList]
      split
      · refine ⟨?_, ?_, ?_⟩
        · intro t ht
          rcases List.mem_append.1 ht with ht | ht
          · exact hl.pos t ht
          · rw [List.mem_singleton.1 ht]; exact ho'
        · intro t ht
          rcases List.mem_append.1 ht with ht | ht
          · exact hl.nz t ht
          · rw [List.mem_singleton.1 ht]; exact hb
        · rw [List.pairwise_append]
          exact ⟨hl.apart, by simp, by simpa using hap⟩
      · exact hC r'
    · have e : content (setList C r (C.lists r ++ [s])) = fun r' t => content C r' t ∨ (r' = r ∧ t = s) := by
        funext r' t
        simp only [content, setList, eq_iff_iff]
        by_cases hrr : r' = r
        · subst hrr; simp
        · simp [hrr]
      rw [e]
      refine .registerOk hr'.1 hr'.2 hb ?_
      intro t ht
      exact (apart_iff (hl.pos t ht) ho').1 (hap t ht)
  | deregister r b =>
    simp only [regStep, regDelete]
    by_cases hr : rankOK C r = true
    swap
    · simp only [eq_false_of_ne_true hr, Bool.not_false, if_true]
      exact ⟨hC, by trivial, .deregisterBad (.inl fun h => hr (rankOK_iff.2 h))⟩
    have hr' := rankOK_iff.1 hr
    simp only [hr, Bool.not_true, Bool.false_eq_true, if_false]
    by_cases hb : b = 0
    · simp only [hb, if_true]
      exact ⟨hC, by trivial, .deregisterBad (.inr (.inl rfl))⟩
    simp only [hb, if_false]
    have hl := hC r
    rcases unlink_spec hl b with ⟨h1, h2⟩ | ⟨s, hs, h1, l', h2, h3, h4⟩
    · rw [h1]
      have hbad : RStep C.nprocs (content C) (.deregister r b) .abort (content C) :=
        .deregisterBad (.inr (.inr h2))
      rcases listFind_spec hl hb (Int.le_refl 0) with ⟨k1, _⟩ | ⟨t, _, k1, _⟩ <;>
        simp only [k1, Option.map_none] <;> exact ⟨hC, by trivial, hbad⟩
    · have hf : ∃ t, listFind (C.lists r) b 0 = some (some t) := by
        rcases listFind_spec hl hb (Int.le_refl 0) with ⟨_, k2⟩ | ⟨t, _, k1, _⟩
        · exfalso
          apply k2 s hs
          intro a ha
          have := hl.pos s hs
          unfold InRange at ha
          unfold Seg.Has
          simp only [if_true] at ha
          omega
        · exact ⟨t, k1⟩
      obtain ⟨t, ht⟩ := hf
      simp only [ht, h2, Option.map_some]
      refine ⟨?_, rfl, ?_⟩
      · intro r'
        simp only [setList]
        split
        · exact h3
        · exact hC r'
      · have e : content (setList C r l') = fun r' t => content C r' t ∧ ¬ (r' = r ∧ t = s) := by
          funext r' t
          simp only [content, setList, eq_iff_iff]
          by_cases hrr : r' = r
          · subst hrr; simp [h4]
          · simp [hrr]
        rw [e]
        exact .deregisterOk s hr'.1 hr'.2 hs h1
  | lookup r b n =>
    have ho' : 0 ≤ n := ho
    simp only [regStep]
    by_cases hr : rankOK C r = true
    swap
    · simp only [eq_false_of_ne_true hr, Bool.not_false, if_true]
      exact ⟨hC, by trivial, .lookupBad (.inl fun h => hr (rankOK_iff.2 h))⟩
    have hr' := rankOK_iff.1 hr
    simp only [hr, Bool.not_true, Bool.false_eq_true, if_false]
    have hl := hC r
    by_cases hb : b = 0
    · cases hlist : C.lists r with
      | nil =>
        simp only [listFind, findFirst, Option.bind_some, noneContains, Option.map_some]
        exact ⟨hC, by trivial, .lookupNone hr'.1 hr'.2 (by simp [content, hlist])⟩
      | cons s l =>
        simp only [listFind, findFirst, entryContains, hb, or_true, if_true, Option.bind_none]
        exact ⟨hC, by trivial, .lookupBad (.inr rfl)⟩
    · rcases listFind_spec hl hb ho' with ⟨h1, h2⟩ | ⟨s, hs, h1, h2⟩
      · rw [h1]; exact ⟨hC, by trivial, .lookupNone hr'.1 hr'.2 h2⟩
      · rw [h1]; exact ⟨hC, by trivial, .lookupSome s hr'.1 hr'.2 hb hs h2⟩

theorem regRun_spec {C : RegCache} (hC : CacheOK C) (os : List ROp) (ho : ∀ o ∈ os, ROpOK o) :
    CacheOK (regRun C os).2 ∧
    RRun C.nprocs (content C) (regRun C os).1 (content (regRun C os).2) := by
  induction os generalizing C with
  | nil => exact ⟨hC, .nil⟩
  | cons o os ih =>
    obtain ⟨h1, h2, h3⟩ := regStep_spec hC (ho o (by simp))
    obtain ⟨h4, h5⟩ := ih h1 fun o ho' => ho o (by simp [ho'])
    simp only [regRun]
    split
    · rename_i ha
      rw [ha] at h3
      exact ⟨h1, .cons h3 .nil⟩
    · rw [h2] at h5
      exact ⟨h4, .cons h3 h5⟩

/-- **C31.** Every history of calls shows only answers of the abstract registry: registration
aborts exactly on overlap (or an invalid argument), lookup finds the segment that contains the
range and only fails if there is none, deregistration removes exactly the segment that starts at
the given address. -/
theorem C31_registry (nprocs : Int) (os : List ROp) (ho : ∀ o ∈ os, ROpOK o) :
    ∃ S, RRun nprocs (fun _ _ => False) (regRun (rcInit nprocs) os).1 S := by
  have h0 : CacheOK (rcInit nprocs) := fun r => ⟨by simp [rcInit], by simp [rcInit], by simp [rcInit]⟩
  have e : content (rcInit nprocs) = fun _ _ => False := by
    funext r s; simp [content, rcInit]
  have := (regRun_spec h0 os ho).2
  rw [e] at this
  exact ⟨_, this⟩


/-- **C31 (no overlap).** After every history the registered segments of one process are pairwise
disjoint, so at most one segment contains a given address. -/
theorem C31_disjoint (nprocs : Int) (os : List ROp) (ho : ∀ o ∈ os, ROpOK o) :
    ∀ r s t, s ∈ (regRun (rcInit nprocs) os).2.lists r → t ∈ (regRun (rcInit nprocs) os).2.lists r →
      s ≠ t → ∀ a, ¬ (s.Has a ∧ t.Has a) := by
  have h0 : CacheOK (rcInit nprocs) := fun r => ⟨by simp [rcInit], by simp [rcInit], by simp [rcInit]⟩
  have h := (regRun_spec h0 os ho).1
  intro r s t hs ht hne
  have hl := h r
  have : ∀ (l : List Seg), l.Pairwise Apart → s ∈ l → t ∈ l → Apart s t ∨ Apart t s := by
    intro l hp hs ht
    induction l with
    | nil => simp at hs
    | cons u l ih =>
      obtain ⟨p1, p2⟩ := List.pairwise_cons.1 hp
      rcases List.mem_cons.1 hs with e1 | h1
      · rcases List.mem_cons.1 ht with e2 | h2
        · exact absurd (e1.trans e2.symm) hne
        · exact .inl (e1 ▸ p1 t h2)
      · rcases List.mem_cons.1 ht with e2 | h2
        · exact .inr (e2 ▸ p1 s h1)
        · exact ih p2 h1 h2
  rcases this _ hl.apart hs ht with h1 | h1
  · exact (apart_iff (hl.pos s hs) (hl.pos t ht)).1 h1
  · intro a ha
    exact (apart_iff (hl.pos t ht) (hl.pos s hs)).1 h1 a ⟨ha.2, ha.1⟩

/-! Non-vacuity: register two neighbours, look up across and inside, deregister, look up again;
a registration inside a free gap, and one strictly inside an existing segment. -/

example : ((regRun (rcInit 2) [.register 1 ⟨100, 50, 1⟩, .register 1 ⟨150, 10, 2⟩,
    .lookup 1 149 1, .lookup 1 149 2, .lookup 1 150 0, .lookup 0 150 0, .deregister 1 100,
    .lookup 1 120 4, .register 1 ⟨90, 60, 3⟩, .register 1 ⟨95, 2, 4⟩, .lookup 1 95 1]).1.map (·.2)) =
    [.done, .done, .found (some ⟨100, 50, 1⟩), .found none, .found (some ⟨150, 10, 2⟩), .found none,
      .done, .found none, .done, .abort] := by decide

end GA
