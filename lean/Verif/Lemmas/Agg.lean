import Mathlib.Data.List.Perm.Basic
import Mathlib.Data.List.Nodup
import Verif.Model.Agg

/-! # Lemmas: aggregated requests -/

namespace GA.Model.Agg
open Spec.Agg

/-- the descriptors use the pointers one after another -/
def Chain : List Descr → Nat → Prop
  | [], s => s = 0
  | d :: ds, s => s = d.start + d.len ∧ Chain ds d.start

/-- a buffer in use -/
structure BufOK (b : Buf) : Prop where
  chain : Chain b.darr b.ptrLen
  ptrs : b.ptrLen ≤ 256
  low : 24 + 24 * (b.darr.length : Int) ≤ b.bufEnd
  high : b.bufEnd ≤ 2048

theorem segments_congr {p q : Nat → Src × Int} {ds : List Descr} {s : Nat} (h : Chain ds s) (he : ∀ x, x < s → p x = q x) : segments p ds = segments q ds := by
  induction ds generalizing s with
  | nil => rfl
  | cons d ds ih =>
    obtain ⟨h1, h2⟩ := h
    rw [segments, segments, ih h2 fun x hx => he x (by omega)]
    congr 1
    refine List.map_congr_left fun j hj => ?_
    have := List.mem_range.1 hj
    rw [he _ (by omega)]

theorem addTo_spec {b : Buf} {bytes m : Nat} {reg new : Bool} (seg : Nat → Src × Int) (h : BufOK b) (hnew : new = false → b.darr.head?.map Descr.bytes = some bytes)
    (hroom : 24 + 24 * (b.darr.length : Int) + (if reg then (bytes : Int) else 0) + (if new then 24 else 0) ≤ b.bufEnd) (hm : b.ptrLen + m ≤ 256) :
    BufOK (addTo b new bytes m reg seg) ∧ (addTo b new bytes m reg seg).tag = b.tag ∧ (addTo b new bytes m reg seg).proc = b.proc ∧
    segments (addTo b new bytes m reg seg).ptrs (addTo b new bytes m reg seg).darr = segments b.ptrs b.darr ++ (List.range m).map fun j => (seg j, bytes) := by
  have hreg : 0 ≤ (if reg then (bytes : Int) else 0) := by split <;> omega
  have hh := h.high
  have key : ∀ (x : Nat) (d : Descr), d.start + d.len ≤ x → x < d.start + d.len + m →
      (if d.start + d.len ≤ x ∧ x < d.start + d.len + m then seg (x - (d.start + d.len)) else b.ptrs x) = seg (x - (d.start + d.len)) := fun x d h1 h2 => if_pos ⟨h1, h2⟩
  cases new with
  | true =>
    simp only [if_true] at hroom
    refine ⟨⟨⟨?_, h.chain⟩, hm, ?_, ?_⟩, rfl, rfl, ?_⟩
    · simp [addTo]
    · simp only [addTo, if_true, List.length_cons]
      push_cast
      omega
    · simp only [addTo, if_true]
      omega
    · simp only [addTo, if_true, segments]
      congr 1
      · exact segments_congr h.chain fun x hx => if_neg (by omega)
      · rw [Nat.zero_add]
        refine List.map_congr_left fun j hj => ?_
        have := List.mem_range.1 hj
        rw [if_pos (by omega)]
        congr 2
        omega
  | false =>
    have hb := hnew rfl
    cases hd : b.darr with
    | nil => rw [hd] at hb; simp at hb
    | cons d ds =>
      rw [hd] at hb
      have hbytes : d.bytes = bytes := by simpa using hb
      have hc := h.chain
      rw [hd] at hc
      obtain ⟨c1, c2⟩ := hc
      have hl := h.low
      rw [hd] at hroom hl
      simp only [List.length_cons, Bool.false_eq_true, if_false] at hroom hl
      push_cast at hroom hl
      have hadd : addTo b false bytes m reg seg = { b with
          darr := { d with len := d.len + m } :: ds
          bufEnd := b.bufEnd - (if reg then (bytes : Int) else 0)
          ptrLen := b.ptrLen + m
          ptrs := fun x => if d.start + d.len ≤ x ∧ x < d.start + d.len + m then seg (x - (d.start + d.len)) else b.ptrs x } := by
        simp [addTo, hd]
      rw [hadd]
      refine ⟨⟨⟨?_, c2⟩, hm, ?_, ?_⟩, rfl, rfl, ?_⟩
      · dsimp only; omega
      · simp only [List.length_cons]; push_cast; omega
      · dsimp only; omega
      · simp only [segments]
        rw [List.range_add, List.map_append, List.map_map, ← List.append_assoc]
        congr 1
        · congr 1
          · exact segments_congr c2 fun x hx => if_neg (by omega)
          · refine List.map_congr_left fun j hj => ?_
            have := List.mem_range.1 hj
            rw [if_neg (by omega)]
        · refine List.map_congr_left fun j hj => ?_
          have := List.mem_range.1 hj
          simp only [Function.comp]
          rw [if_pos (by omega), hbytes]
          congr 2
          omega

/-- `A h` is what has been asked for under handle `h` -/
structure Inv (s : St) (A : Nat → List Item) : Prop where
  pool : (s.used ++ s.avail).Perm (List.range (s.used.length + s.avail.length))
  small : s.used.length + s.avail.length ≤ 32
  tagle : ∀ h, 0 ≤ (s.hdl h).proc → (s.hdl h).tag ≤ s.tags
  taginj : ∀ h h', 0 ≤ (s.hdl h).proc → 0 ≤ (s.hdl h').proc → (s.hdl h).tag = (s.hdl h').tag → h = h'
  own : ∀ i ∈ s.used, ∃ h, 0 ≤ (s.hdl h).proc ∧ (s.buf i).tag = (s.hdl h).tag ∧ (s.buf i).proc = (s.hdl h).proc
  uniq : ∀ i ∈ s.used, ∀ j ∈ s.used, (s.buf i).tag = (s.buf j).tag → i = j
  ok : ∀ i ∈ s.used, BufOK (s.buf i)
  free : ∀ i ∈ s.avail, (s.buf i).darr = [] ∧ (s.buf i).ptrLen = 0 ∧ (s.buf i).bufEnd = 2048
  idle : ∀ h, (s.hdl h).proc < 0 → sent s h = A h
  fresh : ∀ h, 0 ≤ (s.hdl h).proc → (∀ i ∈ s.used, (s.buf i).tag ≠ (s.hdl h).tag) → sent s h = A h
  busy : ∀ h, 0 ≤ (s.hdl h).proc → ∀ i ∈ s.used, (s.buf i).tag = (s.hdl h).tag →
    sent s h ++ (segments (s.buf i).ptrs (s.buf i).darr).map (item (s.hdl h)) = A h

variable {s : St} {A : Nat → List Item} {h i : Nat}

theorem Inv.proc_eq (H : Inv s A) (ha : 0 ≤ (s.hdl h).proc) (hi : i ∈ s.used) (ht : (s.buf i).tag = (s.hdl h).tag) : (s.buf i).proc = (s.hdl h).proc := by
  obtain ⟨k, k1, k2, k3⟩ := H.own i hi
  rw [k3, H.taginj k h k1 ha (by rw [← k2, ht])]

theorem Inv.nodup (H : Inv s A) : (s.used ++ s.avail).Nodup := H.pool.nodup_iff.2 List.nodup_range

theorem find_some (hf : findBuf s h = some i) : i ∈ s.used ∧ (s.buf i).tag = (s.hdl h).tag ∧ (s.buf i).proc = (s.hdl h).proc := by
  have h1 := List.mem_of_find?_eq_some hf
  have h2 := List.find?_some hf
  exact ⟨List.mem_reverse.1 h1, by simpa using h2⟩

theorem find_none (hf : findBuf s h = none) (hi : i ∈ s.used) (ht : (s.buf i).tag = (s.hdl h).tag) : (s.buf i).proc ≠ (s.hdl h).proc := by
  intro hp
  have := List.find?_eq_none.1 hf i (List.mem_reverse.2 hi)
  simp [ht, hp] at this

theorem Inv.find (H : Inv s A) (ha : 0 ≤ (s.hdl h).proc) (hi : i ∈ s.used) (ht : (s.buf i).tag = (s.hdl h).tag) : findBuf s h = some i := by
  cases hf : findBuf s h with
  | none => exact absurd (H.proc_eq ha hi ht) (find_none hf hi ht)
  | some j =>
    obtain ⟨j1, j2, -⟩ := find_some hf
    rw [H.uniq i hi j j1 (by rw [ht, j2])]

theorem Inv.find_idle (H : Inv s A) (ha : (s.hdl h).proc < 0) : findBuf s h = none := by
  cases hf : findBuf s h with
  | none => rfl
  | some j =>
    obtain ⟨j1, j2, j3⟩ := find_some hf
    obtain ⟨k, k1, k2, k3⟩ := H.own j j1
    omega

theorem start_inv (raw : Nat → Buf) : Inv (start raw) fun _ => [] := by
  constructor <;> simp [start, sent]

theorem init_inv (H : Inv s A) {put : Bool} {proc : Nat} {s' : St} (hs : initHandle s h put proc = some s') :
    Inv s' A ∧ (s'.hdl h).put = put ∧ (s'.hdl h).proc = proc ∧ s'.log = s.log := by
  unfold initHandle at hs
  split at hs
  · rename_i hn
    cases hs
    have hk : ∀ k, k ≠ h → (if k = h then (⟨s.tags + 1, put, proc⟩ : Hdl) else s.hdl k) = s.hdl k := fun k hk => if_neg hk
    have hnew : ∀ i ∈ s.used, (s.buf i).tag ≤ s.tags := fun i hi => by
      obtain ⟨k, k1, k2, -⟩ := H.own i hi
      rw [k2]
      exact H.tagle k k1
    refine ⟨⟨H.pool, H.small, ?_, ?_, ?_, H.uniq, H.ok, H.free, ?_, ?_, ?_⟩, by simp, by simp, rfl⟩
    · intro k
      dsimp only
      split
      · intro _; dsimp only; omega
      · intro h1
        have := H.tagle k h1
        omega
    · intro k k'
      dsimp only
      split <;> split
      · intros; omega
      · intro _ h2 h3
        have := H.tagle k' h2
        dsimp only at h3
        omega
      · intro h1 _ h3
        have := H.tagle k h1
        dsimp only at h3
        omega
      · exact H.taginj k k'
    · intro i hi
      obtain ⟨k, k1, k2, k3⟩ := H.own i hi
      refine ⟨k, ?_⟩
      dsimp only
      rw [hk k (by rintro rfl; omega)]
      exact ⟨k1, k2, k3⟩
    · intro k
      dsimp only
      split
      · dsimp only; intro; omega
      · exact H.idle k
    · intro k
      dsimp only
      split
      · rename_i hkh
        intro _ _
        rw [hkh]
        exact H.idle h hn
      · exact H.fresh k
    · intro k
      dsimp only
      split
      · intro _ i hi ht
        have := hnew i hi
        dsimp only at ht
        omega
      · exact H.busy k
  · split at hs
    · cases hs
    · split at hs
      · cases hs
      · cases hs
        rename_i h1 h2 h3
        exact ⟨H, by simpa using h2, by simpa using h3, rfl⟩

theorem bufferId_inv (H : Inv s A) (ha : 0 ≤ (s.hdl h).proc) {s' : St} (hs : bufferId s h = some (s', i)) :
    Inv s' A ∧ i ∈ s'.used ∧ s'.hdl = s.hdl ∧ (s'.buf i).tag = (s.hdl h).tag := by
  unfold bufferId at hs
  -- adding buffer `i`, which nobody uses
  have key : ∀ (b : Buf) (av : List Nat), i ∉ s.used → (∀ j ∈ av, j ∈ s.avail) → i ∉ av → ((s.used ++ [i]) ++ av).Perm (List.range ((s.used ++ [i]).length + av.length)) →
      (s.used ++ [i]).length + av.length ≤ 32 → findBuf s h = none → b.tag = (s.hdl h).tag → b.proc = (s.hdl h).proc → b.darr = [] → b.ptrLen = 0 → b.bufEnd = 2048 →
      Inv { setBuf s i b with used := s.used ++ [i], avail := av } A := by
    intro b av hi hav hiav hp hsm hf b1 b2 b3 b4 b5
    have hbk : ∀ j ∈ s.used, (if j = i then b else s.buf j) = s.buf j := fun j hj => if_neg (by rintro rfl; exact hi hj)
    have htn : ∀ j ∈ s.used, (s.buf j).tag ≠ (s.hdl h).tag := fun j hj ht => find_none hf hj ht (H.proc_eq ha hj ht)
    refine ⟨hp, hsm, H.tagle, H.taginj, ?_, ?_, ?_, ?_, H.idle, ?_, ?_⟩
    · intro j hj
      dsimp only [setBuf]
      rcases List.mem_append.1 hj with hj | hj
      · rw [hbk j hj]
        exact H.own j hj
      · rw [List.mem_singleton.1 hj, if_pos rfl]
        exact ⟨h, ha, b1, b2⟩
    · intro j hj k hk
      dsimp only [setBuf]
      rcases List.mem_append.1 hj with hj | hj <;> rcases List.mem_append.1 hk with hk | hk
      · rw [hbk j hj, hbk k hk]
        exact H.uniq j hj k hk
      · rw [hbk j hj, List.mem_singleton.1 hk, if_pos rfl, b1]
        exact fun e => absurd e (htn j hj)
      · rw [hbk k hk, List.mem_singleton.1 hj, if_pos rfl, b1]
        exact fun e => absurd e.symm (htn k hk)
      · intro _
        rw [List.mem_singleton.1 hj, List.mem_singleton.1 hk]
    · intro j hj
      dsimp only [setBuf]
      rcases List.mem_append.1 hj with hj | hj
      · rw [hbk j hj]
        exact H.ok j hj
      · rw [List.mem_singleton.1 hj, if_pos rfl]
        refine ⟨?_, ?_, ?_, ?_⟩
        · rw [b3, b4]; rfl
        · rw [b4]; omega
        · rw [b3, b5]; simp
        · exact Int.le_of_eq b5
    · intro j hj
      dsimp only [setBuf]
      rw [if_neg (by rintro rfl; exact hiav hj)]
      exact H.free j (hav j hj)
    · intro k hk hno
      refine H.fresh k hk fun j hj => ?_
      have := hno j (List.mem_append_left _ hj)
      dsimp only [setBuf] at this
      rwa [hbk j hj] at this
    · intro k hk j hj
      dsimp only [setBuf]
      rcases List.mem_append.1 hj with hj | hj
      · rw [hbk j hj]
        exact H.busy k hk j hj
      · rw [List.mem_singleton.1 hj, if_pos rfl, b1, b3]
        intro ht
        have := H.taginj h k ha hk ht
        subst this
        simp only [segments, List.map_nil, List.append_nil]
        exact H.fresh h ha htn
  split at hs
  · rename_i j hf
    cases hs
    obtain ⟨j1, j2, -⟩ := find_some hf
    exact ⟨H, j1, rfl, j2⟩
  · rename_i hf
    split at hs
    · cases hs
    · rename_i hroom
      split at hs
      · rename_i j hj
        cases hs
        have hne : s.avail ≠ [] := by rintro h0; rw [h0] at hj; simp at hj
        have hlast : s.avail.dropLast ++ [i] = s.avail := by
          have := List.dropLast_append_getLast hne
          rw [List.getLast?_eq_some_getLast hne] at hj
          rw [← Option.some.inj hj]
          exact this
        have hmem : i ∈ s.avail := by rw [← hlast]; simp
        have hnd := H.nodup
        have hnd2 := (List.nodup_append.1 hnd).2.1
        rw [← hlast] at hnd2
        have hlen : s.avail.length = s.avail.dropLast.length + 1 := by
          conv_lhs => rw [← hlast]
          simp
        obtain ⟨f1, f2, f3⟩ := H.free i hmem
        refine ⟨key _ _ ?_ ?_ ?_ ?_ ?_ hf rfl rfl rfl f2 f3, by simp, rfl, by simp [setBuf]⟩
        · exact fun hu => (List.nodup_append.1 hnd).2.2 i hu i hmem rfl
        · exact fun k hk => (List.dropLast_subset _) hk
        · exact fun hk => (List.nodup_append.1 hnd2).2.2 i hk i (by simp) rfl
        · have e : (s.used ++ [i]).length + s.avail.dropLast.length = s.used.length + s.avail.length := by
            rw [List.length_append, hlen]
            simp
            omega
          rw [e]
          refine List.Perm.trans ?_ H.pool
          rw [List.append_assoc]
          refine List.Perm.append_left _ ?_
          conv_rhs => rw [← hlast]
          exact List.perm_append_comm
        · have := H.small
          rw [List.length_append]
          simp only [List.length_singleton]
          omega
      · rename_i hj
        cases hs
        have h0 : s.avail = [] := List.getLast?_eq_none_iff.1 hj
        have hp := H.pool
        rw [h0, List.append_nil, List.length_nil, Nat.add_zero] at hp
        have hnot : s.used.length ∉ s.used := fun hm => by
          have := List.mem_range.1 (hp.mem_iff.1 hm)
          omega
        have hK := key ⟨(s.hdl h).tag, (s.hdl h).proc, [], 0, 2048, (s.buf s.used.length).ptrs⟩ [] hnot (by simp) (by simp) (by
          rw [List.append_nil, List.length_append, List.length_nil, List.length_singleton, Nat.add_zero, List.range_succ]
          exact hp.append_right _) (by
          rw [h0] at hroom
          simp only [List.length_nil, List.length_append, List.length_singleton]
          simp at hroom
          omega) hf rfl rfl rfl rfl rfl
        have hK' : Inv { setBuf s s.used.length ⟨(s.hdl h).tag, (s.hdl h).proc, [], 0, 2048, (s.buf s.used.length).ptrs⟩ with used := s.used ++ [s.used.length] } A := by
          have e : (setBuf s s.used.length ⟨(s.hdl h).tag, (s.hdl h).proc, [], 0, 2048, (s.buf s.used.length).ptrs⟩).avail = [] := h0
          dsimp only at hK ⊢
          rw [e]
          exact hK
        exact ⟨hK', by simp, rfl, by simp [setBuf]⟩

theorem sent_flush (s : St) (h i k : Nat) : sent (flush s h i) k =
    sent s k ++ if k = h then (segments (s.buf i).ptrs (s.buf i).darr).map (item (s.hdl h)) else [] := by
  simp only [sent, flush, setBuf, List.filter_append, List.map_append]
  congr 1
  split
  · rename_i hk
    rw [List.filter_eq_self.2, List.map_map]
    · rfl
    · intro x hx
      obtain ⟨y, -, rfl⟩ := List.mem_map.1 hx
      simp [hk]
  · rename_i hk
    rw [List.filter_eq_nil_iff.2]
    · rfl
    · intro x hx
      obtain ⟨y, -, rfl⟩ := List.mem_map.1 hx
      simp only [decide_eq_true_eq]
      exact fun e => hk e.symm

theorem flush_inv (H : Inv s A) (ha : 0 ≤ (s.hdl h).proc) (hi : i ∈ s.used) (ht : (s.buf i).tag = (s.hdl h).tag) :
    Inv (flush s h i) A ∧ sent (flush s h i) h = A h := by
  have hs : sent (flush s h i) h = A h := by
    rw [sent_flush, if_pos rfl]
    exact H.busy h ha i hi ht
  have hs' : ∀ k, k ≠ h → sent (flush s h i) k = sent s k := fun k hk => by rw [sent_flush, if_neg hk, List.append_nil]
  have hb : ∀ j, ((flush s h i).buf j).tag = (s.buf j).tag ∧ ((flush s h i).buf j).proc = (s.buf j).proc := fun j => by
    simp only [flush, setBuf]
    split
    · rename_i hj; rw [hj]; exact ⟨rfl, rfl⟩
    · exact ⟨rfl, rfl⟩
  refine ⟨⟨H.pool, H.small, H.tagle, H.taginj, ?_, ?_, ?_, ?_, ?_, ?_, ?_⟩, hs⟩
  · intro j hj
    rw [(hb j).1, (hb j).2]
    exact H.own j hj
  · intro j hj k hk
    rw [(hb j).1, (hb k).1]
    exact H.uniq j hj k hk
  · intro j hj
    simp only [flush, setBuf]
    split
    · exact ⟨rfl, Nat.zero_le _, by simp, Int.le_refl _⟩
    · exact H.ok j hj
  · intro j hj
    simp only [flush, setBuf]
    split
    · exact ⟨rfl, rfl, rfl⟩
    · exact H.free j hj
  · intro k hk
    have : k ≠ h := by rintro rfl; exact absurd ha (by have := hk; simp only [flush, setBuf] at this; omega)
    rw [hs' k this]
    exact H.idle k hk
  · intro k hk hno
    by_cases hkh : k = h
    · rw [hkh]; exact hs
    · rw [hs' k hkh]
      refine H.fresh k hk fun j hj => ?_
      rw [← (hb j).1]
      exact hno j hj
  · intro k hk j hj htj
    rw [(hb j).1] at htj
    change (s.buf j).tag = (s.hdl k).tag at htj
    by_cases hkh : k = h
    · subst hkh
      have : j = i := H.uniq j hj i hi (by rw [htj, ht])
      subst this
      rw [hs]
      simp [flush, setBuf, segments]
    · rw [hs' k hkh]
      have hji : j ≠ i := by
        rintro rfl
        exact hkh (H.taginj k h hk ha (by rw [← htj, ht]))
      have hbj : (flush s h i).buf j = s.buf j := if_neg hji
      rw [hbj]
      exact H.busy k hk j hj htj

theorem add_inv (H : Inv s A) (ha : 0 ≤ (s.hdl h).proc) (hi : i ∈ s.used) (ht : (s.buf i).tag = (s.hdl h).tag) {b : Buf} {L : List ((Src × Int) × Nat)}
    (hok : BufOK b) (h1 : b.tag = (s.buf i).tag) (h2 : b.proc = (s.buf i).proc) (hseg : segments b.ptrs b.darr = segments (s.buf i).ptrs (s.buf i).darr ++ L) :
    Inv (setBuf s i b) fun k => A k ++ if k = h then L.map (item (s.hdl h)) else [] := by
  have hb : ∀ j, ((setBuf s i b).buf j).tag = (s.buf j).tag ∧ ((setBuf s i b).buf j).proc = (s.buf j).proc := fun j => by
    simp only [setBuf]
    split
    · rename_i hj; rw [hj]; exact ⟨h1, h2⟩
    · exact ⟨rfl, rfl⟩
  have hiav : i ∉ s.avail := fun hm => (List.nodup_append.1 H.nodup).2.2 i hi i hm rfl
  refine ⟨H.pool, H.small, H.tagle, H.taginj, ?_, ?_, ?_, ?_, ?_, ?_, ?_⟩
  · intro j hj
    rw [(hb j).1, (hb j).2]
    exact H.own j hj
  · intro j hj k hk
    rw [(hb j).1, (hb k).1]
    exact H.uniq j hj k hk
  · intro j hj
    simp only [setBuf]
    split
    · exact hok
    · exact H.ok j hj
  · intro j hj
    simp only [setBuf]
    rw [if_neg (by rintro rfl; exact hiav hj)]
    exact H.free j hj
  · intro k hk
    change (s.hdl k).proc < 0 at hk
    rw [if_neg (by rintro rfl; omega), List.append_nil]
    exact H.idle k hk
  · intro k hk hno
    have hkh : k ≠ h := by
      rintro rfl
      have := hno i hi
      rw [(hb i).1] at this
      exact this ht
    rw [if_neg hkh, List.append_nil]
    refine H.fresh k hk fun j hj => ?_
    rw [← (hb j).1]
    exact hno j hj
  · intro k hk j hj htj
    rw [(hb j).1] at htj
    change (s.buf j).tag = (s.hdl k).tag at htj
    by_cases hkh : k = h
    · subst hkh
      have : j = i := H.uniq j hj i hi (by rw [htj, ht])
      subst this
      have hbj : (setBuf s j b).buf j = b := if_pos rfl
      rw [if_pos rfl, hbj, hseg, List.map_append, ← List.append_assoc]
      congr 1
      exact H.busy k hk j hj htj
    · have hji : j ≠ i := by
        rintro rfl
        exact hkh (H.taginj k h hk ha (by rw [← htj, ht]))
      have hbj : (setBuf s i b).buf j = s.buf j := if_neg hji
      rw [if_neg hkh, List.append_nil, hbj]
      exact H.busy k hk j hj htj

/-- one pass takes at most 256 segments -/
theorem pass_inv (H : Inv s A) (ha : 0 ≤ (s.hdl h).proc) {bytes m m' : Nat} {reg : Bool} {seg : Nat → Src × Int} (hreg : reg = true → bytes ≤ 8) {s' : St}
    (hs : pass s h bytes m reg seg = some (s', m')) : m' = min m 256 ∧ s'.hdl = s.hdl ∧ (∃ i ∈ s'.used, (s'.buf i).tag = (s.hdl h).tag) ∧
    Inv s' fun k => A k ++ if k = h then (List.range m').map fun j => item (s.hdl h) (seg j, bytes) else [] := by
  unfold pass at hs
  cases hb : bufferId s h with
  | none => rw [hb] at hs; simp at hs
  | some si =>
    obtain ⟨s1, i⟩ := si
    rw [hb] at hs
    obtain ⟨H1, hi, hh, ht⟩ := bufferId_inv H ha hb
    rw [← hh] at ht ha
    simp only [Option.map_some, Option.some.injEq] at hs
    have hr : (if reg then (bytes : Int) else 0) ≤ 8 := by
      split
      · rename_i h1; have := hreg h1; omega
      · omega
    by_cases hfull : (if reg then (bytes : Int) else 0) + (if (s1.buf i).darr.head?.map Descr.bytes = some bytes then 0 else 24) >
        (s1.buf i).bufEnd - (24 + 24 * ((s1.buf i).darr.length : Int)) ∨ (256 : Int) - (s1.buf i).ptrLen < m
    · rw [if_pos hfull, H1.find ha hi ht] at hs
      dsimp only at hs
      cases hs
      obtain ⟨H2, -⟩ := flush_inv H1 ha hi ht
      have hbi : (flush s1 h i).buf i = { s1.buf i with darr := [], ptrLen := 0, bufEnd := 2048 } := if_pos rfl
      have hbig : (if m > 256 then 256 else m) ≤ 256 := by split <;> omega
      obtain ⟨a1, a2, a3, a4⟩ := addTo_spec (b := (flush s1 h i).buf i) (bytes := bytes) (m := if m > 256 then 256 else m) (reg := reg) (new := true) seg
        (H2.ok i hi) (by simp) (by rw [hbi]; simp only [List.length_nil, if_true]; push_cast; omega) (by rw [hbi]; simpa using hbig)
      refine ⟨by split <;> omega, hh, ⟨i, hi, by simp only [setBuf, if_true]; rw [a2, hbi, ← hh]; exact ht⟩, ?_⟩
      have := add_inv H2 ha hi (by rw [hbi]; exact ht) a1 a2 a3 a4
      rw [List.map_map] at this
      rw [← hh]
      exact this
    · rw [if_neg hfull] at hs
      cases hs
      rw [not_or] at hfull
      obtain ⟨f1, f2⟩ := hfull
      obtain ⟨a1, a2, a3, a4⟩ := addTo_spec (b := s1.buf i) (bytes := bytes) (m := m) (reg := reg)
        (new := !decide ((s1.buf i).darr.head?.map Descr.bytes = some bytes)) seg (H1.ok i hi) (by simp) (by
          by_cases hsame : (s1.buf i).darr.head?.map Descr.bytes = some bytes
          · simp only [hsame, if_true, decide_true, Bool.not_true, Bool.false_eq_true, if_false] at f1 ⊢
            omega
          · simp only [hsame, if_false, decide_false, Bool.not_false, if_true] at f1 ⊢
            omega) (by omega)
      refine ⟨by omega, hh, ⟨i, hi, by simp only [setBuf, if_true, a2, ht, hh]⟩, ?_⟩
      have := add_inv H1 ha hi ht a1 a2 a3 a4
      rw [List.map_map] at this
      rw [← hh]
      exact this

/-- a pass fails only if there is no buffer -/
theorem pass_some (hb : bufferId s h ≠ none) (bytes m : Nat) (reg : Bool) (seg : Nat → Src × Int) : pass s h bytes m reg seg ≠ none := by
  unfold pass
  cases hx : bufferId s h with
  | none => exact absurd hx hb
  | some si => simp

theorem wait_inv (H : Inv s A) (h : Nat) : Inv (wait s h) A ∧ sent (wait s h) h = A h := by
  unfold wait
  cases hf : findBuf s h with
  | none =>
    refine ⟨H, ?_⟩
    by_cases ha : (s.hdl h).proc < 0
    · exact H.idle h ha
    · exact H.fresh h (by omega) fun i hi ht => find_none hf hi ht (H.proc_eq (by omega) hi ht)
  | some i =>
    obtain ⟨hi, ht, hp⟩ := find_some hf
    have ha : 0 ≤ (s.hdl h).proc := by
      obtain ⟨k, k1, -, k3⟩ := H.own i hi
      omega
    obtain ⟨H1, hs⟩ := flush_inv H ha hi ht
    obtain ⟨k, hk⟩ : ∃ k, s.used.idxOf? i = some k := by
      cases hx : s.used.idxOf? i with
      | none => exact absurd hi (List.idxOf?_eq_none_iff.1 hx)
      | some k => exact ⟨k, rfl⟩
    have hu : (flush s h i).used = s.used := rfl
    have hav : (flush s h i).avail = s.avail := rfl
    have hne : s.used ≠ [] := List.ne_nil_of_mem hi
    have hkl : ∃ hlt : k < s.used.length, s.used[k] = i := by
      rw [List.idxOf?, List.findIdx?_eq_some_iff_getElem] at hk
      obtain ⟨h1, h2, -⟩ := hk
      exact ⟨h1, by simpa using h2⟩
    obtain ⟨hlt, hki⟩ := hkl
    -- the list without `i`
    have hperm : s.used.Perm (i :: (s.used.set k (s.used.getLast?.getD 0)).dropLast) := by
      rw [List.getLast?_eq_some_getLast hne, Option.getD_some]
      obtain ⟨l, x, hlx⟩ : ∃ l x, s.used = l ++ [x] := ⟨_, _, (List.dropLast_append_getLast hne).symm⟩
      have hgl : s.used.getLast hne = x := by simp [hlx]
      rw [hgl]
      simp only [hlx] at hki hlt ⊢
      rw [List.length_append, List.length_singleton] at hlt
      rcases Nat.lt_or_ge k l.length with hkl | hkl
      · rw [List.set_append_left _ _ hkl, List.dropLast_concat]
        rw [List.getElem_append_left hkl] at hki
        have h1 : l = l.take k ++ i :: l.drop (k + 1) := by
          rw [← hki, List.getElem_cons_drop, List.take_append_drop]
        rw [List.set_eq_take_append_cons_drop, if_pos hkl]
        conv_lhs => rw [h1]
        rw [List.append_assoc]
        refine List.perm_middle.trans (List.Perm.cons _ ?_)
        rw [List.perm_comm]
        exact List.perm_middle.trans (List.perm_append_comm (l₁ := [x]) |>.trans (by simp))
      · have hke : k = l.length := by omega
        subst hke
        rw [List.getElem_append_right (Nat.le_refl _)] at hki
        simp at hki
        rw [List.set_append_right _ _ (Nat.le_refl _)]
        simp [hki]
    generalize hU : (s.used.set k (s.used.getLast?.getD 0)).dropLast = U at hperm
    have hup : updateLists { flush s h i with hdl := fun k => if k = h then { (flush s h i).hdl h with proc := -1 } else (flush s h i).hdl k } i =
        { flush s h i with hdl := fun k => if k = h then { s.hdl h with proc := -1 } else s.hdl k, used := U, avail := s.avail ++ [i] } := by
      unfold updateLists
      dsimp only
      rw [hu, hk, hav]
      dsimp only
      rw [hU]
      rfl
    dsimp only
    rw [hup]
    have hmem : ∀ j, j ∈ U → j ∈ s.used ∧ j ≠ i := by
      intro j hj
      have hnd := (List.nodup_append.1 H.nodup).1
      have hnd' := hperm.nodup_iff.1 hnd
      refine ⟨hperm.mem_iff.2 (List.mem_cons_of_mem _ hj), ?_⟩
      rintro rfl
      exact (List.nodup_cons.1 hnd').1 hj
    have hlen : s.used.length = U.length + 1 := by rw [hperm.length_eq]; simp
    have hkh : ∀ k', k' ≠ h → (if k' = h then ({ s.hdl h with proc := -1 } : Hdl) else s.hdl k') = s.hdl k' := fun k' hk' => if_neg hk'
    refine ⟨⟨?_, ?_, ?_, ?_, ?_, ?_, ?_, ?_, ?_, ?_, ?_⟩, hs⟩
    · dsimp only
      rw [show U.length + (s.avail ++ [i]).length = s.used.length + s.avail.length by rw [List.length_append, hlen]; simp; omega]
      refine List.Perm.trans ?_ H.pool
      refine List.Perm.trans ?_ (hperm.symm.append_right _)
      rw [← List.append_assoc]
      exact List.perm_append_comm
    · dsimp only
      have := H.small
      rw [List.length_append, List.length_singleton]
      omega
    · intro k'
      dsimp only
      split
      · intro h1; dsimp only at h1; omega
      · exact H.tagle k'
    · intro k' k''
      dsimp only
      split <;> split
      · intro h1; dsimp only at h1; omega
      · intro h1; dsimp only at h1; omega
      · intro _ h1; dsimp only at h1; omega
      · exact H.taginj k' k''
    · intro j hj
      obtain ⟨j1, j2⟩ := hmem j hj
      obtain ⟨k', k1, k2, k3⟩ := H1.own j j1
      have hne' : k' ≠ h := by
        rintro rfl
        have h5 := H1.uniq j j1 i hi (by rw [k2]; simp [flush, setBuf, ht])
        exact j2 h5
      refine ⟨k', ?_⟩
      dsimp only
      rw [hkh k' hne']
      exact ⟨k1, k2, k3⟩
    · exact fun j hj j' hj' => H1.uniq j (hmem j hj).1 j' (hmem j' hj').1
    · exact fun j hj => H1.ok j (hmem j hj).1
    · intro j hj
      rcases List.mem_append.1 hj with hj | hj
      · exact H1.free j hj
      · rw [List.mem_singleton.1 hj]
        simp [flush, setBuf]
    · intro k'
      dsimp only
      split
      · rename_i hx
        intro _
        rw [hx]
        exact hs
      · exact H1.idle k'
    · intro k'
      dsimp only
      split
      · intro h1; dsimp only at h1; omega
      · rename_i hx
        intro h1 hno
        refine H1.fresh k' h1 fun j hj => ?_
        by_cases hji : j = i
        · rw [hji]
          intro h5
          have : (s.buf i).tag = (s.hdl k').tag := by simpa [flush, setBuf] using h5
          exact hx (H.taginj k' h h1 ha (by rw [← this, ht]))
        · refine hno j ?_
          have := hperm.mem_iff.1 hj
          rcases List.mem_cons.1 this with h6 | h6
          · exact absurd h6 hji
          · exact h6
    · intro k'
      dsimp only
      split
      · intro h1; dsimp only at h1; omega
      · intro h1 j hj
        exact H1.busy k' h1 j (hmem j hj).1

/-! ## the loop over the segments of a strided request -/

/-- how many segments the loop saves -/
def loopCount (total : Nat) : Nat → Nat → Nat → Nat
  | 0, _, _ => 0
  | fuel + 1, m, k => min m 256 + if k + min m 256 < total then loopCount total fuel (total - min m 256) (k + min m 256) else 0

theorem manyLoop_inv {bytes total : Nat} {seg : Nat → Src × Int} {fuel : Nat} : ∀ {s : St} {A : Nat → List Item} {m k : Nat} {s' : St}, Inv s A → 0 ≤ (s.hdl h).proc →
    manyLoop h bytes total seg fuel s m k = some s' → s'.hdl = s.hdl ∧
    Inv s' fun x => A x ++ if x = h then (List.range (loopCount total fuel m k)).map fun j => item (s.hdl h) (seg (k + j), bytes) else [] := by
  induction fuel with
  | zero => intro s A m k s' _ _ hs; simp [manyLoop] at hs
  | succ fuel ih =>
    intro s A m k s' H ha hs
    unfold manyLoop at hs
    split at hs
    · cases hs
    · rename_i s1 m' hp
      obtain ⟨p1, p2, -, p3⟩ := pass_inv H ha (by simp) hp
      split at hs
      · cases hs
      · split at hs
        · rename_i hlt
          obtain ⟨q1, q2⟩ := ih p3 (by rw [p2]; exact ha) hs
          refine ⟨q1.trans p2, ?_⟩
          rw [p2] at q2
          convert q2 using 1
          funext x
          split
          · rw [loopCount, ← p1, if_pos hlt, List.range_add, List.map_append, List.map_map, List.append_assoc]
            congr 2
            refine List.map_congr_left fun j _ => ?_
            simp only [Function.comp, Nat.add_assoc]
          · simp
        · rename_i hlt
          cases hs
          refine ⟨p2, ?_⟩
          rw [loopCount, ← p1, if_neg hlt, Nat.add_zero]
          exact p3

/-- the number of segments saved for a request of `total` segments -/
def rounded (total : Nat) : Nat := if total ≤ 512 then total else 256 * ((total + 255) / 256)

theorem count_large {total : Nat} (ht : 512 < total) {fuel : Nat} : ∀ {a : Nat}, 256 * a < total → total ≤ 256 * a + 256 * fuel →
    256 * a + loopCount total fuel (total - 256) (256 * a) = 256 * ((total + 255) / 256) := by
  induction fuel with
  | zero => intro a h1 h2; omega
  | succ fuel ih =>
    intro a h1 h2
    have hm : min (total - 256) 256 = 256 := by omega
    rw [loopCount, hm]
    split
    · rename_i hlt
      have := ih (a := a + 1) (by omega) (by omega)
      rw [show 256 * (a + 1) = 256 * a + 256 by omega] at this
      omega
    · omega

theorem count_eq {total : Nat} (ht : 0 < total) : loopCount total (total + 1) total 0 = rounded total := by
  unfold rounded
  split
  · rename_i hle
    rw [loopCount]
    rcases Nat.lt_or_ge 256 total with h1 | h1
    · have hm : min total 256 = 256 := by omega
      rw [hm, if_pos (by omega)]
      obtain ⟨f, rfl⟩ : ∃ f, total = f + 1 := ⟨total - 1, by omega⟩
      rw [loopCount, if_neg (by omega)]
      omega
    · rw [if_neg (by omega)]
      omega
  · rename_i hgt
    rw [loopCount]
    have hm : min total 256 = 256 := by omega
    rw [hm, if_pos (by omega)]
    have := count_large (total := total) (fuel := total) (a := 1) (by omega) (by omega) (by omega)
    rw [Nat.mul_one] at this
    rw [Nat.zero_add]
    exact this

theorem rounded_eq {total : Nat} (h : total ≤ 512 ∨ 256 ∣ total) : rounded total = total := by
  unfold rounded
  split
  · rfl
  · obtain ⟨c, hc⟩ := h.resolve_left (by omega)
    omega

/-- what a call adds -/
def added (h : Nat) : Op → List Item
  | .many h' put proc bytes total seg => if h = h' then (List.range (rounded total)).map fun i => ⟨put, proc, bytes, (seg i).1, (seg i).2⟩ else []
  | .one h' put proc bytes _ src dst => if h = h' then [⟨put, proc, bytes, src, dst⟩] else []
  | .wait _ => []

/-- calls with sensible arguments -/
def Valid : Op → Prop
  | .one _ _ _ bytes reg _ _ => reg = true → bytes ≤ 8
  | .many _ _ _ _ total _ => 0 < total
  | .wait _ => True

theorem step_inv (H : Inv s A) {o : Op} (ho : Valid o) {s' : St} (hs : step s o = some s') : Inv s' fun k => A k ++ added k o := by
  cases o with
  | one h put proc bytes reg src dst =>
    simp only [step, Option.bind_eq_some_iff, Option.map_eq_some_iff] at hs
    obtain ⟨s1, h1, ⟨s2, m'⟩, h2, rfl⟩ := hs
    obtain ⟨H1, e1, e2, -⟩ := init_inv H h1
    obtain ⟨p1, p2, -, p3⟩ := pass_inv H1 (by rw [e2]; omega) ho h2
    have hm : m' = 1 := by omega
    subst hm
    convert p3 using 1
    funext k
    simp only [added]
    split <;> simp [item, e1, e2]
  | many h put proc bytes total seg =>
    simp only [step, Option.bind_eq_some_iff] at hs
    obtain ⟨s1, h1, h2⟩ := hs
    obtain ⟨H1, e1, e2, -⟩ := init_inv H h1
    obtain ⟨-, p3⟩ := manyLoop_inv H1 (by rw [e2]; omega) h2
    rw [count_eq ho] at p3
    convert p3 using 1
    funext k
    simp only [added]
    split
    · simp only [item, e1, e2, Nat.zero_add, Int.toNat_natCast]
    · rfl
  | wait h =>
    simp only [step, Option.some.injEq] at hs
    subst hs
    simp only [added, List.append_nil]
    exact (wait_inv H h).1

theorem run_inv {ops : List Op} : ∀ {s : St} {A : Nat → List Item}, Inv s A → (∀ o ∈ ops, Valid o) → ∀ {s' : St}, run s ops = some s' →
    Inv s' fun k => A k ++ ops.flatMap (added k) := by
  induction ops with
  | nil =>
    intro s A H _ s' hs
    cases hs
    simpa using H
  | cons o ops ih =>
    intro s A H hv s' hs
    rw [run, List.foldlM_cons] at hs
    cases hx : step s o with
    | none => rw [hx] at hs; cases hs
    | some s1 =>
      rw [hx] at hs
      have h2 := ih (step_inv H (hv o List.mem_cons_self) hx) (fun o' ho' => hv o' (List.mem_cons_of_mem _ ho')) hs
      simpa [List.flatMap_cons, List.append_assoc] using h2

/-- a call that does not stop -/
theorem bufferId_some (hu : s.used.length < 32) (h : Nat) : bufferId s h ≠ none := by
  unfold bufferId
  split
  · simp
  · rw [if_neg (by omega)]
    split <;> simp

theorem bufferId_again (H : Inv s A) (ha : 0 ≤ (s.hdl h).proc) (hi : i ∈ s.used) (ht : (s.buf i).tag = (s.hdl h).tag) : bufferId s h ≠ none := by
  unfold bufferId
  rw [H.find ha hi ht]
  simp

theorem manyLoop_some {bytes total : Nat} {seg : Nat → Src × Int} {fuel : Nat} : ∀ {s : St} {A : Nat → List Item} {m k : Nat}, Inv s A → 0 ≤ (s.hdl h).proc →
    bufferId s h ≠ none → 0 < m → m ≤ total → k < total → total < k + fuel →
    (k = 0 ∧ m = total ∨ k + m = total ∧ m ≤ 256 ∨ 256 < m ∧ 512 < total) → manyLoop h bytes total seg fuel s m k ≠ none := by
  induction fuel with
  | zero => intro s A m k _ _ _ _ h1 h2 h3 _ hs; omega
  | succ fuel ih =>
    intro s A m k H ha hb h0 h1 h2 h3 h4 hs
    unfold manyLoop at hs
    cases hp : pass s h bytes m false (fun j => seg (k + j)) with
    | none => exact pass_some hb _ _ _ _ hp
    | some x =>
      obtain ⟨s1, m'⟩ := x
      obtain ⟨p1, p2, ⟨i, p4, p5⟩, p3⟩ := pass_inv H ha (by simp) hp
      rw [hp] at hs
      dsimp only at hs
      rw [if_neg (by omega)] at hs
      split at hs
      · refine ih p3 (by rw [p2]; exact ha) (bufferId_again p3 (by rw [p2]; exact ha) p4 (by rw [p2]; exact p5)) ?_ ?_ ?_ ?_ ?_ hs <;> omega
      · cases hs

/-! ## vectors -/

/-- the state after a vector of the size of the last one has been added -/
theorem pass_same (H : Inv s A) (ha : 0 ≤ (s.hdl h).proc) (hi : i ∈ s.used) (ht : (s.buf i).tag = (s.hdl h).tag) {d : Descr} {ds : List Descr}
    (hd : (s.buf i).darr = d :: ds) {n : Nat} (hroom : (s.buf i).ptrLen + n ≤ 256) (seg : Nat → Src × Int) :
    pass s h d.bytes n false seg = some (setBuf s i (addTo (s.buf i) false d.bytes n false seg), n) := by
  have hl := (H.ok i hi).low
  rw [hd] at hl
  simp only [pass, bufferId, H.find ha hi ht, Option.map_some, hd, List.head?_cons, if_true, decide_true, Bool.not_true, Bool.false_eq_true, if_false, Int.add_zero]
  rw [if_neg]
  intro hc
  rcases hc with hc | hc
  · omega
  · omega

end GA.Model.Agg
