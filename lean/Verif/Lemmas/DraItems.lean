import Verif.Lemmas.DraDecomp
import Verif.Lemmas.DraMove

/-! # Lemmas: the chunks transferred for a section of a disk resident array -/

namespace GA.Dra
open GA.Spec GA.Model

structure ItemOK (A : DArr) (k : Int) (dlo dhi : List Int) (t : Item) : Prop where
  chunk : ChunkOK A.shape t.lo t.hi
  place : ∀ x, InPatch t.lo t.hi x → loc A x = (t.file, t.off + bufPos t.lo (chunkLd t) x)
  turn : ∀ x, InPatch t.lo t.hi x → blockNo A.shape x % A.ioprocs = k
  part : ∀ x, InPatch t.ulo t.uhi x ↔ InPatch t.lo t.hi x ∧ InPatch dlo dhi x
  ne : InPatch t.ulo t.uhi t.ulo
  whole : t.algn = true → t.ulo = t.lo ∧ t.uhi = t.hi

/-- a list of items that has all elements of `S` whose turn it is -/
structure Good (A : DArr) (k : Int) (dlo dhi : List Int) (S : List Int → Prop) (L : List Item) : Prop where
  ok : ∀ t ∈ L, ItemOK A k dlo dhi t
  cover : ∀ x, S x → blockNo A.shape x % A.ioprocs = k → ∃ t ∈ L, InPatch t.lo t.hi x

theorem Good.append {A : DArr} {k : Int} {dlo dhi : List Int} {S T : List Int → Prop} {L M : List Item} (h1 : Good A k dlo dhi S L) (h2 : Good A k dlo dhi T M) :
    Good A k dlo dhi (fun x => S x ∨ T x) (L ++ M) := by
  constructor
  · intro t ht
    rcases List.mem_append.1 ht with h | h
    · exact h1.ok t h
    · exact h2.ok t h
  · rintro x (hx | hx) hk
    · obtain ⟨t, ht, h⟩ := h1.cover x hx hk; exact ⟨t, List.mem_append_left _ ht, h⟩
    · obtain ⟨t, ht, h⟩ := h2.cover x hx hk; exact ⟨t, List.mem_append_right _ ht, h⟩

theorem seqO_some {α : Type} (L : List α) : seqO (L.map some) = some L := by
  induction L with
  | nil => rfl
  | cons a L ih => simp [seqO, ih]

theorem map_some_of {α β : Type} {f : α → Option β} {L : List α} (h : ∀ a ∈ L, ∃ b, f a = some b) : L.map f = (L.filterMap f).map some := by
  induction L with
  | nil => rfl
  | cons a L ih =>
    obtain ⟨b, hb⟩ := h a List.mem_cons_self
    rw [List.map_cons, ih fun a ha => h a (List.mem_cons_of_mem _ ha), List.filterMap_cons_some hb, List.map_cons, hb]

theorem CoverOK.length {sh : List (Int × Int)} {lo hi : List Int} (h : CoverOK sh lo hi) : lo.length = sh.length ∧ hi.length = sh.length := by
  induction sh generalizing lo hi with
  | nil => simp [CoverOK] at h
  | cons s sh ih =>
    cases sh with
    | nil => obtain ⟨a, h', rfl, rfl, _⟩ := h.one; simp
    | cons s2 sh => obtain ⟨a, as, h', hs, rfl, rfl, _, h2⟩ := h.cons; have := ih h2; simp [this.1, this.2]

theorem blkOf_length {sh : List (Int × Int)} {x : List Int} (h : x.length = sh.length) : (blkOf sh x).length = sh.length := by
  induction sh generalizing x with
  | nil => simp [blkOf]
  | cons s sh ih =>
    obtain ⟨d, c⟩ := s
    match x, h with
    | x :: xs, h => simp [blkOf, ih (by simpa using h)]

/-- the block of an element lies between the blocks of the corners -/
theorem blkOf_mono {sh : List (Int × Int)} (hs : ShapeOK sh) {lo hi x : List Int} (hl : lo.length = sh.length) (hx : InPatch lo hi x) :
    InPatch (blkOf sh lo) (blkOf sh hi) (blkOf sh x) := by
  induction sh generalizing lo hi x with
  | nil => simp [blkOf, InPatch]
  | cons s sh ih =>
    obtain ⟨d, c⟩ := s
    have hs1 : 1 ≤ c ∧ c ≤ d := hs _ List.mem_cons_self
    match lo, hi, x, hl, hx with
    | l :: lo, h :: hi, x :: xs, hl, hx =>
      simp only [InPatch] at hx
      simp only [blkOf, InPatch]
      exact ⟨⟨blk_le hs1.1 hx.1.1, blk_le hs1.1 hx.1.2⟩, ih (fun s h => hs s (List.mem_cons_of_mem _ h)) (by simpa using hl) hx.2⟩

theorem section_items {A : DArr} (hs : ShapeOK A.shape) {k : Int} {dlo dhi clo chi : List Int} (hc : CoverOK A.shape clo chi)
    (f : List Int × List Int → Option Item)
    (hf : ∀ b, InPatch (blkOf A.shape clo) (blkOf A.shape chi) b → myturn A k (secLo A.shape clo b) = true →
      ∃ t, f (secLo A.shape clo b, secHi A.shape chi b) = some t ∧ t.lo = secLo A.shape clo b ∧ t.hi = secHi A.shape chi b ∧ ItemOK A k dlo dhi t) :
    ∃ L, ((chunks A.shape clo chi).filter fun s => myturn A k s.1).map f = L.map some ∧ Good A k dlo dhi (fun x => InPatch clo chi x) L := by
  obtain ⟨hl1, hl2⟩ := hc.length
  rw [chunks_eq hs hc]
  have hmem : ∀ s ∈ ((box (blkOf A.shape clo) (blkOf A.shape chi)).map fun b => (secLo A.shape clo b, secHi A.shape chi b)).filter fun s => myturn A k s.1,
      ∃ b, InPatch (blkOf A.shape clo) (blkOf A.shape chi) b ∧ s = (secLo A.shape clo b, secHi A.shape chi b) ∧ myturn A k (secLo A.shape clo b) = true := by
    intro s hsm
    rw [List.mem_filter, List.mem_map] at hsm
    obtain ⟨⟨b, hb, rfl⟩, ht⟩ := hsm
    exact ⟨b, mem_box.1 hb, rfl, ht⟩
  refine ⟨_, map_some_of ?_, ?_, ?_⟩
  · intro s hsm
    obtain ⟨b, hb, rfl, ht⟩ := hmem s hsm
    obtain ⟨t, h1, _⟩ := hf b hb ht
    exact ⟨t, h1⟩
  · intro t htm
    rw [List.mem_filterMap] at htm
    obtain ⟨s, hsm, he⟩ := htm
    obtain ⟨b, hb, rfl, ht⟩ := hmem s hsm
    obtain ⟨t', h1, _, _, h2⟩ := hf b hb ht
    rw [h1] at he
    cases he
    exact h2
  · intro x hx hk
    have hb := blkOf_mono hs hl1 hx
    have hin : InPatch (secLo A.shape clo (blkOf A.shape x)) (secHi A.shape chi (blkOf A.shape x)) x :=
      (mem_sec hs hl1 hl2 (blkOf_length (by rw [hx.length.1, hl1]))).2 ⟨hx, rfl⟩
    have hch := sec_chunkOK hs hc hb
    have hlo := hch.lo_in hs
    have hblk : blkOf A.shape (secLo A.shape clo (blkOf A.shape x)) = blkOf A.shape x :=
      ((mem_sec hs hl1 hl2 (blkOf_length (by rw [hx.length.1, hl1]))).1 hlo).2
    have ht : myturn A k (secLo A.shape clo (blkOf A.shape x)) = true := by
      simp only [myturn, decide_eq_true_eq]
      rw [blockNo_congr hblk, hk]
    obtain ⟨t, h1, h2, h3, h4⟩ := hf _ hb ht
    refine ⟨t, List.mem_filterMap.2 ⟨_, List.mem_filter.2 ⟨List.mem_map.2 ⟨_, mem_box.2 hb, rfl⟩, ht⟩, h1⟩, ?_⟩
    rw [h2, h3]; exact hin

theorem secLo_length {sh : List (Int × Int)} {clo b : List Int} (h1 : clo.length = sh.length) (h2 : b.length = sh.length) : (secLo sh clo b).length = sh.length := by
  induction sh generalizing clo b with
  | nil => simp [secLo]
  | cons s sh ih =>
    obtain ⟨d, c⟩ := s
    match clo, b, h1, h2 with
    | a :: as, b :: bs, h1, h2 => simp [secLo, ih (by simpa using h1) (by simpa using h2)]

theorem secHi_length {sh : List (Int × Int)} {clo b : List Int} (h1 : clo.length = sh.length) (h2 : b.length = sh.length) : (secHi sh clo b).length = sh.length := by
  induction sh generalizing clo b with
  | nil => simp [secHi]
  | cons s sh ih =>
    obtain ⟨d, c⟩ := s
    match clo, b, h1, h2 with
    | a :: as, b :: bs, h1, h2 => simp [secHi, ih (by simpa using h1) (by simpa using h2)]

/-- what a chunk has in common with its file -/
theorem chunk_facts {A : DArr} (hs : ShapeOK A.shape) (hio : 0 < A.ioprocs) {k : Int} {lo hi : List Int} (hc : ChunkOK A.shape lo hi)
    (ht : myturn A k lo = true) : ∃ o, fileLoc A k lo = some o ∧ (∀ x, InPatch lo hi x → loc A x = (fileOf A k, o + bufPos lo (edges lo hi).dropLast x)) ∧
      ∀ x, InPatch lo hi x → blockNo A.shape x % A.ioprocs = k := by
  obtain ⟨o, h1, h2⟩ := fileLoc_eq hs hio hc ht
  refine ⟨o, h1, h2, fun x hx => ?_⟩
  simp only [myturn, decide_eq_true_eq] at ht
  rw [blockNo_congr (fracOff hs hc hx).2, ht]

theorem inter_ne {lo hi ulo uhi : List Int} {u : List Int × List Int} (h1 : hi.length = lo.length) (h2 : ulo.length = lo.length) (h3 : uhi.length = lo.length)
    (h : sectInter lo hi ulo uhi = some u) : InPatch u.1 u.2 u.1 := by
  unfold sectInter at h
  split at h
  · rename_i hc
    cases h
    simp only [Bool.and_eq_true] at hc
    obtain ⟨⟨⟨a, b⟩, c⟩, d⟩ := hc
    dsimp only
    induction lo generalizing hi ulo uhi with
    | nil => cases hi <;> simp_all [InPatch]
    | cons l lo ih =>
      match hi, ulo, uhi, h1, h2, h3 with
      | h :: hi, v :: ulo, w :: uhi, h1, h2, h3 =>
        simp only [List.zip_cons_cons, List.all_cons, Bool.and_eq_true, decide_eq_true_eq] at a b c d
        simp only [List.zipWith_cons_cons, InPatch]
        exact ⟨by omega, ih (hi := hi) (ulo := ulo) (uhi := uhi) (by simpa using h1) (by simpa using h2) (by simpa using h3)
          (d := d.2) (c := c.2) (b := b.2) (a := a.2)⟩
  · simp at h

theorem inSec_iff {ax : List Ax} {x : List Int} : InSec ax x ↔ InPatch (ax.map (·.l)) (ax.map (·.h)) x := by
  induction ax generalizing x with
  | nil => cases x <;> simp [InSec, InPatch]
  | cons e es ih => cases x <;> simp [InSec, InPatch, ih]

/-- the chunks of a cover section -/
theorem cover_items {A : DArr} (hs : ShapeOK A.shape) (hio : 0 < A.ioprocs) {ax : List Ax} (hsh : shOf ax = A.shape) (hok : ∀ a ∈ ax, AxOK a) {k : Int}
    {r : List Ent} (hr : RowOK ax r) :
    ∃ L, ((chunks A.shape (r.map (·.cl)) (r.map (·.ch))).filter fun s => myturn A k s.1).map (coverItem A k r) = L.map some ∧
      Good A k (ax.map (·.l)) (ax.map (·.h)) (InRow r) L := by
  have hc := hr.coverOK hok
  rw [hsh] at hc
  obtain ⟨hl1, hl2⟩ := hc.length
  have := section_items (k := k) (dlo := ax.map (·.l)) (dhi := ax.map (·.h)) hs hc (coverItem A k r) ?_
  · obtain ⟨L, h1, h2⟩ := this
    exact ⟨L, h1, h2.ok, fun x hx => h2.cover x (inRow_iff.1 hx)⟩
  · intro b hb ht
    have hch := sec_chunkOK hs hc hb
    obtain ⟨o, f1, f2, f3⟩ := chunk_facts hs hio hch ht
    have hi := hr.inter hok (b := b) (by rw [hsh]; exact hb)
    rw [hsh] at hi
    have hbl : b.length = A.shape.length := by rw [hb.length.1, blkOf_length hl1]
    have e1 := secLo_length hl1 hbl
    have e2 := secHi_length hl2 hbl
    have e3 : (r.map (·.ul)).length = A.shape.length := by rw [List.length_map]; simpa using hl1
    have e4 : (r.map (·.uh)).length = A.shape.length := by rw [List.length_map]; simpa using hl1
    refine ⟨_, by unfold coverItem; rw [hi, f1], rfl, rfl, hch, f2, f3, ?_, ?_, by simp⟩
    · intro x
      dsimp only
      rw [mem_inter (by rw [e1, e2]) (by rw [e1, e3]) (by rw [e1, e4])]
      constructor
      · rintro ⟨h1, h2⟩
        refine ⟨h1, ?_⟩
        have := ((mem_sec hs hl1 hl2 hbl).1 h1).1
        exact inSec_iff.1 ((hr.iff (inRow_iff.2 this)).1 h2)
      · rintro ⟨h1, h2⟩
        refine ⟨h1, ?_⟩
        have := ((mem_sec hs hl1 hl2 hbl).1 h1).1
        exact (hr.iff (inRow_iff.2 this)).2 (inSec_iff.2 h2)
    · exact inter_ne (by rw [e1, e2]) (by rw [e1, e3]) (by rw [e1, e4]) hi

theorem midRow_sec {ini : List Ax} {z : Ax} (hok : ∀ a ∈ ini, AxOK a) {x : List Int} (hx : InRow (midRow ini z) x) : InSec (ini ++ [z]) x := by
  induction ini generalizing x with
  | nil =>
    match x, hx with
    | [x], hx => simpa [midRow, InRow, InSec, Ax.whole] using hx
    | x :: y :: xs, hx => simp [midRow, InRow] at hx
  | cons a ini ih =>
    rw [midRow_cons] at hx
    match x, hx with
    | x :: xs, hx =>
      simp only [InRow] at hx
      have ha := hok a List.mem_cons_self
      obtain ⟨P, Q, p1, q1, p2, p3, q2, q3, p4, c1, c2⟩ := mid_facts ha
      exact ⟨⟨by omega, by omega⟩, ih (fun b hb => hok b (List.mem_cons_of_mem _ hb)) hx.2⟩

/-- the chunks of the aligned section -/
theorem algn_items {A : DArr} (hs : ShapeOK A.shape) (hio : 0 < A.ioprocs) {ini : List Ax} {z : Ax} (hsh : shOf (ini ++ [z]) = A.shape)
    (hok : ∀ a ∈ ini ++ [z], AxOK a) (hm : ∀ a ∈ ini, a.mid.cl ≤ a.mid.ch) {k : Int} {r : List (Int × Int)} (hr : r = (midRow ini z).map fun e => (e.cl, e.ch)) :
    ∃ L, ((chunks A.shape (r.map (·.1)) (r.map (·.2))).filter fun s => myturn A k s.1).map (algnItem A k) = L.map some ∧
      Good A k ((ini ++ [z]).map (·.l)) ((ini ++ [z]).map (·.h)) (InRow (midRow ini z)) L := by
  have hok' : ∀ a ∈ ini, AxOK a := fun a ha => hok a (List.mem_append_left _ ha)
  have hrow : RowOK (ini ++ [z]) (midRow ini z) := midRow_ok hok' hm
  have hc := hrow.coverOK hok
  rw [hsh] at hc
  obtain ⟨hl1, hl2⟩ := hc.length
  have e1 : r.map (·.1) = (midRow ini z).map (·.cl) := by rw [hr, List.map_map]; rfl
  have e2 : r.map (·.2) = (midRow ini z).map (·.ch) := by rw [hr, List.map_map]; rfl
  rw [e1, e2]
  have := section_items (k := k) (dlo := (ini ++ [z]).map (·.l)) (dhi := (ini ++ [z]).map (·.h)) hs hc (algnItem A k) ?_
  · obtain ⟨L, h1, h2⟩ := this
    exact ⟨L, h1, h2.ok, fun x hx => h2.cover x (inRow_iff.1 hx)⟩
  · intro b hb ht
    have hch := sec_chunkOK hs hc hb
    obtain ⟨o, f1, f2, f3⟩ := chunk_facts hs hio hch ht
    have hbl : b.length = A.shape.length := by rw [hb.length.1, blkOf_length hl1]
    refine ⟨_, by unfold algnItem; rw [f1]; rfl, rfl, rfl, hch, f2, f3, ?_, hch.lo_in hs, fun _ => ⟨rfl, rfl⟩⟩
    intro x
    dsimp only
    refine ⟨fun h1 => ⟨h1, ?_⟩, fun h => h.1⟩
    have := ((mem_sec hs hl1 hl2 hbl).1 h1).1
    exact inSec_iff.1 (midRow_sec hok' (inRow_iff.2 this))

theorem rows_items {A : DArr} (hs : ShapeOK A.shape) (hio : 0 < A.ioprocs) {ax : List Ax} (hsh : shOf ax = A.shape) (hok : ∀ a ∈ ax, AxOK a) {k : Int}
    (rs : List (List Ent)) (hr : ∀ r ∈ rs, RowOK ax r) :
    ∃ L, (rs.flatMap fun r => ((chunks A.shape (r.map (·.cl)) (r.map (·.ch))).filter fun s => myturn A k s.1).map (coverItem A k r)) = L.map some ∧
      Good A k (ax.map (·.l)) (ax.map (·.h)) (fun x => ∃ r ∈ rs, InRow r x) L := by
  induction rs with
  | nil => exact ⟨[], rfl, by simp, by simp⟩
  | cons r rs ih =>
    obtain ⟨L1, h1, h2⟩ := cover_items hs hio hsh hok (k := k) (hr r List.mem_cons_self)
    obtain ⟨L2, h3, h4⟩ := ih fun r h => hr r (List.mem_cons_of_mem _ h)
    refine ⟨L1 ++ L2, by rw [List.flatMap_cons, h1, h3, List.map_append], ?_⟩
    have := h2.append h4
    exact ⟨this.ok, fun x hx => this.cover x (by simpa using hx)⟩

theorem axes_facts {sh : List (Int × Int)} {lo hi : List Int} (h1 : lo.length = sh.length) (h2 : hi.length = sh.length) :
    shOf (axes sh lo hi) = sh ∧ (axes sh lo hi).map (·.l) = lo ∧ (axes sh lo hi).map (·.h) = hi := by
  induction sh generalizing lo hi with
  | nil => cases lo <;> cases hi <;> simp_all [axes, shOf]
  | cons s sh ih =>
    obtain ⟨d, c⟩ := s
    match lo, hi, h1, h2 with
    | l :: lo, h :: hi, h1, h2 =>
      obtain ⟨a, b, c⟩ := ih (by simpa using h1 : lo.length = sh.length) (by simpa using h2)
      simp only [axes, shOf, List.map_cons]
      exact ⟨by rw [show List.map (fun a : Ax => (a.d, a.c)) (axes sh lo hi) = sh from a], by rw [b], by rw [c]⟩

theorem axes_ok {sh : List (Int × Int)} (hs : ShapeOK sh) {lo hi : List Int} (h : PatchOK (sh.map (·.1)) lo hi) : ∀ a ∈ axes sh lo hi, AxOK a := by
  induction sh generalizing lo hi with
  | nil => simp [axes]
  | cons s sh ih =>
    obtain ⟨d, c⟩ := s
    have hs1 : 1 ≤ c ∧ c ≤ d := hs _ List.mem_cons_self
    match lo, hi, h with
    | l :: lo, h' :: hi, h =>
      simp only [List.map_cons, PatchOK, InArray, InPatch] at h
      simp only [axes, List.mem_cons]
      rintro a (rfl | ha)
      · unfold AxOK; dsimp only; omega
      · exact ih (fun s h => hs s (List.mem_cons_of_mem _ h)) ⟨h.1.2, h.2.1.2, h.2.2.2⟩ a ha
    | [], _, h => exact absurd h.1 (by simp [InArray, InPatch])
    | _ :: _, [], h => exact absurd h.2.1 (by simp [InArray, InPatch])

theorem items_ok {A : DArr} (hs : ShapeOK A.shape) (hio : 0 < A.ioprocs) (hne : A.shape ≠ []) {stale : Nat → Int} (hst : ∀ i, stale i ≤ 0) {dlo dhi : List Int}
    (hp : PatchOK (A.shape.map (·.1)) dlo dhi) (k : Int) :
    ∃ L, items A stale k dlo dhi = some L ∧ Good A k dlo dhi (fun x => InPatch dlo dhi x) L := by
  have hpl : dlo.length = A.shape.length ∧ dhi.length = A.shape.length := by
    have h1 := InPatch.length hp.1
    have h2 := InPatch.length hp.2.1
    simp only [List.length_map] at h1 h2
    exact ⟨h1.1, h2.1⟩
  obtain ⟨a1, a2, a3⟩ := axes_facts hpl.1 hpl.2
  have hok := axes_ok hs hp
  have hax : axes A.shape dlo dhi ≠ [] := by
    intro h0
    rw [h0] at a1
    exact hne a1.symm
  unfold items
  generalize axes A.shape dlo dhi = ax at *
  obtain ⟨ini, z, rfl⟩ : ∃ ini z, ax = ini ++ [z] := ⟨ax.dropLast, ax.getLast hax, (List.dropLast_append_getLast hax).symm⟩
  have hok' : ∀ a ∈ ini, AxOK a := fun a ha => hok a (List.mem_append_left _ ha)
  have hd : decomp stale (ini ++ [z]) = if ini.all fun a => decide (a.mid.cl ≤ a.mid.ch) then
      ([ini.map Ax.algn ++ [(z.l, z.h)]], coverLoop z.whole [] stale ini) else ([], [ini.map Ax.full ++ [z.whole]]) := by
    unfold decomp
    simp only [List.dropLast_concat, List.getLastD_concat]
    rfl
  rw [hd]
  have hsec : ∀ x, InPatch dlo dhi x ↔ InSec (ini ++ [z]) x := by
    intro x; rw [inSec_iff, a2, a3]
  by_cases hm : (ini.all fun a => decide (a.mid.cl ≤ a.mid.ch)) = true
  · rw [if_pos hm]
    have hm' : ∀ a ∈ ini, a.mid.cl ≤ a.mid.ch := by simpa using hm
    have hcl : coverLoop z.whole [] stale ini = clean z.whole ini := by
      rw [coverLoop_clean z.whole [] stale ini hok' hm' ?_]
      · simp
      · intro j hj _
        have := hok' _ (List.getElem_mem hj)
        unfold AxOK at this
        have h3 : stale (([] : List Ax).length + j) ≤ 0 := hst _
        omega
    have har : ini.map Ax.algn ++ [(z.l, z.h)] = (midRow ini z).map fun e => (e.cl, e.ch) := by
      unfold midRow
      rw [List.map_append, List.map_map]
      congr 1
      apply List.map_congr_left
      intro a ha
      have h1 := (split_dim (hok' a ha) (hm' a ha)).2.1
      unfold Ax.algn
      dsimp only [Function.comp]
      congr 1
      split
      · rename_i h; rw [(h1 h).2.2]
      · rename_i h; unfold Ax.mid; simp [h]
    obtain ⟨L1, b1, b2⟩ := rows_items hs hio a1 hok (k := k) (clean z.whole ini) (clean_ok hok' hm')
    obtain ⟨L2, b3, b4⟩ := algn_items hs hio a1 hok hm' (k := k) har
    dsimp only
    rw [hcl, b1]
    simp only [List.flatMap_cons, List.flatMap_nil, List.append_nil]
    rw [b3, ← List.map_append, seqO_some]
    have := b2.append b4
    rw [a2, a3] at this
    refine ⟨_, rfl, this.ok, fun x hx => this.cover x ?_⟩
    rcases clean_cover hok' hm' ((hsec x).1 hx) with h | h
    · exact Or.inr h
    · exact Or.inl h
  · rw [if_neg hm]
    obtain ⟨L1, b1, b2⟩ := rows_items hs hio a1 hok (k := k) [ini.map Ax.full ++ [z.whole]] (by
      intro r hr; rw [List.mem_singleton] at hr; rw [hr]; exact fullRow_ok hok')
    dsimp only
    rw [b1]
    simp only [List.flatMap_nil, List.append_nil]
    rw [seqO_some]
    rw [a2, a3] at b2
    refine ⟨_, rfl, b2.ok, fun x hx => b2.cover x ⟨_, List.mem_singleton.2 rfl, ?_⟩⟩
    have hx' := (hsec x).1 hx
    clear hsec hd b1 b2 a1 a2 a3 hm hax hok hx hp hpl
    induction ini generalizing x with
    | nil =>
      match x, hx' with
      | [x], hx' => simpa [InRow, InSec, Ax.whole] using hx'
      | x :: y :: xs, hx' => simp [InSec] at hx'
    | cons a ini ih =>
      match x, hx' with
      | x :: xs, hx' =>
        simp only [List.cons_append, InSec] at hx'
        simp only [List.map_cons, List.cons_append, InRow]
        refine ⟨?_, ih (fun b hb => hok' b (List.mem_cons_of_mem _ hb)) xs hx'.2⟩
        have ha := hok' a List.mem_cons_self
        obtain ⟨P, e1, e2, e3, e4, e5⟩ := low_facts ha
        obtain ⟨Q, f1, f2, f3, f4, f5⟩ := high_facts ha
        have hQ : (a.h / a.c + 1) * a.c = Q + a.c := by rw [← f1]; ring
        unfold AxOK at ha
        unfold Ax.full
        dsimp only
        rw [e1, hQ]
        split <;> split <;> omega

end GA.Dra
