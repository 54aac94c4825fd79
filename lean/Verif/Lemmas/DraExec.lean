import Verif.Lemmas.DraItems

/-! # Lemmas: executions of requests on disk resident arrays -/

namespace GA.Dra
open GA.Spec GA.Model

variable {V : Type}

theorem ChunkOK.length {sh : List (Int × Int)} {lo hi : List Int} (h : ChunkOK sh lo hi) : lo.length = sh.length ∧ hi.length = sh.length ∧ lo ≠ [] := by
  induction sh generalizing lo hi with
  | nil => cases lo <;> simp [ChunkOK] at h
  | cons s sh ih =>
    obtain ⟨d, c⟩ := s
    match sh, lo, hi, h with
    | [], [l], [h'], _ => simp
    | s2 :: sh, l :: ls, h' :: hs, h =>
      have := ih h.2
      simp [this.1, this.2.1]
    | [], [], _, h => simp [ChunkOK] at h
    | [], _ :: _, [], h => simp [ChunkOK] at h
    | [], [_], _ :: _ :: _, h => simp [ChunkOK] at h
    | [], _ :: _ :: _, _ :: _, h => simp [ChunkOK] at h

theorem ldOK_sub {lo hi ulo uhi ld : List Int} (h : LdOK lo hi ld) (h1 : InPatch lo hi ulo) (h2 : InPatch lo hi uhi) : LdOK ulo uhi ld := by
  induction lo generalizing hi ulo uhi ld with
  | nil => simp [LdOK] at h
  | cons l lo ih =>
    match lo, hi, ulo, uhi, ld, h, h1, h2 with
    | [], [h'], [u], [v], [], _, _, _ => trivial
    | l2 :: lo, h' :: h2' :: hi, u :: u2 :: ulo, v :: v2 :: uhi, e :: ld, h, h1, h2 =>
      simp only [LdOK] at h ⊢
      have h1' := h1
      have h2' := h2
      simp only [InPatch] at h1' h2'
      exact ⟨by omega, ih h.2 (by simpa only [InPatch] using h1'.2) (by simpa only [InPatch] using h2'.2)⟩

theorem patch_hi {lo hi : List Int} (h : InPatch lo hi lo) : InPatch lo hi hi := by
  induction lo generalizing hi with
  | nil => cases hi <;> simp_all [InPatch]
  | cons l lo ih =>
    match hi, h with
    | h' :: hi, h => simp only [InPatch] at h ⊢; exact ⟨by omega, ih h.2⟩

section
variable {A : DArr} {k : Int} {dlo dhi : List Int} {t : Item}

theorem ItemOK.moveOK (h : ItemOK A k dlo dhi t) {glo : List Int} (hd : dlo.length = A.shape.length) (hg : glo.length = A.shape.length) :
    MoveOK dlo glo t.ulo t.uhi (chunkLd t) := by
  obtain ⟨l1, l2, l3⟩ := h.chunk.length
  have hul := ((h.part _).1 h.ne).1
  have huh := ((h.part _).1 (patch_hi h.ne)).1
  exact ⟨by rw [hd, hul.length.1, l1], by rw [hg, hul.length.1, l1], h.ne, ldOK_sub (GA.GP.ldOK_tight l3 (by rw [l1, l2])) hul huh⟩

theorem ItemOK.ld (h : ItemOK A k dlo dhi t) : LdOK t.lo t.hi (chunkLd t) := by
  obtain ⟨l1, l2, l3⟩ := h.chunk.length
  exact GA.GP.ldOK_tight l3 (by rw [l1, l2])

/-- the places of the chunk in the file -/
theorem ItemOK.range (h : ItemOK A k dlo dhi t) : (∀ x, InPatch t.lo t.hi x → 0 ≤ bufPos t.lo (chunkLd t) x ∧ bufPos t.lo (chunkLd t) x < prodI (edges t.lo t.hi)) :=
  fun _ hx => bufPos_lt hx h.chunk.length.2.2

theorem ItemOK.surj (hs : ShapeOK A.shape) (h : ItemOK A k dlo dhi t) (o : Int) (h1 : 0 ≤ o) (h2 : o < prodI (edges t.lo t.hi)) :
    ∃ x, InPatch t.lo t.hi x ∧ bufPos t.lo (chunkLd t) x = o := by
  have hb := box_tight (h.chunk.lo_in hs) h.chunk.length.2.2
  have : o ∈ (List.range (prodI (edges t.lo t.hi)).toNat).map fun i : Nat => (i : Int) := by
    rw [List.mem_map]
    exact ⟨o.toNat, by rw [List.mem_range]; omega, by omega⟩
  rw [← hb, List.mem_map] at this
  obtain ⟨x, hx, rfl⟩ := this
  exact ⟨x, mem_box.1 hx, rfl⟩

theorem ItemOK.offset (h : ItemOK A k dlo dhi t) : GA.GP.offset (chunkLd t) (GA.GP.rel t.ulo t.lo) = bufPos t.lo (chunkLd t) t.ulo :=
  GA.GP.offset_rel _ ((h.part _).1 h.ne).1.length.1

/-- a place in the range of the chunk is the place of one of its elements -/
theorem ItemOK.mem (hs : ShapeOK A.shape) (h : ItemOK A k dlo dhi t) {f o : Int} :
    (f = t.file ∧ t.off ≤ o ∧ o < t.off + prodI (edges t.lo t.hi)) ↔ ∃ x, InPatch t.lo t.hi x ∧ loc A x = (f, o) := by
  constructor
  · rintro ⟨rfl, h1, h2⟩
    obtain ⟨x, hx, he⟩ := h.surj hs (o - t.off) (by omega) (by omega)
    exact ⟨x, hx, by rw [h.place x hx, he]; congr 1; omega⟩
  · rintro ⟨x, hx, he⟩
    rw [h.place x hx] at he
    have := h.range x hx
    simp only [Prod.mk.injEq] at he
    refine ⟨he.1.symm, ?_, ?_⟩ <;> omega

end

/-! ## one item -/

section
variable {A : DArr} {k : Int} {R : Req} {t : Item} (hs : ShapeOK A.shape) (hio : 0 < A.ioprocs) (h : ItemOK A k R.dlo R.dhi t)
  (hd : R.dlo.length = A.shape.length) (hg : R.glo.length = A.shape.length)
include hs hio h hd hg

theorem step_get (st : St V) (p : Nat) : (step R st (p, .get t)).disk = st.disk ∧ (step R st (p, .get t)).ga = st.ga ∧
    (∀ q, q ≠ p → (step R st (p, .get t)).buf q = st.buf q) ∧
    ∀ x, InPatch t.lo t.hi x → (step R st (p, .get t)).buf p (bufPos t.lo (chunkLd t) x) = st.disk (loc A x).1 (loc A x).2 := by
  refine ⟨rfl, rfl, fun q hq => ?_, fun x hx => ?_⟩
  · simp [step, upd, hq]
  · have := h.range x hx
    simp only [step, upd, if_true]
    rw [if_pos this, h.place x hx]

theorem step_load (st : St V) (p : Nat) : (step R st (p, .load t)).disk = st.disk ∧ (step R st (p, .load t)).ga = st.ga ∧
    (∀ q, q ≠ p → (step R st (p, .load t)).buf q = st.buf q) ∧
    (∀ x, InPatch t.lo t.hi x → InPatch R.dlo R.dhi x → (step R st (p, .load t)).buf p (bufPos t.lo (chunkLd t) x) = st.ga (dest R.trans R.dlo R.glo x)) ∧
    ∀ x, InPatch t.lo t.hi x → ¬ InPatch R.dlo R.dhi x → (step R st (p, .load t)).buf p (bufPos t.lo (chunkLd t) x) = st.buf p (bufPos t.lo (chunkLd t) x) := by
  have hm := h.moveOK hd hg
  have hul := ((h.part _).1 h.ne).1
  have hadd : ∀ x, InPatch t.lo t.hi x → bufPos t.lo (chunkLd t) x - bufPos t.lo (chunkLd t) t.ulo = bufPos t.ulo (chunkLd t) x := by
    intro x hx
    have := bufPos_add (s := t.lo) (a := t.ulo) (x := x) (ld := chunkLd t) hul.length.1 hx.length.1
    omega
  obtain ⟨m1, m2⟩ := moveLoad_spec R.trans st.ga hm (shiftBuf (st.buf p) (bufPos t.lo (chunkLd t) t.ulo))
  refine ⟨rfl, rfl, fun q hq => ?_, fun x hx hu => ?_, fun x hx hu => ?_⟩
  · simp [step, upd, hq]
  · simp only [step, upd, if_true]
    rw [h.offset, hadd x hx, m1 x ((h.part x).2 ⟨hx, hu⟩)]
  · simp only [step, upd, if_true]
    rw [h.offset, hadd x hx, m2]
    · unfold shiftBuf; rw [← hadd x hx]; congr 1; omega
    · intro y hy e
      have hy' := ((h.part y).1 hy)
      have e2 : bufPos t.lo (chunkLd t) y = bufPos t.lo (chunkLd t) x := by
        have a := hadd x hx
        have b := hadd y hy'.1
        omega
      have := bufPos_inj h.ld hy'.1 hx e2
      subst this
      exact hu hy'.2

theorem step_put (st : St V) (p : Nat) : (step R st (p, .put t)).buf = st.buf ∧ (step R st (p, .put t)).ga = st.ga ∧
    (∀ x, InPatch t.lo t.hi x → (step R st (p, .put t)).disk (loc A x).1 (loc A x).2 = st.buf p (bufPos t.lo (chunkLd t) x)) ∧
    ∀ f o, (∀ x, InPatch t.lo t.hi x → loc A x ≠ (f, o)) → (step R st (p, .put t)).disk f o = st.disk f o := by
  refine ⟨rfl, rfl, fun x hx => ?_, fun f o hn => ?_⟩
  · have hr := h.range x hx
    rw [h.place x hx]
    simp only [step, upd, if_true]
    rw [if_pos ⟨by omega, by omega⟩]
    congr 1
    omega
  · simp only [step, upd]
    split
    · rename_i hf
      dsimp only
      split
      · rename_i ho
        obtain ⟨x, hx, he⟩ := (h.mem hs).1 ⟨hf, ho⟩
        exact absurd he (hn x hx)
      · rw [hf]
    · rfl

theorem step_store (st : St V) (p : Nat) : (step R st (p, .store t)).buf = st.buf ∧ (step R st (p, .store t)).disk = st.disk ∧
    (∀ x, InPatch t.lo t.hi x → InPatch R.dlo R.dhi x → (step R st (p, .store t)).ga (dest R.trans R.dlo R.glo x) = st.buf p (bufPos t.lo (chunkLd t) x)) ∧
    ∀ y, (∀ x, InPatch t.lo t.hi x → InPatch R.dlo R.dhi x → dest R.trans R.dlo R.glo x ≠ y) → (step R st (p, .store t)).ga y = st.ga y := by
  have hm := h.moveOK hd hg
  have hul := ((h.part _).1 h.ne).1
  obtain ⟨m1, m2⟩ := moveStore_spec R.trans st.ga hm (shiftBuf (st.buf p) (bufPos t.lo (chunkLd t) t.ulo))
  refine ⟨rfl, rfl, fun x hx hu => ?_, fun y hy => ?_⟩
  · simp only [step]
    rw [h.offset, m1 x ((h.part x).2 ⟨hx, hu⟩)]
    unfold shiftBuf
    rw [bufPos_add hul.length.1 hx.length.1]
  · simp only [step]
    rw [h.offset]
    exact m2 y fun x hx => hy x ((h.part x).1 hx).1 ((h.part x).1 hx).2

end

/-! ## one process -/

/-- actions that belong to the items of process `ids p` -/
def ActOK (A : DArr) (k : Int) (R : Req) (w : Bool) : Act → Prop
  | .get t => ItemOK A k R.dlo R.dhi t
  | .load t => ItemOK A k R.dlo R.dhi t ∧ w = true
  | .put t => ItemOK A k R.dlo R.dhi t ∧ w = true
  | .store t => ItemOK A k R.dlo R.dhi t ∧ w = false

/-- element `x` belongs to I/O process `k` -/
def Own (A : DArr) (k : Int) (x : List Int) : Prop := InArray (A.shape.map (·.1)) x ∧ blockNo A.shape x % A.ioprocs = k

/-- the two states look the same to process `p` with I/O rank `k` -/
structure Rel (A : DArr) (R : Req) (w : Bool) (p : Nat) (k : Int) (st st2 : St V) : Prop where
  buf : st.buf p = st2.buf p
  disk : ∀ x, Own A k x → st.disk (loc A x).1 (loc A x).2 = st2.disk (loc A x).1 (loc A x).2
  ga : if w then st.ga = st2.ga else ∀ x, Own A k x → InPatch R.dlo R.dhi x → st.ga (dest R.trans R.dlo R.glo x) = st2.ga (dest R.trans R.dlo R.glo x)

section
variable {A : DArr} {R : Req} {w : Bool} (hs : ShapeOK A.shape) (hio : 0 < A.ioprocs)
  (hd : R.dlo.length = A.shape.length) (hg : R.glo.length = A.shape.length)
include hs hio hd hg

theorem other {p q : Nat} {k j : Int} {a : Act} (ha : ActOK A j R w a) (hne : p ≠ q) (hkj : j ≠ k) {st st2 : St V} (h : Rel A R w p k st st2) :
    Rel A R w p k (step R st (q, a)) st2 := by
  cases a with
  | get t =>
    obtain ⟨e1, e2, e3, _⟩ := step_get hs hio ha hd hg st q
    exact ⟨by rw [e3 p hne]; exact h.buf, by rw [e1]; exact h.disk, by rw [e2]; exact h.ga⟩
  | load t =>
    obtain ⟨e1, e2, e3, _⟩ := step_load hs hio ha.1 hd hg st q
    exact ⟨by rw [e3 p hne]; exact h.buf, by rw [e1]; exact h.disk, by rw [e2]; exact h.ga⟩
  | put t =>
    obtain ⟨e1, e2, _, e4⟩ := step_put hs hio ha.1 hd hg st q
    refine ⟨by rw [e1]; exact h.buf, fun x hx => ?_, by rw [e2]; exact h.ga⟩
    rw [e4 _ _ fun y hy he => ?_]
    · exact h.disk x hx
    · have := loc_inj hs hio (ha.1.chunk.inArray hy) hx.1 he
      subst this
      exact hkj ((ha.1.turn _ hy).symm.trans hx.2)
  | store t =>
    obtain ⟨ha1, ha2⟩ := ha
    subst ha2
    obtain ⟨e1, e2, _, e4⟩ := step_store hs hio ha1 hd hg st q
    refine ⟨by rw [e1]; exact h.buf, by rw [e2]; exact h.disk, ?_⟩
    have hga := h.ga
    simp only [Bool.false_eq_true, if_false] at hga ⊢
    intro x hx hu
    rw [e4 _ fun y hy hyu he => ?_]
    · exact hga x hx hu
    · have := dest_inj (by rw [hd, hy.length.1, ha1.chunk.length.1]) (by rw [hg, hy.length.1, ha1.chunk.length.1]) (by rw [hy.length.1, hx.1.length, List.length_map, ha1.chunk.length.1]) he
      subst this
      exact hkj ((ha1.turn _ hy).symm.trans hx.2)

theorem ItemOK.own {k : Int} {t : Item} (h : ItemOK A k R.dlo R.dhi t) {x : List Int} (hx : InPatch t.lo t.hi x) : Own A k x :=
  ⟨h.chunk.inArray hx, h.turn x hx⟩

theorem same {p : Nat} {k : Int} {a : Act} (ha : ActOK A k R w a) {st st2 : St V} (h : Rel A R w p k st st2) :
    Rel A R w p k (step R st (p, a)) (step R st2 (p, a)) := by
  cases a with
  | get t =>
    have ha' : ItemOK A k R.dlo R.dhi t := ha
    refine ⟨?_, h.disk, h.ga⟩
    simp only [step, upd, if_true]
    funext o
    rw [h.buf]
    split
    · rename_i ho
      obtain ⟨x, hx, he⟩ := ha'.surj hs o ho.1 ho.2
      have := h.disk x ⟨ha'.chunk.inArray hx, ha'.turn x hx⟩
      rw [ha'.place x hx, he] at this
      exact this
    · rfl
  | load t =>
    obtain ⟨ha1, ha2⟩ := ha
    subst ha2
    refine ⟨?_, h.disk, h.ga⟩
    have hga : st.ga = st2.ga := by simpa using h.ga
    simp only [step, upd, if_true]
    rw [h.buf, hga]
  | put t =>
    obtain ⟨ha1, ha2⟩ := ha
    subst ha2
    obtain ⟨e1, e2, e3, e4⟩ := step_put hs hio ha1 hd hg st p
    obtain ⟨f1, f2, f3, f4⟩ := step_put hs hio ha1 hd hg st2 p
    refine ⟨by rw [e1, f1]; exact h.buf, fun x hx => ?_, by rw [e2, f2]; exact h.ga⟩
    by_cases hc : InPatch t.lo t.hi x
    · rw [e3 x hc, f3 x hc, h.buf]
    · have hn : ∀ y, InPatch t.lo t.hi y → loc A y ≠ ((loc A x).1, (loc A x).2) := by
        intro y hy he
        have := loc_inj hs hio (ha1.chunk.inArray hy) hx.1 he
        subst this
        exact hc hy
      rw [e4 _ _ hn, f4 _ _ hn]
      exact h.disk x hx
  | store t =>
    obtain ⟨ha1, ha2⟩ := ha
    subst ha2
    obtain ⟨e1, e2, e3, e4⟩ := step_store hs hio ha1 hd hg st p
    obtain ⟨f1, f2, f3, f4⟩ := step_store hs hio ha1 hd hg st2 p
    refine ⟨by rw [e1, f1]; exact h.buf, by rw [e2, f2]; exact h.disk, ?_⟩
    have hga := h.ga
    simp only [Bool.false_eq_true, if_false] at hga ⊢
    intro x hx hu
    by_cases hc : InPatch t.lo t.hi x
    · rw [e3 x hc hu, f3 x hc hu, h.buf]
    · have hn : ∀ y, InPatch t.lo t.hi y → InPatch R.dlo R.dhi y → dest R.trans R.dlo R.glo y ≠ dest R.trans R.dlo R.glo x := by
        intro y hy _ he
        have hyl := hy.length.1
        have hxl := hx.1.length
        rw [List.length_map] at hxl
        have := dest_inj (by rw [hd, hyl, ha1.chunk.length.1]) (by rw [hg, hyl, ha1.chunk.length.1]) (by rw [hyl, hxl, ha1.chunk.length.1]) he
        subst this
        exact hc hy
      rw [e4 _ hn, f4 _ hn]
      exact hga x hx hu

theorem project {ids : Nat → Int} {p : Nat} (s : List (Nat × Act)) (hs' : ∀ e ∈ s, ActOK A (ids e.1) R w e.2) (hid : ∀ e ∈ s, e.1 ≠ p → ids e.1 ≠ ids p)
    {st st2 : St V} (h : Rel A R w p (ids p) st st2) :
    Rel A R w p (ids p) (s.foldl (step R) st) ((s.filter fun e => e.1 == p).foldl (step R) st2) := by
  induction s generalizing st st2 with
  | nil => exact h
  | cons e s ih =>
    obtain ⟨q, a⟩ := e
    have ha := hs' _ List.mem_cons_self
    by_cases hq : q = p
    · subst hq
      rw [List.filter_cons_of_pos (by simp), List.foldl_cons, List.foldl_cons]
      exact ih (fun e he => hs' e (List.mem_cons_of_mem _ he)) (fun e he => hid e (List.mem_cons_of_mem _ he)) (same hs hio hd hg ha h)
    · rw [List.filter_cons_of_neg (by simpa using hq), List.foldl_cons]
      exact ih (fun e he => hs' e (List.mem_cons_of_mem _ he)) (fun e he => hid e (List.mem_cons_of_mem _ he))
        (other hs hio hd hg ha (Ne.symm hq) (hid _ List.mem_cons_self hq) h)

/-- what the whole program of a process that writes does -/
theorem seqWrite (p : Nat) {k : Int} (L : List Item) (hL : ∀ t ∈ L, ItemOK A k R.dlo R.dhi t) (st : St V) :
    (((L.flatMap writeActs).map fun a => (p, a)).foldl (step R) st).ga = st.ga ∧
    ∀ x, InArray (A.shape.map (·.1)) x →
      ((∃ t ∈ L, InPatch t.lo t.hi x ∧ InPatch R.dlo R.dhi x) →
        (((L.flatMap writeActs).map fun a => (p, a)).foldl (step R) st).disk (loc A x).1 (loc A x).2 = st.ga (dest R.trans R.dlo R.glo x)) ∧
      ((∀ t ∈ L, ¬ (InPatch t.lo t.hi x ∧ InPatch R.dlo R.dhi x)) →
        (((L.flatMap writeActs).map fun a => (p, a)).foldl (step R) st).disk (loc A x).1 (loc A x).2 = st.disk (loc A x).1 (loc A x).2) := by
  induction L generalizing st with
  | nil => simp
  | cons t L ih =>
    have ht := hL t List.mem_cons_self
    rw [List.flatMap_cons, List.map_append, List.foldl_append]
    have one : (((writeActs t).map fun a => (p, a)).foldl (step R) st).ga = st.ga ∧
        ∀ x, InArray (A.shape.map (·.1)) x →
          (((writeActs t).map fun a => (p, a)).foldl (step R) st).disk (loc A x).1 (loc A x).2 =
            if InPatch t.lo t.hi x ∧ InPatch R.dlo R.dhi x then st.ga (dest R.trans R.dlo R.glo x) else st.disk (loc A x).1 (loc A x).2 := by
      have last : ∀ (st2 : St V), st2.ga = st.ga → st2.disk = st.disk →
          (∀ x, InPatch t.lo t.hi x → ¬ InPatch R.dlo R.dhi x → st2.buf p (bufPos t.lo (chunkLd t) x) = st.disk (loc A x).1 (loc A x).2) →
          (step R (step R st2 (p, .load t)) (p, .put t)).ga = st.ga ∧ ∀ x, InArray (A.shape.map (·.1)) x →
          (step R (step R st2 (p, .load t)) (p, .put t)).disk (loc A x).1 (loc A x).2 =
            if InPatch t.lo t.hi x ∧ InPatch R.dlo R.dhi x then st.ga (dest R.trans R.dlo R.glo x) else st.disk (loc A x).1 (loc A x).2 := by
        intro st2 g1 g2 g3
        obtain ⟨l1, l2, _, l4, l5⟩ := step_load hs hio ht hd hg st2 p
        obtain ⟨p1, p2, p3, p4⟩ := step_put hs hio ht hd hg (step R st2 (p, .load t)) p
        refine ⟨by rw [p2, l2, g1], fun x hx => ?_⟩
        by_cases hc : InPatch t.lo t.hi x
        · rw [p3 x hc]
          by_cases hu : InPatch R.dlo R.dhi x
          · rw [if_pos ⟨hc, hu⟩, l4 x hc hu, g1]
          · rw [if_neg fun h => hu h.2, l5 x hc hu, g3 x hc hu]
        · rw [if_neg fun h => hc h.1, p4, l1, g2]
          intro y hy he
          have := loc_inj hs hio (ht.chunk.inArray hy) hx he
          subst this
          exact hc hy
      unfold writeActs
      cases hal : t.algn
      · obtain ⟨g1, g2, _, g4⟩ := step_get hs hio ht hd hg st p
        exact last (step R st (p, .get t)) g2 g1 fun x hx _ => g4 x hx
      · refine last st rfl rfl fun x hx hu => ?_
        obtain ⟨w1, w2⟩ := ht.whole hal
        have := (ht.part x).1 (by rw [w1, w2]; exact hx)
        exact absurd this.2 hu
    obtain ⟨o1, o2⟩ := one
    obtain ⟨i1, i2⟩ := ih (fun t h => hL t (List.mem_cons_of_mem _ h)) (((writeActs t).map fun a => (p, a)).foldl (step R) st)
    refine ⟨by rw [i1, o1], fun x hx => ⟨?_, ?_⟩⟩
    · intro hex
      by_cases h2 : ∃ t ∈ L, InPatch t.lo t.hi x ∧ InPatch R.dlo R.dhi x
      · rw [(i2 x hx).1 h2, o1]
      · rw [(i2 x hx).2 fun t ht h => h2 ⟨t, ht, h⟩, o2 x hx]
        obtain ⟨t', ht', hb⟩ := hex
        rcases List.mem_cons.1 ht' with rfl | h
        · rw [if_pos hb]
        · exact absurd ⟨t', h, hb⟩ h2
    · intro hno
      rw [(i2 x hx).2 fun t ht h => hno t (List.mem_cons_of_mem _ ht) h, o2 x hx, if_neg (hno t List.mem_cons_self)]

/-- what the whole program of a process that reads does -/
theorem seqRead (p : Nat) {k : Int} (L : List Item) (hL : ∀ t ∈ L, ItemOK A k R.dlo R.dhi t) (st : St V) :
    (((L.flatMap readActs).map fun a => (p, a)).foldl (step R) st).disk = st.disk ∧
    ∀ x, x.length = A.shape.length → (∃ t ∈ L, InPatch t.lo t.hi x ∧ InPatch R.dlo R.dhi x) →
        (((L.flatMap readActs).map fun a => (p, a)).foldl (step R) st).ga (dest R.trans R.dlo R.glo x) = st.disk (loc A x).1 (loc A x).2 := by
  have key : ∀ (v : V) x, x.length = A.shape.length → (v = st.disk (loc A x).1 (loc A x).2) → ∀ (L : List Item), (∀ t ∈ L, ItemOK A k R.dlo R.dhi t) → ∀ st2 : St V, st2.disk = st.disk →
      (((L.flatMap readActs).map fun a => (p, a)).foldl (step R) st2).disk = st.disk ∧
      ((st2.ga (dest R.trans R.dlo R.glo x) = v ∨ ∃ t ∈ L, InPatch t.lo t.hi x ∧ InPatch R.dlo R.dhi x) →
        (((L.flatMap readActs).map fun a => (p, a)).foldl (step R) st2).ga (dest R.trans R.dlo R.glo x) = v) := by
    intro v x hxl hv L
    induction L with
    | nil => intro _ st2 h2; exact ⟨h2, by simp⟩
    | cons t L ih =>
      intro hL st2 h2
      have ht := hL t List.mem_cons_self
      rw [List.flatMap_cons, List.map_append, List.foldl_append]
      have e0 : ((readActs t).map fun a => (p, a)).foldl (step R) st2 = step R (step R st2 (p, .get t)) (p, .store t) := rfl
      rw [e0]
      obtain ⟨g1, g2, _, g4⟩ := step_get hs hio ht hd hg st2 p
      obtain ⟨p1, p2, p3, p4⟩ := step_store hs hio ht hd hg (step R st2 (p, .get t)) p
      obtain ⟨i1, i2⟩ := ih (fun t h => hL t (List.mem_cons_of_mem _ h)) (step R (step R st2 (p, .get t)) (p, .store t)) (by rw [p2, g1, h2])
      refine ⟨i1, fun hex => i2 ?_⟩
      by_cases hc : InPatch t.lo t.hi x ∧ InPatch R.dlo R.dhi x
      · left
        rw [p3 x hc.1 hc.2, g4 x hc.1, h2, hv]
      · rcases hex with h | ⟨t', ht', hb⟩
        · left
          rw [p4, g2, h]
          intro y hy hyu he
          have hyl := hy.length.1
          have := dest_inj (by rw [hd, hyl, ht.chunk.length.1]) (by rw [hg, hyl, ht.chunk.length.1]) (by rw [hyl, hxl, ht.chunk.length.1]) he
          subst this
          exact hc ⟨hy, hyu⟩
        · rcases List.mem_cons.1 ht' with rfl | h
          · exact absurd hb hc
          · exact Or.inr ⟨t', h, hb⟩
  constructor
  · exact (key (st.disk (loc A (A.shape.map fun _ => 0)).1 (loc A (A.shape.map fun _ => 0)).2) (A.shape.map fun _ => 0) (by simp) rfl L hL st rfl).1
  · intro x hxl hex
    exact (key _ x hxl rfl L hL st rfl).2 (Or.inr hex)

end

/-! ## executions -/

theorem accepted_facts {A : DArr} {gdims : List Int} {R : Req} (h : accepted A gdims R = true) :
    PatchOK (A.shape.map (·.1)) R.dlo R.dhi ∧ PatchOK gdims R.glo R.ghi ∧ R.dlo.length = A.shape.length ∧ R.glo.length = A.shape.length := by
  have key : ∀ (dims lo hi : List Int), (decide (lo.length = dims.length) && decide (hi.length = dims.length) &&
      ((lo.zip (hi.zip dims)).all fun s => decide (0 < s.1) && decide (s.1 ≤ s.2.1) && decide (s.2.1 ≤ s.2.2))) = true → PatchOK dims lo hi := by
    intro dims
    induction dims with
    | nil =>
      intro lo hi h
      cases lo <;> cases hi <;> simp_all [PatchOK, InArray, InPatch]
    | cons d dims ih =>
      intro lo hi h
      match lo, hi with
      | [], _ => simp at h
      | _ :: _, [] => simp at h
      | l :: lo, h' :: hi =>
        simp only [Bool.and_eq_true, decide_eq_true_eq, List.length_cons, Nat.add_right_cancel_iff, List.zip_cons_cons, List.all_cons] at h
        obtain ⟨⟨h1, h2⟩, h3, h4⟩ := h
        have := ih lo hi (by simp only [Bool.and_eq_true, decide_eq_true_eq]; exact ⟨⟨h1, h2⟩, h4⟩)
        obtain ⟨a, b, c⟩ := this
        refine ⟨?_, ?_, ?_⟩
        · simp only [InArray, List.map_cons, InPatch]; exact ⟨by omega, a⟩
        · simp only [InArray, List.map_cons, InPatch]; exact ⟨by omega, b⟩
        · simp only [InPatch]; exact ⟨by omega, c⟩
  unfold accepted at h
  simp only [Bool.and_eq_true] at h
  obtain ⟨⟨⟨⟨h1, h2⟩, h3⟩, h4⟩, h5⟩ := h
  have a := key gdims R.glo R.ghi (by simp only [Bool.and_eq_true]; exact h2)
  have b := key (A.shape.map (·.1)) R.dlo R.dhi (by simp only [Bool.and_eq_true]; exact h3)
  refine ⟨b, a, ?_, ?_⟩
  · have := InPatch.length b.1; simpa using this.1
  · have := InPatch.length a.1
    simp only [List.length_map] at this
    rw [this.1]; simpa using h1

/-- the I/O ranks: distinct, and all of them present -/
structure IdsOK (ids : Nat → Int) (n : Nat) (ioprocs : Int) : Prop where
  inj : ∀ p q, p < n → q < n → 0 ≤ ids p → ids p = ids q → p = q
  all : ∀ k, 0 ≤ k → k < ioprocs → ∃ p, p < n ∧ ids p = k

theorem map_pair {p : Nat} {L : List (Nat × Act)} (h : ∀ e ∈ L, e.1 = p) : L = (L.map (·.2)).map fun a => (p, a) := by
  induction L with
  | nil => rfl
  | cons e L ih =>
    obtain ⟨q, a⟩ := e
    have : q = p := h _ List.mem_cons_self
    subst this
    rw [List.map_cons, List.map_cons, ← ih fun e he => h e (List.mem_cons_of_mem _ he)]

section
variable {A : DArr} {R : Req} (hs : ShapeOK A.shape) (hio : 0 < A.ioprocs) (hne : A.shape ≠ []) {stale : Nat → Int} (hst : ∀ i, stale i ≤ 0) {n : Nat} {ids : Nat → Int}
  (hid : IdsOK ids n A.ioprocs) {gdims : List Int} (hacc : accepted A gdims R = true)
include hs hio hne hst hid hacc

theorem exec_general (w : Bool) (acts : Item → List Act) (hacts : ∀ (k : Int) t, ItemOK A k R.dlo R.dhi t → ∀ a ∈ acts t, ActOK A k R w a) {st st' : St V}
    (h : Exec n (fun p => (items A stale (ids p) R.dlo R.dhi).map (·.flatMap acts)) R st st') :
    (∃ s : List (Nat × Act), (∀ e ∈ s, ActOK A (ids e.1) R w e.2) ∧ st' = s.foldl (step R) st) ∧
    ∀ k, 0 ≤ k → k < A.ioprocs → ∃ p L, Good A k R.dlo R.dhi (fun x => InPatch R.dlo R.dhi x) L ∧
      Rel A R w p k st' (((L.flatMap acts).map fun a => (p, a)).foldl (step R) st) := by
  obtain ⟨hp, hpg, hd, hg⟩ := accepted_facts hacc
  obtain ⟨s, h1, h2, rfl⟩ := h
  have hL := fun k => items_ok hs hio hne hst hp k
  have hact : ∀ e ∈ s, ActOK A (ids e.1) R w e.2 := by
    intro e he
    obtain ⟨L, l1, l2⟩ := hL (ids e.1)
    have h3 := h2 e.1 (h1 e he)
    dsimp only at h3
    rw [l1] at h3
    simp only [Option.map_some, Option.some.injEq] at h3
    have : e.2 ∈ L.flatMap acts := by
      rw [h3, List.mem_map]
      exact ⟨e, List.mem_filter.2 ⟨he, by simp⟩, rfl⟩
    obtain ⟨t, ht, ha⟩ := List.mem_flatMap.1 this
    exact hacts _ t (l2.ok t ht) _ ha
  refine ⟨⟨s, hact, rfl⟩, fun k hk0 hk1 => ?_⟩
  obtain ⟨p, hpn, rfl⟩ := hid.all k hk0 hk1
  obtain ⟨L, l1, l2⟩ := hL (ids p)
  refine ⟨p, L, l2, ?_⟩
  have h3 := h2 p hpn
  dsimp only at h3
  rw [l1] at h3
  simp only [Option.map_some, Option.some.injEq] at h3
  rw [h3, ← map_pair (p := p) (by intro e he; simpa using (List.mem_filter.1 he).2)]
  refine project hs hio hd hg s hact ?_ ⟨rfl, fun _ _ => rfl, by split <;> simp⟩
  intro e he hep heq
  exact hep (hid.inj p e.1 hpn (h1 e he) hk0 heq.symm).symm

theorem writeOp_effect {st st' : St V} (h : WriteOp A gdims ids n stale R st st') :
    st'.ga = st.ga ∧
    (∀ x, InArray (A.shape.map (·.1)) x → InPatch R.dlo R.dhi x → st'.disk (loc A x).1 (loc A x).2 = st.ga (dest R.trans R.dlo R.glo x)) ∧
    ∀ f o, (∀ x, InArray (A.shape.map (·.1)) x → InPatch R.dlo R.dhi x → loc A x ≠ (f, o)) → st'.disk f o = st.disk f o := by
  obtain ⟨hp, hpg, hd, hg⟩ := accepted_facts hacc
  obtain ⟨⟨s, s1, s2⟩, hk⟩ := exec_general hs hio hne hst hid hacc true writeActs (by
    intro k t ht a ha
    unfold writeActs at ha
    split at ha
    · simp only [List.mem_cons, List.not_mem_nil, or_false] at ha
      rcases ha with rfl | rfl <;> exact ⟨ht, rfl⟩
    · simp only [List.mem_cons, List.not_mem_nil, or_false] at ha
      rcases ha with rfl | rfl | rfl
      · exact ht
      · exact ⟨ht, rfl⟩
      · exact ⟨ht, rfl⟩) h.2
  have hga : st'.ga = st.ga := by
    obtain ⟨p, L, _, h3⟩ := hk 0 (by omega) hio
    have h4 := h3.ga
    simp only [if_true] at h4
    rename_i h2
    rw [h4]
    exact (seqWrite hs hio hd hg p L h2.ok st).1
  have hin : ∀ x, InArray (A.shape.map (·.1)) x → (InPatch R.dlo R.dhi x → st'.disk (loc A x).1 (loc A x).2 = st.ga (dest R.trans R.dlo R.glo x)) ∧
      (¬ InPatch R.dlo R.dhi x → st'.disk (loc A x).1 (loc A x).2 = st.disk (loc A x).1 (loc A x).2) := by
    intro x hx
    obtain ⟨p, L, h2, h3⟩ := hk (blockNo A.shape x % A.ioprocs) (Int.emod_nonneg _ (by omega)) (Int.emod_lt_of_pos _ hio)
    have h4 := h3.disk x ⟨hx, rfl⟩
    have h5 := (seqWrite hs hio hd hg p L h2.ok st).2 x hx
    constructor
    · intro hu
      obtain ⟨t, ht, htx⟩ := h2.cover x hu rfl
      rw [h4, h5.1 ⟨t, ht, htx, hu⟩]
    · intro hu
      rw [h4, h5.2 fun t _ h => hu h.2]
  refine ⟨hga, fun x hx hu => (hin x hx).1 hu, fun f o hn => ?_⟩
  by_cases hex : ∃ x, InArray (A.shape.map (·.1)) x ∧ loc A x = (f, o)
  · obtain ⟨x, hx, he⟩ := hex
    have := (hin x hx).2 fun hu => hn x hx hu he
    rw [he] at this
    exact this
  · rw [s2]
    clear s2 hga hin hk h
    induction s generalizing st with
    | nil => rfl
    | cons e s ih =>
      rw [List.foldl_cons, ih (fun e he => s1 e (List.mem_cons_of_mem _ he))]
      obtain ⟨q, a⟩ := e
      have ha := s1 _ List.mem_cons_self
      cases a with
      | get t => rfl
      | load t => rfl
      | put t => exact (step_put hs hio ha.1 hd hg st q).2.2.2 f o fun x hx he => hex ⟨x, ha.1.chunk.inArray hx, he⟩
      | store t => exact absurd ha.2 (by simp)

theorem readOp_effect {st st' : St V} (h : ReadOp A gdims ids n stale R st st') :
    st'.disk = st.disk ∧
    (∀ x, InPatch R.dlo R.dhi x → st'.ga (dest R.trans R.dlo R.glo x) = st.disk (loc A x).1 (loc A x).2) ∧
    ∀ y, (∀ x, InPatch R.dlo R.dhi x → dest R.trans R.dlo R.glo x ≠ y) → st'.ga y = st.ga y := by
  obtain ⟨hp, hpg, hd, hg⟩ := accepted_facts hacc
  obtain ⟨⟨s, s1, s2⟩, hk⟩ := exec_general hs hio hne hst hid hacc false readActs (by
    intro k t ht a ha
    unfold readActs at ha
    simp only [List.mem_cons, List.not_mem_nil, or_false] at ha
    rcases ha with rfl | rfl
    · exact ht
    · exact ⟨ht, rfl⟩) h.2
  refine ⟨?_, ?_, ?_⟩
  · rw [s2]
    clear s2 hk h
    induction s generalizing st with
    | nil => rfl
    | cons e s ih =>
      rw [List.foldl_cons, ih (fun e he => s1 e (List.mem_cons_of_mem _ he))]
      obtain ⟨q, a⟩ := e
      have ha := s1 _ List.mem_cons_self
      cases a with
      | get t => rfl
      | load t => exact absurd ha.2 (by simp)
      | put t => exact absurd ha.2 (by simp)
      | store t => rfl
  · intro x hu
    have hx : InArray (A.shape.map (·.1)) x := by
      have key : ∀ (dims lo hi x : List Int), PatchOK dims lo hi → InPatch lo hi x → InArray dims x := by
        intro dims
        induction dims with
        | nil =>
          intro lo hi x h1 h2
          have l1 := InPatch.length h1.1
          have l2 := InPatch.length h1.2.1
          cases lo <;> cases hi <;> cases x <;> simp_all [InPatch, InArray]
        | cons d dims ih =>
          intro lo hi x h1 h2
          match lo, hi, x, h1, h2 with
          | l :: lo, h :: hi, x :: xs, h1, h2 =>
            simp only [PatchOK, InArray, List.map_cons, InPatch] at h1 h2 ⊢
            exact ⟨by omega, ih lo hi xs ⟨h1.1.2, h1.2.1.2, h1.2.2.2⟩ h2.2⟩
          | [], _, _, h1, _ => exact absurd h1.1 (by simp [InArray, InPatch])
      exact key _ _ _ _ hp hu
    obtain ⟨p, L, h2, h3⟩ := hk (blockNo A.shape x % A.ioprocs) (Int.emod_nonneg _ (by omega)) (Int.emod_lt_of_pos _ hio)
    have h4 := h3.ga
    simp only [Bool.false_eq_true, if_false] at h4
    obtain ⟨t, ht, htx⟩ := h2.cover x hu rfl
    rw [h4 x ⟨hx, rfl⟩ hu]
    exact (seqRead hs hio hd hg p L h2.ok st).2 x (by rw [hu.length.1, hd]) ⟨t, ht, htx, hu⟩
  · intro y hn
    rw [s2]
    clear s2 hk h
    induction s generalizing st with
    | nil => rfl
    | cons e s ih =>
      rw [List.foldl_cons, ih (fun e he => s1 e (List.mem_cons_of_mem _ he))]
      obtain ⟨q, a⟩ := e
      have ha := s1 _ List.mem_cons_self
      cases a with
      | get t => rfl
      | load t => exact absurd ha.2 (by simp)
      | put t => exact absurd ha.2 (by simp)
      | store t => exact (step_store hs hio ha.1 hd hg st q).2.2.2 y fun x _ hu => hn x hu

end

/-- there is an execution: no process fails -/
theorem exec_exists (n : Nat) (prog : Nat → Option (List Act)) (R : Req) (st : St V) (h : ∀ p < n, ∃ l, prog p = some l) : ∃ st', Exec n prog R st st' := by
  refine ⟨_, (List.range n).flatMap fun p => ((prog p).getD []).map fun a => (p, a), ?_, ?_, rfl⟩
  · intro e he
    obtain ⟨p, hp, h2⟩ := List.mem_flatMap.1 he
    obtain ⟨a, _, rfl⟩ := List.mem_map.1 h2
    exact List.mem_range.1 hp
  · intro p hp
    obtain ⟨l, hl⟩ := h p hp
    rw [hl]
    congr 1
    have key : ∀ m, ((((List.range m).flatMap fun p => ((prog p).getD []).map fun a => (p, a)).filter fun e => e.1 == p).map (·.2)) = if p < m then l else [] := by
      intro m
      induction m with
      | zero => simp
      | succ m ih =>
        rw [List.range_succ, List.flatMap_append, List.filter_append, List.map_append, ih]
        simp only [List.flatMap_cons, List.flatMap_nil, List.append_nil]
        by_cases hpm : p = m
        · subst hpm
          rw [if_neg (by omega), if_pos (by omega), hl, List.filter_eq_self.2 (by simp)]
          simp [List.map_map, Function.comp_def]
        · have : (((prog m).getD []).map fun a => (m, a)).filter (fun e => e.1 == p) = [] := by
            rw [List.filter_eq_nil_iff]
            intro e he
            obtain ⟨a, _, rfl⟩ := List.mem_map.1 he
            simp; exact Ne.symm hpm
          rw [this]
          simp only [List.map_nil, List.append_nil]
          split <;> split <;> first | rfl | omega
    rw [key n, if_pos hp]

end GA.Dra
