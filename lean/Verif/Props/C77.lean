import Verif.Lemmas.KrCtx
import Verif.Spec.KrMalloc

/-!
# C77: the allocator of local memory gives out memory that nobody else has
-/

namespace GA
open GA.Kr GA.Spec.Mem

/-- the memory obtained from the system so far, as ranges of bytes -/
def C77_sys (c : Ctx) : List (Nat × Nat) := c.chunks.map fun b => (b.addr, 64 * b.size)

/-- what is assumed of the system: an answer to a request for `m` units is memory apart from what it gave before and from the context. The header `base` is inside
the context, so the memory does not touch it. -/
def C77_Fresh (c : Ctx) (sys : Nat → Option Nat) : Prop :=
  ∀ m a, sys m = some a → (∀ x ∈ C77_sys c, Apart (a, 64 * m) x) ∧ (a + 64 * m < c.base ∨ c.base < a)

/-- any history of allocations, failed allocations and releases: the context, the live allocations, and the most units that were live at one time -/
inductive C77_Reach (base nalloc maxNalloc : Nat) : Ctx → List (Nat × Nat) → Nat → Prop
  | init : C77_Reach base nalloc maxNalloc (init base nalloc maxNalloc) [] 0
  | malloc {c c' live hi sys n p} : C77_Reach base nalloc maxNalloc c live hi → C77_Fresh c sys → kmalloc sys n c = some (c', some p) →
      C77_Reach base nalloc maxNalloc c' ((p, n) :: live) (max hi (unitsLive ((p, n) :: live)))
  | null {c c' live hi sys n} : C77_Reach base nalloc maxNalloc c live hi → C77_Fresh c sys → kmalloc sys n c = some (c', none) →
      C77_Reach base nalloc maxNalloc c' live hi
  | free {c c' live hi p n} : C77_Reach base nalloc maxNalloc c live hi → (p, n) ∈ live → kfree p c = some c' →
      C77_Reach base nalloc maxNalloc c' (live.filter fun x => x.1 ≠ p) hi

private theorem fresh_apart {c : Ctx} {sys : Nat → Option Nat} (h : C77_Fresh c sys) (m a : Nat) (e : sys m = some a) : Kr.Apart c a m := by
  obtain ⟨h1, h2⟩ := h m a e
  refine ⟨fun ch hch => ?_, h2⟩
  exact h1 (ch.addr, 64 * ch.size) (List.mem_map.2 ⟨ch, hch, rfl⟩)

private theorem gross_eq (n : Nat) : gross n = 64 * nunits n := by
  unfold gross nunits
  omega

private theorem gross_div (n : Nat) : gross n / 64 = nunits n := by
  rw [gross_eq]
  omega

/-- the blocks in use are the live allocations -/
private def blocks (live : List (Nat × Nat)) (used : List Blk) : Prop := live.map (fun x => (x.1, nunits x.2)) = used.map fun b => (b.addr + 64, b.size)

private theorem blocks_units {live : List (Nat × Nat)} {used : List Blk} (h : blocks live used) : units used = unitsLive live := by
  have : (live.map (fun x => (x.1, nunits x.2))).map Prod.snd = (used.map fun b => (b.addr + 64, b.size)).map Prod.snd := by rw [h]
  rw [List.map_map, List.map_map] at this
  unfold units unitsLive
  have e1 : (Prod.snd ∘ fun x : Nat × Nat => (x.1, nunits x.2)) = fun x => gross x.2 / 64 := by
    funext x
    rw [gross_div]
    rfl
  have e2 : (Prod.snd ∘ fun b : Blk => (b.addr + 64, b.size)) = Blk.size := rfl
  rw [e1, e2] at this
  rw [this]

private theorem blocks_erase {live : List (Nat × Nat)} {used : List Blk} (h : blocks live used) {b : Blk} (hb : b ∈ used)
    (hinj : ∀ x ∈ used, ∀ y ∈ used, x.addr = y.addr → x = y) (hnd : used.Nodup) : blocks (live.filter fun x => x.1 ≠ b.addr + 64) (used.erase b) := by
  unfold blocks at h ⊢
  rw [hnd.erase_eq_filter]
  have e1 : (live.filter fun x => x.1 ≠ b.addr + 64).map (fun x => (x.1, nunits x.2)) = (live.map fun x => (x.1, nunits x.2)).filter fun x => x.1 ≠ b.addr + 64 := by
    rw [List.filter_map]
    rfl
  have e2 : (used.filter fun x => x != b).map (fun b => (b.addr + 64, b.size)) = (used.map fun b => (b.addr + 64, b.size)).filter fun x => x.1 ≠ b.addr + 64 := by
    rw [List.filter_map]
    congr 1
    refine List.filter_congr ?_
    intro x hx
    have : x = b ↔ x.addr = b.addr := ⟨fun h => by rw [h], hinj x hx b hb⟩
    simp only [Function.comp, ne_eq, bne, beq_eq_decide, decide_not]
    congr 1
    rw [decide_eq_decide, this]
    omega
  rw [e1, e2, h]

private theorem reach_inv {base nalloc maxNalloc : Nat} {c : Ctx} {live : List (Nat × Nat)} {hi : Nat} (h : C77_Reach base nalloc maxNalloc c live hi) :
    Good c ∧ blocks live c.used ∧ c.maxuse = hi ∧ c.base = base ∧ c.nalloc = nalloc ∧ c.maxNalloc = maxNalloc ∧ (live ≠ [] → Inv c) := by
  induction h with
  | init => exact ⟨good_init _ _ _, rfl, rfl, rfl, rfl, rfl, fun h => absurd rfl h⟩
  | @malloc c c' live hi sys n p _ hf hk ih =>
    obtain ⟨g, hb, hm, h1, h2, h3, _⟩ := ih
    obtain ⟨c1, r, e, i, b1, b2, b3, mx, hr⟩ := kmalloc_spec (sys := sys) (nbytes := n) g (fun a ha => fresh_apart hf _ a ha)
    rw [hk] at e
    injection e with e
    injection e with e1 e2
    subst e1
    subst e2
    obtain ⟨⟨b, hp, hbs, hu⟩, _⟩ := hr
    have hb' : blocks ((p, n) :: live) c'.used := by
      unfold blocks at hb ⊢
      rw [hu, List.map_cons, List.map_cons, hb, hp, hbs]
    refine ⟨Or.inl i, hb', ?_, b1.trans h1, b2.trans h2, b3.trans h3, fun _ => i⟩
    rw [mx, if_neg (by simp), i.inuse, hm, blocks_units hb']
    omega
  | @null c c' live hi sys n _ hf hk ih =>
    obtain ⟨g, hb, hm, h1, h2, h3, _⟩ := ih
    obtain ⟨c1, r, e, i, b1, b2, b3, mx, hr⟩ := kmalloc_spec (sys := sys) (nbytes := n) g (fun a ha => fresh_apart hf _ a ha)
    rw [hk] at e
    injection e with e
    injection e with e1 e2
    subst e1
    subst e2
    refine ⟨Or.inl i, ?_, ?_, b1.trans h1, b2.trans h2, b3.trans h3, fun _ => i⟩
    · rw [hr.1]
      exact hb
    · rw [mx, if_pos rfl, hm]
  | @free c c' live hi p n _ hm hk ih =>
    obtain ⟨_, hb, hmx, h1, h2, h3, hi⟩ := ih
    have hi := hi (List.ne_nil_of_mem hm)
    obtain ⟨i, ⟨b, hbm, rfl, hu⟩, _, b1, b2, b3, mx⟩ := kfree_inv hi hk
    refine ⟨Or.inl i, ?_, mx.trans hmx, b1.trans h1, b2.trans h2, b3.trans h3, fun _ => i⟩
    rw [hu]
    exact blocks_erase hb hbm (fun x hx y hy => used_inj hi.list hx hy) (used_nodup hi.list)

private theorem live_block {live : List (Nat × Nat)} {used : List Blk} (h : blocks live used) {x : Nat × Nat} (hx : x ∈ live) :
    ∃ b ∈ used, b.addr + 64 = x.1 ∧ b.size = nunits x.2 := by
  have : (x.1, nunits x.2) ∈ used.map fun b => (b.addr + 64, b.size) := by
    rw [← h]
    exact List.mem_map.2 ⟨x, hx, rfl⟩
  obtain ⟨b, hb, e⟩ := List.mem_map.1 this
  simp only [Prod.mk.injEq] at e
  exact ⟨b, hb, e.1, e.2⟩

private theorem block_live {live : List (Nat × Nat)} {used : List Blk} (h : blocks live used) {b : Blk} (hb : b ∈ used) :
    ∃ x ∈ live, b.addr + 64 = x.1 ∧ b.size = nunits x.2 := by
  have : (b.addr + 64, b.size) ∈ live.map fun x => (x.1, nunits x.2) := by
    rw [h]
    exact List.mem_map.2 ⟨b, hb, rfl⟩
  obtain ⟨x, hx, e⟩ := List.mem_map.1 this
  simp only [Prod.mk.injEq] at e
  exact ⟨x, hx, e.1.symm, e.2.symm⟩

/-- C77: at any time the live allocations have no byte in common, not even with the headers in front of them, and all their bytes are memory obtained from the system -/
theorem C77_disjoint {base nalloc maxNalloc : Nat} {c : Ctx} {live : List (Nat × Nat)} {hi : Nat} (h : C77_Reach base nalloc maxNalloc c live hi) :
    live.Pairwise (fun x y => Apart (x.1 - 64, 64 + x.2) (y.1 - 64, 64 + y.2) ∧ x.1 ≠ y.1) ∧
      ∀ x ∈ live, 64 ≤ x.1 ∧ ∀ z, In z (x.1 - 64, 64 + x.2) → ∃ m ∈ C77_sys c, In z m := by
  obtain ⟨g, hb, _⟩ := reach_inv h
  rcases g with i | ⟨_, hu, _⟩
  · constructor
    · have hd := i.list.geo.disj
      rw [List.pairwise_append] at hd
      have hp := i.list.upos
      have h1 : (c.used.map fun b => (b.addr + 64, b.size)).Pairwise (fun x y => 64 ≤ x.1 ∧ 64 ≤ y.1 ∧ 0 < x.2 ∧ 0 < y.2 ∧ (x.1 + 64 * x.2 ≤ y.1 ∨ y.1 + 64 * y.2 ≤ x.1)) := by
        rw [List.pairwise_map]
        refine List.Pairwise.imp_of_mem ?_ hd.1
        intro x y hx hy hxy
        have := hp x hx
        have := hp y hy
        simp only [Disj, Blk.fin] at hxy
        dsimp only
        omega
      rw [← hb, List.pairwise_map] at h1
      refine h1.imp ?_
      intro x y hxy
      dsimp only at hxy
      unfold nunits at hxy
      unfold Spec.Mem.Apart
      dsimp only
      omega
    · intro x hx
      obtain ⟨b, hbm, e1, e2⟩ := live_block hb hx
      refine ⟨by omega, fun z hz => ?_⟩
      have : b.has z := by
        unfold nunits at e2
        simp only [In, Blk.has, Blk.fin] at hz ⊢
        omega
      obtain ⟨ch, hch, hcz⟩ := (i.list.geo.bytes z).1 ⟨b, by simp [hbm], this⟩
      exact ⟨_, List.mem_map.2 ⟨ch, hch, rfl⟩, hcz⟩
  · have : live = [] := by
      unfold blocks at hb
      rw [hu] at hb
      simpa using hb
    rw [this]
    simp

/-- C77: a pointer has the alignment of the system's memory, up to a unit of 64 bytes -/
theorem C77_aligned {base nalloc maxNalloc : Nat} {c : Ctx} {live : List (Nat × Nat)} {hi d : Nat} (h : C77_Reach base nalloc maxNalloc c live hi) (hd : d ∣ 64)
    (hs : ∀ m ∈ C77_sys c, d ∣ m.1) : ∀ x ∈ live, d ∣ x.1 := by
  intro x hx
  obtain ⟨_, hb, _, _, _, _, i⟩ := reach_inv h
  have i := i (List.ne_nil_of_mem hx)
  obtain ⟨b, hbm, e1, _⟩ := live_block hb hx
  obtain ⟨ch, hch, e⟩ := i.list.al b (by simp [hbm]) (i.list.upos b hbm)
  have h1 : d ∣ ch.addr := hs (ch.addr, 64 * ch.size) (List.mem_map.2 ⟨ch, hch, rfl⟩)
  have h2 : d ∣ ch.addr % 64 := (Nat.dvd_mod_iff hd).2 h1
  rw [← e] at h2
  rw [← e1]
  exact Nat.dvd_add ((Nat.dvd_mod_iff hd).1 h2) hd

/-- C77: an allocation always ends; a null pointer is returned only if the limit was reached or the system had no memory, and it changes neither the live
allocations' memory nor what was obtained -/
theorem C77_malloc {base nalloc maxNalloc : Nat} {c : Ctx} {live : List (Nat × Nat)} {hi : Nat} {sys : Nat → Option Nat} (n : Nat)
    (h : C77_Reach base nalloc maxNalloc c live hi) (hf : C77_Fresh c sys) :
    ∃ c' r, kmalloc sys n c = some (c', r) ∧
      (r = none → (maxNalloc ≤ c.total ∨ ∃ m, gross n ≤ 64 * m ∧ sys m = none) ∧ C77_sys c' = C77_sys c) ∧
      (∀ p, r = some p → 64 ≤ p ∧ (C77_sys c' = C77_sys c ∨ ∃ m a, gross n ≤ 64 * m ∧ sys m = some a ∧ C77_sys c' = (a, 64 * m) :: C77_sys c)) := by
  obtain ⟨g, hb, hm, h1, h2, h3, _⟩ := reach_inv h
  obtain ⟨c1, r, e, i, b1, b2, b3, mx, hr⟩ := kmalloc_spec (sys := sys) (nbytes := n) g (fun a ha => fresh_apart hf _ a ha)
  have hle := (le_coreUnits (nunits n) c.nalloc).1
  refine ⟨c1, r, e, ?_, ?_⟩
  · rintro rfl
    obtain ⟨_, hc, hl, _⟩ := hr
    refine ⟨?_, by unfold C77_sys; rw [hc]⟩
    rcases hl with hl | hl
    · exact Or.inl (by omega)
    · exact Or.inr ⟨_, by rw [gross_eq]; omega, hl⟩
  · rintro p rfl
    obtain ⟨⟨b, hp, _⟩, hl⟩ := hr
    refine ⟨by omega, ?_⟩
    rcases hl with hl | ⟨_, _, a, ha, hc⟩
    · exact Or.inl (by unfold C77_sys; rw [hl])
    · exact Or.inr ⟨_, a, by rw [gross_eq]; omega, ha, by unfold C77_sys; rw [hc]; rfl⟩

/-- C77: every live pointer can be released, any other pointer is reported -/
theorem C77_free {base nalloc maxNalloc : Nat} {c : Ctx} {live : List (Nat × Nat)} {hi : Nat} (p : Nat) (h : C77_Reach base nalloc maxNalloc c live hi) :
    ((∃ n, (p, n) ∈ live) → ∃ c', kfree p c = some c' ∧ C77_sys c' = C77_sys c) ∧ ((∀ n, (p, n) ∉ live) → kfree p c = none) := by
  obtain ⟨_, hb, _, _, _, _, i⟩ := reach_inv h
  constructor
  · rintro ⟨n, hn⟩
    have i := i (List.ne_nil_of_mem hn)
    obtain ⟨b, hbm, e1, _⟩ := live_block hb hn
    dsimp only at e1
    obtain ⟨l, lost, he, _⟩ := kfree_spec i.list hbm
    rw [e1] at he
    exact ⟨_, he, rfl⟩
  · intro hn
    refine kfree_none fun b hbm e => ?_
    obtain ⟨x, hx, e1, _⟩ := block_live hb hbm
    rw [e] at e1
    exact hn x.2 (by rw [e1]; exact hx)

/-- C77: the statistics: what was obtained, what is live, and the most that was live -/
theorem C77_stats {base nalloc maxNalloc : Nat} {c : Ctx} {live : List (Nat × Nat)} {hi : Nat} (h : C77_Reach base nalloc maxNalloc c live hi) :
    64 * c.total = ((C77_sys c).map Prod.snd).sum ∧ c.inuse = unitsLive live ∧ c.inuse ≤ c.total ∧ c.maxuse = hi ∧ c.nchunk = (C77_sys c).length := by
  obtain ⟨g, hb, hm, _⟩ := reach_inv h
  have hsum : ∀ l : List Blk, ((l.map fun b => (b.addr, 64 * b.size)).map Prod.snd).sum = 64 * units l := by
    intro l
    induction l with
    | nil => rfl
    | cons b l ih =>
      rw [List.map_cons, List.map_cons, List.sum_cons, ih, units_cons]
      dsimp only
      omega
  rcases g with i | ⟨_, h2, h3, h4, h5, h6, h7, h8⟩
  · refine ⟨?_, ?_, ?_, hm, ?_⟩
    · unfold C77_sys
      rw [hsum, i.total]
    · rw [i.inuse, blocks_units hb]
    · have := i.all
      rw [i.inuse]
      omega
    · rw [i.nchunk]
      unfold C77_sys
      simp
  · have hl : live = [] := by
      unfold blocks at hb
      rw [h2] at hb
      simpa using hb
    refine ⟨?_, ?_, ?_, hm, ?_⟩
    · rw [h4]
      unfold C77_sys
      rw [h3]
      rfl
    · rw [h6, hl]
      rfl
    · rw [h6, h4]
      simp
    · rw [h8]
      unfold C77_sys
      rw [h3]
      rfl

/-- C77: released memory is not lost and pieces that lie next to each other are joined: if some run of bytes obtained from the system is not taken by live allocations
and is long enough, the allocation succeeds, whatever the system would answer, and asks it for nothing -/
theorem C77_reuse {base nalloc maxNalloc : Nat} {c : Ctx} {live : List (Nat × Nat)} {hi n a : Nat} (sys : Nat → Option Nat)
    (h : C77_Reach base nalloc maxNalloc c live hi) (hrun : ∀ z, In z (a, gross n) → (∃ m ∈ C77_sys c, In z m) ∧ ∀ x ∈ live, ¬ In z (x.1 - 64, gross x.2)) :
    ∃ c' p, kmalloc sys n c = some (c', some p) ∧ C77_sys c' = C77_sys c := by
  obtain ⟨g, hb, _⟩ := reach_inv h
  have hnu : 0 < nunits n := by unfold nunits; omega
  have hin : In a (a, gross n) := by
    rw [gross_eq]
    unfold In
    dsimp only
    omega
  rcases g with i | ⟨_, _, h3, _⟩
  · have hfr : ∃ x ∈ c.free, nunits n ≤ x.size := by
      refine whole_run i.list (a := a) hnu ?_ ?_
      · intro z h1 h2
        obtain ⟨⟨m, hm, hz⟩, _⟩ := hrun z ⟨h1, by rw [gross_eq]; exact h2⟩
        obtain ⟨ch, hch, rfl⟩ := List.mem_map.1 hm
        exact ⟨ch, hch, hz⟩
      · intro z h1 h2 b hbm hbz
        obtain ⟨_, hx⟩ := hrun z ⟨h1, by rw [gross_eq]; exact h2⟩
        obtain ⟨x, hxm, e1, e2⟩ := block_live hb hbm
        refine hx x hxm ?_
        rw [gross_eq, ← e2, ← e1]
        exact ⟨by have := hbz.1; dsimp only; omega, by have := hbz.2; simp only [Blk.fin] at this; dsimp only; omega⟩
    obtain ⟨x, hx, hxs⟩ := hfr
    have hst : start c = c := by
      unfold start
      rw [if_neg (List.ne_nil_of_mem hx)]
    cases hw : walk (fits (nunits n)) c.free.length c.free with
    | none =>
      have := fits_none hw x hx
      omega
    | some l =>
      refine ⟨(found (nunits n) l c).1, (found (nunits n) l c).2, ?_, rfl⟩
      unfold kmalloc
      rw [hst]
      dsimp only
      rw [hw]
  · obtain ⟨⟨m, hm, _⟩, _⟩ := hrun a hin
    unfold C77_sys at hm
    rw [h3] at hm
    simp at hm

/-- a history: two allocations of 100 and 200 bytes from memory at 8192 (the context is at 1000), the first is released -/
example : ∃ c hi, C77_Reach 1000 1 5000 c [(8192 + 64 * 1024 - 64 * 3 + 64 - 64 * 5, 200)] hi := by
  have hf : ∀ c : Ctx, c.base = 1000 → c.chunks = [] → C77_Fresh c (fun _ => some 8192) := by
    intro c hb hc m a e
    injection e with e
    subst e
    unfold C77_sys
    rw [hc, hb]
    exact ⟨by simp, by omega⟩
  have r0 := C77_Reach.init (base := 1000) (nalloc := 1) (maxNalloc := 5000)
  have r1 := C77_Reach.malloc (n := 100) (p := 8192 + 64 * 1024 - 64 * 3 + 64) (c' := ⟨1000, 1, 5000, [⟨1000, 0⟩, ⟨8192, 1021⟩], [⟨8192 + 64 * 1021, 3⟩], 1024, 3, 3, 2, 1, [⟨8192, 1024⟩]⟩) r0 (hf _ rfl rfl) (by rfl)
  have hf2 : C77_Fresh ⟨1000, 1, 5000, [⟨1000, 0⟩, ⟨8192, 1021⟩], [⟨8192 + 64 * 1021, 3⟩], 1024, 3, 3, 2, 1, [⟨8192, 1024⟩]⟩ (fun _ => none) := by
    intro m a e
    nomatch e
  have r2 := C77_Reach.malloc (n := 200) (p := 8192 + 64 * 1024 - 64 * 3 + 64 - 64 * 5) (c' := ⟨1000, 1, 5000, [⟨1000, 0⟩, ⟨8192, 1016⟩], [⟨8192 + 64 * 1016, 5⟩, ⟨8192 + 64 * 1021, 3⟩], 1024, 8, 8, 3, 1, [⟨8192, 1024⟩]⟩) r1 hf2 (by rfl)
  have r3 := C77_Reach.free (p := 8192 + 64 * 1024 - 64 * 3 + 64) (n := 100) (c' := ⟨1000, 1, 5000, [⟨8192, 1016⟩, ⟨8192 + 64 * 1021, 3⟩, ⟨1000, 0⟩], [⟨8192 + 64 * 1016, 5⟩], 1024, 5, 8, 3, 1, [⟨8192, 1024⟩]⟩) r2 (by simp) (by rfl)
  exact ⟨_, _, r3⟩

/-- C77, disagreement: the limit for the memory obtained from the system is compared only before more is obtained: whatever the limit, one allocation can exceed it by any amount -/
theorem C77_limit (base nalloc maxNalloc k : Nat) (hm : 0 < maxNalloc) : ∃ c live hi, C77_Reach base nalloc maxNalloc c live hi ∧ maxNalloc + k < c.total := by
  let sys : Nat → Option Nat := fun _ => some (base + 64)
  have r0 := C77_Reach.init (base := base) (nalloc := nalloc) (maxNalloc := maxNalloc)
  have hf : C77_Fresh (init base nalloc maxNalloc) sys := by
    intro m a e
    injection e with e
    subst e
    exact ⟨by simp [C77_sys, init], by simp [init]⟩
  obtain ⟨c', r, e, i, _, _, _, _, hr⟩ := kmalloc_spec (sys := sys) (nbytes := 64 * (maxNalloc + k)) (good_init base nalloc maxNalloc) (fun a ha => fresh_apart hf _ a ha)
  cases r with
  | none =>
    obtain ⟨_, _, h, _⟩ := hr
    rcases h with h | h
    · simp only [init] at h
      omega
    · nomatch h
  | some p =>
    refine ⟨c', _, _, C77_Reach.malloc r0 hf e, ?_⟩
    obtain ⟨⟨b, _, h2, h3⟩, _⟩ := hr
    have h4 := i.all
    rw [h3, units_cons, h2] at h4
    unfold nunits at h4
    omega

/-- C77, disagreement: in the allocator of shared memory the list of free blocks has no empty node. If the only free block is exactly of the requested size it stays in the
list: the same memory is given out twice. -/
theorem C77_shm_twice (n a : Nat) (c : Ctx) (hc : c.free = [⟨a, nunits n⟩]) : ∃ c1 c2 p, shmTake n c = some (c1, p) ∧ shmTake n c1 = some (c2, p) := by
  have key : ∀ c : Ctx, c.free = [⟨a, nunits n⟩] → ∃ c', shmTake n c = some (c', a + 64) ∧ c'.free = [⟨a, nunits n⟩] := by
    intro c hc
    have hw : walk (fits (nunits n)) c.free.length c.free = some [⟨a, nunits n⟩] := by
      rw [hc]
      simp [walk, fits, next]
    refine ⟨(found (nunits n) [⟨a, nunits n⟩] c).1, ?_, ?_⟩
    · unfold shmTake
      rw [hw]
      simp [found, take]
    · simp [found, take]
  obtain ⟨c1, h1, h2⟩ := key c hc
  obtain ⟨c2, h3, _⟩ := key c1 h2
  exact ⟨c1, c2, _, h1, h3⟩

/-- C77, disagreement: this happens from the first call on: a request that takes what is left of the first piece of shared memory, and the same request again -/
theorem C77_shm_first (sys : Nat → Option Nat) (ctxBytes n a : Nat) (c : Ctx) (hs : sys (coreUnits (nunits n) c.nalloc) = some a)
    (hn : nunits n + ctxUnits ctxBytes = coreUnits (nunits n) c.nalloc) : ∃ c1 c2 p, shmFirst sys ctxBytes n c = some (c1, p) ∧ shmTake n c1 = some (c2, p) := by
  unfold shmFirst
  dsimp only
  rw [hs]
  dsimp only
  exact C77_shm_twice n a _ (by dsimp only; congr 2; omega)

/-- the hypotheses are met: units of 64 bytes, 1024 of them, five of them for the context -/
example : nunits (64 * 1018) + ctxUnits 240 = coreUnits (nunits (64 * 1018)) 1024 := by decide

end GA
