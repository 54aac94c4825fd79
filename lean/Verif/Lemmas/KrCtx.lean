import Verif.Lemmas.KrInv

/-!
# Lemmas: the invariant of the context of the allocator
-/

namespace GA.Kr

/-- what holds after the first allocation -/
structure Inv (c : Ctx) : Prop where
  list : Free c.base c.free c.used c.chunks
  pos : ∀ ch ∈ c.chunks, 0 < ch.size
  apart : c.chunks.Pairwise Disj
  total : c.total = units c.chunks
  all : units c.used + units c.free = c.total
  inuse : c.inuse = units c.used
  max : c.inuse ≤ c.maxuse
  frags : c.nfrags + 1 = c.used.length + c.free.length
  nchunk : c.nchunk = c.chunks.length

/-- what always holds -/
def Good (c : Ctx) : Prop := Inv c ∨ (c.free = [] ∧ c.used = [] ∧ c.chunks = [] ∧ c.total = 0 ∧ c.maxuse = 0 ∧ c.inuse = 0 ∧ c.nfrags = 0 ∧ c.nchunk = 0)

theorem good_init (base nalloc maxNalloc : Nat) : Good (init base nalloc maxNalloc) := Or.inr ⟨rfl, rfl, rfl, rfl, rfl, rfl, rfl, rfl⟩

theorem start_chunks (c : Ctx) : (start c).chunks = c.chunks := by unfold start; split <;> rfl
theorem start_used (c : Ctx) : (start c).used = c.used := by unfold start; split <;> rfl
theorem start_base (c : Ctx) : (start c).base = c.base := by unfold start; split <;> rfl
theorem start_nalloc (c : Ctx) : (start c).nalloc = c.nalloc := by unfold start; split <;> rfl
theorem start_maxNalloc (c : Ctx) : (start c).maxNalloc = c.maxNalloc := by unfold start; split <;> rfl

theorem inv_start {c : Ctx} (h : Good c) : Inv (start c) := by
  rcases h with h | ⟨h1, h2, h3, _⟩
  · have : c.free ≠ [] := fun e => by
      have := h.list.hd
      rw [e] at this
      simp at this
    unfold start
    rw [if_neg this]
    exact h
  · unfold start
    rw [if_pos h1]
    constructor
    · constructor
      · exact ⟨[c.base], [], rfl, by simp⟩
      · simp
      · intro x hx _
        dsimp only at hx
        rw [List.mem_singleton] at hx
        subst hx
        rfl
      · dsimp only
        rw [h2]
        simp
      · dsimp only
        rw [h2, h3]
        exact ⟨by simp, fun z => by simp [Blk.has, Blk.fin]⟩
      · dsimp only
        rw [h3]
        simp
      · intro x hx y hy hs
        dsimp only at hx
        rw [List.mem_singleton] at hx
        subst hx
        simp at hs
      · intro x hx hs
        dsimp only at hx
        rw [h2, List.nil_append, List.mem_singleton] at hx
        subst hx
        simp at hs
    all_goals
      dsimp only
      simp [h2, h3, units]

theorem start_total {c : Ctx} (h : Good c) : (start c).total = c.total := by
  unfold start
  split
  · next e =>
    rcases h with h | h
    · have := h.list.hd
      rw [e] at this
      simp at this
    · exact h.2.2.2.1.symm
  · rfl

theorem start_maxuse {c : Ctx} (h : Good c) : (start c).maxuse = c.maxuse := by
  unfold start
  split
  · next e =>
    rcases h with h | h
    · have := h.list.hd
      rw [e] at this
      simp at this
    · exact h.2.2.2.2.1.symm
  · rfl

/-- the system's memory is apart from what it gave before and from the context -/
def Apart (c : Ctx) (a m : Nat) : Prop := (∀ ch ∈ c.chunks, Disj ⟨a, m⟩ ch) ∧ (a + 64 * m < c.base ∨ c.base < a)

theorem le_coreUnits (nu nalloc : Nat) : nu ≤ coreUnits nu nalloc ∧ 0 < coreUnits nu nalloc := by
  unfold coreUnits
  dsimp only
  split <;> omega

/-- blocks in use are at different addresses -/
theorem used_inj {base : Nat} {L used chunks : List Blk} (f : Free base L used chunks) {x y : Blk} (hx : x ∈ used) (hy : y ∈ used) (h : x.addr = y.addr) : x = y := by
  by_contra hne
  have hd := pair_disj f.geo.disj (x := x) (y := y) (by simp [hx]) (by simp [hy]) hne
  have := f.upos x hx
  have := f.upos y hy
  simp only [Disj, Blk.fin] at hd
  omega

theorem used_nodup {base : Nat} {L used chunks : List Blk} (f : Free base L used chunks) : used.Nodup := by
  have hd := f.geo.disj
  rw [List.pairwise_append] at hd
  refine List.Pairwise.imp_of_mem ?_ hd.1
  intro x y hx _ h e
  subst e
  have := f.upos x hx
  simp only [Disj, Blk.fin] at h
  omega

theorem free_perm {base : Nat} {L used used' chunks : List Blk} (hp : used.Perm used') (f : Free base L used chunks) : Free base L used' chunks :=
  ⟨f.cs, f.hd, f.zero, fun x hx => f.upos x (hp.mem_iff.2 hx), geo_perm f.geo (hp.append_right _), f.away, f.gap, fun x hx => f.al x ((hp.append_right _).mem_iff.2 hx)⟩

/-- `kr_free` of a block in use -/
theorem kfree_spec {c : Ctx} {b : Blk} (f : Free c.base c.free c.used c.chunks) (hb : b ∈ c.used) :
    ∃ l lost, kfree (b.addr + 64) c = some { c with used := c.used.erase b, inuse := c.inuse - b.size, free := l, nfrags := c.nfrags - lost } ∧
      Free c.base l (c.used.erase b) c.chunks ∧ units l = units c.free + b.size ∧ (l.length : Int) + lost = c.free.length + 1 ∧ ∃ x ∈ l, b.size ≤ x.size := by
  obtain ⟨l, lost, hi, h⟩ := insert_spec (free_perm (List.perm_cons_erase hb) f)
  refine ⟨l, lost, ?_, h⟩
  have hf : (c.used.find? fun x => x.addr + 64 == b.addr + 64) = some b := by
    cases e : c.used.find? fun x => x.addr + 64 == b.addr + 64 with
    | none =>
      rw [List.find?_eq_none] at e
      exact absurd (e b hb) (by simp)
    | some x =>
      have h1 := List.mem_of_find?_eq_some e
      have h2 := List.find?_some e
      have h2 : x.addr + 64 = b.addr + 64 := by simpa using h2
      rw [used_inj f h1 hb (by omega)]
  unfold kfree
  rw [hf]
  dsimp only
  rw [hi]

theorem kfree_none {c : Ctx} {ap : Nat} (h : ∀ b ∈ c.used, b.addr + 64 ≠ ap) : kfree ap c = none := by
  have hf : (c.used.find? fun x => x.addr + 64 == ap) = none := by
    rw [List.find?_eq_none]
    intro b hb
    simpa using h b hb
  unfold kfree
  rw [hf]

theorem kfree_inv {c c' : Ctx} {ap : Nat} (hc : Inv c) (h : kfree ap c = some c') :
    Inv c' ∧ (∃ b ∈ c.used, b.addr + 64 = ap ∧ c'.used = c.used.erase b) ∧ c'.chunks = c.chunks ∧ c'.base = c.base ∧ c'.nalloc = c.nalloc ∧ c'.maxNalloc = c.maxNalloc ∧ c'.maxuse = c.maxuse := by
  by_cases hb : ∃ b ∈ c.used, b.addr + 64 = ap
  · obtain ⟨b, hb, rfl⟩ := hb
    obtain ⟨l, lost, he, hf, hu, hl, _⟩ := kfree_spec hc.list hb
    rw [he] at h
    injection h with h
    subst h
    have hue : units c.used = b.size + units (c.used.erase b) := by
      rw [units_perm (List.perm_cons_erase hb), units_cons]
    have hle : c.used.length = (c.used.erase b).length + 1 := (List.perm_cons_erase hb).length_eq
    refine ⟨⟨hf, hc.pos, hc.apart, hc.total, ?_, ?_, ?_, ?_, hc.nchunk⟩, ⟨b, hb, rfl, rfl⟩, rfl, rfl, rfl, rfl, rfl⟩
    · have := hc.all
      dsimp only
      omega
    · have := hc.inuse
      dsimp only
      omega
    · have := hc.max
      dsimp only
      omega
    · have := hc.frags
      dsimp only
      omega
  · rw [kfree_none fun b hb' e => hb ⟨b, hb', e⟩] at h
    nomatch h

theorem morecore_ok {sys : Nat → Option Nat} {nu a : Nat} {c c' : Ctx} (hm : ¬ c.maxNalloc ≤ c.total) (e : sys (coreUnits nu c.nalloc) = some a)
    (he : kfree (a + 64) { c with total := c.total + coreUnits nu c.nalloc, nchunk := c.nchunk + 1, nfrags := c.nfrags + 1, inuse := c.inuse + coreUnits nu c.nalloc, used := ⟨a, coreUnits nu c.nalloc⟩ :: c.used, chunks := ⟨a, coreUnits nu c.nalloc⟩ :: c.chunks } = some c') :
    morecore sys nu c = .ok c' := by
  unfold morecore
  rw [if_neg hm]
  dsimp only
  rw [e]
  dsimp only
  rw [he]

/-- `morecore` -/
theorem morecore_spec {sys : Nat → Option Nat} {nu : Nat} {c : Ctx} (hc : Inv c)
    (hs : ∀ a, sys (coreUnits nu c.nalloc) = some a → Apart c a (coreUnits nu c.nalloc)) :
    (morecore sys nu c = .null ∧ (c.maxNalloc ≤ c.total ∨ sys (coreUnits nu c.nalloc) = none)) ∨
      ∃ a c', sys (coreUnits nu c.nalloc) = some a ∧ c.total < c.maxNalloc ∧ morecore sys nu c = .ok c' ∧ Inv c' ∧ (∃ x ∈ c'.free, nu ≤ x.size) ∧
        c'.used = c.used ∧ c'.chunks = ⟨a, coreUnits nu c.nalloc⟩ :: c.chunks ∧ c'.base = c.base ∧ c'.nalloc = c.nalloc ∧ c'.maxNalloc = c.maxNalloc ∧ c'.maxuse = c.maxuse := by
  by_cases hm : c.maxNalloc ≤ c.total
  · left
    refine ⟨?_, Or.inl hm⟩
    unfold morecore
    rw [if_pos hm]
  · cases e : sys (coreUnits nu c.nalloc) with
    | none =>
      left
      refine ⟨?_, Or.inr rfl⟩
      unfold morecore
      rw [if_neg hm]
      dsimp only
      rw [e]
    | some a =>
      right
      obtain ⟨h1, h2⟩ := hs a e
      obtain ⟨hn1, hn2⟩ := le_coreUnits nu c.nalloc
      generalize hM : coreUnits nu c.nalloc = m at *
      have g : Free c.base c.free (⟨a, m⟩ :: c.used) (⟨a, m⟩ :: c.chunks) := by
        refine ⟨hc.list.cs, hc.list.hd, hc.list.zero, ?_, ⟨?_, ?_⟩, ?_, hc.list.gap, ?_⟩
        · intro x hx
          rcases List.mem_cons.1 hx with rfl | hx
          · exact hn2
          · exact hc.list.upos x hx
        · rw [List.cons_append, List.pairwise_cons]
          refine ⟨fun x hx => ?_, hc.list.geo.disj⟩
          by_cases hx0 : x.size = 0
          · have hxb : x.addr = c.base := by
              rcases List.mem_append.1 hx with hx | hx
              · have := hc.list.upos x hx
                omega
              · exact hc.list.zero x hx hx0
            simp only [Disj, Blk.fin]
            omega
          · have key : ∀ z, x.has z → ¬ (⟨a, m⟩ : Blk).has z := by
              intro z hz hz'
              obtain ⟨ch, hch, hcz⟩ := (hc.list.geo.bytes z).1 ⟨x, hx, hz⟩
              have := h1 ch hch
              simp only [Disj, Blk.has, Blk.fin] at this hcz hz'
              omega
            have k1 := key x.addr
            have k2 := key a
            simp only [Disj, Blk.has, Blk.fin] at k1 k2 ⊢
            omega
        · intro z
          have := hc.list.geo.bytes z
          simp only [List.cons_append, List.mem_cons, exists_eq_or_imp]
          rw [this]
        · intro ch hch z hz
          rcases List.mem_cons.1 hch with rfl | hch
          · simp only [Blk.has, Blk.fin] at hz
            omega
          · exact hc.list.away ch hch z hz
        · intro x hx hs
          rw [List.cons_append] at hx
          rcases List.mem_cons.1 hx with rfl | hx
          · exact ⟨_, List.mem_cons_self, rfl⟩
          · obtain ⟨ch, hch, h⟩ := hc.list.al x hx hs
            exact ⟨ch, List.mem_cons_of_mem _ hch, h⟩
      obtain ⟨l, lost, he, hf, hu, hl, x, hx, hxs⟩ :=
        kfree_spec (c := { c with total := c.total + m, nchunk := c.nchunk + 1, nfrags := c.nfrags + 1, inuse := c.inuse + m, used := ⟨a, m⟩ :: c.used, chunks := ⟨a, m⟩ :: c.chunks }) (b := ⟨a, m⟩) g (by simp)
      dsimp only at he hf hu hl hxs
      rw [List.erase_cons_head] at he hf
      have hmo := morecore_ok (sys := sys) (nu := nu) (c := c) hm (by rw [hM]; exact e) (by rw [hM]; exact he)
      refine ⟨a, _, rfl, by omega, hmo, ?_, ⟨x, hx, by omega⟩, rfl, rfl, rfl, rfl, rfl, rfl⟩
      · refine ⟨hf, ?_, ?_, ?_, ?_, ?_, ?_, ?_, ?_⟩
        · intro ch hch
          rcases List.mem_cons.1 hch with rfl | hch
          · exact hn2
          · exact hc.pos ch hch
        · exact List.pairwise_cons.2 ⟨h1, hc.apart⟩
        · have := hc.total
          dsimp only
          rw [units_cons]
          dsimp only
          omega
        · have := hc.all
          dsimp only
          omega
        · have := hc.inuse
          dsimp only
          omega
        · have := hc.max
          dsimp only
          omega
        · have := hc.frags
          dsimp only
          omega
        · have := hc.nchunk
          dsimp only
          rw [List.length_cons]
          omega

/-- a block that is found -/
theorem found_spec {nu : Nat} {c : Ctx} {l : List Blk} (hnu : 0 < nu) (hc : Inv c) (hw : walk (fits nu) c.free.length c.free = some l) :
    ∃ b, (found nu l c).2 = b.addr + 64 ∧ b.size = nu ∧ (found nu l c).1.used = b :: c.used ∧ Inv (found nu l c).1 ∧
      (found nu l c).1.chunks = c.chunks ∧ (found nu l c).1.base = c.base ∧ (found nu l c).1.nalloc = c.nalloc ∧ (found nu l c).1.maxNalloc = c.maxNalloc ∧ (found nu l c).1.maxuse = max c.maxuse (found nu l c).1.inuse := by
  obtain ⟨b, l', fr, ht, hb, hf, hu, hl⟩ := take_spec hnu hc.list hw
  refine ⟨b, ?_, hb, ?_, ?_, rfl, rfl, rfl, rfl, ?_⟩
  · unfold found
    dsimp only
    rw [ht]
  · unfold found
    dsimp only
    rw [ht]
  · unfold found
    dsimp only
    rw [ht]
    dsimp only
    refine ⟨hf, hc.pos, hc.apart, hc.total, ?_, ?_, ?_, ?_, hc.nchunk⟩
    · have := hc.all
      dsimp only
      rw [units_cons]
      omega
    · have := hc.inuse
      dsimp only
      rw [units_cons]
      omega
    · dsimp only
      split <;> omega
    · have := hc.frags
      dsimp only
      rw [List.length_cons]
      omega
  · unfold found
    dsimp only
    split <;> omega

/-- `kr_malloc` -/
theorem kmalloc_spec {sys : Nat → Option Nat} {nbytes : Nat} {c : Ctx} (hc : Good c)
    (hs : ∀ a, sys (coreUnits (nunits nbytes) c.nalloc) = some a → Apart c a (coreUnits (nunits nbytes) c.nalloc)) :
    ∃ c' r, kmalloc sys nbytes c = some (c', r) ∧ Inv c' ∧ c'.base = c.base ∧ c'.nalloc = c.nalloc ∧ c'.maxNalloc = c.maxNalloc ∧
      c'.maxuse = (if r = none then c.maxuse else max c.maxuse c'.inuse) ∧
      (match r with
        | none => c'.used = c.used ∧ c'.chunks = c.chunks ∧ (c.maxNalloc ≤ c.total ∨ sys (coreUnits (nunits nbytes) c.nalloc) = none) ∧ ∀ b ∈ c.free, b.size < nunits nbytes
        | some p => (∃ b : Blk, p = b.addr + 64 ∧ b.size = nunits nbytes ∧ c'.used = b :: c.used) ∧
            (c'.chunks = c.chunks ∨ ((∀ b ∈ c.free, b.size < nunits nbytes) ∧ c.total < c.maxNalloc ∧ ∃ a, sys (coreUnits (nunits nbytes) c.nalloc) = some a ∧ c'.chunks = ⟨a, coreUnits (nunits nbytes) c.nalloc⟩ :: c.chunks))) := by
  have hnu : 0 < nunits nbytes := by unfold nunits; omega
  have hi := inv_start hc
  have sub : ∀ b ∈ c.free, b ∈ (start c).free := by
    intro b hb
    unfold start
    split
    · next h => rw [h] at hb; simp at hb
    · exact hb
  cases hw : walk (fits (nunits nbytes)) (start c).free.length (start c).free with
  | some l =>
    obtain ⟨b, h1, h2, h3, h4, h5, h6, h7, h8, h9⟩ := found_spec hnu hi hw
    refine ⟨(found (nunits nbytes) l (start c)).1, some (found (nunits nbytes) l (start c)).2, ?_, h4, h6.trans (start_base c), h7.trans (start_nalloc c), h8.trans (start_maxNalloc c),
      h9.trans (by rw [start_maxuse hc]; simp), ⟨b, h1, h2, h3.trans (by rw [start_used])⟩, Or.inl (h5.trans (start_chunks c))⟩
    unfold kmalloc
    dsimp only
    rw [hw]
  | none =>
    have hsm := fits_none hw
    have hap : ∀ a, sys (coreUnits (nunits nbytes) (start c).nalloc) = some a → Apart (start c) a (coreUnits (nunits nbytes) (start c).nalloc) := by
      intro a ha
      rw [start_nalloc] at ha ⊢
      unfold Apart
      rw [start_chunks, start_base]
      exact hs a ha
    rcases morecore_spec hi hap with ⟨h1, h2⟩ | ⟨a, c', h1, h2, h3, h4, ⟨x, hx, hxs⟩, h5, h6, h7, h8, h9, h10⟩
    · refine ⟨start c, none, ?_, hi, start_base c, start_nalloc c, start_maxNalloc c, start_maxuse hc, start_used c, start_chunks c, ?_, fun b hb => hsm b (sub b hb)⟩
      · unfold kmalloc
        dsimp only
        rw [hw]
        dsimp only
        rw [h1]
      · rw [start_nalloc, start_maxNalloc, start_total hc] at h2
        exact h2
    · cases hw' : walk (fits (nunits nbytes)) c'.free.length c'.free with
      | none =>
        have := fits_none hw' x hx
        omega
      | some l =>
        obtain ⟨b, g1, g2, g3, g4, g5, g6, g7, g8, g9⟩ := found_spec hnu h4 hw'
        refine ⟨(found (nunits nbytes) l c').1, some (found (nunits nbytes) l c').2, ?_, g4, g6.trans (h7.trans (start_base c)), g7.trans (h8.trans (start_nalloc c)),
          g8.trans (h9.trans (start_maxNalloc c)), g9.trans (by rw [h10, start_maxuse hc]; simp), ⟨b, g1, g2, g3.trans (by rw [h5, start_used])⟩, Or.inr ⟨fun b hb => hsm b (sub b hb), ?_, a, ?_, ?_⟩⟩
        · unfold kmalloc
          dsimp only
          rw [hw]
          dsimp only
          rw [h3]
          dsimp only
          rw [hw']
        · rw [start_maxNalloc, start_total hc] at h2
          exact h2
        · rw [start_nalloc] at h1
          exact h1
        · rw [g5, h6, start_nalloc, start_chunks]

/-- a run of bytes that are obtained and not in use lies in one free block -/
theorem whole_run {base : Nat} {L used chunks : List Blk} (f : Free base L used chunks) {a k : Nat} (hk : 0 < k)
    (h1 : ∀ z, a ≤ z → z < a + 64 * k → ∃ ch ∈ chunks, ch.has z) (h2 : ∀ z, a ≤ z → z < a + 64 * k → ∀ b ∈ used, ¬ b.has z) : ∃ x ∈ L, k ≤ x.size := by
  have hb : ∀ z, a ≤ z → z < a + 64 * k → ∃ b ∈ L, b.has z := by
    intro z hz1 hz2
    obtain ⟨b, hb, hbz⟩ := (f.geo.bytes z).2 (h1 z hz1 hz2)
    rcases List.mem_append.1 hb with hb | hb
    · exact absurd hbz (h2 z hz1 hz2 b hb)
    · exact ⟨b, hb, hbz⟩
  obtain ⟨x, hx, hxz⟩ := hb a (Nat.le_refl _) (by omega)
  refine ⟨x, hx, ?_⟩
  have hxs : 0 < x.size := by
    simp only [Blk.has, Blk.fin] at hxz
    omega
  have hend : ¬ x.fin < a + 64 * k := by
    intro h
    obtain ⟨y, hy, hyz⟩ := hb x.fin (by simp only [Blk.has] at hxz; omega) h
    have hyx : y ≠ x := by
      rintro rfl
      simp only [Blk.has] at hyz
      omega
    have hd := pair_disj f.geo.disj (x := x) (y := y) (by simp [hx]) (by simp [hy]) (Ne.symm hyx)
    have := f.gap x hx y hy hxs
    simp only [Disj, Blk.has, Blk.fin] at hd hyz this
    omega
  simp only [Blk.has, Blk.fin] at hend hxz
  omega

end GA.Kr
