import Verif.Model.Pieces
import Verif.Props.Content

/-! # Lemmas: the pieces of a request on any array, transfers of a list of elements -/

namespace GA
open Spec Model

/-- assumptions about the environment of a call (floating point guesses, sizes) -/
def EnvG (E : Env) : GArr → Prop
  | .reg A _ => EnvOK E A
  | .blk _ => True

/-- Tiled irregular arrays: every block has an element. (The other layouts have no empty blocks, or
skip them.) -/
def FullBlocks : GArr → Prop
  | .reg _ _ => True
  | .blk A => A.kind = .tiledIrreg → ∀ b < bTotal A, InPatch (bOwns A b).1 (bOwns A b).2 (bOwns A b).1

theorem unif_full {dims bd : List Int} {ns idx : List Nat} (h : UnifOK dims bd ns) (hi : CoordOK ns idx) :
    InPatch (unifLo bd idx) (unifHi dims bd idx) (unifLo bd idx) := by
  induction dims generalizing bd ns idx with
  | nil => cases bd <;> cases ns <;> cases idx <;> simp_all [UnifOK, CoordOK, unifLo, unifHi, InPatch]
  | cons d ds ih =>
    match bd, ns, idx, h, hi with
    | b :: bs, n :: ns, i :: is, h, hi =>
      obtain ⟨⟨h1, h2, h3⟩, h4⟩ := h
      obtain ⟨n1, n2, n3⟩ := numBlk_spec h1 h2
      rw [← h3] at n1 n2 n3
      refine ⟨⟨le_refl _, ?_⟩, ih h4 hi.2⟩
      have hi1 := hi.1
      have : (i : Int) * b ≤ ((n : Int) - 1) * b := Int.mul_le_mul_of_nonneg_right (by omega) (by omega)
      have e : ((i : Int) + 1) * b = i * b + b := by ring
      have e2 : ((n : Int) - 1) * b = n * b - b := by ring
      first
        | (split <;> omega)
        | (simp only [e2] at this n2 n3 ⊢; omega)

theorem cLo_full {A : BArray} (h : BOK A) (hf : FullBlocks (.blk A)) {c : List Nat} (hc : CoordOK A.nblocks c) :
    InPatch (cLo A c) (cHi A c) (cLo A c) := by
  by_cases hk : A.kind = .tiledIrreg
  · have := hf hk _ (undigits_lt hc)
    rw [bOwns_eq h (undigits_lt hc), digits_undigits hc] at this
    exact this
  · unfold cLo cHi starts
    rw [if_neg hk, ← unifLo_eq (h.unif hk) hc, ← unifHi_eq (h.unif hk) hc]
    exact unif_full (h.unif hk) hc

theorem patch_full {blo bhi lo hi : List Int} (hb : InPatch blo bhi blo) (hp : InPatch lo hi lo)
    (hl : blo.length = lo.length) (ho : overlap blo bhi lo hi = true) :
    InPatch (patchLo blo bhi lo) (patchHi blo bhi hi) (patchLo blo bhi lo) := by
  induction blo generalizing bhi lo hi with
  | nil =>
    match bhi, lo, hi, hb, hl, hp with
    | [], [], [], _, _, _ => simp [patchLo, patchHi, InPatch]
  | cons bl blo ih =>
    match bhi, lo, hi, hb, hl, hp with
    | bh :: bhi, l :: lo, h :: hi, hb, hl, hp =>
      have hb1 := hb.1
      have hp1 : l ≤ l ∧ l ≤ h := hp.1
      simp only [overlap, Bool.and_eq_true, Bool.or_eq_true, decide_eq_true_eq] at ho
      refine ⟨?_, ih hb.2 hp.2 (by simpa using hl) ho.2⟩
      split <;> split <;> omega

/-- what the iterator guarantees about one piece -/
structure PieceOK (loc : List Int → Addr) (lo hi : List Int) (p : RPiece) : Prop where
  edge : EdgeNN p.plo p.phi
  len : p.plo.length = lo.length
  ldl : p.ldrem.length + 1 = lo.length
  at_ : ∀ x, InPatch p.plo p.phi x → (p.proc, p.prem + bufPos p.plo p.ldrem x) = loc x

theorem gPieces_ok {G : GArr} (hG : Sound G) {E : Env} (hE : EnvG E G) {lo hi : List Int} {ps : List RPiece}
    (hb : ∀ A, G = .blk A → PatchOK G.dims lo hi) (h : G.pieces E lo hi = some ps) :
    PatchOK G.dims lo hi ∧ (ps.flatMap fun p => box p.plo p.phi).Perm (box lo hi) ∧
    (∀ p ∈ ps, PieceOK (cellG G) lo hi p) ∧
    (FullBlocks G → ∀ p ∈ ps, InPatch p.plo p.phi p.plo) := by
  cases G with
  | reg A n =>
    obtain ⟨h1, h2, h3⟩ := regPieces_spec hG.1 hE h
    refine ⟨h1, h2, ?_, fun _ p hp => (h3 p hp).1⟩
    intro p hp
    obtain ⟨a, b, c, d, e⟩ := h3 p hp
    refine ⟨?_, b, d, fun x hx => (e x hx).2.2⟩
    clear * - a
    generalize p.plo = l at a
    have : ∀ (l h x : List Int), InPatch l h x → EdgeNN l h := by
      intro l
      induction l with
      | nil => intro h x hx; cases h <;> cases x <;> simp_all [InPatch, EdgeNN]
      | cons a l ih =>
        intro h x hx
        match h, x, hx with
        | b :: h, x :: xs, hx => exact ⟨by have := hx.1; omega, ih _ _ hx.2⟩
    exact this _ _ _ a
  | blk A =>
    have hok := hG.1.ok
    have hp := hb A rfl
    have hps := bPieces_visits hok hG.2 lo hi
    rw [show GArr.pieces E (.blk A) lo hi = bPieces A lo hi from rfl, hps] at h
    obtain rfl := Option.some.inj h
    have key : ∀ p ∈ ((visits A).flatMap fun v => emitC A lo hi v.1 (offAt A v.1 v.2) (vis A v.1 v.2)),
        ∃ c, CoordOK A.nblocks c ∧ overlap (cLo A c) (cHi A c) lo hi = true ∧
          p = pieceC A (procC A c) (offAt A (procC A c) (posC A c)) c lo hi := by
      intro p hpm
      obtain ⟨v, hv, hpv⟩ := List.mem_flatMap.1 hpm
      exact ⟨_, visit_emit hok hv hpv⟩
    refine ⟨hp, pieces_cover hok hp, ?_, ?_⟩
    · intro p hpm
      obtain ⟨c, a, b, rfl⟩ := key p hpm
      obtain ⟨c1, c2, c3, _, c5⟩ := pieceC_ok hok hp a b
      exact ⟨c1, c2, c3, c5⟩
    · intro hf p hpm
      obtain ⟨c, a, b, rfl⟩ := key p hpm
      have hlen : (cLo A c).length = lo.length := by
        rw [(cLo_edge hok a).2.1]; exact hp.1.length.symm
      have := patch_full (cLo_full hok hf a) hp.2.2 hlen b
      by_cases hk : A.kind = .scalapack
      · simp only [pieceC, hk, if_true]; exact this
      · simp only [pieceC, hk, if_false]; exact this

theorem cellG_inj {G : GArr} (hG : Sound G) {x y : List Int} (hx : InArray G.dims x)
    (hy : InArray G.dims y) (h : cellG G x = cellG G y) : x = y := by
  cases G with
  | reg A n => exact cell_inj hG.1 hx hy h
  | blk A => exact cellB_inj hG.1.ok hx hy h

/-! ## transfers of a list of elements -/

/-- The transfers move exactly the elements `xs`, element `x` between buffer position `pos x` and
address `loc x`. -/
def Moves (loc : List Int → Addr) (pos : List Int → Int) (xs : List (List Int)) (ts : List Xfer) : Prop :=
  ts.Perm (xs.map fun x => ⟨pos x, loc x⟩)

section
variable {V : Type} {loc : List Int → Addr} {pos : List Int → Int} {xs : List (List Int)} {ts : List Xfer}

theorem Moves.mem (h : Moves loc pos xs ts) {x : List Int} (hx : x ∈ xs) : (⟨pos x, loc x⟩ : Xfer) ∈ ts :=
  h.mem_iff.2 (List.mem_map.2 ⟨x, hx, rfl⟩)

theorem Moves.of_mem (h : Moves loc pos xs ts) {t : Xfer} (ht : t ∈ ts) :
    ∃ x ∈ xs, t = ⟨pos x, loc x⟩ := by
  obtain ⟨x, hx, rfl⟩ := List.mem_map.1 (h.mem_iff.1 ht)
  exact ⟨x, hx, rfl⟩

theorem Moves.addr_nodup (h : Moves loc pos xs ts) (hn : xs.Nodup)
    (hinj : ∀ x ∈ xs, ∀ y ∈ xs, loc x = loc y → x = y) : (ts.map Xfer.addr).Nodup := by
  rw [(h.map Xfer.addr).nodup_iff, List.map_map]
  exact List.Nodup.map_on (fun x hx y hy e => hinj x hx y hy e) hn

theorem Moves.buf_nodup (h : Moves loc pos xs ts) (hn : xs.Nodup)
    (hinj : ∀ x ∈ xs, ∀ y ∈ xs, pos x = pos y → x = y) : (ts.map Xfer.buf).Nodup := by
  rw [(h.map Xfer.buf).nodup_iff, List.map_map]
  exact List.Nodup.map_on (fun x hx y hy e => hinj x hx y hy e) hn

theorem Moves.put_hit (h : Moves loc pos xs ts) (hn : xs.Nodup)
    (hinj : ∀ x ∈ xs, ∀ y ∈ xs, loc x = loc y → x = y) (buf : Int → V) (mem : Addr → V) {x : List Int}
    (hx : x ∈ xs) : applyPut ts buf mem (loc x) = buf (pos x) :=
  foldl_upd_hit ts Xfer.addr (fun _ t => buf t.buf) mem _ (h.mem hx) (h.addr_nodup hn hinj)
    (fun _ _ _ => rfl)

theorem Moves.put_miss (h : Moves loc pos xs ts) (buf : Int → V) (mem : Addr → V) {a : Addr}
    (ha : ∀ x ∈ xs, loc x ≠ a) : applyPut ts buf mem a = mem a := by
  apply foldl_upd_miss ts Xfer.addr (fun _ t => buf t.buf)
  intro t ht
  obtain ⟨x, hx, rfl⟩ := h.of_mem ht
  exact ha x hx

theorem Moves.acc_hit [Add V] [Mul V] (h : Moves loc pos xs ts) (hn : xs.Nodup)
    (hinj : ∀ x ∈ xs, ∀ y ∈ xs, loc x = loc y → x = y) (alpha : V) (buf : Int → V) (mem : Addr → V)
    {x : List Int} (hx : x ∈ xs) :
    applyAcc ts alpha buf mem (loc x) = mem (loc x) + alpha * buf (pos x) :=
  foldl_upd_hit ts Xfer.addr (fun m t => m t.addr + alpha * buf t.buf) mem _ (h.mem hx)
    (h.addr_nodup hn hinj) (fun m m' e => by simp only at e ⊢; rw [e])

theorem Moves.acc_miss [Add V] [Mul V] (h : Moves loc pos xs ts) (alpha : V) (buf : Int → V)
    (mem : Addr → V) {a : Addr} (ha : ∀ x ∈ xs, loc x ≠ a) : applyAcc ts alpha buf mem a = mem a := by
  apply foldl_upd_miss ts Xfer.addr (fun m t => m t.addr + alpha * buf t.buf)
  intro t ht
  obtain ⟨x, hx, rfl⟩ := h.of_mem ht
  exact ha x hx

theorem Moves.get_hit (h : Moves loc pos xs ts) (hn : xs.Nodup)
    (hinj : ∀ x ∈ xs, ∀ y ∈ xs, pos x = pos y → x = y) (buf : Int → V) (mem : Addr → V) {x : List Int}
    (hx : x ∈ xs) : applyGet ts mem buf (pos x) = mem (loc x) :=
  foldl_upd_hit ts Xfer.buf (fun _ t => mem t.addr) buf _ (h.mem hx) (h.buf_nodup hn hinj)
    (fun _ _ _ => rfl)

theorem Moves.get_miss (h : Moves loc pos xs ts) (buf : Int → V) (mem : Addr → V) {i : Int}
    (ha : ∀ x ∈ xs, pos x ≠ i) : applyGet ts mem buf i = buf i := by
  apply foldl_upd_miss ts Xfer.buf (fun _ t => mem t.addr)
  intro t ht
  obtain ⟨x, hx, rfl⟩ := h.of_mem ht
  exact ha x hx

end

/-- the elements moved by a put, get or accumulate -/
theorem gXfers_moves' {G : GArr} (hG : Sound G) {E : Env} (hE : EnvG E G) {lo hi ld : List Int}
    {ts : List Xfer} (hb : ∀ A, G = .blk A → PatchOK G.dims lo hi) (hld : ld.length + 1 = lo.length)
    (h : G.xfers E lo hi ld = some ts) :
    PatchOK G.dims lo hi ∧ Moves (cellG G) (bufPos lo ld) (box lo hi) ts := by
  obtain ⟨ps, hps, rfl⟩ := Option.map_eq_some_iff.1 h
  obtain ⟨h1, h2, h3, _⟩ := gPieces_ok hG hE hb hps
  refine ⟨h1, ?_⟩
  exact xfers_implements' _ hld h2 fun p hp =>
    ⟨(h3 p hp).edge, (h3 p hp).len, (h3 p hp).ldl, (h3 p hp).at_⟩

theorem gXfers_moves {G : GArr} (hG : Sound G) {E : Env} (hE : EnvG E G) {lo hi ld : List Int}
    {ts : List Xfer} (hb : ∀ A, G = .blk A → PatchOK G.dims lo hi) (hld : LdOK lo hi ld)
    (h : G.xfers E lo hi ld = some ts) :
    PatchOK G.dims lo hi ∧ Moves (cellG G) (bufPos lo ld) (box lo hi) ts :=
  gXfers_moves' hG hE hb hld.length.2 h

/-- a request for a legal patch that fits into one message is served -/
theorem gXfers_some {G : GArr} (hG : Sound G) {E : Env} (hE : EnvG E G) {lo hi : List Int}
    (ld : List Int) (hp : PatchOK G.dims lo hi) (hf : E.elemsize * prodI (edges lo hi) ≤ E.maxInt) :
    ∃ ts, G.xfers E lo hi ld = some ts := by
  cases G with
  | reg A n =>
    obtain ⟨rs, hrs⟩ := regPieces_fits hG.1 hE hp hf
    exact ⟨_, by simp only [GArr.xfers, GArr.pieces, hrs, Option.map_some]; rfl⟩
  | blk A =>
    exact ⟨_, by simp only [GArr.xfers, GArr.pieces, bPieces_visits hG.1.ok hG.2 lo hi,
      Option.map_some]; rfl⟩

end GA
