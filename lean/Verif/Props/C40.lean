import Verif.Lemmas.Cache
import Verif.Props.C12

/-!
# C40: gets on an array with the property `read_cache`

`runCached G m [] rs` are the user buffers after the calls `rs` of `NGA_Get` on an array whose
property has just been set, `runPlain G m rs` are the buffers of the same calls without the
property. The memory `m` does not change: the array is read only.
-/

namespace GA
open Spec Model

/-- The leading dimensions of the user buffer are those of the patch: `ld[d] = hi[d]-lo[d]+1`. -/
def TightLd : (lo hi ld : List Int) → Prop
  | [_], [_], [] => True
  | l :: l' :: lo, h :: h' :: hi, d :: ld => d = h - l + 1 ∧ TightLd (l' :: lo) (h' :: hi) ld
  | _, _, _ => False

/-- the legal calls: patch inside the array, buffer without gaps, size of the patch an `int` -/
def ReqOK {V} (G : GArr) (r : GetReq V) : Prop :=
  EnvG r.E G ∧ PatchOK G.dims r.lo r.hi ∧ TightLd r.lo r.hi r.ld ∧ r.E.elemsize * numElems r.lo r.hi ≤ r.E.maxInt

private theorem tight_eq {lo hi ld : List Int} (h : TightLd lo hi ld) : ld = (edges lo hi).dropLast ∧ LdOK lo hi ld := by
  induction lo generalizing hi ld with
  | nil => cases hi <;> cases ld <;> simp [TightLd] at h
  | cons l lo ih =>
    match lo, hi, ld, h with
    | [], [hh], [], _ => exact ⟨rfl, trivial⟩
    | l' :: lo, hh :: h' :: hi, d :: ld, h =>
      obtain ⟨h1, h2⟩ := ih h.2
      have := h.1
      refine ⟨?_, by omega, h2⟩
      rw [h1, h.1]
      simp [edges]

private theorem getResult_unique {V : Type} {lo hi ld : List Int} {f : List Int → V} {buf b b' : Int → V}
    (h : GetResult lo hi ld f buf b) (h' : GetResult lo hi ld f buf b') : b = b' := by
  funext i
  by_cases hx : ∃ x, InPatch lo hi x ∧ bufPos lo ld x = i
  · obtain ⟨x, hx, rfl⟩ := hx
    rw [h.1 x hx, h'.1 x hx]
  · have : ∀ x, InPatch lo hi x → bufPos lo ld x ≠ i := fun x h1 h2 => hx ⟨x, h1, h2⟩
    rw [h.2 i this, h'.2 i this]

private theorem gGet_result {V : Type} {G : GArr} (hG : Sound G) {E : Env} (hE : EnvG E G) {lo hi ld : List Int}
    (hp : PatchOK G.dims lo hi) (hld : LdOK lo hi ld) (hfit : E.elemsize * numElems lo hi ≤ E.maxInt)
    {m : Addr → V} {f : List Int → V} (hm : Holds G m f) (buf : Int → V) :
    ∃ b, gGet E G lo hi ld buf m = some b ∧ GetResult lo hi ld f buf b := by
  have : ∃ ps, G.pieces E lo hi = some ps := by
    cases G with
    | reg A n => exact regPieces_fits hG.1 hE hp (by unfold FitsOne; rw [prodI_edges]; exact hfit)
    | blk A => exact ⟨_, bPieces_visits hG.1.ok hG.2 lo hi⟩
  obtain ⟨ps, hps⟩ := this
  have hx : G.xfers E lo hi ld = some (xfers E.isLocal lo ld ps) := by
    unfold GArr.xfers; rw [hps]; rfl
  obtain ⟨_, hmv⟩ := gXfers_moves hG hE (fun _ _ => hp) hld hx
  rw [holds_iff hG] at hm
  refine ⟨_, by unfold gGet; rw [hx]; rfl, ?_, ?_⟩
  · intro x hx
    show applyGet _ m buf (bufPos lo ld x) = f x
    rw [hmv.get_hit (nodup_box _ _) (fun a ha b hb e => bufPos_inj hld (mem_box.1 ha) (mem_box.1 hb) e) buf m
      (mem_box.2 hx), hm x (hp.inArray hx)]
  · intro i hi'
    exact hmv.get_miss buf m fun x hx => hi' x (mem_box.1 hx)

private theorem copy_result {V : Type} {lo hi sld dld start : List Int} (hp : InPatch lo hi lo)
    (h1 : sld.length + 1 = lo.length) (h2 : LdOK lo hi dld) (src dst : Int → V) :
    ∃ b, memCopy (edges lo hi) start sld (lo.map fun _ => 0) dld src dst = some b ∧
      GetResult lo hi dld (fun x => src (memOff start sld 0 1 + bufPos lo sld x)) dst b := by
  obtain ⟨ts, h, hmv⟩ := memCopy_moves (start := start) hp h1 h2.length.2 src dst
  refine ⟨_, h, ?_, ?_⟩
  · intro x hx
    rw [hmv.get_hit (nodup_box _ _) (fun a ha b hb e => bufPos_inj h2 (mem_box.1 ha) (mem_box.1 hb) e) dst _
      (mem_box.2 hx)]
  · intro i hi'
    exact hmv.get_miss dst _ fun x hx => hi' x (mem_box.1 hx)

private theorem tight_self {lo hi : List Int} (h : InPatch lo hi lo) (hne : lo ≠ []) :
    LdOK lo hi (edges lo hi).dropLast := by
  induction lo generalizing hi with
  | nil => exact absurd rfl hne
  | cons l lo ih =>
    match lo, hi, h with
    | [], [hh], _ => trivial
    | l' :: lo, hh :: h' :: hi, h =>
      have := ih h.2 (by simp)
      simp only [edges, List.dropLast_cons₂, LdOK] at this ⊢
      exact ⟨le_refl _, this⟩

private theorem asInt32_id {d : List Int} (hd : ∀ k ∈ d, k ≤ 2147483647) {x : List Int} (hx : InArray d x) :
    x.map asInt32 = x := by
  induction d generalizing x with
  | nil => cases x <;> simp_all [InArray, InPatch]
  | cons k d ih =>
    match x, hx with
    | x :: xs, hx =>
      have h1 : 1 ≤ x ∧ x ≤ k := hx.1
      have h2 := hd k (by simp)
      simp only [List.map_cons, List.cons.injEq]
      refine ⟨?_, ih (fun k hk => hd k (by simp [hk])) hx.2⟩
      unfold asInt32
      rw [Int.emod_eq_of_lt (by omega) (by omega)]
      omega

private theorem covers_iff {tlo thi lo hi : List Int} (h1 : thi.length = tlo.length) (h2 : lo.length = tlo.length)
    (h3 : hi.length = tlo.length) (h : covers tlo thi lo hi = true) (x : List Int) (hx : InPatch lo hi x) :
    InPatch tlo thi x := by
  induction tlo generalizing thi lo hi x with
  | nil =>
    match thi, lo, hi, h1, h2, h3 with
    | [], [], [], _, _, _ => exact hx
  | cons t tlo ih =>
    match thi, lo, hi, x, h1, h2, h3, hx with
    | u :: thi, l :: lo, hh :: hi, x :: xs, h1, h2, h3, hx =>
      simp only [covers, Bool.and_eq_true, decide_eq_true_eq] at h
      have := hx.1
      exact ⟨by omega, ih (by simpa using h1) (by simpa using h2) (by simpa using h3) h.2 xs hx.2⟩

private theorem bufPos_shift {t lo ld x : List Int} (h1 : lo.length = t.length) (h2 : x.length = t.length)
    (h3 : ld.length + 1 = t.length) : bufPos t ld lo + bufPos lo ld x = bufPos t ld x := by
  induction t generalizing lo ld x with
  | nil => simp at h3
  | cons a t ih =>
    match lo, x, ld, h1, h2, h3 with
    | l :: lo, x :: xs, [], _, _, _ => simp only [bufPos]; ring
    | l :: lo, x :: xs, d :: ld, h1, h2, h3 =>
      simp only [bufPos]
      have := ih (lo := lo) (x := xs) (ld := ld) (by simpa using h1) (by simpa using h2) (by simpa using h3)
      rw [← this]; ring

/-- an entry of the cache holds its patch -/
private def EntryOK {V} (G : GArr) (f : List Int → V) (e : CEntry V) : Prop :=
  PatchOK G.dims e.lo e.hi ∧ ∀ x, InPatch e.lo e.hi x → e.buf (bufPos e.lo (edges e.lo e.hi).dropLast x) = f x

section
variable {V : Type} {G : GArr} (hG : Sound G) (hdim : ∀ d ∈ G.dims, d ≤ 2147483647)
  {m : Addr → V} {f : List Int → V} (hm : Holds G m f)
include hG hdim hm

private theorem cached_step {r : GetReq V} (hr : ReqOK G r) {c : List (CEntry V)} (hl : c.length ≤ 1)
    (hc : ∀ e ∈ c, EntryOK G f e) :
    ∃ b c', cachedGet r.E G r.junk c r.lo r.hi r.ld r.buf m = some (b, c') ∧
      gGet r.E G r.lo r.hi r.ld r.buf m = some b ∧ c'.length ≤ 1 ∧ ∀ e ∈ c', EntryOK G f e := by
  obtain ⟨hE, hp, ht, hfit⟩ := hr
  obtain ⟨ht1, ht2⟩ := tight_eq ht
  obtain ⟨b, hb, hres⟩ := gGet_result hG hE hp ht2 hfit hm r.buf
  have hll := hp.2.2.length
  unfold cachedGet
  cases hfd : c.find? fun e => covers e.lo e.hi r.lo r.hi with
  | some e =>
    have hmem := List.mem_of_find?_eq_some hfd
    have hcov := List.find?_some hfd
    obtain ⟨he1, he2⟩ := hc e hmem
    have hel := he1.1.length
    have hel2 := he1.2.1.length
    have hrl := hp.1.length
    have hrl2 := hp.2.1.length
    have htl := ht2.length
    have hee : (edges e.lo e.hi).length = e.lo.length := edges_length (by omega)
    have hdl : (edges e.lo e.hi).dropLast.length + 1 = r.lo.length := by
      rw [List.length_dropLast, hee]; omega
    obtain ⟨b', hb', hres'⟩ := copy_result (start := subStart r.lo e.lo) hp.2.2 hdl (ht1 ▸ ht2) e.buf r.buf
    have hres2 : GetResult r.lo r.hi r.ld f r.buf b' := by
      rw [← ht1] at hres'
      refine ⟨?_, hres'.2⟩
      intro x hx
      rw [hres'.1 x hx]
      have hxl := hx.length
      simp only
      rw [memOff_sub _ _ (by omega) (by omega), Int.zero_add, Int.one_mul,
        bufPos_shift (by omega) (by omega) (by omega)]
      exact he2 x (covers_iff (by omega) (by omega) (by omega) hcov x hx)
    have := getResult_unique hres hres2
    subst this
    have htr : cacheTrim c = some c := by
      match c, hl with
      | [], _ => rfl
      | [a], _ => rfl
    exact ⟨b, c, by simp only [hb', htr, Option.bind_some, Option.map_some], hb, hl, hc⟩
  | none =>
    have htl := ht2.length
    have hne : r.lo ≠ [] := by
      intro h0
      rw [h0] at htl
      simp at htl
    obtain ⟨cb, hcb, hcr⟩ := copy_result (start := r.lo.map fun _ => 0) (sld := r.ld) hp.2.2 (by omega)
      (tight_self hp.2.2 hne) b r.junk
    have hent : EntryOK G f ⟨r.lo.map asInt32, r.hi.map asInt32, cb⟩ := by
      simp only [EntryOK, asInt32_id hdim hp.1, asInt32_id hdim hp.2.1]
      refine ⟨hp, ?_⟩
      intro x hx
      rw [hcr.1 x hx]
      simp only
      rw [memOff_zero, Int.zero_add, hres.1 x hx]
    have hle : ¬ r.E.elemsize * prodI (edges r.lo r.hi) > r.E.maxInt := by
      rw [prodI_edges]; omega
    refine ⟨b, [⟨r.lo.map asInt32, r.hi.map asInt32, cb⟩], ?_, hb, by simp, by simpa using hent⟩
    have htr : cacheTrim (⟨r.lo.map asInt32, r.hi.map asInt32, cb⟩ :: c) =
        some [⟨r.lo.map asInt32, r.hi.map asInt32, cb⟩] := by
      match c, hl with
      | [], _ => rfl
      | [a], _ => rfl
    simp only [if_neg hle, hb, hcb, htr, Option.bind_some, Option.map_some]

/-- **C40, partial.** Any sequence of legal gets into buffers without gaps gives the same buffers
with the property `read_cache` as without it (and never runs into an error, or into memory that
has been freed). Missing: buffers with larger leading dimensions, for which the property does not
hold (`C40_padded_buffer`), and dimensions that do not fit into an `int`
(`C40_large_subscripts`). -/
theorem C40_same_results_partial (rs : List (GetReq V)) (hrs : ∀ r ∈ rs, ReqOK G r) :
    ∃ bs, runPlain G m rs = some bs ∧ runCached G m [] rs = some bs := by
  suffices H : ∀ (c : List (CEntry V)), c.length ≤ 1 → (∀ e ∈ c, EntryOK G f e) →
      ∃ bs, runPlain G m rs = some bs ∧ runCached G m c rs = some bs from H [] (by simp) (by simp)
  induction rs with
  | nil => intro c _ _; exact ⟨[], rfl, rfl⟩
  | cons r rs ih =>
    intro c h1 h2
    obtain ⟨b, c', e1, e2, e3, e4⟩ := cached_step hG hdim hm (hrs r (by simp)) h1 h2
    obtain ⟨bs, p1, p2⟩ := ih (fun r' h' => hrs r' (by simp [h'])) c' e3 e4
    refine ⟨b :: bs, ?_, ?_⟩
    · simp only [runPlain, e2, p1, Option.bind_some, Option.map_some]
    · simp only [runCached, e1, p2, Option.bind_some, Option.map_some]

end

/-! ## Non-vacuity: three gets on a 10x7 array, the second one inside the first -/

/-- the calls -/
def exReqs : List (GetReq Int) :=
  [⟨exE, [3, 2], [7, 5], [5], fun _ => -1, fun i => 1000 + i⟩,
   ⟨exE, [4, 3], [6, 5], [3], fun _ => -2, fun i => 2000 + i⟩,
   ⟨exE, [1, 1], [2, 7], [2], fun _ => -3, fun i => 3000 + i⟩]

example : ∀ r ∈ exReqs, ReqOK (.reg exG 7) r := by
  intro r hr
  simp only [exReqs, List.mem_cons, List.not_mem_nil, or_false] at hr
  rcases hr with rfl | rfl | rfl <;>
  exact ⟨exE_ok.1, by decide, by simp [TightLd], by decide⟩
example : (runCached (.reg exG 7) (fun a => a.1 * 100 + a.2) [] exReqs).map (fun bs => bs.map fun b => [b 0, b 8, b 9]) =
    (runPlain (.reg exG 7) (fun a => a.1 * 100 + a.2) exReqs).map (fun bs => bs.map fun b => [b 0, b 8, b 9]) := by
  decide +kernel
/-- the second call is served from the cache: it does not see a different memory -/
example : ((cachedGet exE (.reg exG 7) (fun _ => 0) [] [3, 2] [7, 5] [5] (fun _ => -1) (fun _ => 1)).bind fun bc =>
    (cachedGet exE (.reg exG 7) (fun _ => 0) bc.2 [4, 3] [6, 5] [3] (fun _ => -1) (fun _ => 2)).map fun bc' =>
      (bc'.1 0, bc'.2.length)) = some (1, 1) := by decide +kernel

/-! ## Negative results -/

/-- **C40, negative result.** A get with a larger leading dimension that is served from the cache
packs the patch without gaps: element (4,4) of the patch 4..6 x 3..5 is put at position 3 of the
user buffer although the leading dimension is 5, and position 5 receives element (6,4). -/
theorem C40_padded_buffer :
    let v : Addr → Int := fun a => a.1 * 100 + a.2
    let calls : List (GetReq Int) := [⟨exE, [3, 2], [7, 5], [5], fun _ => -1, fun _ => 0⟩,
      ⟨exE, [4, 3], [6, 5], [5], fun _ => -1, fun _ => 0⟩]
    (∀ r ∈ calls, EnvG r.E (.reg exG 7) ∧ PatchOK exG.dims r.lo r.hi ∧ LdOK r.lo r.hi r.ld ∧
      r.E.elemsize * numElems r.lo r.hi ≤ r.E.maxInt) ∧
    (runPlain (.reg exG 7) v calls).map (fun bs => (bs.drop 1).map fun b => [b 3, b 5]) =
      some [[-1, v (cell exG [4, 4])]] ∧
    (runCached (.reg exG 7) v [] calls).map (fun bs => (bs.drop 1).map fun b => [b 3, b 5]) =
      some [[v (cell exG [4, 4]), v (cell exG [6, 4])]] := by
  refine ⟨?_, by decide +kernel, by decide +kernel⟩
  intro r hr
  simp only [List.mem_cons, List.not_mem_nil, or_false] at hr
  rcases hr with rfl | rfl <;>
  exact ⟨exE_ok.1, by decide, by decide, by decide⟩

/-- a vector of 2^33 elements in one block -/
def exLong : RegArray := ⟨[8589934592], [1], [1], [0]⟩

/-- **C40, negative result.** The cache stores subscripts as `int`: after a get of elements
2^32+1..2^32+4, a get of elements 1..4 returns those. -/
theorem C40_large_subscripts :
    let E : Env := ⟨[0], [0], fun i => i, fun _ => false, 8, 2147483647⟩
    let calls : List (GetReq Int) := [⟨E, [4294967297], [4294967300], [], fun _ => -1, fun _ => 0⟩,
      ⟨E, [1], [4], [], fun _ => -1, fun _ => 0⟩]
    Sound (.reg exLong 1) ∧ (∀ r ∈ calls, ReqOK (.reg exLong 1) r) ∧
    (runPlain (.reg exLong 1) (fun a => a.2) calls).map (fun bs => bs.map fun b => b 0) = some [4294967296, 0] ∧
    (runCached (.reg exLong 1) (fun a => a.2) [] calls).map (fun bs => bs.map fun b => b 0) =
      some [4294967296, 4294967296] := by
  refine ⟨⟨⟨by decide, by decide, by decide⟩, by decide⟩, ?_, by decide +kernel, by decide +kernel⟩
  intro r hr
  simp only [List.mem_cons, List.not_mem_nil, or_false] at hr
  rcases hr with rfl | rfl <;>
  exact ⟨⟨by simp [CandOK, exLong], by simp [CandOK, exLong], by decide, by decide⟩, by decide, by simp [TightLd], by decide⟩

end GA
