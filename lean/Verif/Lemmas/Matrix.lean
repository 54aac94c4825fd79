import Verif.Model.Matrix
import Verif.Lemmas.AddDot

/-! # Lemmas: matrix operations -/

namespace GA
open Spec Model

/-! ## buffers -/

theorem bufAt_eq {α} {ws : List (Int × α)} {i : Int} {x : α} (hm : (i, x) ∈ ws)
    (hu : ∀ w ∈ ws, w.1 = i → w.2 = x) : bufAt ws i = some x := by
  unfold bufAt
  cases h : ws.find? fun w => decide (w.1 = i) with
  | none =>
    have := List.find?_eq_none.1 h _ hm
    simp at this
  | some w =>
    have h1 := List.find?_some h
    have h2 := List.mem_of_find?_eq_some h
    simp only [decide_eq_true_eq] at h1
    simp only [Option.map_some, hu w h2 h1]

theorem mapOpt_filterMap {α β} {f : α → Option β} {ts : List α} (h : ∀ t ∈ ts, ∃ b, f t = some b) :
    mapOpt f ts = some (ts.filterMap f) := by
  induction ts with
  | nil => rfl
  | cons t ts ih =>
    obtain ⟨b, hb⟩ := h t (by simp)
    have := ih fun t ht => h t (by simp [ht])
    simp only [mapOpt, hb, this, List.filterMap_cons]

theorem mapOpt_perm {α β γ} {f : α → Option β} {ts : List α} {xs : List γ} {T : γ → α} {G : γ → β}
    (hp : ts.Perm (xs.map T)) (hf : ∀ x ∈ xs, f (T x) = some (G x)) :
    ∃ bs, mapOpt f ts = some bs ∧ bs.Perm (xs.map G) := by
  refine ⟨_, mapOpt_filterMap ?_, ?_⟩
  · intro t ht
    obtain ⟨x, hx, rfl⟩ := List.mem_map.1 (hp.mem_iff.1 ht)
    exact ⟨_, hf x hx⟩
  · refine (hp.filterMap f).trans (List.Perm.of_eq ?_)
    clear hp
    induction xs with
    | nil => rfl
    | cons x xs ih =>
      have h1 := hf x (by simp)
      have := ih fun y hy => hf y (by simp [hy])
      simp [h1, this]

/-! ## blocks of all processes -/

section
variable {G : GArr} {items : Nat → List LItem} {cl : List Int → Addr}

theorem eachItem_some (v : View G items cl) {f : Nat → LItem → Option (List LAct)}
    (hf : ∀ p, p < G.nproc → ∀ it ∈ items p, ∃ bs, f p it = some bs) :
    ∃ l, mapOpt (fun p => eachItem G (f p) p) (List.range G.nproc) = some l := by
  apply mapOpt_some
  intro p hp
  have hp := List.mem_range.1 hp
  obtain ⟨bs, h⟩ := mapOpt_some (f := f p) (as := items p) (hf p hp)
  exact ⟨bs.flatten, by simp only [eachItem, v.iter p hp, h, Option.map_some]⟩

theorem eachItem_perm (v : View G items cl) {f : Nat → LItem → Option (List LAct)} (P : List Int → Bool)
    (F : List Int → LAct)
    (hf : ∀ p, p < G.nproc → ∀ it ∈ items p, ∀ bs, f p it = some bs →
      bs.Perm (((box it.lo it.hi).filter P).map F))
    {l : List (List LAct)} (hl : mapOpt (fun p => eachItem G (f p) p) (List.range G.nproc) = some l) :
    l.flatten.Perm (((box (onesL G.dims) G.dims).filter P).map F) := by
  refine (flatten_perm (h := fun p => (items p).flatMap fun it => (box it.lo it.hi).filter P) F hl ?_).trans ?_
  · intro p hp bs hbs
    have hp := List.mem_range.1 hp
    simp only [eachItem, v.iter p hp] at hbs
    obtain ⟨ls, hls, rfl⟩ := Option.map_eq_some_iff.1 hbs
    exact flatten_perm F hls fun it hit bs' hb => hf p hp it hit bs' hb
  · apply List.Perm.map
    have : ((List.range G.nproc).flatMap fun p => (items p).flatMap fun it => (box it.lo it.hi).filter P) =
        ((List.range G.nproc).flatMap fun p => (items p).flatMap fun it => box it.lo it.hi).filter P := by
      rw [List.filter_flatMap]
      congr 1
      funext p
      rw [List.filter_flatMap]
    rw [this]
    exact v.cover.filter _

end

/-! ## effect of a phase -/

theorem phase_effect {V ι : Type} {n : Nat} {acts : Nat → Option (List LAct)} {g : List V → V} {m m' : Loc → V}
    (hm : Par n acts g m m') {xs : List ι} {F : ι → LAct} (hn : xs.Nodup)
    (hl : ∀ l, mapOpt acts (List.range n) = some l → l.flatten.Perm (xs.map F))
    (hinj : ∀ x ∈ xs, ∀ y ∈ xs, (F x).dst = (F y).dst → x = y)
    (hsep : ∀ x ∈ xs, ∀ y ∈ xs, (F x).dst ∈ (F y).srcs → x = y) :
    (∀ x ∈ xs, m' (F x).dst = g ((F x).srcs.map m)) ∧ ∀ l, (∀ x ∈ xs, (F x).dst ≠ l) → m' l = m l := by
  obtain ⟨l, sched, e1, e2, rfl⟩ := hm
  have hp := e2.trans (hl l e1)
  have hind : Indep (xs.map F) := by
    constructor
    · rw [List.map_map]
      exact List.Nodup.map_on (fun x hx y hy e => hinj x hx y hy e) hn
    · intro u hu w hw e
      obtain ⟨x, hx, rfl⟩ := List.mem_map.1 hu
      obtain ⟨y, hy, rfl⟩ := List.mem_map.1 hw
      rw [hsep x hx y hy e]
  obtain ⟨r1, r2⟩ := runActs_spec g (hind.perm hp) m
  constructor
  · intro x hx
    exact r1 (F x) (hp.mem_iff.2 (List.mem_map.2 ⟨x, hx, rfl⟩))
  · intro l hl
    apply r2
    intro u hu
    obtain ⟨x, hx, rfl⟩ := List.mem_map.1 (hp.mem_iff.1 hu)
    exact hl x hx

/-! ## two dimensions -/

theorem len2 {l : List Int} (h : l.length = 2) : ∃ a b, l = [a, b] := by
  match l, h with
  | [a, b], _ => exact ⟨a, b, rfl⟩

theorem len1 {l : List Int} (h : l.length = 1) : ∃ a, l = [a] := by
  match l, h with
  | [a], _ => exact ⟨a, rfl⟩

theorem inPatch2 {l1 l2 h1 h2 : Int} {x : List Int} :
    InPatch [l1, l2] [h1, h2] x ↔ ∃ i j, x = [i, j] ∧ l1 ≤ i ∧ i ≤ h1 ∧ l2 ≤ j ∧ j ≤ h2 := by
  constructor
  · intro h
    obtain ⟨i, j, rfl⟩ := len2 (inPatch_lengths h).2
    exact ⟨i, j, rfl, h.1.1, h.1.2, h.2.1.1, h.2.1.2⟩
  · rintro ⟨i, j, rfl, a, b, c, d⟩
    exact ⟨⟨a, b⟩, ⟨c, d⟩, trivial⟩

theorem inPatch1 {l h : Int} {x : List Int} : InPatch [l] [h] x ↔ ∃ i, x = [i] ∧ l ≤ i ∧ i ≤ h := by
  constructor
  · intro hx
    obtain ⟨i, rfl⟩ := len1 (inPatch_lengths hx).2
    exact ⟨i, rfl, hx.1.1, hx.1.2⟩
  · rintro ⟨i, rfl, a, b⟩
    exact ⟨⟨a, b⟩, trivial⟩

theorem box_swap2 (l1 l2 h1 h2 : Int) :
    (box [l2, l1] [h2, h1]).Perm ((box [l1, l2] [h1, h2]).map List.reverse) := by
  rw [List.perm_ext_iff_of_nodup (nodup_box _ _)
    ((nodup_box _ _).map List.reverse_injective)]
  intro x
  rw [mem_box, inPatch2, List.mem_map]
  constructor
  · rintro ⟨j, i, rfl, h⟩
    exact ⟨[i, j], mem_box.2 (inPatch2.2 ⟨i, j, rfl, h.2.2.1, h.2.2.2, h.1, h.2.1⟩), rfl⟩
  · rintro ⟨y, hy, rfl⟩
    obtain ⟨i, j, rfl, h⟩ := inPatch2.1 (mem_box.1 hy)
    exact ⟨j, i, rfl, h.2.2.1, h.2.2.2, h.1, h.2.1⟩

/-! ## GA_Transpose -/

/-- a step that copies element `x` of `A` to the transposed element of `B` -/
def trAct (a : Nat) (A : GArr) (b : Nat) (B : GArr) (x : List Int) : LAct :=
  ⟨(b, cellG B x.reverse), [(a, cellG A x)]⟩

theorem transLoops_at {nrow ncol ld i j : Int} (h1 : 0 ≤ i) (h2 : i < ncol) (h3 : 0 ≤ j) (h4 : j < nrow) :
    bufAt (transLoops nrow ncol ld) (i + j * ncol) = some (i * ld + j) := by
  apply bufAt_eq
  · unfold transLoops
    refine List.mem_flatMap.2 ⟨i.toNat, List.mem_range.2 (by omega), List.mem_map.2 ⟨j.toNat, List.mem_range.2 (by omega), ?_⟩⟩
    rw [Int.toNat_of_nonneg h1, Int.toNat_of_nonneg h3]
  · intro w hw e
    unfold transLoops at hw
    obtain ⟨u, hu, hw⟩ := List.mem_flatMap.1 hw
    obtain ⟨k, hk, rfl⟩ := List.mem_map.1 hw
    have hu := List.mem_range.1 hu
    have hk := List.mem_range.1 hk
    simp only at e ⊢
    have hc : 0 < ncol := by omega
    have e1 : ((u : Int) + k * ncol) % ncol = u := by
      rw [Int.add_mul_emod_self_right, Int.emod_eq_of_lt (by omega) (by omega)]
    have e2 : (i + j * ncol) % ncol = i := by
      rw [Int.add_mul_emod_self_right, Int.emod_eq_of_lt (by omega) (by omega)]
    have e3 : (u : Int) = i := by rw [← e1, ← e2, e]
    have e4 : (k : Int) * ncol = j * ncol := by omega
    have e5 : (k : Int) = j := Int.eq_of_mul_eq_mul_right (by omega) e4
    rw [e3, e5]

theorem transItem_spec {E : Env} {a b p : Nat} {A B : GArr} (hB : Sound B) (hE : EnvG E B) {it : LItem}
    (hl : it.lo.length = 2) (hh : it.hi.length = 2) (hld : it.ld.length = 1)
    (hcell : ∀ x, InPatch it.lo it.hi x → cellG A x = ((p : Int), it.off + bufPos it.lo it.ld x))
    (hblk : PatchOK B.dims it.lo.reverse it.hi.reverse) :
    (∀ bs, transItem E a b B p it = some bs → bs.Perm ((box it.lo it.hi).map (trAct a A b B))) ∧
    (E.elemsize * prodI (edges it.lo.reverse it.hi.reverse) ≤ E.maxInt → ∃ bs, transItem E a b B p it = some bs) := by
  obtain ⟨lo, hi, q, off, ld⟩ := it
  simp only at hl hh hld hcell hblk ⊢
  obtain ⟨l1, l2, rfl⟩ := len2 hl
  obtain ⟨h1, h2, rfl⟩ := len2 hh
  obtain ⟨d, rfl⟩ := len1 hld
  simp only [transItem]
  have key : ∀ ts, B.xfers E [l2, l1] [h2, h1] [h2 - l2 + 1] = some ts → ∃ bs,
      mapOpt (fun t : Xfer => (bufAt (transLoops (h1 - l1 + 1) (h2 - l2 + 1) d) t.buf).map fun o =>
        (⟨(b, t.addr), [(a, ((p : Int), off + o))]⟩ : LAct)) ts = some bs ∧
      bs.Perm ((box [l1, l2] [h1, h2]).map (trAct a A b B)) := by
    intro ts hx
    obtain ⟨_, hm⟩ := gXfers_moves' hB hE (fun _ _ => hblk) (by simp) hx
    have hm' := List.Perm.trans hm ((box_swap2 l1 l2 h1 h2).map _)
    rw [List.map_map] at hm'
    refine mapOpt_perm (G := trAct a A b B) hm' ?_
    intro x hx
    have hx' := mem_box.1 hx
    obtain ⟨i, j, rfl, c⟩ := inPatch2.1 hx'
    have hc := hcell _ hx'
    simp only [Function.comp_apply, List.reverse_cons, List.reverse_nil, List.nil_append, List.cons_append, bufPos,
      trAct] at hc ⊢
    rw [show j - l2 + (h2 - l2 + 1) * (i - l1) = (j - l2) + (i - l1) * (h2 - l2 + 1) by rw [Int.mul_comm],
      transLoops_at (by omega) (by omega) (by omega) (by omega), hc]
    simp only [Option.map_some]
    rw [show off + ((j - l2) * d + (i - l1)) = off + (i - l1 + d * (j - l2)) by rw [Int.mul_comm d]; omega]
  constructor
  · intro bs h
    cases hx : B.xfers E [l2, l1] [h2, h1] [h2 - l2 + 1] with
    | none => rw [hx] at h; cases h
    | some ts =>
      rw [hx] at h
      obtain ⟨bs', e1, e2⟩ := key ts hx
      simp only [e1, Option.some.injEq] at h
      subst h
      exact e2
  · intro hf
    obtain ⟨ts, hx⟩ := gXfers_some hB hE [h2 - l2 + 1] hblk hf
    have hx' : B.xfers E [l2, l1] [h2, h1] [h2 - l2 + 1] = some ts := hx
    obtain ⟨bs', e1, e2⟩ := key ts hx'
    exact ⟨bs', by rw [hx']; exact e1⟩

/-! ## vectors -/

theorem box1 (x y : Int) : (box [x] [y]).Perm ((List.range (y - x + 1).toNat).map fun k : Nat => [x + k]) := by
  rw [List.perm_ext_iff_of_nodup (nodup_box _ _) (List.nodup_range.map fun a b h => by simpa using h)]
  intro z
  rw [mem_box, inPatch1, List.mem_map]
  constructor
  · rintro ⟨i, rfl, h⟩
    exact ⟨(i - x).toNat, List.mem_range.2 (by omega), by rw [Int.toNat_of_nonneg (by omega)]; congr 1; omega⟩
  · rintro ⟨k, hk, rfl⟩
    have := List.mem_range.1 hk
    exact ⟨_, rfl, by omega, by omega⟩

theorem vec_moves {E : Env} {Vc : GArr} (hV : Sound Vc) (hE : EnvG E Vc) {x y : Int} (hp : PatchOK Vc.dims [x] [y])
    {ts : List Xfer} (h : Vc.xfers E [x] [y] [] = some ts) :
    ts.Perm ((List.range (y - x + 1).toNat).map fun k : Nat => ⟨k, cellG Vc [x + k]⟩) := by
  obtain ⟨_, hm⟩ := gXfers_moves' hV hE (fun _ _ => hp) (by simp) h
  refine (List.Perm.trans hm ((box1 x y).map _)).trans (List.Perm.of_eq ?_)
  rw [List.map_map]
  apply List.map_congr_left
  intro k _
  simp only [Function.comp_apply, bufPos]
  congr 1
  omega

theorem vec_at {Vc : GArr} {x : Int} {n : Nat} {ts : List Xfer}
    (h : ts.Perm ((List.range n).map fun k : Nat => ⟨k, cellG Vc [x + k]⟩)) {k : Nat} (hk : k < n) :
    bufAt (ts.map fun t => (t.buf, t.addr)) k = some (cellG Vc [x + k]) := by
  apply bufAt_eq
  · exact List.mem_map.2 ⟨⟨k, cellG Vc [x + k]⟩, h.mem_iff.2 (List.mem_map.2 ⟨k, List.mem_range.2 hk, rfl⟩), rfl⟩
  · intro w hw e
    obtain ⟨t, ht, rfl⟩ := List.mem_map.1 hw
    obtain ⟨j, hj, rfl⟩ := List.mem_map.1 (h.mem_iff.1 ht)
    simp only at e ⊢
    rw [e]

/-! ## diagonals -/

/-- `x` is on the diagonal -/
def onDiag : List Int → Bool
  | [i, j] => decide (i = j)
  | _ => false

theorem diagRange_none {l1 l2 h1 h2 : Int} (hpos : ∀ x, InPatch [l1, l2] [h1, h2] x → ∀ i ∈ x, 1 ≤ i)
    (h : diagRange l1 l2 h1 h2 = none) : (box [l1, l2] [h1, h2]).filter onDiag = [] := by
  rw [List.filter_eq_nil_iff]
  intro x hx hd
  obtain ⟨i, j, rfl, c⟩ := inPatch2.1 (mem_box.1 hx)
  simp only [onDiag, decide_eq_true_eq] at hd
  subst hd
  have := hpos [l1, i] (inPatch2.2 ⟨l1, i, rfl, le_refl _, by omega, c.2.2.1, c.2.2.2⟩) l1 (by simp)
  unfold diagRange at h
  rw [if_pos (by omega), if_pos (by omega)] at h
  cases h

theorem diagRange_some {l1 l2 h1 h2 x y : Int} (h : diagRange l1 l2 h1 h2 = some (x, y)) :
    l1 ≤ x ∧ l2 ≤ x ∧ x ≤ y ∧ y ≤ h1 ∧ y ≤ h2 ∧
    ((box [l1, l2] [h1, h2]).filter onDiag).Perm ((List.range (y - x + 1).toNat).map fun k : Nat => [x + k, x + k]) := by
  unfold diagRange at h
  split at h
  · split at h
    · simp only [Option.some.injEq, Prod.mk.injEq] at h
      refine ⟨by omega, by omega, by omega, by omega, by omega, ?_⟩
      rw [List.perm_ext_iff_of_nodup ((nodup_box _ _).filter _) (List.nodup_range.map fun a b h => by simpa using h)]
      intro z
      rw [List.mem_filter, mem_box, inPatch2, List.mem_map]
      constructor
      · rintro ⟨⟨i, j, rfl, c⟩, hd⟩
        simp only [onDiag, decide_eq_true_eq] at hd
        subst hd
        refine ⟨(i - x).toNat, List.mem_range.2 (by omega), ?_⟩
        rw [Int.toNat_of_nonneg (by omega), show x + (i - x) = i by omega]
      · rintro ⟨k, hk, rfl⟩
        have := List.mem_range.1 hk
        exact ⟨⟨_, _, rfl, by omega, by omega, by omega, by omega⟩, by simp [onDiag]⟩
    · cases h
  · cases h

section
variable {E : Env} {a v p : Nat} {A Vc : GArr} {it : LItem}

/-- a step that copies a diagonal element to the vector -/
def getDiagAct (a : Nat) (A : GArr) (v : Nat) (Vc : GArr) (x : List Int) : LAct :=
  ⟨(v, cellG Vc (x.take 1)), [(a, cellG A x)]⟩

/-- a step that computes a diagonal element from the vector -/
def putDiagAct (self : Bool) (a : Nat) (A : GArr) (v : Nat) (Vc : GArr) (x : List Int) : LAct :=
  ⟨(a, cellG A x), (if self then [(a, cellG A x)] else []) ++ [(v, cellG Vc (x.take 1))]⟩

/-- a step that changes an element -/
def selfAct (a : Nat) (A : GArr) (x : List Int) : LAct := ⟨(a, cellG A x), [(a, cellG A x)]⟩

/-- what the local iterator says about a block -/
structure ItemOK (A : GArr) (p : Nat) (it : LItem) : Prop where
  lo : it.lo.length = 2
  hi : it.hi.length = 2
  ld : it.ld.length = 1
  cell : ∀ x, InPatch it.lo it.hi x → cellG A x = ((p : Int), it.off + bufPos it.lo it.ld x)
  inA : ∀ x, InPatch it.lo it.hi x → InArray A.dims x

theorem view_item {items : Nat → List LItem} (vw : View A items (cellG A)) (hd : A.dims.length = 2)
    (hp : p < A.nproc) (hit : it ∈ items p) : ItemOK A p it := by
  obtain ⟨_, s2, s3, s4⟩ := vw.shape p hp it hit
  refine ⟨by omega, by omega, by omega, vw.cell p hp it hit, ?_⟩
  intro x hx
  rw [← mem_ones_box, ← vw.cover.mem_iff]
  exact List.mem_flatMap.2 ⟨p, List.mem_range.2 hp, List.mem_flatMap.2 ⟨it, hit, mem_box.2 hx⟩⟩

theorem inArray_pos {dims x : List Int} (h : InArray dims x) : ∀ i ∈ x, 1 ≤ i := by
  unfold InArray at h
  induction dims generalizing x with
  | nil => cases x <;> simp_all [InPatch]
  | cons d ds ih =>
    cases x with
    | nil => simp
    | cons y x =>
      intro i hi
      rcases List.mem_cons.1 hi with rfl | hi
      · exact h.1.1
      · exact ih h.2 i hi

theorem inArray2 {d1 d2 : Int} {x : List Int} :
    InArray [d1, d2] x ↔ ∃ i j, x = [i, j] ∧ 1 ≤ i ∧ i ≤ d1 ∧ 1 ≤ j ∧ j ≤ d2 := inPatch2

theorem inArray1 {d1 : Int} {x : List Int} : InArray [d1] x ↔ ∃ i, x = [i] ∧ 1 ≤ i ∧ i ≤ d1 := inPatch1

theorem diag_patch {d1 d2 l1 l2 h1 h2 x y : Int} (hA : A.dims = [d1, d2]) (hV : Vc.dims = [min d1 d2])
    (hin : ∀ z, InPatch [l1, l2] [h1, h2] z → InArray A.dims z) (hx : l1 ≤ x ∧ l2 ≤ x ∧ x ≤ y ∧ y ≤ h1 ∧ y ≤ h2) :
    PatchOK Vc.dims [x] [y] := by
  have q1 := hin [x, x] (inPatch2.2 ⟨x, x, rfl, by omega, by omega, by omega, by omega⟩)
  have q2 := hin [y, y] (inPatch2.2 ⟨y, y, rfl, by omega, by omega, by omega, by omega⟩)
  rw [hA] at q1 q2
  obtain ⟨i, j, e, c⟩ := inArray2.1 q1
  obtain ⟨i', j', e', c'⟩ := inArray2.1 q2
  simp only [List.cons.injEq, and_true] at e e'
  rw [hV]
  exact ⟨inArray1.2 ⟨x, rfl, by omega, by omega⟩, inArray1.2 ⟨y, rfl, by omega, by omega⟩,
    inPatch1.2 ⟨x, rfl, by omega, by omega⟩⟩

theorem walk_cell {l1 l2 h1 h2 ld off x y : Int} {k : Nat}
    (hcell : ∀ z, InPatch [l1, l2] [h1, h2] z → cellG A z = ((p : Int), off + bufPos [l1, l2] [ld] z))
    (hx : l1 ≤ x ∧ l2 ≤ x ∧ x ≤ y ∧ y ≤ h1 ∧ y ≤ h2) (hk : k < (y - x + 1).toNat) :
    ((p : Int), off + (ld * (x - l2) + (x - l1) + k * (ld + 1))) = cellG A [x + k, x + k] := by
  rw [hcell _ (inPatch2.2 ⟨_, _, rfl, by omega, by omega, by omega, by omega⟩)]
  simp only [bufPos, Prod.mk.injEq, true_and]
  have : ld * (x + k - l2) = ld * (x - l2) + k * ld := by
    rw [show x + (k : Int) - l2 = (x - l2) + k by omega, Int.mul_add, Int.mul_comm ld k]
  rw [this, Int.mul_add]
  omega

theorem getDiagItem_spec {d1 d2 : Int} (hA : A.dims = [d1, d2]) (hVd : Vc.dims = [min d1 d2]) (hV : Sound Vc)
    (hE : EnvG E Vc) (hi : ItemOK A p it) :
    (∀ bs, getDiagItem E a v Vc p it = some bs →
      bs.Perm (((box it.lo it.hi).filter onDiag).map (getDiagAct a A v Vc))) ∧
    ((∀ x y, PatchOK Vc.dims [x] [y] → E.elemsize * prodI (edges [x] [y]) ≤ E.maxInt) →
      ∃ bs, getDiagItem E a v Vc p it = some bs) := by
  obtain ⟨q1, q2, q3, hcell, hin⟩ := hi
  obtain ⟨lo, hi, q, off, ld⟩ := it
  simp only at q1 q2 q3 hcell hin ⊢
  obtain ⟨l1, l2, rfl⟩ := len2 q1
  obtain ⟨h1, h2, rfl⟩ := len2 q2
  obtain ⟨d, rfl⟩ := len1 q3
  simp only [getDiagItem]
  cases hr : diagRange l1 l2 h1 h2 with
  | none =>
    refine ⟨fun bs h => ?_, fun _ => ⟨_, rfl⟩⟩
    simp only [Option.some.injEq] at h
    rw [← h, diagRange_none (fun x hx => inArray_pos (hin x hx)) hr]
    exact List.Perm.refl _
  | some r =>
    obtain ⟨x, y⟩ := r
    obtain ⟨a1, a2, a3, a4, a5, hperm⟩ := diagRange_some hr
    have hP := diag_patch hA hVd hin ⟨a1, a2, a3, a4, a5⟩
    simp only
    have key : ∀ ts, Vc.xfers E [x] [y] [] = some ts → ∃ bs,
        mapOpt (fun t : Xfer => (bufAt (diagWalk l1 l2 d x y) t.buf).map fun o =>
          (⟨(v, t.addr), [(a, ((p : Int), off + o))]⟩ : LAct)) ts = some bs ∧
        bs.Perm (((box [l1, l2] [h1, h2]).filter onDiag).map (getDiagAct a A v Vc)) := by
      intro ts hts
      obtain ⟨bs, e1, e2⟩ := mapOpt_perm (f := fun t : Xfer => (bufAt (diagWalk l1 l2 d x y) t.buf).map fun o =>
          (⟨(v, t.addr), [(a, ((p : Int), off + o))]⟩ : LAct)) (G := fun k : Nat => getDiagAct a A v Vc [x + k, x + k])
          (vec_moves hV hE hP hts) (by
        intro k hk
        have hk := List.mem_range.1 hk
        simp only
        rw [bufAt_eq (x := d * (x - l2) + (x - l1) + k * (d + 1))]
        · simp only [Option.map_some, getDiagAct, List.take_succ_cons, List.take_zero, Option.some.injEq, LAct.mk.injEq,
            List.cons.injEq, and_true, true_and, Prod.mk.injEq]
          exact walk_cell hcell ⟨a1, a2, a3, a4, a5⟩ hk
        · exact List.mem_map.2 ⟨k, List.mem_range.2 hk, rfl⟩
        · intro w hw e
          obtain ⟨j, _, rfl⟩ := List.mem_map.1 hw
          simp only at e ⊢
          rw [e])
      refine ⟨bs, e1, e2.trans ?_⟩
      have := hperm.symm.map (getDiagAct a A v Vc)
      rw [List.map_map] at this
      exact this
    constructor
    · intro bs h
      cases hx : Vc.xfers E [x] [y] [] with
      | none => rw [hx] at h; cases h
      | some ts =>
        rw [hx] at h
        obtain ⟨bs', e1, e2⟩ := key ts hx
        simp only [e1, Option.some.injEq] at h
        subst h
        exact e2
    · intro hf
      obtain ⟨ts, hx⟩ := gXfers_some hV hE [] hP (hf x y hP)
      obtain ⟨bs', e1, e2⟩ := key ts hx
      exact ⟨bs', by rw [hx]; exact e1⟩

theorem putDiagItem_spec (self : Bool) {d1 d2 : Int} (hA : A.dims = [d1, d2]) (hVd : Vc.dims = [min d1 d2]) (hV : Sound Vc)
    (hE : EnvG E Vc) (hi : ItemOK A p it) :
    (∀ bs, putDiagItem self E a v Vc p it = some bs →
      bs.Perm (((box it.lo it.hi).filter onDiag).map (putDiagAct self a A v Vc))) ∧
    ((∀ x y, PatchOK Vc.dims [x] [y] → E.elemsize * prodI (edges [x] [y]) ≤ E.maxInt) →
      ∃ bs, putDiagItem self E a v Vc p it = some bs) := by
  obtain ⟨q1, q2, q3, hcell, hin⟩ := hi
  obtain ⟨lo, hi, q, off, ld⟩ := it
  simp only at q1 q2 q3 hcell hin ⊢
  obtain ⟨l1, l2, rfl⟩ := len2 q1
  obtain ⟨h1, h2, rfl⟩ := len2 q2
  obtain ⟨d, rfl⟩ := len1 q3
  simp only [putDiagItem]
  cases hr : diagRange l1 l2 h1 h2 with
  | none =>
    refine ⟨fun bs h => ?_, fun _ => ⟨_, rfl⟩⟩
    simp only [Option.some.injEq] at h
    rw [← h, diagRange_none (fun x hx => inArray_pos (hin x hx)) hr]
    exact List.Perm.refl _
  | some r =>
    obtain ⟨x, y⟩ := r
    obtain ⟨a1, a2, a3, a4, a5, hperm⟩ := diagRange_some hr
    have hP := diag_patch hA hVd hin ⟨a1, a2, a3, a4, a5⟩
    simp only
    have key : ∀ ts, Vc.xfers E [x] [y] [] = some ts → ∃ bs,
        mapOpt (fun w : Int × Int => (bufAt (ts.map fun t => (t.buf, t.addr)) w.1).map fun ad =>
          (⟨(a, ((p : Int), off + w.2)), (if self then [(a, ((p : Int), off + w.2))] else []) ++ [(v, ad)]⟩ : LAct))
          (diagWalk l1 l2 d x y) = some bs ∧
        bs.Perm (((box [l1, l2] [h1, h2]).filter onDiag).map (putDiagAct self a A v Vc)) := by
      intro ts hts
      obtain ⟨bs, e1, e2⟩ := mapOpt_perm (f := fun w : Int × Int => (bufAt (ts.map fun t => (t.buf, t.addr)) w.1).map fun ad =>
          (⟨(a, ((p : Int), off + w.2)), (if self then [(a, ((p : Int), off + w.2))] else []) ++ [(v, ad)]⟩ : LAct))
          (ts := diagWalk l1 l2 d x y) (xs := List.range (y - x + 1).toNat)
          (T := fun k : Nat => ((k : Int), d * (x - l2) + (x - l1) + k * (d + 1)))
          (G := fun k : Nat => putDiagAct self a A v Vc [x + k, x + k]) (List.Perm.refl _) (by
        intro k hk
        have hk := List.mem_range.1 hk
        simp only
        rw [vec_at (vec_moves hV hE hP hts) hk]
        simp only [Option.map_some, putDiagAct, List.take_succ_cons, List.take_zero, Option.some.injEq]
        rw [walk_cell hcell ⟨a1, a2, a3, a4, a5⟩ hk])
      refine ⟨bs, e1, e2.trans ?_⟩
      have := hperm.symm.map (putDiagAct self a A v Vc)
      rw [List.map_map] at this
      exact this
    constructor
    · intro bs h
      cases hx : Vc.xfers E [x] [y] [] with
      | none => rw [hx] at h; cases h
      | some ts =>
        rw [hx] at h
        obtain ⟨bs', e1, e2⟩ := key ts hx
        simp only [e1, Option.some.injEq] at h
        subst h
        exact e2
    · intro hf
      obtain ⟨ts, hx⟩ := gXfers_some hV hE [] hP (hf x y hP)
      obtain ⟨bs', e1, e2⟩ := key ts hx
      exact ⟨bs', by rw [hx]; exact e1⟩

theorem shiftDiagItem_spec (hi : ItemOK A p it) :
    ∃ bs, shiftDiagItem a p it = some bs ∧ bs.Perm (((box it.lo it.hi).filter onDiag).map (selfAct a A)) := by
  obtain ⟨q1, q2, q3, hcell, hin⟩ := hi
  obtain ⟨lo, hi, q, off, ld⟩ := it
  simp only at q1 q2 q3 hcell hin ⊢
  obtain ⟨l1, l2, rfl⟩ := len2 q1
  obtain ⟨h1, h2, rfl⟩ := len2 q2
  obtain ⟨d, rfl⟩ := len1 q3
  simp only [shiftDiagItem]
  cases hr : diagRange l1 l2 h1 h2 with
  | none =>
    refine ⟨_, rfl, ?_⟩
    rw [diagRange_none (fun x hx => inArray_pos (hin x hx)) hr]
    exact List.Perm.refl _
  | some r =>
    obtain ⟨x, y⟩ := r
    obtain ⟨a1, a2, a3, a4, a5, hperm⟩ := diagRange_some hr
    refine ⟨_, rfl, List.Perm.trans (List.Perm.of_eq ?_) (hperm.symm.map (selfAct a A))⟩
    rw [diagWalk, List.map_map, List.map_map]
    apply List.map_congr_left
    intro k hk
    have hk := List.mem_range.1 hk
    simp only [Function.comp_apply, selfAct]
    rw [walk_cell hcell ⟨a1, a2, a3, a4, a5⟩ hk]

/-- `GA_Zero_diagonal` is right for a block that starts on the diagonal. -/
theorem zeroDiagItem_spec (hi : ItemOK A p it) (hsq : (∃ i, InPatch it.lo it.hi [i, i]) → ∃ k, it.lo = [k, k]) :
    ∃ bs, zeroDiagItem a p it = some bs ∧
      bs.Perm (((box it.lo it.hi).filter onDiag).map fun x => ⟨(a, cellG A x), []⟩) := by
  obtain ⟨q1, q2, q3, hcell, hin⟩ := hi
  obtain ⟨lo, hi, q, off, ld⟩ := it
  simp only at q1 q2 q3 hcell hin hsq ⊢
  obtain ⟨l1, l2, rfl⟩ := len2 q1
  obtain ⟨h1, h2, rfl⟩ := len2 q2
  obtain ⟨d, rfl⟩ := len1 q3
  simp only [zeroDiagItem]
  cases hr : diagRange l1 l2 h1 h2 with
  | none =>
    refine ⟨_, rfl, ?_⟩
    rw [diagRange_none (fun x hx => inArray_pos (hin x hx)) hr]
    exact List.Perm.refl _
  | some r =>
    obtain ⟨x, y⟩ := r
    obtain ⟨a1, a2, a3, a4, a5, hperm⟩ := diagRange_some hr
    obtain ⟨k0, hk0⟩ := hsq ⟨x, inPatch2.2 ⟨x, x, rfl, by omega, by omega, by omega, by omega⟩⟩
    simp only [List.cons.injEq, and_true] at hk0
    have hxl : x = l1 := by
      unfold diagRange at hr
      split at hr
      · split at hr
        · simp only [Option.some.injEq, Prod.mk.injEq] at hr; omega
        · cases hr
      · cases hr
    refine ⟨_, rfl, List.Perm.trans (List.Perm.of_eq ?_) (hperm.symm.map fun x => (⟨(a, cellG A x), []⟩ : LAct))⟩
    rw [List.map_map]
    apply List.map_congr_left
    intro k hk
    have hk := List.mem_range.1 hk
    simp only [Function.comp_apply]
    rw [← walk_cell hcell ⟨a1, a2, a3, a4, a5⟩ hk]
    simp only [LAct.mk.injEq, and_true, Prod.mk.injEq, true_and]
    rw [show x - l2 = 0 by omega, show x - l1 = 0 by omega]
    simp

/-! ## rows and columns -/

/-- a step that multiplies an element by an element of the vector -/
def rcAct (row : Bool) (a : Nat) (A : GArr) (v : Nat) (Vc : GArr) (x : List Int) : LAct :=
  ⟨(a, cellG A x), [(a, cellG A x), (v, cellG Vc (if row then x.take 1 else x.drop 1))]⟩

theorem rowColWalk_perm (row : Bool) (l1 l2 h1 h2 ld : Int) :
    (rowColWalk row l1 l2 h1 h2 ld).Perm ((box [l1, l2] [h1, h2]).map fun x =>
      (bufPos [if row then l1 else l2] [] (if row then x.take 1 else x.drop 1), bufPos [l1, l2] [ld] x)) := by
  have gen : ∀ (n1 n2 : Nat) (f : Nat → Nat → List Int), (∀ u w u' w', f u w = f u' w' → u = u' ∧ w = w') →
      ((List.range n1).flatMap fun u => (List.range n2).map (f u)).Nodup := by
    intro n1 n2 f hf
    rw [List.nodup_flatMap]
    refine ⟨fun u _ => List.nodup_range.map fun a b h => (hf _ _ _ _ h).2, ?_⟩
    refine List.Pairwise.imp ?_ List.nodup_range
    intro u u' hne
    rw [Function.onFun, List.disjoint_left]
    intro z hz hz'
    obtain ⟨w, _, rfl⟩ := List.mem_map.1 hz
    obtain ⟨w', _, e⟩ := List.mem_map.1 hz'
    exact hne (hf _ _ _ _ e).1.symm
  cases row with
  | true =>
    have hp : ((List.range (h1 - l1 + 1).toNat).flatMap fun i : Nat => (List.range (h2 - l2 + 1).toNat).map fun j : Nat =>
        [l1 + (i : Int), l2 + (j : Int)]).Perm (box [l1, l2] [h1, h2]) := by
      rw [List.perm_ext_iff_of_nodup (gen _ _ _ (by intro u w u' w' h; simpa using h)) (nodup_box _ _)]
      intro z
      rw [mem_box, inPatch2, List.mem_flatMap]
      constructor
      · rintro ⟨i, hi, hz⟩
        obtain ⟨j, hj, rfl⟩ := List.mem_map.1 hz
        have := List.mem_range.1 hi
        have := List.mem_range.1 hj
        exact ⟨_, _, rfl, by omega, by omega, by omega, by omega⟩
      · rintro ⟨i, j, rfl, c⟩
        refine ⟨(i - l1).toNat, List.mem_range.2 (by omega), List.mem_map.2 ⟨(j - l2).toNat, List.mem_range.2 (by omega), ?_⟩⟩
        rw [Int.toNat_of_nonneg (by omega), Int.toNat_of_nonneg (by omega)]
        simp only [List.cons.injEq, and_true]; omega
    refine List.Perm.trans (List.Perm.of_eq ?_) (hp.map _)
    simp only [rowColWalk, if_true]
    rw [List.map_flatMap]
    congr 1
    funext i
    rw [List.map_map]
    apply List.map_congr_left
    intro j _
    simp only [Function.comp_apply, List.take_succ_cons, List.take_zero, bufPos, Prod.mk.injEq]
    exact ⟨by omega, by rw [show l2 + (j : Int) - l2 = j by omega, Int.mul_comm ld]; omega⟩
  | false =>
    have hp : ((List.range (h2 - l2 + 1).toNat).flatMap fun j : Nat => (List.range (h1 - l1 + 1).toNat).map fun i : Nat =>
        [l1 + (i : Int), l2 + (j : Int)]).Perm (box [l1, l2] [h1, h2]) := by
      rw [List.perm_ext_iff_of_nodup (gen _ _ _ (by intro u w u' w' h; simp at h; omega)) (nodup_box _ _)]
      intro z
      rw [mem_box, inPatch2, List.mem_flatMap]
      constructor
      · rintro ⟨j, hj, hz⟩
        obtain ⟨i, hi, rfl⟩ := List.mem_map.1 hz
        have := List.mem_range.1 hi
        have := List.mem_range.1 hj
        exact ⟨_, _, rfl, by omega, by omega, by omega, by omega⟩
      · rintro ⟨i, j, rfl, c⟩
        refine ⟨(j - l2).toNat, List.mem_range.2 (by omega), List.mem_map.2 ⟨(i - l1).toNat, List.mem_range.2 (by omega), ?_⟩⟩
        rw [Int.toNat_of_nonneg (by omega), Int.toNat_of_nonneg (by omega)]
        simp only [List.cons.injEq, and_true]; omega
    refine List.Perm.trans (List.Perm.of_eq ?_) (hp.map _)
    simp only [rowColWalk, Bool.false_eq_true, if_false]
    rw [List.map_flatMap]
    congr 1
    funext j
    rw [List.map_map]
    apply List.map_congr_left
    intro i _
    simp only [Function.comp_apply, List.drop_succ_cons, List.drop_zero, bufPos, Prod.mk.injEq]
    exact ⟨by omega, by rw [show l2 + (j : Int) - l2 = j by omega, Int.mul_comm ld]; omega⟩

theorem scaleRCItem_spec (row : Bool) {d1 d2 : Int} (hA : A.dims = [d1, d2])
    (hVd : Vc.dims = [if row then d1 else d2]) (hV : Sound Vc)
    (hE : EnvG E Vc) (hi : ItemOK A p it) (hne : InPatch it.lo it.hi it.lo) :
    (∀ bs, scaleRCItem row E a v Vc p it = some bs → bs.Perm ((box it.lo it.hi).map (rcAct row a A v Vc))) ∧
    ((∀ x y, PatchOK Vc.dims [x] [y] → E.elemsize * prodI (edges [x] [y]) ≤ E.maxInt) →
      ∃ bs, scaleRCItem row E a v Vc p it = some bs) := by
  obtain ⟨q1, q2, q3, hcell, hin⟩ := hi
  obtain ⟨lo, hi, q, off, ld⟩ := it
  simp only at q1 q2 q3 hcell hin hne ⊢
  obtain ⟨l1, l2, rfl⟩ := len2 q1
  obtain ⟨h1, h2, rfl⟩ := len2 q2
  obtain ⟨d, rfl⟩ := len1 q3
  obtain ⟨i0, j0, e0, n1, n2, n3, n4⟩ := inPatch2.1 hne
  simp only [List.cons.injEq, and_true] at e0
  have b1 := hin _ hne
  have b2 := hin _ (inPatch_upper hne)
  rw [hA] at b1 b2
  obtain ⟨_, _, e1, c1⟩ := inArray2.1 b1
  obtain ⟨_, _, e2, c2⟩ := inArray2.1 b2
  simp only [List.cons.injEq, and_true] at e1 e2
  have hP : PatchOK Vc.dims [if row then l1 else l2] [if row then h1 else h2] := by
    rw [hVd]
    cases row with
    | true =>
      simp only [if_true]
      exact ⟨inArray1.2 ⟨_, rfl, by omega, by omega⟩, inArray1.2 ⟨_, rfl, by omega, by omega⟩, inPatch1.2 ⟨_, rfl, by omega, by omega⟩⟩
    | false =>
      simp only [Bool.false_eq_true, if_false]
      exact ⟨inArray1.2 ⟨_, rfl, by omega, by omega⟩, inArray1.2 ⟨_, rfl, by omega, by omega⟩, inPatch1.2 ⟨_, rfl, by omega, by omega⟩⟩
  have g1 : (if row then l1 else l2) > 0 := by cases row <;> simp <;> omega
  simp only [scaleRCItem, if_pos g1, if_pos (show h1 ≥ l1 by omega)]
  have key : ∀ ts, Vc.xfers E [if row then l1 else l2] [if row then h1 else h2] [] = some ts → ∃ bs,
      mapOpt (fun w : Int × Int => (bufAt (ts.map fun t => (t.buf, t.addr)) w.1).map fun ad =>
        (⟨(a, ((p : Int), off + w.2)), [(a, ((p : Int), off + w.2)), (v, ad)]⟩ : LAct))
        (rowColWalk row l1 l2 h1 h2 d) = some bs ∧
      bs.Perm ((box [l1, l2] [h1, h2]).map (rcAct row a A v Vc)) := by
    intro ts hts
    refine mapOpt_perm (G := rcAct row a A v Vc) (rowColWalk_perm row l1 l2 h1 h2 d) ?_
    intro x hx
    have hx' := mem_box.1 hx
    obtain ⟨i, j, rfl, c⟩ := inPatch2.1 hx'
    have hc := hcell _ hx'
    cases row with
    | true =>
      simp only [if_true, List.take_succ_cons, List.take_zero, bufPos] at hts hc hP ⊢
      have := vec_at (k := (i - l1).toNat) (vec_moves hV hE hP hts) (by omega)
      rw [Int.toNat_of_nonneg (by omega), show l1 + (i - l1) = i by omega] at this
      rw [this]
      simp only [Option.map_some, rcAct, if_true, List.take_succ_cons, List.take_zero, hc]
    | false =>
      simp only [Bool.false_eq_true, if_false, List.drop_succ_cons, List.drop_zero, bufPos] at hts hc hP ⊢
      have := vec_at (k := (j - l2).toNat) (vec_moves hV hE hP hts) (by omega)
      rw [Int.toNat_of_nonneg (by omega), show l2 + (j - l2) = j by omega] at this
      rw [this]
      simp only [Option.map_some, rcAct, Bool.false_eq_true, if_false, List.drop_succ_cons, List.drop_zero, hc]
  constructor
  · intro bs h
    cases hx : Vc.xfers E [if row then l1 else l2] [if row then h1 else h2] [] with
    | none => rw [hx] at h; cases h
    | some ts =>
      rw [hx] at h
      obtain ⟨bs', e1, e2⟩ := key ts hx
      simp only [e1, Option.some.injEq] at h
      subst h
      exact e2
  · intro hf
    obtain ⟨ts, hx⟩ := gXfers_some hV hE [] hP (hf _ _ hP)
    obtain ⟨bs', e1, e2⟩ := key ts hx
    exact ⟨bs', by rw [hx]; exact e1⟩

end

end GA
