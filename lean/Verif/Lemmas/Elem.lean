import Verif.Model.Elem
import Verif.Spec.Elem
import Verif.Props.AddDot
import Mathlib.Tactic.Ring
import Mathlib.Tactic.FieldSimp
import Mathlib.Tactic.Positivity
import Mathlib.Tactic.Linarith

/-!
# Lemmas for the elementwise operations, the median and the norms
-/

namespace GA
open Spec Model

/-! ## steps that can fail -/

section
variable {V : Type}

/-- the value, if there is one -/
def total [Inhabited V] (g : List V → Option V) : List V → V := fun l => (g l).getD default

theorem runActsO_total [Inhabited V] (g : List V → Option V) {acts : List LAct} (h : Indep acts) (m m' : Loc → V) :
    runActsO g acts m = some m' ↔
      (∀ a ∈ acts, (g (a.srcs.map m)).isSome) ∧ m' = runActs (total g) acts m := by
  induction acts generalizing m with
  | nil =>
    simp only [runActsO, Option.some.injEq, List.not_mem_nil, false_implies, implies_true, true_and]
    exact eq_comm
  | cons b acts ih =>
    have h1 : (b.dst :: acts.map LAct.dst).Nodup := h.1
    have hi : Indep acts := ⟨(List.nodup_cons.1 h1).2, fun a ha a' ha' =>
      h.2 a (by simp [ha]) a' (by simp [ha'])⟩
    have hb : ∀ a ∈ acts, a.dst ≠ b.dst := by
      intro a ha e
      exact (List.nodup_cons.1 h1).1 (List.mem_map.2 ⟨a, ha, e⟩)
    have keep : ∀ v, ∀ a ∈ acts, a.srcs.map (upd m b.dst v) = a.srcs.map m := by
      intro v a ha
      apply List.map_congr_left
      intro l hl
      unfold upd
      rw [if_neg]
      rintro rfl
      have := h.2 b (by simp) a (by simp [ha]) hl
      subst this
      exact hb _ ha rfl
    unfold runActsO
    cases hg : g (b.srcs.map m) with
    | none =>
      simp only [reduceCtorEq, List.mem_cons, forall_eq_or_imp, hg, Option.isSome_none, Bool.false_eq_true, false_and]
    | some v =>
      simp only [ih hi, List.mem_cons, forall_eq_or_imp, hg, Option.isSome_some, true_and]
      have e : runActs (total g) (b :: acts) m = runActs (total g) acts (upd m b.dst v) := by
        show runActs (total g) acts (upd m b.dst (total g (b.srcs.map m))) = _
        simp only [total, hg, Option.getD_some]
      rw [e]
      constructor
      · rintro ⟨q1, q2⟩
        exact ⟨fun a ha => by rw [← keep v a ha]; exact q1 a ha, q2⟩
      · rintro ⟨q1, q2⟩
        exact ⟨fun a ha => by rw [keep v a ha]; exact q1 a ha, q2⟩

/-- effect of steps that may fail, over any set of elements -/
theorem comb_effectO [Inhabited V] {c : Nat} {C : GArr} (hC : Sound C) {xs : List (List Int)} (hx : xs.Nodup)
    (hxs : ∀ z ∈ xs, InArray C.dims z)
    (F : List Int → LAct) (hd : ∀ z, (F z).dst = (c, cellG C z))
    (hs : ∀ z ∈ xs, ∀ z' ∈ xs, (c, cellG C z') ∈ (F z).srcs → z' = z)
    {n : Nat} {acts : Nat → Option (List LAct)}
    (hl : ∃ l, mapOpt acts (List.range n) = some l ∧ l.flatten.Perm (xs.map F))
    (g : List V → Option V) (m : Loc → V) :
    ((∀ z ∈ xs, (g ((F z).srcs.map m)).isSome) → ∃ m', ParO n acts g m m') ∧
    ∀ m', ParO n acts g m m' →
      (∀ z ∈ xs, some (m' (c, cellG C z)) = g ((F z).srcs.map m)) ∧
      ∀ l, (∀ z ∈ xs, (c, cellG C z) ≠ l) → m' l = m l := by
  obtain ⟨l, h1, h2⟩ := hl
  have hind : Indep (xs.map F) := by
    constructor
    · rw [List.map_map]
      refine List.Nodup.map_on ?_ hx
      intro x hx y hy e
      simp only [Function.comp_apply, hd, Prod.mk.injEq, true_and] at e
      exact cellG_inj hC (hxs _ hx) (hxs _ hy) e
    · intro u hu w hw e
      obtain ⟨x, hx, rfl⟩ := List.mem_map.1 hu
      obtain ⟨y, hy, rfl⟩ := List.mem_map.1 hw
      rw [hd] at e
      rw [hs y hy x hx e]
  constructor
  · intro hz
    refine ⟨_, l, xs.map F, h1, h2.symm, (runActsO_total g hind m _).2 ⟨?_, rfl⟩⟩
    intro a ha
    obtain ⟨x, hx, rfl⟩ := List.mem_map.1 ha
    exact hz x hx
  · rintro m' ⟨l', sched, e1, e2, e3⟩
    rw [h1, Option.some.injEq] at e1
    subst e1
    have hp := e2.trans h2
    have hi := hind.perm hp
    obtain ⟨q1, rfl⟩ := (runActsO_total g hi m m').1 e3
    obtain ⟨r1, r2⟩ := runActs_spec (total g) hi m
    constructor
    · intro z hz
      have hm := hp.mem_iff.2 (List.mem_map.2 ⟨z, hz, rfl⟩)
      have := r1 (F z) hm
      rw [hd] at this
      rw [this]
      obtain ⟨v, hv⟩ := Option.isSome_iff_exists.1 (q1 _ hm)
      simp only [total, hv, Option.getD_some]
    · intro l hl
      apply r2
      intro u hu
      obtain ⟨x, hx, rfl⟩ := List.mem_map.1 (hp.mem_iff.1 hu)
      rw [hd]
      exact hl x hx

end

/-- the steps of `gai_oper_elem`, for any bounds -/
theorem scaleActs_any {c : Nat} {C : GArr} (hC : Sound C) (pC : PtrOK C) {lo hi : List Int}
    (h1 : lo.length = C.dims.length) (h2 : hi.length = C.dims.length) :
    ∃ l, mapOpt (scaleActs c C lo hi) (List.range C.nproc) = some l ∧
      l.flatten.Perm (((box (onesL C.dims) C.dims).filter fun x => decide (InPatch lo hi x)).map (scale1 c C)) := by
  obtain ⟨items, v⟩ := view_of hC pC
  obtain ⟨L, hL, hP⟩ := patchCells_perm v h1 h2
  unfold allCells at hL
  obtain ⟨ls, hls, rfl⟩ := Option.map_eq_some_iff.1 hL
  have hmap : ∀ (ps : List Nat) (ls : List (List Addr)), mapOpt (patchCells C lo hi) ps = some ls →
      mapOpt (scaleActs c C lo hi) ps = some (ls.map fun l => l.map fun x => ⟨(c, x), [(c, x)]⟩) := by
    intro ps
    induction ps with
    | nil => intro ls h; simp only [mapOpt, Option.some.injEq] at h; subst h; rfl
    | cons p ps ih =>
      intro ls h
      unfold mapOpt at h
      split at h
      · rename_i b bs h1 h2
        simp only [Option.some.injEq] at h
        subst h
        unfold mapOpt
        rw [ih _ h2]
        simp only [scaleActs, h1, Option.map_some, List.map_cons]
      · cases h
  refine ⟨_, hmap _ _ hls, ?_⟩
  rw [← List.map_flatten]
  refine (hP.map _).trans ?_
  rw [List.map_map]
  exact List.Perm.refl _

/-! ## median -/

/-- the step that computes an element from three arrays with the same layout -/
def comb3 (a b c r : Nat) (M : GArr) (z : List Int) : LAct :=
  ⟨(r, cellG M z), [(a, cellG M z), (b, cellG M z), (c, cellG M z)]⟩

theorem medLocal_acts {n : Nat} {a b c r : Nat} {M : RegArray} (hM : Sound (.reg M n)) {lo hi : List Int}
    (pM : PatchOK M.dims lo hi) :
    ∃ l, mapOpt (medLocal a M b M c M r M lo hi) (List.range n) = some l ∧
      l.flatten.Perm ((box lo hi).map (comb3 a b c r (.reg M n))) := by
  have key : ∀ p, p < n → medLocal a M b M c M r M lo hi p =
      some ((match patchIntersect lo hi (owns M p).1 (owns M p).2 with
        | none => []
        | some r => box r.1 r.2).map (comb3 a b c r (.reg M n))) := by
    intro p hp
    unfold medLocal
    cases hpi : patchIntersect lo hi (owns M p).1 (owns M p).2 with
    | none => rfl
    | some r =>
      obtain ⟨los, his⟩ := r
      obtain ⟨k1, k2, k3, k4⟩ := reg_part hM pM hp hpi
      simp only [accessOff_some hM hM pM rfl hp rfl hpi, Option.some.injEq]
      unfold combActs
      rw [patchOffs_eq k1 k2, List.map_map]
      apply List.map_congr_left
      intro x hx
      have hx := mem_box.1 hx
      simp only [Function.comp_apply, comb3, cellG, k4 x hx, List.map_cons, List.map_nil]
  obtain ⟨l, hl⟩ := mapOpt_some (f := medLocal a M b M c M r M lo hi) (as := List.range n)
    (fun p hp => ⟨_, key p (List.mem_range.1 hp)⟩)
  refine ⟨l, hl, (flatten_perm _ hl ?_).trans ((reg_cover hM pM).map _)⟩
  intro p hp bs hbs
  rw [key p (List.mem_range.1 hp), Option.some.injEq] at hbs
  rw [← hbs]
  exact List.Perm.refl _

theorem box_empty {lo hi : List Int} (h : ¬ InPatch lo hi lo) (hl : hi.length = lo.length) : box lo hi = [] := by
  rw [List.eq_nil_iff_forall_not_mem]
  intro x hx
  replace hx := mem_box.1 hx
  apply h
  clear h
  induction lo generalizing hi x with
  | nil =>
    obtain rfl := List.length_eq_zero_iff.1 hl
    trivial
  | cons l lo ih =>
    cases hi with
    | nil => simp at hl
    | cons k hi =>
      cases x with
      | nil => simp [InPatch] at hx
      | cons y ys => exact ⟨⟨le_refl _, by have := hx.1; omega⟩, ih (by simpa using hl) ys hx.2⟩

theorem prodI_edges_zero {lo hi : List Int} (h : EdgeNN lo hi) (he : ¬ InPatch lo hi lo) : prodI (edges lo hi) = 0 := by
  induction lo generalizing hi with
  | nil => cases hi <;> simp_all [EdgeNN, InPatch]
  | cons l lo ih =>
    cases hi with
    | nil => simp [EdgeNN] at h
    | cons u hi =>
      simp only [edges, prodI]
      by_cases h0 : u - l + 1 = 0
      · rw [h0, zero_mul]
      · rw [ih h.2, mul_zero]
        intro hp
        have := h.1
        exact he ⟨⟨le_refl _, by omega⟩, hp⟩

/-- offsets of a block that may be empty -/
theorem patchOffs_nn {lo hi ld : List Int} (h : EdgeNN lo hi) (hld : ld.length + 1 = lo.length) :
    patchOffs lo hi ld = (box lo hi).map (bufPos lo ld) := by
  by_cases he : InPatch lo hi lo
  · exact patchOffs_eq he hld
  · rw [box_empty he h.length, List.map_nil]
    cases lo with
    | nil => simp at hld
    | cons l lo =>
      cases hi with
      | nil => simp [EdgeNN] at h
      | cons u hi =>
        simp only [patchOffs, extents]
        by_cases h0 : u - l + 1 = 0
        · simp [h0]
        · have : ¬ InPatch lo hi lo := by
            intro hp
            have := h.1
            exact he ⟨⟨le_refl _, by omega⟩, hp⟩
          rw [extents_eq, prodI_edges_zero h.2 this]
          rfl

/-- the view with the offsets of its blocks -/
theorem view_off {G : GArr} (hG : Sound G) (hp : PtrOK G) :
    ∃ items, View G items (cellG G) ∧ ∀ p, p < G.nproc → ∀ it ∈ items p,
      patchOffs it.lo it.hi it.ld = (box it.lo it.hi).map (bufPos it.lo it.ld) := by
  cases G with
  | reg A n =>
    refine ⟨_, reg_view hG.1 hG.2, ?_⟩
    intro p hp it hit
    have hs := (reg_view hG.1 hG.2).shape p hp it hit
    rcases regItems hG.1 p with ⟨h, _⟩ | ⟨h1, h2, h3⟩
    · rw [h] at hit; cases hit
    · rw [h3, List.mem_singleton] at hit
      subst hit
      exact patchOffs_eq h2 (by omega)
  | blk A =>
    refine ⟨_, blk_view hG.1.ok hG.2 hp, ?_⟩
    intro p hp' it hit
    have hs := (blk_view hG.1.ok hG.2 hp).shape p hp' it hit
    obtain ⟨k, hk', rfl⟩ := List.mem_map.1 hit
    obtain ⟨v1, v2, v3⟩ := vis_ok hG.1.ok hp' (List.mem_range.1 hk')
    obtain ⟨off, ld, e, h2, h3⟩ := itemC_spec hG.1.ok hp v1 v2
    obtain ⟨c1, c2, c3⟩ := cLo_edge hG.1.ok v1
    simp only [e] at hs ⊢
    exact patchOffs_nn c1 (by omega)

theorem medItems_acts {a b c r : Nat} {M : GArr} (hM : Sound M) (pM : PtrOK M) :
    ∃ l, mapOpt (medItems a b c r M) (List.range M.nproc) = some l ∧
      l.flatten.Perm ((box (onesL M.dims) M.dims).map (comb3 a b c r M)) := by
  obtain ⟨items, v, ho⟩ := view_off hM pM
  have key : ∀ p, p < M.nproc → medItems a b c r M p =
      some (((items p).flatMap fun it => box it.lo it.hi).map (comb3 a b c r M)) := by
    intro p hp
    unfold medItems
    rw [v.iter p hp, Option.map_some, List.map_flatMap, Option.some.injEq]
    apply List.flatMap_congr
    intro it hit
    unfold combActs
    rw [ho p hp it hit, List.map_map]
    apply List.map_congr_left
    intro x hx
    simp only [Function.comp_apply, comb3, v.cell p hp it hit x (mem_box.1 hx), List.map_cons, List.map_nil]
  obtain ⟨l, hl⟩ := mapOpt_some (f := medItems a b c r M) (as := List.range M.nproc)
    (fun p hp => ⟨_, key p (List.mem_range.1 hp)⟩)
  refine ⟨l, hl, (flatten_perm (h := fun p => (items p).flatMap fun it => box it.lo it.hi) _ hl ?_).trans (v.cover.map _)⟩
  intro p hp bs hbs
  rw [key p (List.mem_range.1 hp), Option.some.injEq] at hbs
  rw [← hbs]

/-! ## one element -/

section
variable {K : Type}

theorem gaMax_eq [LinearOrder K] (a b : K) : gaMax a b = max a b := by
  unfold gaMax
  split
  · rw [max_eq_left ‹_›]
  · rw [max_eq_right (le_of_not_ge ‹_›)]

theorem gaMin_eq [LinearOrder K] (a b : K) : gaMin a b = min a b := by
  unfold gaMin
  split
  · rw [min_eq_left ‹_›]
  · rw [min_eq_right (le_of_not_ge ‹_›)]

theorem gaAbs_eq [Ring K] [LinearOrder K] [IsStrictOrderedRing K] (a : K) : gaAbs a = |a| := by
  unfold gaAbs
  split
  · rw [abs_of_nonneg ‹_›]
  · rw [abs_of_neg (lt_of_not_ge ‹_›)]

end

/-! ## norms -/

section
variable {V K : Type}

theorem foldl_sum [AddCommMonoid K] (size : V → K) (l : List V) (s : K) :
    l.foldl (fun s v => s + size v) s = s + (l.map size).sum := by
  induction l generalizing s with
  | nil => simp
  | cons v l ih => rw [List.foldl_cons, ih, List.map_cons, List.sum_cons, add_assoc]

theorem foldl_max [LinearOrder K] (l : List K) (s : K) :
    (∀ x ∈ l, x ≤ l.foldl max s) ∧ s ≤ l.foldl max s ∧ (l.foldl max s = s ∨ l.foldl max s ∈ l) := by
  induction l generalizing s with
  | nil => simp
  | cons v l ih =>
    obtain ⟨h1, h2, h3⟩ := ih (max s v)
    rw [List.foldl_cons]
    refine ⟨?_, le_trans (le_max_left _ _) h2, ?_⟩
    · intro x hx
      rcases List.mem_cons.1 hx with rfl | hx
      · exact le_trans (le_max_right _ _) h2
      · exact h1 x hx
    · rcases h3 with h3 | h3
      · rw [h3]
        rcases max_choice s v with e | e
        · left; exact e
        · right; rw [e]; exact List.mem_cons_self ..
      · right; exact List.mem_cons_of_mem _ h3

theorem foldl_gt [LinearOrder K] (size : V → K) (l : List V) (s : K) :
    l.foldl (fun s v => if size v > s then size v else s) s = (l.map size).foldl max s := by
  induction l generalizing s with
  | nil => rfl
  | cons v l ih =>
    rw [List.foldl_cons, List.map_cons, List.foldl_cons, ih]
    congr 1
    split
    · rw [max_eq_right (le_of_lt ‹_›)]
    · rw [max_eq_left (le_of_not_gt ‹_›)]

/-- values of a block of the view -/
theorem blockVals_eq {G : GArr} {items : Nat → List LItem} (v : View G items (cellG G))
    (ho : ∀ p, p < G.nproc → ∀ it ∈ items p, patchOffs it.lo it.hi it.ld = (box it.lo it.hi).map (bufPos it.lo it.ld))
    {m : Addr → V} {f : List Int → V} (hm : ∀ x, InArray G.dims x → m (cellG G x) = f x) {p : Nat} (hp : p < G.nproc)
    {it : LItem} (hit : it ∈ items p) : blockVals m it = (box it.lo it.hi).map f := by
  obtain ⟨s1, s2, s3, s4⟩ := v.shape p hp it hit
  unfold blockVals
  rw [ho p hp it hit, List.map_map]
  apply List.map_congr_left
  intro x hx
  have hx' := mem_box.1 hx
  have e := v.cell p hp it hit x hx'
  simp only [Function.comp_apply, s1]
  rw [← e]
  apply hm
  apply mem_ones_box.1
  apply v.cover.mem_iff.1
  rw [List.mem_flatMap]
  refine ⟨p, List.mem_range.2 hp, List.mem_flatMap.2 ⟨it, hit, hx⟩⟩

end

end GA
