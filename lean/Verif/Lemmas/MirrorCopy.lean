import Verif.Lemmas.MirrorDistr

/-! # Copies between mirrored and distributed arrays -/

namespace GA.Mirror
open Spec Model

theorem mem_allCells {n : Nat} {cells : Nat → Option (List Addr)} {L : List Addr} (h : allCells n cells = some L)
    (a : Addr) : a ∈ L ↔ ∃ p, p < n ∧ ∃ l, cells p = some l ∧ a ∈ l := by
  unfold allCells at h
  rw [Option.map_eq_some_iff] at h
  obtain ⟨ls, h1, rfl⟩ := h
  obtain ⟨g1, rfl⟩ := mapOpt_get h1
  simp only [List.mem_flatten, List.mem_map, List.mem_range]
  constructor
  · rintro ⟨l, ⟨p, hp, rfl⟩, ha⟩
    exact ⟨p, hp, _, g1 p (List.mem_range.2 hp), ha⟩
  · rintro ⟨p, hp, l, hl, ha⟩
    exact ⟨l, ⟨p, hp, by rw [hl]; rfl⟩, ha⟩

theorem mapCells_const {V : Type} (v : V) (as : List Addr) (m : Addr → V) (a : Addr) :
    (a ∈ as → mapCells (fun _ => v) as m a = v) ∧ (a ∉ as → mapCells (fun _ => v) as m a = m a) := by
  unfold mapCells
  induction as generalizing m with
  | nil => simp
  | cons b as ih =>
    rw [List.foldl_cons]
    have h := ih (upd m b v)
    by_cases hb : a ∈ as
    · exact ⟨fun _ => h.1 hb, fun hn => absurd (List.mem_cons_of_mem _ hb) hn⟩
    · rw [h.2 hb]
      by_cases hab : a = b
      · subst hab
        exact ⟨fun _ => by simp [upd], fun hn => absurd (List.mem_cons_self ..) hn⟩
      · exact ⟨fun hm => absurd hm (by simp [hab, hb]), fun _ => by simp [upd, hab]⟩

section
variable {V : Type} {sizes : List Nat} {A : Nat → RegArray} {dims : List Int}

/-- no process of the cluster has an empty block inside of the grid -/
def NoEmptyCopy (sizes : List Nat) (A : Nat → RegArray) : Prop :=
  ∀ k, k < sizes.length → NoEmptyBlock (.reg (A k) (nodeSize sizes k))

theorem mirZero_repr [Zero V] (hA : MirOK sizes A dims) (hne : NoEmptyCopy sizes A) {m m1 : Addr → V}
    (h : Phase (total sizes) (mirZeroCells sizes A) (fun _ => (0 : V)) m m1) {k : Nat} (hk : k < sizes.length) :
    CopyRepr sizes A k m1 fun _ => 0 := by
  intro x hx
  obtain ⟨L, sched, hL, hperm, rfl⟩ := h
  apply (mapCells_const _ _ _ _).1
  rw [hperm.mem_iff, mem_allCells hL]
  have hS : Sound (.reg (A k) (nodeSize sizes k)) := hA.ok k hk
  obtain ⟨⟨mz, hz⟩, hall⟩ := C35_zero_partial (V := Int) (.reg (A k) (nodeSize sizes k)) hS (hne k hk)
    (fun _ => 1) (fun _ => 1) ((holds_iff hS).2 fun _ _ => rfl)
  have hz0 := (holds_iff hS).1 (hall mz hz) x hx
  obtain ⟨L', sched', hL', hperm', rfl⟩ := hz
  have hmem : cell (A k) x ∈ sched' := by
    by_contra hc
    have := (mapCells_const (0 : Int) sched' (fun _ => (1 : Int)) (cell (A k) x)).2 hc
    have e : mapCells (fun _ => (0 : Int)) sched' (fun _ => (1 : Int)) (cell (A k) x) = 0 := hz0
    rw [e] at this
    simp at this
  rw [hperm'.mem_iff, mem_allCells hL'] at hmem
  obtain ⟨p, hp, l, hl, hpl⟩ := hmem
  have hp' : p < nodeSize sizes k := hp
  refine ⟨nodeStart sizes k + p, (rank_node hp').2.1, l.map (shiftA (nodeStart sizes k)), ?_, List.mem_map.2 ⟨_, hpl, rfl⟩⟩
  unfold mirZeroCells
  rw [(rank_node hp').1, rank_local hp', hl]
  rfl

theorem owns_ld {D : RegArray} (hD : ArrOK D) {r : Nat} (hne : anyEmpty (owns D r).1 (owns D r).2 = false) :
    LdOK (owns D r).1 (owns D r).2 (ldRem (owns D r).1 (owns D r).2 D.width) := by
  have hl := owns_len hD r
  have h := (anyEmpty_false (by omega)).1 hne
  refine ldOK_owns ?_ (by omega) (by rw [hD.width, hl.1]) h (inPatch_hi h)
  intro h0
  rw [h0] at hl
  exact hD.ne (List.length_eq_zero_iff.1 hl.1.symm)

theorem copyPuts_repr (hA : MirOK sizes A dims) {D : RegArray} (hD : ArrOK D) (hDd : D.dims = dims) {mD : Addr → V}
    {f : List Int → V} (hf : Repr D mD f) (order : List (Env × Nat))
    (ho : ∀ e ∈ order, EnvOK e.1 (A (nodeOf sizes e.2)) ∧ e.2 < total sizes) {m m' : Addr → V}
    {G : Nat → List Int → V} (hm : ∀ k, k < sizes.length → CopyRepr sizes A k m (G k))
    (h : copyPuts sizes A D mD order m = some m') {k : Nat} (hk : k < sizes.length) :
    CopyRepr sizes A k m' fun x =>
      if ∃ e ∈ order, nodeOf sizes e.2 = k ∧ InPatch (owns D e.2).1 (owns D e.2).2 x then f x else G k x := by
  induction order generalizing m G with
  | nil =>
    simp only [copyPuts, Option.some.injEq] at h
    subst h
    intro x hx
    simp [hm k hk x hx]
  | cons e order ih =>
    obtain ⟨E, r⟩ := e
    obtain ⟨hE, hr⟩ := ho _ (List.mem_cons_self ..)
    simp only [copyPuts] at h
    have hl := owns_len hD r
    split at h
    · rename_i hhead
      have hg := (headPos_iff hD r).1 hhead
      split at h
      · cases h
      · rename_i hne
        rw [Option.bind_eq_some_iff] at h
        obtain ⟨m1, h1, h2⟩ := h
        have hr3 := (rank_split hr).2.2
        obtain ⟨q1, q2⟩ := mirPut_repr hA hr3 hE (owns_ld hD (by simpa using hne)) h1
        have hm1 : ∀ j, j < sizes.length → CopyRepr sizes A j m1 fun x =>
            if nodeOf sizes r = j ∧ InPatch (owns D r).1 (owns D r).2 x then f x else G j x := by
          intro j hj
          by_cases hjr : nodeOf sizes r = j
          · subst hjr
            intro x hx
            rw [q1 _ (hm _ hj) x hx]
            dsimp only
            by_cases hin : InPatch (owns D r).1 (owns D r).2 x
            · rw [if_pos hin, if_pos ⟨rfl, hin⟩, ← reg_cell hD hg hin]
              exact hf x (by rw [hDd, ← hA.dims _ hj]; exact hx)
            · rw [if_neg hin, if_neg fun h' => hin h'.2]
          · intro x hx
            rw [q2 j hj (Ne.symm hjr) _ (hm _ hj) x hx]
            dsimp only
            rw [if_neg fun h' => hjr h'.1]
        have := ih (fun e he => ho e (by simp [he])) hm1 h2
        intro x hx
        rw [this x hx]
        dsimp only
        by_cases c1 : ∃ e ∈ order, nodeOf sizes e.2 = k ∧ InPatch (owns D e.2).1 (owns D e.2).2 x
        · rw [if_pos c1, if_pos]
          obtain ⟨e, he, c⟩ := c1
          exact ⟨e, by simp [he], c⟩
        · rw [if_neg c1]
          by_cases c2 : nodeOf sizes r = k ∧ InPatch (owns D r).1 (owns D r).2 x
          · rw [if_pos c2, if_pos ⟨(E, r), by simp, c2⟩]
          · rw [if_neg c2, if_neg]
            rintro ⟨e, he, c⟩
            rcases List.mem_cons.1 he with rfl | he
            · exact c2 c
            · exact c1 ⟨e, he, c⟩
    · rename_i hhead
      have := ih (fun e he => ho e (by simp [he])) hm h
      intro x hx
      rw [this x hx]
      dsimp only
      have hno : ¬ InPatch (owns D r).1 (owns D r).2 x := by
        intro hin
        have hgr : ¬ r < gridSize D.nblock := fun hg => hhead ((headPos_iff hD r).2 hg)
        have he := reg_outside_empty hD hgr
        rw [(anyEmpty_false (by omega)).2 (inPatch_self hin)] at he
        simp at he
      by_cases c1 : ∃ e ∈ order, nodeOf sizes e.2 = k ∧ InPatch (owns D e.2).1 (owns D e.2).2 x
      · rw [if_pos c1, if_pos]
        obtain ⟨e, he, c⟩ := c1
        exact ⟨e, by simp [he], c⟩
      · rw [if_neg c1, if_neg]
        rintro ⟨e, he, c⟩
        rcases List.mem_cons.1 he with rfl | he
        · exact hno c.2
        · exact c1 ⟨e, he, c⟩

theorem copyGets_repr (hA : MirOK sizes A dims) {D : RegArray} (hD : ArrOK D) (hDd : D.dims = dims) {m : Addr → V}
    {f : List Int → V} (hm : ∀ k, k < sizes.length → CopyRepr sizes A k m f) (order : List (Env × Nat))
    (ho : ∀ e ∈ order, EnvOK e.1 (A (nodeOf sizes e.2)) ∧ e.2 < total sizes) {mD mD' : Addr → V}
    (h : copyGets sizes A D m order mD = some mD') :
    Repr D mD' fun x => if ∃ e ∈ order, InPatch (owns D e.2).1 (owns D e.2).2 x then f x else mD (cell D x) := by
  induction order generalizing mD with
  | nil =>
    simp only [copyGets, Option.some.injEq] at h
    subst h
    intro x hx
    simp
  | cons e order ih =>
    obtain ⟨E, r⟩ := e
    obtain ⟨hE, hr⟩ := ho _ (List.mem_cons_self ..)
    simp only [copyGets] at h
    have hl := owns_len hD r
    split at h
    · rename_i hhead
      have hg := (headPos_iff hD r).1 hhead
      split at h
      · cases h
      · rename_i hne
        rw [Option.bind_eq_some_iff] at h
        obtain ⟨buf, h1, h2⟩ := h
        have hr3 := (rank_split hr).2.2
        rw [mirGet_eq] at h1
        have hres := get_repr (hA.ok _ hr3).1 hE (owns_ld hD (by simpa using hne))
          (f := f) (fun x hx => hm _ hr3 x hx) h1
        have := ih (fun e he => ho e (by simp [he])) h2
        intro x hx
        rw [this x hx]
        dsimp only
        by_cases c1 : ∃ e ∈ order, InPatch (owns D e.2).1 (owns D e.2).2 x
        · rw [if_pos c1, if_pos]
          obtain ⟨e, he, c⟩ := c1
          exact ⟨e, by simp [he], c⟩
        · rw [if_neg c1]
          by_cases c2 : InPatch (owns D r).1 (owns D r).2 x
          · have c3 : ∃ e ∈ (E, r) :: order, InPatch (owns D e.2).1 (owns D e.2).2 x := ⟨(E, r), by simp, c2⟩
            rw [if_pos c3, reg_cell hD hg c2, if_pos rfl, ← hres.1 x c2]
            congr 1
            omega
          · have c3 : ¬ ∃ e ∈ (E, r) :: order, InPatch (owns D e.2).1 (owns D e.2).2 x := by
              rintro ⟨e, he, c⟩
              rcases List.mem_cons.1 he with rfl | he
              · exact c2 c
              · exact c1 ⟨e, he, c⟩
            rw [if_neg c3, if_neg]
            intro hc
            obtain ⟨l0, a1, a2, a3⟩ := own_iff hD (le_refl _) hx
            have := reg_cell hD a2 ((a3 l0).2 rfl)
            rw [this] at hc
            simp only at hc
            exact c2 ((a3 r).2 (by omega))
    · rename_i hhead
      have := ih (fun e he => ho e (by simp [he])) h
      intro x hx
      rw [this x hx]
      dsimp only
      have hno : ¬ InPatch (owns D r).1 (owns D r).2 x := by
        intro hin
        have hgr : ¬ r < gridSize D.nblock := fun hg => hhead ((headPos_iff hD r).2 hg)
        have he := reg_outside_empty hD hgr
        rw [(anyEmpty_false (by omega)).2 (inPatch_self hin)] at he
        simp at he
      by_cases c1 : ∃ e ∈ order, InPatch (owns D e.2).1 (owns D e.2).2 x
      · rw [if_pos c1, if_pos]
        obtain ⟨e, he, c⟩ := c1
        exact ⟨e, by simp [he], c⟩
      · rw [if_neg c1, if_neg]
        rintro ⟨e, he, c⟩
        rcases List.mem_cons.1 he with rfl | he
        · exact hno c
        · exact c1 ⟨e, he, c⟩

end

end GA.Mirror
