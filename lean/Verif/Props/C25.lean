import Verif.Lemmas.GroupSplit

/-! # C25: process groups and their ranks -/

namespace GA.Groups

private theorem rel_destroy {np max s t} (hr : Rel np max s t) (g : Int) (ms) (hg : t.tbl g = some ms) (hpos : 0 < g)
    (hd : g ≠ s.dflt) : Rel np max (destroy s g).2 { t with tbl := upd t.tbl g none } := by
  have hlen := hr.len
  have hb := hr.range hg
  have hset : ∀ k, 0 ≤ k → (destroy s g).2.grp k = if k = g then { s.grp g with actv := false } else s.grp k := by
    intro k hk
    have := grp_set s g.toNat { s.grp g with actv := false } (by omega) k hk
    have e : ((g.toNat : Nat) : Int) = g := by omega
    rw [e] at this
    exact this
  refine ⟨by simp [destroy, hr.len], ?_, ?_, ?_, hr.dflt, ?_, ?_⟩
  · intro k hk
    show upd t.tbl g none k = none
    unfold upd; split
    · rfl
    · exact hr.out k hk
  · intro k h0 h1 hk
    rw [hset k h0]
    have hk : upd t.tbl g none k = none := hk
    unfold upd at hk
    split
    · rfl
    · rename_i e; rw [if_neg e] at hk; exact hr.free k h0 h1 hk
  · intro k ms' hk
    have hk : upd t.tbl g none k = some ms' := hk
    unfold upd at hk
    split at hk
    · cases hk
    · rename_i e
      rw [hset k (hr.range hk).1, if_neg e]
      exact hr.live k ms' hk
  · rcases hr.dfltOK with e | ⟨e, e2⟩
    · exact .inl e
    · refine .inr ⟨e, ?_⟩
      show upd t.tbl g none s.dflt ≠ none
      unfold upd; rw [if_neg (fun h => hd h.symm)]; exact e2
  · intro P hP
    apply hr.armci
    have hP : St.procs np { t with tbl := upd t.tbl g none } s.dflt = some P := hP
    unfold St.procs at hP ⊢
    simp only [] at hP
    have e : upd t.tbl g none s.dflt = t.tbl s.dflt := by unfold upd; rw [if_neg (fun h => hd h.symm)]
    rw [e] at hP
    exact hP

private theorem procs_cases {np max s t} (hr : Rel np max s t) {g : Int} {ms} (hg : t.procs np g = some ms) :
    (g = -1 ∧ ms = List.range np) ∨ (0 ≤ g ∧ t.tbl g = some ms) := by
  unfold St.procs at hg
  split at hg
  · rename_i e; exact .inl ⟨e, (Option.some.inj hg).symm⟩
  · exact .inr ⟨(hr.range hg).1, hg⟩

private theorem rankIn_range (np me : Nat) (h : me < np) : rankIn (List.range np) me = me := by
  unfold rankIn
  rw [if_pos (List.mem_range.mpr h)]
  have := List.Nodup.idxOf_getElem (List.nodup_range (n := np)) me (by simpa using h)
  rw [List.getElem_range] at this
  rw [this]

private theorem step_ok {np max me : Nat} (hme : me < np) (hnp : np ≤ 2 ^ 30) {s t} (hr : Rel np max s t) (o : Op)
    (ho : Allowed np me t o) :
    ∃ t', SStep np max me t o (step np me s o).1 t' ∧
      ((step np me s o).1 ≠ .abort → Rel np max (step np me s o).2 t') := by
  have hd := hr.dflt
  cases o with
  | create list =>
    obtain ⟨P, hP⟩ := hr.procsDflt
    simp only [step]
    cases hf : freeHandle s.list s.list.length 0 with
    | none =>
      have : create np me s list = .abort := by unfold create; rw [hf]
      rw [this]
      exact ⟨t, .createFull (freeHandle_none hr hf), fun h => absurd rfl h⟩
    | some h =>
      by_cases hv : ValidList P.length list
      · obtain ⟨g, e, hg, ha⟩ := create_ok (me := me) hr hnp hP hv hf
        rw [e]
        obtain ⟨h1, h2⟩ := freeHandle_some hr hf
        refine ⟨_, .create (h : Int) (chosen P list) (by rw [hd]; exact hP) hv (by omega) (by omega) h2
          ⟨chosen_asc (hr.procsAsc hP).1 hv, fun p => mem_chosen hv p⟩, fun _ => hr.add h1 h2 hg ha⟩
      · have hl : listOK np list = false := by
          rw [Bool.eq_false_iff]
          intro hl
          have hl := (listOK_iff np list).mp hl
          apply hv
          refine ⟨hl.1, fun x hx => ⟨(hl.2 x hx).1, ?_⟩⟩
          exact ho P (by rw [hd]; exact hP) x hx (hl.2 x hx).1 (hl.2 x hx).2
        have : create np me s list = .abort := by
          unfold create; rw [hf]; simp only []; rw [if_pos hl]
        rw [this]
        exact ⟨t, .createInvalid (by rw [hd]; exact hP) hv, fun h => absurd rfl h⟩
  | destroy g =>
    obtain ⟨hpos, hn, hdf⟩ := ho
    cases hx : t.tbl g with
    | none => exact absurd hx hn
    | some ms =>
      simp only [step]
      have hact := (hr.live g ms hx).1.actv
      have e : (destroy s g).1 = 1 := by simp [destroy, hact]
      rw [e]
      exact ⟨_, .destroy hx, fun _ => rel_destroy hr g ms hx hpos (by rw [← hd]; exact hdf)⟩
  | setDefault g =>
    exact ⟨_, .setDefault, fun _ => hr.setDflt g ho⟩
  | nnodes g =>
    simp only [step]
    cases hx : t.procs np g with
    | none => exact absurd hx ho
    | some ms =>
      refine ⟨t, ?_, fun _ => hr⟩
      have e : nnodes np s g = ms.length := by
        unfold nnodes
        rcases procs_cases hr hx with ⟨h1, h2⟩ | ⟨h1, h2⟩
        · rw [if_neg (by omega), h2, List.length_range]
        · rw [if_pos h1, (hr.live g ms h2).1.nproc]
      rw [e]; exact .nnodes hx
  | nodeid g =>
    simp only [step]
    cases hx : t.procs np g with
    | none => exact absurd hx ho
    | some ms =>
      refine ⟨t, ?_, fun _ => hr⟩
      have e : nodeid me s g = rankIn ms me := by
        unfold nodeid
        rcases procs_cases hr hx with ⟨h1, h2⟩ | ⟨h1, h2⟩
        · rw [if_neg (by omega), h2, rankIn_range np me hme]
        · rw [if_pos h1, (hr.live g ms h2).1.map me hme]
      rw [e]; exact .nodeid hx
  | absId g r =>
    obtain ⟨h0, ms, hx, hl⟩ := ho
    simp only [step]
    refine ⟨t, ?_, fun _ => hr⟩
    have hget : ms[r]? = some (ms.getD r 0) := by
      rw [List.getD_eq_getElem?_getD]; simp [hl]
    have e : absId s g r = ((ms.getD r 0 : Nat) : Int) := by
      unfold absId
      rcases procs_cases hr hx with ⟨h1, h2⟩ | ⟨h1, h2⟩
      · subst h2
        rw [List.length_range] at hl
        rw [if_pos h1, List.getD_eq_getElem?_getD, List.getElem?_range hl]; rfl
      · rw [if_neg (by omega), (hr.live g ms h2).2 h0]
    rw [e]; exact .absId hx hget
  | myNnodes =>
    simp only [step]
    obtain ⟨ms, hx⟩ := hr.procsDflt
    refine ⟨t, ?_, fun _ => hr⟩
    have e : myNnodes np s = ms.length := by
      unfold myNnodes
      rcases hr.dfltOK with e1 | ⟨e1, _⟩
      · rcases procs_cases hr hx with ⟨h1, h2⟩ | ⟨h1, h2⟩
        · rw [if_neg (by omega), h2, List.length_range]
        · omega
      · rcases procs_cases hr hx with ⟨h1, h2⟩ | ⟨h1, h2⟩
        · omega
        · rw [if_pos e1, (hr.live _ ms h2).1.nproc]
    rw [e]; exact .myNnodes (by rw [hd]; exact hx)
  | myNodeid =>
    simp only [step]
    obtain ⟨ms, hx⟩ := hr.procsDflt
    refine ⟨t, ?_, fun _ => hr⟩
    have e : myNodeid me s = rankIn ms me := by
      unfold myNodeid
      rcases hr.dfltOK with e1 | ⟨e1, _⟩
      · rcases procs_cases hr hx with ⟨h1, h2⟩ | ⟨h1, h2⟩
        · rw [if_neg (by omega), h2, rankIn_range np me hme]
        · omega
      · rcases procs_cases hr hx with ⟨h1, h2⟩ | ⟨h1, h2⟩
        · omega
        · rw [if_pos e1, (hr.live _ ms h2).1.map me hme]
    rw [e]; exact .myNodeid (by rw [hd]; exact hx)
  | split g num =>
    obtain ⟨h0, P, hP, hmem⟩ := ho
    simp only [step]
    by_cases hneg : num < 0
    · have : split np me s g num = .abort := by unfold split; rw [if_pos hneg]
      rw [this]
      exact ⟨t, .splitNeg hneg, fun h => absurd rfl h⟩
    · by_cases hz : num = 0
      · subst hz
        have : split np me s g 0 = .ok (g, s) := by unfold split; simp
        rw [this]
        exact ⟨t, .splitNone, fun _ => hr⟩
      · obtain ⟨k, rfl⟩ : ∃ k : Nat, num = k := ⟨num.toNat, by omega⟩
        have hk : 0 < k := by omega
        rcases split_ok hme hnp hr h0 hP hmem hk with ⟨hs, h, s', e1, e2, e3, e4, e5⟩ | ⟨e1, e2⟩
        · rw [e1]
          exact ⟨_, .split hs h hk hP e2 e3 e4, fun _ => e5⟩
        · rw [e1]
          exact ⟨t, .splitFull hk hP e2, fun h => absurd rfl h⟩
  | splitIrreg g colors =>
    obtain ⟨h0, P, hP, hmem, hl⟩ := ho
    simp only [step]
    have hidx := List.idxOf_lt_length_of_mem hmem
    have e0 : (nodeid me s g).toNat = P.idxOf me := by
      have : nodeid me s g = rankIn P me := by
        unfold nodeid
        rcases procs_cases hr hP with ⟨h1, h2⟩ | ⟨h1, h2⟩
        · rw [if_neg (by omega), h2, rankIn_range np me hme]
        · rw [if_pos h1, (hr.live g P h2).1.map me hme]
      rw [this, idxOf_rank hmem]; omega
    rw [e0]
    have hcol : colors[P.idxOf me]? = some (colors.getD (P.idxOf me) 0) := by
      rw [List.getD_eq_getElem?_getD, List.getElem?_eq_getElem (by omega)]; rfl
    generalize hcv : colors.getD (P.idxOf me) 0 = c at *
    by_cases hneg : c < 0
    · have : splitIrreg np me s g c colors = .abort := by unfold splitIrreg; rw [if_pos hneg]
      rw [this]
      exact ⟨t, .splitIrregNeg hP hcol hneg, fun h => absurd rfl h⟩
    · rcases splitIrreg_ok (me := me) hnp hr h0 hP hl (c := c) (by omega) with ⟨h, ms, s', e1, e2, e3, e4, e5, e6⟩ | ⟨e1, e2⟩
      · rw [e1]
        exact ⟨_, .splitIrreg h c hP hcol (by omega) e2 e3 e4 e5, fun _ => e6⟩
      · rw [e1]
        exact ⟨t, .splitIrregFull e2, fun h => absurd rfl h⟩

private theorem run_ok {np max me : Nat} (hme : me < np) (hnp : np ≤ 2 ^ 30) (os : List Op) {s t}
    (hr : Rel np max s t) : SRun np max me t os (run np me s os) := by
  induction os generalizing s t with
  | nil => exact .nil
  | cons o os ih =>
    by_cases ho : Allowed np me t o
    · obtain ⟨t', h1, h2⟩ := step_ok (max := max) hme hnp hr o ho
      unfold run
      generalize hs : step np me s o = rs at h1 h2
      obtain ⟨r, s'⟩ := rs
      cases r with
      | abort => exact .abort h1
      | num n => exact .cons h1 (ih (h2 (by simp)))
      | done => exact .cons h1 (ih (h2 (by simp)))
      | corrupt => exact .cons h1 (ih (h2 (by simp)))
    · exact .outside ho

/-- **C25.** For every number of processes and every history of creating, destroying and selecting
process groups: the answers are those of a table from handles to ascending lists of processes. A
group holds exactly the processes its list names, whatever the order of the list; ranks and processes
correspond one to one in both directions; lists with duplicates or entries out of range end the
program. `j`, `cnt` are the processes of the own machine. -/
theorem C25_groups (np max me j cnt : Nat) (hmax : 0 < max) (hj : j + cnt ≤ np) (hme : me < np)
    (hnp : np ≤ 2 ^ 30) (os : List Op) :
    SRun np max me ⟨fun h => if h = 0 then some (List.range' j cnt) else none, -1⟩ os
      (run np me (init np max j cnt) os) :=
  run_ok hme hnp os (rel_init np max j cnt hmax hj)

/-- The communicator built pairwise by the members of a group has all of them, in the order of the
list, at every member: whatever the size of the group. -/
theorem C25_communicator_order (n : Nat) (hn : n ≤ 2 ^ 30) (p : Nat) (hp : p < n) :
    (hcLoop n 32 1 (fun p => (p, [p])) p).2 = List.range n := hcLoop_range n hn p hp

/-- groups in groups -/
example : run 6 4 (init 6 5 0 6) [.create [5, 1, 4, 2], .nodeid 1, .absId 1 2, .setDefault 1, .myNodeid,
      .create [3, 1], .absId 2 0, .absId 2 1, .nodeid 2, .nnodes 2, .setDefault (-1), .destroy 1,
      .create [0], .nodeid 1] =
    [.num 1, .num 2, .num 4, .done, .num 2, .num 2, .num 2, .num 5, .num (-1), .num 2, .done, .num 1,
      .num 1, .num (-1)] := by decide

/-- rejected lists -/
example : run 6 4 (init 6 5 0 6) [.create [1, 2, 1]] = [.abort] ∧
    run 6 4 (init 6 5 0 6) [.create [6]] = [.abort] := by decide

/-- The check of the list uses the number of all processes, not of the default group: a rank that does
not exist in the default group overwrites memory. -/
theorem C25_subgroup_rank_unchecked :
    run 4 0 (init 4 5 0 4) [.create [0, 1], .setDefault 1, .create [2]] = [.num 1, .done, .corrupt] := by decide

/-- `GA_Pgroup_duplicate` of a group whose processes are not the first ones: rank 0 of the copy is
process 0 for `GA_Pgroup_absolute_id`, in the original it is process 2. -/
theorem C25_duplicate_wrong :
    ∃ s s1 s2, create 4 0 s [2, 3] = .ok (1, s1) ∧ s = init 4 5 0 4 ∧ duplicate 0 s1 1 = .ok (2, s2) ∧
      absId s1 1 0 = 2 ∧ absId s2 2 0 = 0 ∧ nnodes 4 s2 2 = 2 := by
  refine ⟨_, _, _, rfl, rfl, rfl, ?_⟩
  decide

end GA.Groups
