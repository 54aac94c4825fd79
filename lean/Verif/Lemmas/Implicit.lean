import Verif.Model.Implicit
import Mathlib.Data.List.Nodup

namespace GA.Model.Implicit
open Spec.Implicit

variable {near : Nat → Bool}

/-- `L`: numbers of the requests without a handle, newest first -/
structure Inv (near : Nat → Bool) (s : St) (L : List Nat) : Prop where
  held : ∀ r ∈ s.out, r.implicit = true → ∃ i < 15, (s.slot i).flag = true ∧ (s.slot i).proc = r.proc ∧ (s.slot i).id = r.id
  other : ∀ r ∈ s.out, r.implicit = false → ∀ i, (s.slot i).flag = true → (s.slot i).id ≠ r.id
  low : ∀ i, (s.slot i).flag = true → (s.slot i).id < s.next
  outlow : ∀ r ∈ s.out, r.id < s.next
  far : ∀ r ∈ s.out, near r.proc = false
  ring : ∀ i, (s.slot i).flag = true → ∃ k < 15, k + 1 ≤ s.imp ∧ i = (s.imp - 1 - k) % 15 ∧ L[k]? = some (s.slot i).id

theorem start_inv : Inv near start [] := by
  constructor <;> simp [start]

/-- waiting for an entry and then changing only its flag, or its contents -/
theorem waitSlot_out (s : St) (i : Nat) : (waitSlot near s i).slot = s.slot ∧ (waitSlot near s i).imp = s.imp ∧ (waitSlot near s i).next = s.next ∧
    (waitSlot near s i).out.Sublist s.out := by
  unfold waitSlot
  split
  · exact ⟨rfl, rfl, rfl, List.Sublist.refl _⟩
  · exact ⟨rfl, rfl, rfl, List.filter_sublist⟩

theorem Inv.sub {s : St} {L : List Nat} (H : Inv near s L) {o : List Req} (ho : o.Sublist s.out) : Inv near { s with out := o } L :=
  ⟨fun r hr => H.held r (ho.subset hr), fun r hr => H.other r (ho.subset hr), H.low, fun r hr => H.outlow r (ho.subset hr), fun r hr => H.far r (ho.subset hr), H.ring⟩

theorem Inv.slot_inj {s : St} {L : List Nat} (H : Inv near s L) (hnd : L.Nodup) {i j : Nat} (hi : (s.slot i).flag = true) (hj : (s.slot j).flag = true)
    (he : (s.slot i).id = (s.slot j).id) : i = j := by
  obtain ⟨k, -, -, k3, k4⟩ := H.ring i hi
  obtain ⟨k', -, -, k3', k4'⟩ := H.ring j hj
  have hk : k = k' := by
    obtain ⟨h1, h1'⟩ := List.getElem?_eq_some_iff.1 k4
    obtain ⟨h2, h2'⟩ := List.getElem?_eq_some_iff.1 k4'
    exact (hnd.getElem_inj_iff).1 (by rw [h1', h2', he])
  rw [k3, k3', hk]

/-- the requests that waiting for a flagged entry completes -/
theorem waitSlot_spec {s : St} {L : List Nat} (H : Inv near s L) {i : Nat} (hi : (s.slot i).flag = true) :
    (waitSlot near s i).out = s.out.filter (fun r => r.id ≠ (s.slot i).id) ∨ near (s.slot i).proc = true ∧ waitSlot near s i = s := by
  unfold waitSlot
  split
  · rename_i h
    exact .inr ⟨h, rfl⟩
  · exact .inl rfl

/-- after waiting for entry `i` no outstanding request is held by it -/
theorem waitSlot_held {s : St} {L : List Nat} (H : Inv near s L) (hnd : L.Nodup) {i : Nat} (hi : (s.slot i).flag = true) :
    ∀ r ∈ (waitSlot near s i).out, r.implicit = true → ∃ j < 15, j ≠ i ∧ (s.slot j).flag = true ∧ (s.slot j).proc = r.proc ∧ (s.slot j).id = r.id := by
  intro r hr himp
  have hr' := (waitSlot_out s i).2.2.2.subset hr
  obtain ⟨j, h1, h2, h3, h4⟩ := H.held r hr' himp
  refine ⟨j, h1, ?_, h2, h3, h4⟩
  rintro rfl
  rcases waitSlot_spec H hi with h | ⟨h, -⟩
  · rw [h] at hr
    have := (List.mem_filter.1 hr).2
    simp [h4] at this
  · rw [h3, H.far r hr'] at h
    cases h

/-- what waiting for an entry with process `q` leaves alone -/
theorem waitSlot_keep {s : St} {L : List Nat} (H : Inv near s L) (hnd : L.Nodup) {i : Nat} (hi : (s.slot i).flag = true) {P : Req → Bool}
    (hP : ∀ r, r.implicit = true → r.proc = (s.slot i).proc → P r = false) : (waitSlot near s i).out.filter P = s.out.filter P := by
  rcases waitSlot_spec H hi with h | ⟨-, h⟩
  · rw [h, List.filter_filter]
    refine List.filter_congr fun r hr => ?_
    by_cases hid : r.id = (s.slot i).id
    · cases himp : r.implicit with
      | false => exact absurd hid.symm (H.other r hr himp i hi)
      | true =>
        obtain ⟨j, -, j2, j3, j4⟩ := H.held r hr himp
        have := H.slot_inj hnd j2 hi (j4.trans hid)
        subst this
        simp [hP r himp j3.symm]
    · simp [hid]
  · rw [h]

theorem waitOne_inv {s : St} {L : List Nat} (H : Inv near s L) (hnd : L.Nodup) (test : Nat → Bool) (i : Nat) :
    Inv near (waitOne near test s i) L ∧ (waitOne near test s i).imp = s.imp ∧ (waitOne near test s i).next = s.next ∧ (waitOne near test s i).out.Sublist s.out ∧
    (∀ k, ((waitOne near test s i).slot k).flag = true → (s.slot k).flag = true ∧ ((waitOne near test s i).slot k).proc = (s.slot k).proc) ∧
    (((waitOne near test s i).slot i).flag = true → test (s.slot i).proc = false) ∧
    ∀ P : Req → Bool, (∀ r, r.implicit = true → test r.proc = true → P r = false) → (waitOne near test s i).out.filter P = s.out.filter P := by
  unfold waitOne
  split
  · rename_i hc
    rw [Bool.and_eq_true] at hc
    obtain ⟨e1, e2, e3, e4⟩ := waitSlot_out (near := near) s i
    refine ⟨⟨?_, ?_, ?_, ?_, ?_, ?_⟩, e2, e3, e4, ?_, ?_, ?_⟩
    · intro r hr himp
      obtain ⟨j, j1, j2, j3, j4, j5⟩ := waitSlot_held H hnd hc.1 r hr himp
      exact ⟨j, j1, by simp [j2, e1, j3], by simp [j2, e1, j4], by simp [j2, e1, j5]⟩
    · intro r hr himp k hk
      dsimp only at hk ⊢
      rw [e1] at hk ⊢
      split at hk
      · simp at hk
      · rename_i hne
        rw [if_neg hne]
        exact H.other r (e4.subset hr) himp k hk
    · intro k hk
      dsimp only at hk ⊢
      rw [e1] at hk ⊢
      rw [e3]
      split at hk
      · simp at hk
      · rename_i hne
        rw [if_neg hne]
        exact H.low k hk
    · intro r hr
      dsimp only
      rw [e3]
      exact H.outlow r (e4.subset hr)
    · intro r hr
      exact H.far r (e4.subset hr)
    · intro k hk
      dsimp only at hk ⊢
      rw [e1] at hk ⊢
      rw [e2]
      split at hk
      · simp at hk
      · rename_i hne
        rw [if_neg hne]
        exact H.ring k hk
    · intro k hk
      dsimp only at hk ⊢
      rw [e1] at hk ⊢
      split at hk
      · simp at hk
      · rename_i hne
        rw [if_neg hne]
        exact ⟨hk, rfl⟩
    · intro h
      simp at h
    · intro P hP
      exact waitSlot_keep H hnd hc.1 fun r h1 h2 => hP r h1 (by rw [h2]; exact hc.2)
  · rename_i hc
    refine ⟨H, rfl, rfl, List.Sublist.refl _, fun k hk => ⟨hk, rfl⟩, fun hf => ?_, fun _ _ => rfl⟩
    cases ht : test (s.slot i).proc with
    | false => rfl
    | true => exact absurd (by rw [hf, ht]; rfl) hc

theorem fold_inv {test : Nat → Bool} {L : List Nat} (hnd : L.Nodup) {l : List Nat} : ∀ {s : St}, Inv near s L →
    Inv near (l.foldl (waitOne near test) s) L ∧ (l.foldl (waitOne near test) s).imp = s.imp ∧ (l.foldl (waitOne near test) s).next = s.next ∧
    (l.foldl (waitOne near test) s).out.Sublist s.out ∧
    (∀ k, ((l.foldl (waitOne near test) s).slot k).flag = true → (s.slot k).flag = true ∧ ((l.foldl (waitOne near test) s).slot k).proc = (s.slot k).proc) ∧
    (∀ i ∈ l, ((l.foldl (waitOne near test) s).slot i).flag = true → test (s.slot i).proc = false) ∧
    ∀ P : Req → Bool, (∀ r, r.implicit = true → test r.proc = true → P r = false) → (l.foldl (waitOne near test) s).out.filter P = s.out.filter P := by
  induction l with
  | nil => intro s H; exact ⟨H, rfl, rfl, List.Sublist.refl _, fun k hk => ⟨hk, rfl⟩, by simp, fun _ _ => rfl⟩
  | cons i l ih =>
    intro s H
    obtain ⟨a1, a2, a3, a4, a5, a6, a7⟩ := waitOne_inv H hnd test i
    obtain ⟨b1, b2, b3, b4, b5, b6, b7⟩ := ih a1
    rw [List.foldl_cons]
    refine ⟨b1, b2.trans a2, b3.trans a3, b4.trans a4, fun k hk => ?_, fun j hj hf => ?_, fun P hP => (b7 P hP).trans (a7 P hP)⟩
    · obtain ⟨c1, c2⟩ := b5 k hk
      obtain ⟨d1, d2⟩ := a5 k c1
      exact ⟨d1, c2.trans d2⟩
    · rcases List.mem_cons.1 hj with rfl | hj
      · exact a6 (b5 j hf).1
      · have := b6 j hj hf
        rwa [(a5 j (b5 j hf).1).2] at this

theorem loop_inv {s : St} {L : List Nat} (H : Inv near s L) (hnd : L.Nodup) (test : Nat → Bool) :
    Inv near (waitLoop near test s) L ∧ (waitLoop near test s).imp = s.imp ∧ (waitLoop near test s).next = s.next ∧ (waitLoop near test s).out.Sublist s.out ∧
    (∀ i, ((waitLoop near test s).slot i).flag = true → test ((waitLoop near test s).slot i).proc = false) ∧
    ∀ P : Req → Bool, (∀ r, r.implicit = true → test r.proc = true → P r = false) → (waitLoop near test s).out.filter P = s.out.filter P := by
  unfold waitLoop
  split
  · obtain ⟨b1, b2, b3, b4, b5, b6, b7⟩ := fold_inv (near := near) (test := test) hnd (l := List.range 15) H
    refine ⟨b1, b2, b3, b4, fun i hf => ?_, b7⟩
    rw [(b5 i hf).2]
    refine b6 i ?_ hf
    obtain ⟨k, -, -, k3, -⟩ := b1.ring i hf
    rw [List.mem_range]
    omega
  · rename_i h
    refine ⟨H, rfl, rfl, List.Sublist.refl _, fun i hf => ?_, fun _ _ => rfl⟩
    obtain ⟨k, -, k2, -⟩ := H.ring i hf
    omega

theorem send_inv {s : St} {L : List Nat} (H : Inv near s L) (p : Nat) : Inv near (send near s p false) L := by
  by_cases hn : near p = true
  · simp only [send, hn, if_true]
    exact ⟨H.held, H.other, fun i hi => Nat.lt_succ_of_lt (H.low i hi), fun r hr => Nat.lt_succ_of_lt (H.outlow r hr), H.far, H.ring⟩
  · simp only [send, hn]
    refine ⟨fun r hr himp => ?_, fun r hr himp => ?_, fun i hi => Nat.lt_succ_of_lt (H.low i hi), fun r hr => ?_, fun r hr => ?_, H.ring⟩ <;>
      rcases List.mem_append.1 hr with hr | hr
    · exact H.held r hr himp
    · cases List.mem_singleton.1 hr
      cases himp
    · exact H.other r hr himp
    · cases List.mem_singleton.1 hr
      intro i hi
      exact Nat.ne_of_lt (H.low i hi)
    · exact Nat.lt_succ_of_lt (H.outlow r hr)
    · cases List.mem_singleton.1 hr
      exact Nat.lt_succ_self _
    · exact H.far r hr
    · cases List.mem_singleton.1 hr
      simpa using hn

theorem issue_inv {s s' : St} {L : List Nat} (H : Inv near s L) (hnd : L.Nodup) {p : Nat} (hs : step near s (.issue p) = some s') :
    Inv near s' (s.next :: L) ∧ s'.imp = s.imp + 1 ∧ s'.next = s.next + 1 ∧ (∃ o, o.Sublist s.out ∧ s'.out = if near p then o else o ++ [⟨s.next, p, true⟩]) ∧
    s'.out.filter (fun r => !r.implicit) = s.out.filter fun r => !r.implicit := by
  simp only [step, setImplicit] at hs
  generalize hs1 : (if (s.slot (s.imp % 15)).flag = true then waitSlot near s (s.imp % 15) else s) = s1 at hs
  have h1 : s1.slot = s.slot ∧ s1.imp = s.imp ∧ s1.next = s.next ∧ s1.out.Sublist s.out ∧
      (∀ r ∈ s1.out, r.implicit = true → ∃ j < 15, j ≠ s.imp % 15 ∧ (s.slot j).flag = true ∧ (s.slot j).proc = r.proc ∧ (s.slot j).id = r.id) ∧
      s1.out.filter (fun r => !r.implicit) = s.out.filter fun r => !r.implicit := by
    rw [← hs1]
    split
    · rename_i hf
      obtain ⟨e1, e2, e3, e4⟩ := waitSlot_out (near := near) s (s.imp % 15)
      exact ⟨e1, e2, e3, e4, waitSlot_held H hnd hf, waitSlot_keep H hnd hf fun r h _ => by simp [h]⟩
    · rename_i hf
      refine ⟨rfl, rfl, rfl, List.Sublist.refl _, fun r hr himp => ?_, rfl⟩
      obtain ⟨j, j1, j2, j3, j4⟩ := H.held r hr himp
      exact ⟨j, j1, by rintro rfl; exact hf j2, j2, j3, j4⟩
  clear hs1
  obtain ⟨e1, e2, e3, e4, e5, e6⟩ := h1
  split at hs
  case isFalse => simp at hs
  simp only [Option.map_some, Option.some.injEq, send] at hs
  subst hs
  dsimp only
  rw [e3]
  refine ⟨⟨?_, ?_, ?_, ?_, ?_, ?_⟩, by rw [e2], rfl, ⟨s1.out, e4, rfl⟩, ?_⟩
  · intro r hr himp
    dsimp only at hr ⊢
    by_cases hin : r ∈ s1.out
    · obtain ⟨j, j1, j2, j3, j4, j5⟩ := e5 r hin himp
      exact ⟨j, j1, by rw [if_neg j2, e1]; exact j3, by rw [if_neg j2, e1]; exact j4, by rw [if_neg j2, e1]; exact j5⟩
    · have : r = ⟨s.next, p, true⟩ := by
        split at hr
        · exact absurd hr hin
        · exact List.mem_singleton.1 ((List.mem_append.1 hr).resolve_left hin)
      subst this
      exact ⟨s.imp % 15, Nat.mod_lt _ (by omega), by simp, by simp, by simp⟩
  · intro r hr himp k hk
    dsimp only at hr hk ⊢
    have hin : r ∈ s1.out := by
      split at hr
      · exact hr
      · rcases List.mem_append.1 hr with hr | hr
        · exact hr
        · cases List.mem_singleton.1 hr
          cases himp
    split
    · exact (Nat.ne_of_lt (H.outlow r (e4.subset hin))).symm
    · rename_i hne
      rw [if_neg hne, e1] at hk
      rw [e1]
      exact H.other r (e4.subset hin) himp k hk
  · intro k hk
    dsimp only at hk ⊢
    split
    · exact Nat.lt_succ_self _
    · rename_i hne
      rw [if_neg hne, e1] at hk
      rw [e1]
      exact Nat.lt_succ_of_lt (H.low k hk)
  · intro r hr
    dsimp only at hr ⊢
    split at hr
    · exact Nat.lt_succ_of_lt (H.outlow r (e4.subset hr))
    · rcases List.mem_append.1 hr with hr | hr
      · exact Nat.lt_succ_of_lt (H.outlow r (e4.subset hr))
      · cases List.mem_singleton.1 hr
        exact Nat.lt_succ_self _
  · intro r hr
    dsimp only at hr ⊢
    split at hr
    · exact H.far r (e4.subset hr)
    · rename_i hn
      rcases List.mem_append.1 hr with hr | hr
      · exact H.far r (e4.subset hr)
      · cases List.mem_singleton.1 hr
        simpa using hn
  · intro k hk
    dsimp only at hk ⊢
    rw [e2]
    split
    · rename_i heq
      exact ⟨0, by omega, by omega, by rw [heq]; rfl, rfl⟩
    · rename_i hne
      rw [if_neg hne, e1] at hk
      rw [e1]
      obtain ⟨m, m1, m2, m3, m4⟩ := H.ring k hk
      refine ⟨m + 1, by omega, by omega, by omega, by simpa using m4⟩
  · rw [← e6]
    split
    · rfl
    · simp [List.filter_append]

/-- ghost list of the numbers -/
def ids (s : St) (L : List Nat) : Op → List Nat
  | .issue _ => s.next :: L
  | _ => L

/-- what is known of the state after a history, against the specification -/
structure Good (near : Nat → Bool) (s : St) (L : List Nat) (x : Nat × List Req) : Prop where
  inv : Inv near s L
  nodup : L.Nodup
  below : ∀ k ∈ L, k < s.next
  next : x.1 = s.next
  sub : ∀ r ∈ s.out, r ∈ x.2
  expl : s.out.filter (fun r => !r.implicit) = x.2.filter fun r => !r.implicit

theorem start_good : Good near start [] (0, []) := ⟨start_inv, List.nodup_nil, by simp, rfl, by simp [start], rfl⟩

theorem step_good {s s' : St} {L : List Nat} {x : Nat × List Req} (G : Good near s L x) {o : Op} (hs : step near s o = some s') :
    Good near s' (ids s L o) (openStep near x o) := by
  obtain ⟨H, hnd, hb, hn, hsub, hex⟩ := G
  cases o with
  | issue p =>
    obtain ⟨a1, a2, a3, ⟨o, a4, a5⟩, a6⟩ := issue_inv H hnd hs
    refine ⟨a1, List.nodup_cons.2 ⟨fun h => Nat.lt_irrefl _ (hb _ h), hnd⟩, ?_, by simp only [openStep]; omega, ?_, ?_⟩
    · intro k hk
      rcases List.mem_cons.1 hk with rfl | hk
      · omega
      · have := hb k hk
        omega
    · intro r hr
      rw [a5] at hr
      simp only [openStep, hn]
      split at hr
      · rename_i h; rw [if_pos h]; exact hsub r (a4.subset hr)
      · rename_i h
        rw [if_neg h]
        rcases List.mem_append.1 hr with hr | hr
        · exact List.mem_append_left _ (hsub r (a4.subset hr))
        · exact List.mem_append_right _ hr
    · rw [a6, hex]
      simp only [openStep]
      split
      · rfl
      · simp [List.filter_append]
  | explicit p =>
    cases hs
    refine ⟨send_inv H p, hnd, fun k hk => Nat.lt_succ_of_lt (hb k hk), by simp only [openStep, send, hn], ?_, ?_⟩
    · intro r hr
      simp only [openStep, send, hn] at hr ⊢
      split at hr
      · rename_i h; rw [if_pos h]; exact hsub r hr
      · rename_i h
        rw [if_neg h]
        rcases List.mem_append.1 hr with hr | hr
        · exact List.mem_append_left _ (hsub r hr)
        · exact List.mem_append_right _ hr
    · simp only [openStep, send, hn]
      split
      · exact hex
      · simp [List.filter_append, hex]
  | arrive id =>
    cases hs
    refine ⟨H.sub List.filter_sublist, hnd, hb, hn, ?_, ?_⟩
    · intro r hr
      obtain ⟨h1, h2⟩ := List.mem_filter.1 hr
      exact List.mem_filter.2 ⟨hsub r h1, h2⟩
    · simp only [openStep]
      rw [List.filter_filter, List.filter_filter]
      have := congrArg (List.filter fun r : Req => decide (r.id ≠ id)) hex
      rw [List.filter_filter, List.filter_filter] at this
      simpa only [Bool.and_comm] using this
  | waitAll =>
    cases hs
    obtain ⟨a1, a2, a3, a4, a5, a6⟩ := loop_inv H hnd fun _ => true
    have hnf : ∀ i, ((waitLoop near (fun _ => true) s).slot i).flag ≠ true := fun i hf => by simpa using a5 i hf
    have hno : ∀ r ∈ (waitLoop near (fun _ => true) s).out, r.implicit = false := by
      intro r hr
      cases himp : r.implicit with
      | false => rfl
      | true =>
        obtain ⟨i, -, hf, -⟩ := a1.held r hr himp
        exact absurd hf (hnf i)
    refine ⟨⟨a1.held, a1.other, a1.low, a1.outlow, a1.far, fun i hf => absurd hf (hnf i)⟩, hnd, by simp only [a3]; exact hb, by simp only [openStep, a3, hn], ?_, ?_⟩
    · intro r hr
      exact List.mem_filter.2 ⟨hsub r (a4.subset hr), by simp [hno r hr]⟩
    · simp only [openStep, List.filter_filter, Bool.and_self]
      rw [a6 _ (by simp +contextual), hex]
  | waitProc p =>
    cases hs
    obtain ⟨a1, a2, a3, a4, a5, a6⟩ := loop_inv H hnd fun q => q == p
    refine ⟨a1, hnd, by rw [a3]; exact hb, by simp only [openStep, a3, hn], ?_, ?_⟩
    · intro r hr
      refine List.mem_filter.2 ⟨hsub r (a4.subset hr), ?_⟩
      cases himp : r.implicit with
      | false => rfl
      | true =>
        obtain ⟨i, -, hf, hp, -⟩ := a1.held r hr himp
        have := a5 i hf
        rw [hp] at this
        simp [this]
    · rw [a6 _ (by simp +contextual), hex]
      simp only [openStep, List.filter_filter]
      refine List.filter_congr fun r _ => ?_
      cases r.implicit <;> simp

theorem run_good {ops : List Op} : ∀ {s s' : St} {L : List Nat} {x : Nat × List Req}, Good near s L x → ops.foldlM (step near) s = some s' →
    Good near s' (implicitIds s.next ops L) (ops.foldl (openStep near) x) := by
  induction ops with
  | nil => intro s s' L x G hs; cases hs; exact G
  | cons o ops ih =>
    intro s s' L x G hs
    rw [List.foldlM_cons] at hs
    cases h1 : step near s o with
    | none => rw [h1] at hs; cases hs
    | some s1 =>
      rw [h1] at hs
      have G1 := step_good G h1
      have := ih G1 hs
      rw [List.foldl_cons]
      have hn := G1.next
      cases o <;> simp only [openStep, G.next] at hn <;> simpa only [implicitIds, ids, ← hn] using this

/-- the counter of the specification -/
def count (n : Nat) : Op → Nat
  | .issue _ => n + 1
  | .waitAll => 0
  | _ => n

theorem fold_imp (test : Nat → Bool) (l : List Nat) : ∀ s : St, (l.foldl (waitOne near test) s).imp = s.imp := by
  induction l with
  | nil => intro s; rfl
  | cons i l ih =>
    intro s
    rw [List.foldl_cons, ih]
    unfold waitOne
    split
    · exact (waitSlot_out s i).2.1
    · rfl

theorem step_imp (s : St) (o : Op) : (step near s o = none ↔ 2 ^ 31 ≤ count s.imp o ∧ ∃ p, o = .issue p) ∧ ∀ s', step near s o = some s' → s'.imp = count s.imp o := by
  cases o with
  | issue p =>
    simp only [step, setImplicit, Option.map_eq_none_iff, count]
    have hi : (if (s.slot (s.imp % 15)).flag = true then waitSlot near s (s.imp % 15) else s).imp = s.imp := by
      split
      · exact (waitSlot_out _ _).2.1
      · rfl
    constructor
    · split <;> simp <;> omega
    · intro s' hs
      split at hs
      · simp only [Option.map_some, Option.some.injEq, send] at hs
        subst hs
        simp [hi]
      · simp at hs
  | explicit p => exact ⟨by simp [step], by rintro s' ⟨⟩; rfl⟩
  | arrive id => exact ⟨by simp [step], by rintro s' ⟨⟩; rfl⟩
  | waitAll => exact ⟨by simp [step], by rintro s' ⟨⟩; rfl⟩
  | waitProc p =>
    refine ⟨by simp [step], ?_⟩
    rintro s' ⟨⟩
    simp only [count]
    unfold waitLoop
    split
    · exact fold_imp _ _ _
    · rfl

theorem run_imp {ops : List Op} : ∀ {s : St}, s.imp < 2 ^ 31 → (ops.foldlM (step near) s = none ↔ ∃ pre, pre <+: ops ∧ 2 ^ 31 ≤ pre.foldl count s.imp) := by
  induction ops with
  | nil =>
    intro s h
    simp only [List.foldlM_nil, List.prefix_nil, exists_eq_left, List.foldl_nil]
    refine ⟨fun hc => ?_, fun hc => ?_⟩
    · cases hc
    · omega
  | cons o ops ih =>
    intro s h
    obtain ⟨h1, h2⟩ := step_imp (near := near) s o
    rw [List.foldlM_cons]
    cases hs : step near s o with
    | none =>
      refine ⟨fun _ => ⟨[o], ⟨ops, rfl⟩, (h1.1 hs).1⟩, fun _ => rfl⟩
    | some s1 =>
      have e := h2 s1 hs
      have hlt : s1.imp < 2 ^ 31 := by
        rw [e]
        by_contra hc
        have : ∃ p, o = .issue p := by
          cases o <;> simp only [count] at hc <;> first | exact ⟨_, rfl⟩ | omega
        rw [h1.2 ⟨by omega, this⟩] at hs
        cases hs
      refine (ih hlt).trans ⟨?_, ?_⟩
      · rintro ⟨pre, p1, p2⟩
        exact ⟨o :: pre, List.cons_prefix_cons.2 ⟨rfl, p1⟩, by rw [List.foldl_cons, ← e]; exact p2⟩
      · rintro ⟨pre, p1, p2⟩
        cases pre with
        | nil => simp only [List.foldl_nil] at p2; omega
        | cons o' pre =>
          obtain ⟨rfl, p3⟩ := List.cons_prefix_cons.1 p1
          exact ⟨pre, p3, by rw [List.foldl_cons, ← e] at p2; exact p2⟩

end GA.Model.Implicit
