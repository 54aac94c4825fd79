import Verif.Lemmas.Notify
import Verif.Props.C07

/-!
# C94: put with notification
-/

namespace GA
open Spec Model Notify

section
variable {V : Type}

/-- **C94.** At any time in any history of requests, waits and deliveries, every element without a pending
transfer is what the requests made so far, executed one after the other, leave in it: the patch is in place
and the notification has its value. -/
theorem C94_history {arr : Int → RegArray} {bump : V → V} (hA : ∀ g, ArrOK (arr g)) (evs : List Ev)
    (hev : ∀ ev ∈ evs, EvOK arr ev) {s s' : St V} (hs : s.pend = []) (h : run arr bump evs s = some s')
    (g : Int) (x : List Int) (hx : InArray (arr g).dims x)
    (hn : ∀ w ∈ s'.pend, w.key ≠ (g, cell (arr g) x)) :
    s'.mem (g, cell (arr g) x) =
      notifyRun (fun g x => s.mem (g, cell (arr g) x)) (requests arr bump evs s) g x := by
  have := flush_run hA evs hev (f := fun g x => s.mem (g, cell (arr g) x)) ?_ h g x hx
  · unfold contents flush at this
    rw [applyW_miss _ _ _ hn] at this
    exact this
  · intro g x _
    unfold contents flush
    rw [hs]
    rfl

/-! ## the wait -/

/-- the pending transfers while a request is outstanding: older ones, its own, newer ones -/
private structure Split (arr : Int → RegArray) (mine : List (Write V)) (pos : Nat) (later : List (NotifyReq V))
    (s : St V) : Prop where
  ex : ∃ O M L, s.pend = O ++ (M ++ L) ∧ (∀ w ∈ M, w.slot = pos) ∧
    (∀ p, (∀ w ∈ O, w.key.2.1 ≠ p) ∨ (∀ w ∈ mine, w.key.2.1 = p → w ∈ M)) ∧
    ∀ w ∈ L, ∃ r ∈ later, ∃ g x, InArray (arr g).dims x ∧ r.Touches g x ∧ w.key = (g, cell (arr g) x)

private theorem split_deliver {arr : Int → RegArray} {mine : List (Write V)} {pos : Nat}
    {later : List (NotifyReq V)} {s s' : St V} {k : Nat} (hS : Split arr mine pos later s)
    (h : deliver k s = some s') : Split arr mine pos later s' := by
  obtain ⟨O, M, L, e, h1, h2, h3⟩ := hS.ex
  obtain ⟨a, w, b, hp, hf, rfl⟩ := deliver_some h
  rw [e] at hp
  rcases List.append_eq_append_iff.1 hp with ⟨c, hc1, hc2⟩ | ⟨c, hc1, hc2⟩
  · -- a = O ++ c, M ++ L = c ++ w :: b
    rcases List.append_eq_append_iff.1 hc2 with ⟨d, hd1, hd2⟩ | ⟨d, hd1, hd2⟩
    · -- c = M ++ d : delivered from L
      refine ⟨O, M, d ++ b, ?_, h1, h2, ?_⟩
      · dsimp only; rw [hc1, hd1]; simp
      · intro u hu
        apply h3
        rw [hd2]
        rcases List.mem_append.1 hu with hu | hu
        · exact List.mem_append_left _ hu
        · exact List.mem_append_right _ (List.mem_cons_of_mem _ hu)
    · -- M = c ++ d, w :: b = d ++ L
      cases d with
      | nil =>
        simp only [List.nil_append, List.append_nil] at hd1 hd2
        refine ⟨O, M, b, ?_, h1, h2, ?_⟩
        · dsimp only; rw [hc1, hd1]; simp
        · intro u hu
          apply h3
          rw [← hd2]
          exact List.mem_cons_of_mem _ hu
      | cons w' d =>
        simp only [List.cons_append, List.cons.injEq] at hd2
        obtain ⟨rfl, hd2⟩ := hd2
        refine ⟨O, c ++ d, L, ?_, ?_, ?_, h3⟩
        · dsimp only; rw [hc1, hd2]; simp
        · intro u hu
          apply h1
          rw [hd1]
          rcases List.mem_append.1 hu with hu | hu
          · exact List.mem_append_left _ hu
          · exact List.mem_append_right _ (List.mem_cons_of_mem _ hu)
        · intro p
          by_cases hwp : w.key.2.1 = p
          · left
            intro u hu e'
            exact hf u (by rw [hc1]; exact List.mem_append_left _ hu) (e'.trans hwp.symm)
          · rcases h2 p with h | h
            · exact Or.inl h
            · right
              intro u hu hup
              have := h u hu hup
              rw [hd1] at this
              rcases List.mem_append.1 this with h | h
              · exact List.mem_append_left _ h
              · rcases List.mem_cons.1 h with rfl | h
                · exact absurd hup hwp
                · exact List.mem_append_right _ h
  · -- O = a ++ c, w :: b = c ++ (M ++ L)
    cases c with
    | nil =>
      simp only [List.nil_append, List.append_nil] at hc1 hc2
      -- delivered from M ++ L with a = O
      cases M with
      | nil =>
        simp only [List.nil_append] at hc2
        refine ⟨O, [], b, ?_, h1, h2, ?_⟩
        · dsimp only; rw [hc1]; simp
        · intro u hu
          apply h3
          rw [← hc2]
          exact List.mem_cons_of_mem _ hu
      | cons w' M =>
        simp only [List.cons_append, List.cons.injEq] at hc2
        obtain ⟨rfl, hc2⟩ := hc2
        refine ⟨O, M, L, ?_, fun u hu => h1 u (List.mem_cons_of_mem _ hu), ?_, h3⟩
        · dsimp only; rw [hc1, hc2]
        · intro p
          by_cases hwp : w.key.2.1 = p
          · left
            intro u hu e'
            exact hf u (by rw [← hc1]; exact hu) (e'.trans hwp.symm)
          · rcases h2 p with h | h
            · exact Or.inl h
            · right
              intro u hu hup
              rcases List.mem_cons.1 (h u hu hup) with rfl | h
              · exact absurd hup hwp
              · exact h
    | cons w' c =>
      simp only [List.cons_append, List.cons.injEq] at hc2
      obtain ⟨rfl, hc2⟩ := hc2
      refine ⟨a ++ c, M, L, ?_, h1, ?_, h3⟩
      · dsimp only; rw [hc2]; simp
      · intro p
        rcases h2 p with h | h
        · left
          intro u hu
          apply h
          rw [hc1]
          rcases List.mem_append.1 hu with hu | hu
          · exact List.mem_append_left _ hu
          · exact List.mem_append_right _ (List.mem_cons_of_mem _ hu)
        · exact Or.inr h

/-- the handle is stored in the slot and nowhere else -/
private def Holds (h : Int) (pos : Nat) (s : St V) : Prop := ∀ i : Nat, s.slots[i]? = some h ↔ i = pos

private theorem holds_find {h : Int} {pos : Nat} {s : St V} (hh : Holds h pos s) :
    s.slots.findIdx? (· == h) = some pos := by
  rw [List.findIdx?_eq_some_iff_getElem]
  have h1 := (hh pos).2 rfl
  obtain ⟨hl, e⟩ := List.getElem?_eq_some_iff.1 h1
  refine ⟨hl, by simp [e], ?_⟩
  intro j hj e'
  have hj' : s.slots[j] = h := by simpa using e'
  have := (hh j).1 (List.getElem?_eq_some_iff.2 ⟨by omega, hj'⟩)
  omega

private theorem split_run {arr : Int → RegArray} {bump : V → V} (hA : ∀ g, ArrOK (arr g)) {h : Int} (hh0 : h ≠ 0)
    {mine : List (Write V)} {pos : Nat} (later : List (NotifyReq V)) (evs : List Ev)
    (hev : ∀ ev ∈ evs, EvOK arr ev) (hfresh : ∀ a, Ev.put a ∈ evs → a.h ≠ h) (hw : Ev.wait h ∉ evs)
    {s s' : St V} (hS : Split arr mine pos later s) (hH : Holds h pos s) (hr : run arr bump evs s = some s') :
    Split arr mine pos (later ++ requests arr bump evs s) s' ∧ Holds h pos s' := by
  induction evs generalizing s later with
  | nil =>
    obtain rfl := Option.some.inj hr
    simp only [requests, List.append_nil]
    exact ⟨hS, hH⟩
  | cons ev evs ih =>
    obtain ⟨s1, h1, h2⟩ := Option.bind_eq_some_iff.1 hr
    have ih' := fun later hS hH => ih later (fun e he => hev e (List.mem_cons_of_mem _ he))
      (fun a ha => hfresh a (List.mem_cons_of_mem _ ha)) (fun hm => hw (List.mem_cons_of_mem _ hm)) (s := s1) hS hH h2
    have hev1 := hev ev List.mem_cons_self
    cases ev with
    | put a =>
      have h1' : nbputNotify arr bump a s = some s1 := h1
      obtain ⟨q, W, hq, hsl, -, hp, -, hP, hI, hW⟩ := put_some hA hev1 h1'
      simp only [requests, h1', Option.elim_some]
      rw [List.append_cons]
      apply ih'
      · obtain ⟨O, M, L, e, h1, h2, h3⟩ := hS.ex
        refine ⟨O, M, L ++ (W ++ [⟨q, (a.gn, cell (arr a.gn) a.e), s.ub a.bufn⟩]), ?_, h1, h2, ?_⟩
        · rw [hp, e]; simp
        · intro w hw'
          rcases List.mem_append.1 hw' with hw' | hw'
          · obtain ⟨r, hr, hh⟩ := h3 w hw'
            exact ⟨r, List.mem_append_left _ hr, hh⟩
          · refine ⟨reqOf a s, List.mem_append_right _ (List.mem_singleton_self _), ?_⟩
            rcases List.mem_append.1 hw' with hw' | hw'
            · obtain ⟨x, hx, rfl⟩ := (hW w).1 hw'
              exact ⟨a.g, x, hP.inArray hx, Or.inr ⟨rfl, hx⟩, rfl⟩
            · rw [List.mem_singleton.1 hw']
              exact ⟨a.gn, a.e, hI, Or.inl ⟨rfl, rfl⟩, rfl⟩
      · intro i
        rw [hsl, List.getElem?_set]
        have hq' : s.slots[q]? = some 0 := by
          obtain ⟨hl, e, -⟩ := List.findIdx?_eq_some_iff_getElem.1 hq
          rw [List.getElem?_eq_some_iff]
          exact ⟨hl, by simpa using e⟩
        have hqp : q ≠ pos := by
          intro e
          have := (hH q).2 e
          rw [hq'] at this
          exact hh0 (Option.some.inj this).symm
        have hne : a.h ≠ h := hfresh a List.mem_cons_self
        by_cases hqi : q = i
        · subst hqi
          have hl : q < s.slots.length := (List.getElem?_eq_some_iff.1 hq').1
          simp [hl, hne, hqp]
        · rw [if_neg hqi]
          exact hH i
    | wait k =>
      have h1' : nbwaitNotify k s = some s1 := h1
      have hk : k ≠ h := fun e => hw (by rw [e]; exact List.mem_cons_self)
      obtain ⟨e1, -, -, hc⟩ := wait_some h1'
      simp only [requests, h1, Option.elim_some]
      apply ih'
      · obtain ⟨O, M, L, e, hh⟩ := hS.ex
        exact ⟨O, M, L, by rw [e1]; exact e, hh⟩
      · rcases hc with ⟨-, rfl⟩ | ⟨q, hq, -, hsl⟩
        · exact hH
        · intro i
          rw [hsl, List.getElem?_set]
          have hq' : s.slots[q]? = some k := by
            obtain ⟨hl, e, -⟩ := List.findIdx?_eq_some_iff_getElem.1 hq
            rw [List.getElem?_eq_some_iff]
            exact ⟨hl, by simpa using e⟩
          have hqp : q ≠ pos := by
            intro e
            have := (hH q).2 e
            rw [hq'] at this
            exact hk (Option.some.inj this)
          by_cases hqi : q = i
          · subst hqi
            have hl : q < s.slots.length := (List.getElem?_eq_some_iff.1 hq').1
            simp [hl, hqp, Ne.symm hh0]
          · rw [if_neg hqi]
            exact hH i
    | deliver k =>
      have h1' : deliver k s = some s1 := h1
      simp only [requests, h1, Option.elim_some]
      apply ih'
      · exact split_deliver hS h1'
      · obtain ⟨a, w, b, -, -, rfl⟩ := deliver_some h1'
        exact hH

private theorem notifyRun_miss (f : Int → List Int → V) (rs : List (NotifyReq V)) (g : Int) (x : List Int)
    (h : ∀ r ∈ rs, ¬ r.Touches g x) : notifyRun f rs g x = f g x := by
  induction rs generalizing f with
  | nil => rfl
  | cons r rs ih =>
    have hr := h r List.mem_cons_self
    unfold notifyRun at ih ⊢
    rw [List.foldl_cons, ih _ fun r hr => h r (List.mem_cons_of_mem _ hr)]
    unfold notifyStep
    rw [if_neg fun hh => hr (Or.inl hh), if_neg fun hh => hr (Or.inr hh)]

private theorem step_reqOf (f : Int → List Int → V) (a : Args) (s : St V) (g : Int) (x : List Int) :
    notifyStep f (reqOf a s) g x = if g = a.gn ∧ x = a.e then s.ub a.bufn
      else if g = a.g ∧ InPatch a.lo a.hi x then s.ub (a.buf + bufPos a.lo a.ld x) else f g x := rfl

/-- **C94.** When the wait for a request returns, its patch and its notification are in place: every
element of the patch, and the notification, has the value of the request, unless a later request stored
it again. Other requests, older and newer, may be outstanding. -/
theorem C94_wait {arr : Int → RegArray} {bump : V → V} (hA : ∀ g, ArrOK (arr g)) {a : Args} (ha : ArgsOK arr a)
    {s s1 s2 s3 : St V} (hfree : a.h ∉ s.slots) (h1 : nbputNotify arr bump a s = some s1) (evs : List Ev)
    (hev : ∀ ev ∈ evs, EvOK arr ev) (hfresh : ∀ b, Ev.put b ∈ evs → b.h ≠ a.h) (hw : Ev.wait a.h ∉ evs)
    (h2 : run arr bump evs s1 = some s2) (h3 : nbwaitNotify a.h s2 = some s3) :
    ∀ g x, InArray (arr g).dims x → (reqOf a s).Touches g x →
      (∀ r ∈ requests arr bump evs s1, ¬ r.Touches g x) →
      s3.mem (g, cell (arr g) x) =
        (if g = a.gn ∧ x = a.e then s.ub a.bufn else s.ub (a.buf + bufPos a.lo a.ld x)) := by
  intro g x hx ht hlater
  obtain ⟨pos, W, hq, hsl, hm, hp, -, hP, hI, hW⟩ := put_some hA ha h1
  have hq' : s.slots[pos]? = some 0 := by
    obtain ⟨hl, e, -⟩ := List.findIdx?_eq_some_iff_getElem.1 hq
    rw [List.getElem?_eq_some_iff]
    exact ⟨hl, by simpa using e⟩
  have hH : Holds a.h pos s1 := by
    intro i
    rw [hsl, List.getElem?_set]
    by_cases hqi : pos = i
    · subst hqi
      simp [(List.getElem?_eq_some_iff.1 hq').1]
    · rw [if_neg hqi]
      constructor
      · intro e
        exact absurd (List.mem_of_getElem? e) hfree
      · intro e
        exact absurd e.symm hqi
  have hS : Split arr (W ++ [⟨pos, (a.gn, cell (arr a.gn) a.e), s.ub a.bufn⟩]) pos [] s1 := by
    refine ⟨s.pend, W ++ [⟨pos, (a.gn, cell (arr a.gn) a.e), s.ub a.bufn⟩], [], ?_, ?_, ?_, by simp⟩
    · rw [hp]; simp
    · intro w hw
      rcases List.mem_append.1 hw with hw | hw
      · obtain ⟨y, -, rfl⟩ := (hW w).1 hw
        rfl
      · rw [List.mem_singleton.1 hw]
    · exact fun p => Or.inr fun w hw _ => hw
  obtain ⟨hS2, hH2⟩ := split_run hA ha.handle [] evs hev hfresh hw hS hH h2
  rw [List.nil_append] at hS2
  obtain ⟨e1, e2, -, hc⟩ := wait_some h3
  have hnone : ∀ w ∈ s2.pend, w.slot ≠ pos := by
    rcases hc with ⟨hn, -⟩ | ⟨i, hi, hn, -⟩
    · exact absurd (List.mem_of_getElem? ((hH2 pos).2 rfl)) hn
    · rw [holds_find hH2] at hi
      obtain rfl := Option.some.inj hi
      exact hn
  obtain ⟨O, M, L, e, m1, m2, m3⟩ := hS2.ex
  have hM : M = [] := by
    cases M with
    | nil => rfl
    | cons w M =>
      exact absurd (m1 w List.mem_cons_self) (hnone w (by rw [e]; simp))
  subst hM
  -- a transfer of the request to this element
  have hmine : ∃ w ∈ W ++ [⟨pos, (a.gn, cell (arr a.gn) a.e), s.ub a.bufn⟩], w.key = (g, cell (arr g) x) := by
    rcases ht with ⟨rfl, rfl⟩ | ⟨rfl, hin⟩
    · exact ⟨_, List.mem_append_right _ (List.mem_singleton_self _), rfl⟩
    · exact ⟨_, List.mem_append_left _ ((hW _).2 ⟨x, hin, rfl⟩), rfl⟩
  obtain ⟨w0, hw0, hk0⟩ := hmine
  have hO : ∀ w ∈ O, w.key.2.1 ≠ w0.key.2.1 := by
    rcases m2 w0.key.2.1 with h | h
    · exact h
    · exact absurd (h w0 hw0 rfl) (by simp)
  have hno : ∀ w ∈ s3.pend, w.key ≠ (g, cell (arr g) x) := by
    intro w hw'
    rw [e1, e, List.nil_append] at hw'
    rcases List.mem_append.1 hw' with hw' | hw'
    · intro e'
      exact hO w hw' (by rw [e', hk0])
    · obtain ⟨r, hr, g', y, hy, hty, hky⟩ := m3 w hw'
      intro e'
      rw [hky] at e'
      obtain ⟨rfl, rfl⟩ := key_inj hA hy hx e'
      exact hlater r hr hty
  have hfl := flush_run hA evs hev (s := s1) (f := fun g x => contents arr (flush s1) g x) (fun _ _ _ => rfl) h2 g x hx
  rw [notifyRun_miss _ _ _ _ hlater] at hfl
  have e3 : contents arr (flush s2) g x = s3.mem (g, cell (arr g) x) := by
    unfold contents flush
    rw [applyW_miss _ _ _ (by rw [← e1]; exact hno), e2]
  rw [← e3, hfl]
  have e4 : flush s1 = applyW (W ++ [⟨pos, (a.gn, cell (arr a.gn) a.e), s.ub a.bufn⟩]) (flush s) := by
    unfold flush
    rw [hp, hm, applyW_append]
  rw [e4, put_contents hA hP hI hW (flush s) (f := fun g x => contents arr (flush s) g x) (fun _ _ _ => rfl) g x hx]
  rw [step_reqOf]
  rcases ht with ht | ht
  · have ht' : g = a.gn ∧ x = a.e := ht
    rw [if_pos ht', if_pos ht']
  · have ht' : g = a.g ∧ InPatch a.lo a.hi x := ht
    rw [if_pos ht']

/-! ## the notification and the data -/

private theorem after_deliver {arr : Int → RegArray} {bump : V → V} {m0 : Int × Addr → V} {W : List (Write V)}
    {we : Write V} (ks : List Nat) {s s' : St V}
    (hI : (∃ X, s.pend = X ++ [we] ∧ (∀ w ∈ X, w ∈ W) ∧
        ∀ k, s.mem k = m0 k ∨ ∃ w ∈ W, w.key = k ∧ s.mem k = w.val) ∨
      (∀ w ∈ s.pend, w.key.2.1 ≠ we.key.2.1))
    (h : run arr bump (ks.map Ev.deliver) s = some s') :
    (∃ X, s'.pend = X ++ [we] ∧ (∀ w ∈ X, w ∈ W) ∧
        ∀ k, s'.mem k = m0 k ∨ ∃ w ∈ W, w.key = k ∧ s'.mem k = w.val) ∨
      (∀ w ∈ s'.pend, w.key.2.1 ≠ we.key.2.1) := by
  induction ks generalizing s with
  | nil =>
    obtain rfl := Option.some.inj h
    exact hI
  | cons k ks ih =>
    obtain ⟨s1, h1, h2⟩ := Option.bind_eq_some_iff.1 h
    refine ih ?_ h2
    have h1' : deliver k s = some s1 := h1
    obtain ⟨a, w, b, hp, hf, rfl⟩ := deliver_some h1'
    rcases hI with ⟨X, e, hX, hm⟩ | hn
    · rcases List.eq_nil_or_concat b with rfl | ⟨b', u, rfl⟩
      · -- the last one, the notification
        have : X ++ [we] = a ++ [w] := by rw [← e, hp]
        obtain ⟨rfl, h⟩ := List.append_inj' this rfl
        obtain rfl := List.singleton_inj.1 h
        right
        intro u hu
        dsimp only at hu
        rw [List.append_nil] at hu
        exact hf u hu
      · left
        have : X ++ [we] = (a ++ w :: b') ++ [u] := by rw [← e, hp]; simp
        obtain ⟨rfl, h⟩ := List.append_inj' this rfl
        obtain rfl := List.singleton_inj.1 h
        refine ⟨a ++ b', by simp, ?_, ?_⟩
        · intro v hv
          apply hX
          rcases List.mem_append.1 hv with hv | hv
          · exact List.mem_append_left _ hv
          · exact List.mem_append_right _ (List.mem_cons_of_mem _ hv)
        · intro k'
          dsimp only
          unfold upd
          by_cases hk : k' = w.key
          · rw [if_pos hk]
            exact Or.inr ⟨w, hX w (by simp), hk.symm, rfl⟩
          · rw [if_neg hk]
            exact hm k'
    · right
      intro u hu
      apply hn
      rw [hp]
      rcases List.mem_append.1 hu with hu | hu
      · exact List.mem_append_left _ hu
      · exact List.mem_append_right _ (List.mem_cons_of_mem _ hu)

/-- **C94.** Who sees the value of the notification finds the data, as far as the same process owns them: at
any moment after the call, if the notification element has its new value, and did not have it before, every
element of the patch with the same owner has its new value. This includes notifications inside the patch,
provided incrementing the bytes of an element changes it. Data with other owners: C94_data_late. -/
theorem C94_notify_after_data_partial {arr : Int → RegArray} {bump : V → V} (hb : ∀ v, bump v ≠ v)
    (hA : ∀ g, ArrOK (arr g)) {a : Args} (ha : ArgsOK arr a) {s s1 s2 : St V} (hs : s.pend = [])
    (h1 : nbputNotify arr bump a s = some s1) (ks : List Nat)
    (h2 : run arr bump (ks.map Ev.deliver) s1 = some s2)
    (hold : s.mem (a.gn, cell (arr a.gn) a.e) ≠ s.ub a.bufn)
    (hnew : s2.mem (a.gn, cell (arr a.gn) a.e) = s.ub a.bufn) :
    ∀ x, InPatch a.lo a.hi x → (cell (arr a.g) x).1 = (cell (arr a.gn) a.e).1 →
      s2.mem (a.g, cell (arr a.g) x) =
        (if a.g = a.gn ∧ x = a.e then s.ub a.bufn else s.ub (a.buf + bufPos a.lo a.ld x)) := by
  intro x hx hown
  obtain ⟨pos, W, -, -, hm, hp, -, hP, hI, hW⟩ := put_some hA ha h1
  rw [hs, List.nil_append] at hp
  have key := after_deliver (m0 := s.mem) (W := W) (we := ⟨pos, (a.gn, cell (arr a.gn) a.e), s.ub a.bufn⟩) ks
    (Or.inl ⟨W, hp, fun _ h => h, fun k => Or.inl (by rw [hm])⟩) h2
  have hevs : ∀ ev ∈ ks.map Ev.deliver, EvOK arr ev := by
    intro ev hev
    obtain ⟨k, -, rfl⟩ := List.mem_map.1 hev
    trivial
  rcases key with ⟨X, -, -, hX⟩ | hn
  · exfalso
    rcases hX (a.gn, cell (arr a.gn) a.e) with h | ⟨w, hw, hk, hv⟩
    · exact hold (h.symm.trans hnew)
    · obtain ⟨y, hy, rfl⟩ := (hW w).1 hw
      obtain ⟨hg, rfl⟩ := key_inj hA (hP.inArray hy) hI hk
      rw [hnew] at hv
      dsimp only at hv
      unfold firstVal at hv
      rw [if_pos ⟨hg, rfl⟩] at hv
      exact hb _ hv.symm
  · have hfl := flush_run hA (ks.map Ev.deliver) hevs (s := s1) (f := fun g x => contents arr (flush s1) g x)
      (fun _ _ _ => rfl) h2 a.g x (hP.inArray hx)
    have hreq : ∀ (ks : List Nat) (s : St V), requests arr bump (ks.map Ev.deliver) s = [] := by
      intro ks
      induction ks with
      | nil => intro s; rfl
      | cons k ks ih =>
        intro s
        simp only [List.map_cons, requests]
        cases step arr bump s (Ev.deliver k) with
        | none => rfl
        | some s' => exact ih s'
    rw [hreq] at hfl
    have e3 : contents arr (flush s2) a.g x = s2.mem (a.g, cell (arr a.g) x) := by
      unfold contents flush
      apply applyW_miss
      intro w hw e
      exact hn w hw (by rw [e]; exact hown)
    rw [← e3, hfl]
    have e4 : flush s1 = applyW (W ++ [⟨pos, (a.gn, cell (arr a.gn) a.e), s.ub a.bufn⟩]) s.mem := by
      unfold flush
      rw [hp, hm]
    show contents arr (flush s1) a.g x = _
    rw [e4, put_contents hA hP hI hW s.mem (f := fun g x => contents arr s.mem g x) (fun _ _ _ => rfl) a.g x
      (hP.inArray hx)]
    rw [step_reqOf]
    split
    · rfl
    · rw [if_pos ⟨rfl, hx⟩]

/-! ## buffers, handles, offsets -/

/-- The caller's buffer is left alone by requests whose notification is not in the patch. If it is, its
element of the buffer is changed, and nothing changes it back. -/
theorem C94_user_buffer {arr : Int → RegArray} {bump : V → V} (hA : ∀ g, ArrOK (arr g)) {a : Args}
    (ha : ArgsOK arr a) {s s1 : St V} (h1 : nbputNotify arr bump a s = some s1) :
    (¬ (a.g = a.gn ∧ InPatch a.lo a.hi a.e) → s1.ub = s.ub) ∧
    (a.g = a.gn ∧ InPatch a.lo a.hi a.e → s1.ub (a.buf + bufPos a.lo a.ld a.e) = bump (s.ub a.bufn) ∧
      ∀ (ks : List Nat) (h : Int) (s2 s3 : St V), run arr bump (ks.map Ev.deliver) s1 = some s2 → nbwaitNotify h s2 = some s3 →
        s3.ub (a.buf + bufPos a.lo a.ld a.e) = bump (s.ub a.bufn)) := by
  obtain ⟨pos, W, -, -, -, -, hub, -⟩ := put_some hA ha h1
  constructor
  · intro hn
    rw [hub, if_neg hn]
  · intro hi
    rw [if_pos hi] at hub
    have e : s1.ub (a.buf + bufPos a.lo a.ld a.e) = bump (s.ub a.bufn) := by
      rw [hub, ← ha.elem hi.1 hi.2]
      unfold upd
      rw [if_pos rfl]
    refine ⟨e, ?_⟩
    intro ks h s2 s3 h2 h3
    obtain ⟨-, -, e3, -⟩ := wait_some h3
    have : ∀ (ks : List Nat) (t : St V), run arr bump (ks.map Ev.deliver) t = some s2 → s2.ub = t.ub := by
      intro ks
      induction ks with
      | nil => intro t ht; rw [Option.some.inj ht]
      | cons k ks ih =>
        intro t ht
        obtain ⟨t1, q1, q2⟩ := Option.bind_eq_some_iff.1 ht
        rw [ih t1 q2]
        have q1' : deliver k t = some t1 := q1
        obtain ⟨_, _, _, -, -, rfl⟩ := deliver_some q1'
        rfl
    rw [e3, this ks s1 h2, e]

/-- **C94.** With one or two dimensions the check of the notification's place in the buffer accepts the
right place and no other. -/
theorem C94_check_two_dimensions_partial {lo ld e : List Int} (h1 : e.length = lo.length)
    (h2 : ld.length + 1 = lo.length) (h : lo.length ≤ 2) (off : Int) :
    putnOff lo ld e = off ↔ off = bufPos lo ld e := by
  match lo, ld, e, h1, h2, h with
  | [l], [], [c], _, _, _ => simp only [putnOff, offLoop, bufPos]; omega
  | [l, l'], [d], [c, c'], _, _, _ =>
    simp only [putnOff, offLoop, bufPos]
    rw [Int.mul_comm]
    omega

/-- With three dimensions the check refuses the right place of every notification outside the first plane
of the patch, if the patch is more than one element wide in the first dimension. -/
theorem C94_three_dimensions_refused {arr : Int → RegArray} {bump : V → V} {a : Args} {s : St V}
    {l0 l1 l2 h0 h1 h2 d0 d1 e0 e1 e2 : Int} (hlo : a.lo = [l0, l1, l2]) (hhi : a.hi = [h0, h1, h2])
    (hld : a.ld = [d0, d1]) (he : a.e = [e0, e1, e2]) (hin : InPatch a.lo a.hi a.e) (hg : a.g = a.gn)
    (hplane : e2 ≠ l2) (hd0 : 2 ≤ d0) (hd1 : 1 ≤ d1) (hb : a.bufn = a.buf + bufPos a.lo a.ld a.e) :
    nbputNotify arr bump a s = none := by
  have hi : intersects a.lo a.hi a.e = true :=
    (intersects_iff (by rw [hlo, hhi]; rfl) (by rw [hlo, he]; rfl)).2 hin
  unfold nbputNotify
  cases emptySlot s.slots with
  | none => rfl
  | some pos =>
    rw [Option.bind_some, if_pos ⟨hg, hi⟩, if_neg]
    rw [hb, hlo, hld, he]
    simp only [putnOff, offLoop, bufPos]
    rw [hlo, hhi, he] at hin
    have hin' : (l0 ≤ e0 ∧ e0 ≤ h0) ∧ (l1 ≤ e1 ∧ e1 ≤ h1) ∧ (l2 ≤ e2 ∧ e2 ≤ h2) ∧ True := hin
    have hpos : 0 < d1 * (e2 - l2) := Int.mul_pos (by omega) (by omega)
    have hmul : 2 * (d1 * (e2 - l2)) ≤ d0 * (d1 * (e2 - l2)) := Int.mul_le_mul_of_nonneg_right hd0 (by omega)
    intro e
    rw [Int.mul_comm (e1 - l1) d0, Int.mul_comm (e2 - l2) d1, Int.mul_add] at e
    omega

/-- a wait for a handle that no outstanding request has returns at once, whatever is pending -/
theorem C94_unknown_handle (h : Int) (s : St V) (hn : h ∉ s.slots) : nbwaitNotify h s = some s := by
  unfold nbwaitNotify
  have : s.slots.findIdx? (· == h) = none := by
    rw [List.findIdx?_eq_none_iff]
    intro k hk
    simp only [beq_eq_false_iff_ne, ne_eq]
    intro e
    exact hn (e ▸ hk)
  rw [this]

/-- slots in use -/
def usedSlots (s : St V) : Nat := s.slots.countP (· != 0)

/-- **C94.** The table: a request takes one free slot, the wait for it gives one back, deliveries do not
matter; a valid request on arrays that fit is refused exactly if all slots are in use. -/
theorem C94_slots {arr : Int → RegArray} {bump : V → V} (hA : ∀ g, ArrOK (arr g)) :
    (∀ a (s s' : St V), ArgsOK arr a → nbputNotify arr bump a s = some s' →
      usedSlots s' = usedSlots s + 1 ∧ s'.slots.length = s.slots.length) ∧
    (∀ h (s s' : St V), h ≠ 0 → nbwaitNotify h s = some s' → h ∈ s.slots →
      usedSlots s' + 1 = usedSlots s ∧ s'.slots.length = s.slots.length) ∧
    (∀ k (s s' : St V), deliver k s = some s' → usedSlots s' = usedSlots s ∧ s'.slots.length = s.slots.length) ∧
    (∀ a (s : St V), ArgsOK arr a → PatchOK (arr a.g).dims a.lo a.hi → InArray (arr a.gn).dims a.e →
      FitsOne a.E a.lo a.hi → FitsOne a.E' a.e a.e →
      (a.g = a.gn → InPatch a.lo a.hi a.e → a.lo.length ≤ 2) →
      ((nbputNotify arr bump a s).isSome ↔ usedSlots s < s.slots.length)) := by
  refine ⟨?_, ?_, ?_, ?_⟩
  · intro a s s' ha h
    obtain ⟨pos, W, hq, hsl, -⟩ := put_some hA ha h
    obtain ⟨hl, e, -⟩ := List.findIdx?_eq_some_iff_getElem.1 hq
    have e' : s.slots[pos] = 0 := by simpa using e
    unfold usedSlots
    rw [hsl, List.countP_set hl, List.length_set]
    simp [e', ha.handle]
  · intro h s s' h0 hw hm
    obtain ⟨-, -, -, hc⟩ := wait_some hw
    rcases hc with ⟨hn, -⟩ | ⟨i, hi, -, hsl⟩
    · exact absurd hm hn
    · obtain ⟨hl, e, -⟩ := List.findIdx?_eq_some_iff_getElem.1 hi
      have e' : s.slots[i] = h := by simpa using e
      unfold usedSlots
      rw [hsl, List.countP_set hl, List.length_set]
      have hpos : 0 < s.slots.countP (· != 0) := List.countP_pos_iff.2 ⟨h, hm, by simp [h0]⟩
      simp only [e', bne_iff_ne, ne_eq, h0, not_false_eq_true, if_true, not_true_eq_false, if_false, and_true]
      omega
  · intro k s s' h
    obtain ⟨_, _, _, -, -, rfl⟩ := deliver_some h
    exact ⟨rfl, rfl⟩
  · intro a s ha hP hI hf hf' h2
    have hel : a.e.length = (arr a.gn).dims.length := ha.dims'
    obtain ⟨ps, hps⟩ := regPieces_fits (hA _) ha.env hP hf
    have hee : a.e ∈ box a.e a.e := by rw [Ghost.box_self]; exact List.mem_singleton_self _
    have hPe : PatchOK (arr a.gn).dims a.e a.e := ⟨hI, hI, mem_box.1 hee⟩
    obtain ⟨qs, hqs⟩ := regPieces_fits (hA _) ha.env' hPe hf'
    have hiff : (emptySlot s.slots).isSome ↔ usedSlots s < s.slots.length := by
      unfold emptySlot usedSlots
      rw [List.findIdx?_isSome, List.any_eq_true]
      constructor
      · rintro ⟨k, hk, hk0⟩
        apply Nat.lt_of_le_of_ne List.countP_le_length
        intro e
        have := List.countP_eq_length.1 e k hk
        simp only [beq_iff_eq] at hk0
        simp [hk0] at this
      · intro hlt
        by_contra hne
        have : s.slots.countP (· != 0) = s.slots.length := by
          rw [List.countP_eq_length]
          intro k hk
          simp only [bne_iff_ne, ne_eq]
          intro e
          exact hne ⟨k, hk, by simp [e]⟩
        omega
    rw [← hiff]
    unfold nbputNotify
    cases emptySlot s.slots with
    | none => simp
    | some pos =>
      rw [Option.bind_some]
      split
      · rename_i hc
        have hin : InPatch a.lo a.hi a.e :=
          (intersects_iff ha.ld.length.1 (by rw [ha.dims', ← hc.1, ha.dims])).1 hc.2
        rw [if_pos]
        · rw [hc.1] at hps
          simp [hc.1, hps, hqs]
        · rw [C94_check_two_dimensions_partial (by rw [ha.dims', ← hc.1, ha.dims]) ha.ld.length.2 (h2 hc.1 hin),
            ha.elem hc.1 hin]
          omega
      · simp [hps, hqs]

end

/-! Witnesses and non-vacuity: one array of four elements on two processes, two elements each; the
caller's memory holds its positions. -/

private def exN : RegArray := ⟨[4], [2], [1, 3], [0]⟩
private def exNE : Env := ⟨[0], [0], fun i => i, fun _ => true, 8, 2147483648⟩
private def exN2 : RegArray := ⟨[3, 2], [1, 1], [1, 1], [0, 0]⟩
private def exNE2 : Env := ⟨[0, 0], [0, 0], fun i => i, fun _ => true, 8, 2147483648⟩
private def exArr (g : Int) : RegArray := if g = 2 then exN2 else exN
private def exS : St Int := init (fun _ => 0) (fun i => 100 + i)
/-- elements 1 and 2 from positions 10, 11; notification element 4, on the other process, from position 20 -/
private def exFar : Args := ⟨exNE, exNE, 0, [1], [2], [], 10, 0, [4], 20, 7⟩
/-- elements 1 to 2; notification element 2 itself -/
private def exIn : Args := ⟨exNE, exNE, 0, [1], [2], [], 10, 0, [2], 11, 7⟩
/-- two rows and two columns; the notification is inside -/
private def exTwo : Args := ⟨exNE2, exNE2, 2, [2, 1], [3, 2], [5], 10, 2, [3, 2], 16, 8⟩

private theorem exArr_ok (g : Int) : ArrOK (exArr g) := by
  unfold exArr
  split
  · exact ⟨by decide, by decide, by decide⟩
  · exact ⟨by decide, by decide, by decide⟩

private theorem exEnvs : EnvOK exNE exN ∧ EnvOK exNE2 exN2 :=
  ⟨⟨by simp [CandOK, exN, exNE], by simp [CandOK, exN, exNE], by decide, by decide⟩,
   ⟨by simp [CandOK, exN2, exNE2], by simp [CandOK, exN2, exNE2], by decide, by decide⟩⟩

example : ArgsOK exArr exFar :=
  ⟨exEnvs.1, exEnvs.1, by decide, by decide, by decide, by decide, by decide⟩
example : ArgsOK exArr exIn :=
  ⟨exEnvs.1, exEnvs.1, by decide, by decide, by decide, by decide, by decide⟩
example : ArgsOK exArr exTwo :=
  ⟨exEnvs.2, exEnvs.2, by decide, by decide, by decide, by decide, by decide⟩

/-- two requests, deliveries in a mixed order, both waits -/
example : ((run exArr (· + 1) [.put exFar, .put exTwo, .deliver 2, .deliver 0, .deliver 0, .wait 7,
    .deliver 0, .deliver 0, .deliver 0, .deliver 0, .deliver 0, .wait 8] exS).map fun s =>
      (s.pend.length, s.slots.take 2, s.mem (0, (0, 0)), s.mem (0, (0, 1)), s.mem (0, (1, 1)), s.mem (2, (0, 5)))) =
    some (0, [0, 0], 110, 111, 120, 116) := by decide +kernel

/-- The notification can be seen before data on another process: after one delivery element 4 has its new
value and elements 1 and 2 still have their old ones. -/
theorem C94_data_late : ((run exArr (· + 1) [.put exFar, .deliver 2] exS).map fun s =>
    (s.mem (0, cell exN [4]), s.mem (0, cell exN [1]), s.mem (0, cell exN [2]))) = some (120, 0, 0) := by
  decide +kernel

/-- A handle used for two outstanding requests: the wait for it returns with transfers of the second
request pending, and one slot is never given back by it. -/
theorem C94_handle_twice : ((run exArr (· + 1) [.put exFar, .put exFar, .deliver 0, .deliver 0, .deliver 0, .wait 7]
    exS).map fun s => (s.pend.length, usedSlots s)) = some (3, 1) := by decide +kernel

/-- A request with the notification inside the patch, delivered and waited for: the array is right and the
caller's buffer is not what it was. -/
theorem C94_buffer_changed : ((run exArr (· + 1) [.put exIn, .deliver 0, .deliver 0, .deliver 0, .wait 7] exS).map
    fun s => (s.mem (0, cell exN [1]), s.mem (0, cell exN [2]), s.ub 10, s.ub 11, exS.ub 11)) =
    some (110, 111, 110, 112, 111) := by decide +kernel

end GA
