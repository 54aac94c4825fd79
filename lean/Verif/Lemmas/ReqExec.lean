import Verif.Lemmas.ReqTest
import Verif.Spec.Requests

/-! # Request slots: issuing, whole calls and histories -/

namespace GA.Req

/-! ## Appending -/

theorem Inv.push {N : Nat} {s : St} {P : Nat → Bool → List Nat} (h : Inv N s P) {i : Nat}
    (hi : i < N) (hu : s.inUse i = true) (b : Bool) (ht : (s.q i b).tail = (P i b).getLast?) :
    Inv N (Req.push s i b) (setP P i b (P i b ++ [s.fresh])) ∧
      ((Req.push s i b).q i b).tail = some s.fresh ∧ (Req.push s i b).inUse = s.inUse ∧
      (Req.push s i b).fresh = s.fresh + 1 ∧ (Req.push s i b).log = s.log ∧ (Req.push s i b).idx = s.idx ∧
      (∀ j c, ¬ (j = i ∧ c = b) → (Req.push s i b).q j c = s.q j c) := by
  have hfr : ∀ j c, s.fresh ∉ P j c := fun j c hm => by
    have := (h.all s.fresh).2 (Or.inr ⟨j, c, hm⟩); omega
  have hfl : s.fresh ∉ s.log := fun hm => by
    have := (h.all s.fresh).2 (Or.inl hm); omega
  have hlt : ∀ j c m, m ∈ P j c → m ≠ s.fresh := fun j c m hm e => hfr j c (e ▸ hm)
  have hq1 : (Req.push s i b).q i b = ⟨(P i b ++ [s.fresh]).head?, some s.fresh, (s.q i b).size + 1⟩ := by
    show (setQ s i b _).q i b = _
    rw [setQ_same, h.head]
    cases P i b <;> rfl
  have hq2 : ∀ j c, ¬ (j = i ∧ c = b) → (Req.push s i b).q j c = s.q j c := fun j c hjc => setQ_ne _ _ hjc
  have hnext : ∀ x, x ≠ s.fresh → (P i b).getLast? ≠ some x → (Req.push s i b).next x = s.next x := by
    intro x h1 h2
    show (match (s.q i b).tail with
      | some t => set (set s.next s.fresh none) t (some s.fresh)
      | none => set s.next s.fresh none) x = _
    rw [ht]
    cases hl : (P i b).getLast? with
    | none => exact set_ne _ _ h1
    | some t =>
      have : x ≠ t := fun e => h2 (by rw [hl, e])
      simp only
      rw [set_ne _ _ this, set_ne _ _ h1]
  have herr : (Req.push s i b).err = false := by
    show (s.err || (match (s.q i b).tail with
      | some t => !(set s.live s.fresh true) t
      | none => false)) = false
    rw [h.err, ht]
    cases hl : (P i b).getLast? with
    | none => rfl
    | some t =>
      have hm := List.mem_of_getLast? hl
      simp only [Bool.false_or, Bool.not_eq_false']
      rw [set_ne _ _ (hlt i b t hm)]
      exact (h.live t).2 ⟨i, b, hm⟩
  have hin : ∀ x j c, x ∈ setP P i b (P i b ++ [s.fresh]) j c ↔ x ∈ P j c ∨ (j = i ∧ c = b ∧ x = s.fresh) := by
    intro x j c
    by_cases hjc : j = i ∧ c = b
    · obtain ⟨rfl, rfl⟩ := hjc; rw [setP_same]; simp
    · rw [setP_ne _ _ hjc]; tauto
  refine ⟨⟨⟨?_, ?_, ?_, ?_, ?_, ?_, ?_, h.lognd, ?_, ?_, ?_, ?_, ?_, h.evP, herr⟩, ?_, ?_, h.idx⟩,
    by rw [hq1], rfl, rfl, rfl, rfl, hq2⟩
  · intro j c
    by_cases hjc : j = i ∧ c = b
    · obtain ⟨rfl, rfl⟩ := hjc
      rw [setP_same]
      show Linked (match (s.q j c).tail with
        | some t => set (set s.next s.fresh none) t (some s.fresh)
        | none => set s.next s.fresh none) _
      rw [ht]
      cases hl : (P j c).getLast? with
      | none =>
        have : P j c = [] := List.getLast?_eq_none_iff.1 hl
        simp [this, Linked]
      | some t =>
        refine Linked.append ?_ (h.nodup j c) hl (by simp) (hfr j c)
        exact (h.linked j c).congr fun x hx => set_ne _ _ (hlt j c x hx)
    · rw [setP_ne _ _ hjc]
      refine (h.linked j c).congr fun x hx => hnext x (hlt j c x hx) ?_
      intro e
      exact hjc (h.disj x i b j c (List.mem_of_getLast? e) hx)
  · intro j c hj
    by_cases hjc : j = i ∧ c = b
    · obtain ⟨rfl, rfl⟩ := hjc; rw [setP_same] at hj; simp at hj
    · rw [setP_ne _ _ hjc] at hj
      rw [hq2 j c hjc]; exact h.tail0 j c hj
  · intro j c t
    by_cases hjc : j = i ∧ c = b
    · obtain ⟨rfl, rfl⟩ := hjc
      rw [setP_same, hq1]
      intro e; simp only [Option.some.injEq] at e; subst e; simp
    · rw [setP_ne _ _ hjc, hq2 j c hjc]; exact h.tailL j c t
  · intro j c
    by_cases hjc : j = i ∧ c = b
    · obtain ⟨rfl, rfl⟩ := hjc; rw [setP_same, hq1]; simp [h.size]
    · rw [setP_ne _ _ hjc, hq2 j c hjc]; exact h.size j c
  · intro j c hj
    rw [setP_ne _ _ (fun e => by omega)]; exact h.range j c hj
  · intro j c
    by_cases hjc : j = i ∧ c = b
    · obtain ⟨rfl, rfl⟩ := hjc
      rw [setP_same, List.nodup_append]
      refine ⟨h.nodup j c, by simp, ?_⟩
      intro x hx y hy
      simp only [List.mem_singleton] at hy
      rw [hy]; exact hlt j c x hx
    · rw [setP_ne _ _ hjc]; exact h.nodup j c
  · intro x j c k d h1 h2
    rw [hin] at h1 h2
    rcases h1 with h1 | ⟨rfl, rfl, rfl⟩ <;> rcases h2 with h2 | ⟨rfl, rfl, e⟩
    · exact h.disj x j c k d h1 h2
    · exact absurd e (hlt j c x h1)
    · exact absurd h2 (hfr k d)
    · exact ⟨rfl, rfl⟩
  · intro x j c hx
    rw [hin] at hx
    rcases hx with hx | ⟨_, _, rfl⟩
    · exact h.logdj x j c hx
    · exact hfl
  · intro x
    show x < s.fresh + 1 ↔ x ∈ s.log ∨ _
    constructor
    · intro hx
      by_cases e : x = s.fresh
      · right; exact ⟨i, b, (hin x i b).2 (Or.inr ⟨rfl, rfl, e⟩)⟩
      · rcases (h.all x).1 (by omega) with h1 | ⟨j, c, h1⟩
        · left; exact h1
        · right; exact ⟨j, c, (hin x j c).2 (Or.inl h1)⟩
    · rintro (h1 | ⟨j, c, h1⟩)
      · have := (h.all x).2 (Or.inl h1); omega
      · rw [hin] at h1
        rcases h1 with h1 | ⟨_, _, rfl⟩
        · have := (h.all x).2 (Or.inr ⟨j, c, h1⟩); omega
        · omega
  · intro x
    show set s.live s.fresh true x = true ↔ _
    by_cases e : x = s.fresh
    · subst e
      simp only [set_same, true_iff]
      exact ⟨i, b, (hin _ i b).2 (Or.inr ⟨rfl, rfl, rfl⟩)⟩
    · rw [set_ne _ _ e, h.live x]
      constructor
      · rintro ⟨j, c, h1⟩; exact ⟨j, c, (hin x j c).2 (Or.inl h1)⟩
      · rintro ⟨j, c, h1⟩
        rw [hin] at h1
        rcases h1 with h1 | ⟨_, _, h1⟩
        · exact ⟨j, c, h1⟩
        · exact absurd h1 e
  · intro c
    show set s.cnt b (s.cnt b + 1) c = s.cntP c + _
    have h1 := h.cnt c
    have h2 := sum_setP P hi b c (P i b ++ [s.fresh])
    simp only [List.length_append, List.length_singleton] at h2
    by_cases hc : c = b
    · subst hc
      simp only [if_true] at h2
      rw [set_same]; omega
    · simp only [hc, if_false] at h2
      rw [set_ne _ _ hc]; omega
  · show s.ev + 1 = set s.cnt b (s.cnt b + 1) false + set s.cnt b (s.cnt b + 1) true
    have := h.ev
    cases b <;> simp [set] <;> omega
  · intro j c
    by_cases hjc : j = i ∧ c = b
    · obtain ⟨rfl, rfl⟩ := hjc; rw [setP_same, hq1]
    · rw [setP_ne _ _ hjc, hq2 j c hjc]; exact h.head j c
  · intro j c hj
    have hne : j ≠ i := by
      intro e; subst e
      rw [show (Req.push s j b).inUse = s.inUse from rfl, hu] at hj; simp at hj
    rw [setP_ne _ _ (fun e => hne e.1)]
    exact h.free j c hj

theorem issue_ok {N : Nat} (ks : List Bool) {s : St} {P : Nat → Bool → List Nat} (h : Inv N s P)
    {i : Nat} (hi : i < N) (hu : s.inUse i = true) (ht : ∀ b, (s.q i b).tail = (P i b).getLast?) :
    Inv N (ks.foldl (fun t b => Req.push t i b) s)
      (fun j c => if j = i then P i c ++ newMsgs s.fresh ks c else P j c) ∧
      (ks.foldl (fun t b => Req.push t i b) s).inUse = s.inUse ∧
      (ks.foldl (fun t b => Req.push t i b) s).log = s.log ∧
      (ks.foldl (fun t b => Req.push t i b) s).fresh = s.fresh + ks.length := by
  induction ks generalizing s P with
  | nil =>
    have : (fun j c => if j = i then P i c ++ newMsgs s.fresh [] c else P j c) = P := by
      funext j c; split
      · rename_i e; subst e; simp [newMsgs]
      · rfl
    rw [this]
    exact ⟨h, rfl, rfl, rfl⟩
  | cons k ks ih =>
    obtain ⟨a1, a2, a3, a4, a5, a6, a7⟩ := h.push hi hu k (ht k)
    obtain ⟨b1, b2, b3, b4⟩ := ih a1 (by rw [a3]; exact hu) (by
      intro b
      by_cases hb : b = k
      · subst hb; rw [a2, setP_same]; simp
      · rw [a7 i b (fun e => hb e.2), setP_ne _ _ (fun e => hb e.2), ht b])
    simp only [List.foldl_cons]
    refine ⟨?_, by rw [b2, a3], by rw [b3, a5], by rw [b4, a4]; simp; omega⟩
    convert b1 using 1
    funext j c
    split
    · rename_i e
      subst e
      rw [a4]
      by_cases hc : c = k
      · subst hc; rw [setP_same]; simp [newMsgs]
      · rw [setP_ne _ _ (fun e => hc e.2)]
        simp [newMsgs, Ne.symm hc]
    · rename_i e
      rw [setP_ne _ _ (fun k => e k.1)]

/-! ## Choosing a slot -/

theorem findFree_some {N : Nat} {u : Nat → Bool} {k l r : Nat} (hl : l < N)
    (h : findFree N u k l = some r) : r < N ∧ u r = false := by
  induction k generalizing l with
  | zero => simp [findFree] at h
  | succ k ih =>
    unfold findFree at h
    split at h
    · exact ih (Nat.mod_lt _ (by omega)) h
    · simp only [Option.some.injEq] at h
      subst h
      rename_i hu
      exact ⟨hl, by simpa using hu⟩

/-- the search visits `l, l+1, ...` cyclically -/
theorem findFree_none {N : Nat} {u : Nat → Bool} {k l : Nat} (hl : l < N)
    (h : findFree N u k l = none) : ∀ d, d < k → u ((l + d) % N) = true := by
  induction k generalizing l with
  | zero => intro d hd; omega
  | succ k ih =>
    unfold findFree at h
    split at h
    · rename_i hu
      intro d hd
      cases d with
      | zero => rw [Nat.add_zero, Nat.mod_eq_of_lt hl]; exact hu
      | succ d =>
        have := ih (Nat.mod_lt _ (by omega)) h d (by omega)
        rw [Nat.mod_add_mod] at this
        rw [show l + (d + 1) = l + 1 + d by omega]
        exact this
    · simp at h

theorem findFree_none_all {N : Nat} {u : Nat → Bool} {l : Nat} (hl : l < N)
    (h : findFree N u N l = none) (j : Nat) (hj : j < N) : u j = true := by
  by_cases hjl : l ≤ j
  · have := findFree_none hl h (j - l) (by omega)
    rw [show l + (j - l) = j by omega, Nat.mod_eq_of_lt hj] at this
    exact this
  · have := findFree_none hl h (N - l + j) (by omega)
    rw [show l + (N - l + j) = j + N by omega, Nat.add_mod_right, Nat.mod_eq_of_lt hj] at this
    exact this

theorem handleIndex_of {N l : Nat} (hl : l < N) :
    (if (l + 1) % N = 0 then N - 1 else (l + 1) % N - 1) = l := by
  by_cases h : l + 1 = N
  · rw [h, Nat.mod_self]; simp; omega
  · rw [Nat.mod_eq_of_lt (by omega)]; simp

theorem Inv.congr_use {N : Nat} {s : St} {P : Nat → Bool → List Nat} (h : Inv N s P)
    (u : Nat → Bool) (k : Nat) (hk : k < N) (hu : ∀ j c, u j = false → P j c = []) :
    Inv N { s with idx := k, inUse := u } P :=
  ⟨⟨h.linked, h.tail0, h.tailL, h.size, h.range, h.nodup, h.disj, h.lognd, h.logdj, h.all, h.live,
    h.cnt, h.ev, h.evP, h.err⟩, h.head, hu, hk⟩

theorem getSlot_ok {N : Nat} {s : St} {P : Nat → Bool → List Nat} (h : Inv N s P) :
    ∃ i, (getSlot N s).2 = i ∧ i < N ∧ Inv N (getSlot N s).1 (cleared P i) ∧
      (getSlot N s).1.inUse i = true ∧ handleIndex N (getSlot N s).1 = i ∧
      (∃ L, (getSlot N s).1.log = s.log ++ L ∧ L.Perm (P i false ++ P i true) ∧
        (P i false).Sublist L ∧ (P i true).Sublist L) ∧
      (getSlot N s).1.fresh = s.fresh ∧
      ((P i false ≠ [] ∨ P i true ≠ []) → ∀ j, j < N → s.inUse j = true) := by
  unfold getSlot
  cases hf : findFree N s.inUse N s.idx with
  | some l =>
    obtain ⟨hl, hu⟩ := findFree_some h.idx hf
    have e1 := h.free l false hu
    have e2 := h.free l true hu
    have hc : cleared P l = P := by
      funext j c; unfold cleared; split
      · rename_i e; subst e; cases c <;> simp [e1, e2]
      · rfl
    refine ⟨l, rfl, hl, ?_, by simp, ?_, ⟨[], by simp, by simp [e1, e2], by simp [e1], by simp [e2]⟩, rfl, ?_⟩
    · rw [hc]
      refine h.congr_use _ _ (Nat.mod_lt _ (by omega)) ?_
      intro j c hj
      by_cases e : j = l
      · subst e; simp at hj
      · exact h.free j c (by rwa [set_ne _ _ e] at hj)
    · exact handleIndex_of hl
    · rintro (hh | hh)
      · exact absurd e1 hh
      · exact absurd e2 hh
  | none =>
    obtain ⟨a1, a2, a3, a4⟩ := h.waitFor s.idx
    have hi : (Req.waitFor s s.idx).idx = s.idx := by
      have : ∀ (f : Nat) (s : St) (i : Nat), (waitLoop i f s).idx = s.idx := by
        intro f
        induction f with
        | zero => intro s i; unfold waitLoop; split <;> rfl
        | succ f ih =>
          intro s i
          unfold waitLoop
          split
          · rfl
          · have w : ∀ (s : St) b, (Req.wait1 s i b).idx = s.idx := by
              intro s b; unfold Req.wait1; simp only; split <;> rfl
            simp only
            rw [ih]
            split <;> split <;> simp [w]
      exact this ..
    refine ⟨s.idx, rfl, h.idx, ?_, by simp, ?_, a2, a4, fun _ => findFree_none_all h.idx hf⟩
    · refine a1.congr_use _ _ (Nat.mod_lt _ (by have := h.idx; omega)) ?_
      intro j c hj
      by_cases e : j = s.idx
      · subst e; simp at hj
      · refine a1.free j c ?_
        simp only at hj
        rwa [set_ne _ _ e] at hj
    · show (if ((Req.waitFor s s.idx).idx + 1) % N = 0 then N - 1 else ((Req.waitFor s s.idx).idx + 1) % N - 1) = _
      rw [hi]
      exact handleIndex_of h.idx

/-! ## Reading the queues -/

theorem walk_linked {nx : Nat → Option Nat} {L : List Nat} (h : Linked nx L) (f : Nat)
    (hf : L.length ≤ f) : walk nx f L.head? = L := by
  induction L generalizing f with
  | nil => cases f <;> rfl
  | cons m t ih =>
    cases f with
    | zero => simp at hf
    | succ f =>
      simp only [List.head?_cons, walk, h.1]
      rw [ih h.2 f (by simpa using hf)]

theorem Inv.pending {N : Nat} {s : St} {P : Nat → Bool → List Nat} (h : Inv N s P) (i : Nat) (b : Bool) :
    pending s i b = P i b := by
  unfold Req.pending
  rw [h.head]
  exact walk_linked (h.linked i b) _ (length_le_fresh h.toCore i b)

theorem Inv.noErr {N : Nat} {s : St} {P : Nat → Bool → List Nat} (h : Inv N s P) {e : Bool}
    (he : e = false) : Inv N { s with err := e } P :=
  ⟨⟨h.linked, h.tail0, h.tailL, h.size, h.range, h.nodup, h.disj, h.lognd, h.logdj, h.all, h.live,
    h.cnt, h.ev, h.evP, he⟩, h.head, h.free, h.idx⟩

/-! ## Whole calls -/

theorem exec_issue {N : Nat} {s : St} {P : Nat → Bool → List Nat} (h : Inv N s P) (ks : List Bool) :
    ∃ i, (exec N s (.issue ks)).2 = i ∧ i < N ∧
      Inv N (exec N s (.issue ks)).1 (fun j c => if j = i then newMsgs s.fresh ks c else P j c) ∧
      (∃ L, (exec N s (.issue ks)).1.log = s.log ++ L ∧ L.Perm (P i false ++ P i true) ∧
        (P i false).Sublist L ∧ (P i true).Sublist L) ∧
      (exec N s (.issue ks)).1.fresh = s.fresh + ks.length ∧
      (exec N s (.issue ks)).1.inUse i = true ∧
      ((P i false ≠ [] ∨ P i true ≠ []) → ∀ j, j < N → s.inUse j = true) := by
  obtain ⟨i, a1, a2, a3, a4, a5, a6, a7, a8⟩ := getSlot_ok h
  have hcl : ∀ c, cleared P i i c = [] := by intro c; simp [cleared]
  obtain ⟨b1, b2, b3, b4⟩ := issue_ok ks a3 a2 a4 (by
    intro b; rw [hcl]; exact a3.tail0 i b (hcl b))
  refine ⟨i, a5, a2, ?_, ?_, ?_, ?_, a8⟩
  · show Inv N { ks.foldl (fun t b => Req.push t (getSlot N s).2 b) (getSlot N s).1 with
      err := _ || !decide (handleIndex N (getSlot N s).1 = (getSlot N s).2) } _
    rw [a1]
    have : (fun j c => if j = i then cleared P i i c ++ newMsgs (getSlot N s).1.fresh ks c else cleared P i j c)
        = (fun j c => if j = i then newMsgs s.fresh ks c else P j c) := by
      funext j c
      rw [a7]
      split
      · simp [hcl]
      · rename_i e; simp [cleared, e]
    rw [this] at b1
    refine b1.noErr ?_
    rw [b1.err, a5]; simp
  · show ∃ L, (ks.foldl (fun t b => Req.push t (getSlot N s).2 b) (getSlot N s).1).log = _ ∧ _
    rw [a1, b3]; exact a6
  · show (ks.foldl (fun t b => Req.push t (getSlot N s).2 b) (getSlot N s).1).fresh = _
    rw [a1, b4, a7]
  · show (ks.foldl (fun t b => Req.push t (getSlot N s).2 b) (getSlot N s).1).inUse i = _
    rw [a1, b2]; exact a4

theorem exec_wait {N : Nat} {s : St} {P : Nat → Bool → List Nat} (h : Inv N s P) {i : Nat} (hi : i < N) :
    Inv N (exec N s (.wait i)).1 (cleared P i) ∧
      (∃ L, (exec N s (.wait i)).1.log = s.log ++ L ∧ L.Perm (P i false ++ P i true) ∧
        (P i false).Sublist L ∧ (P i true).Sublist L) ∧
      (exec N s (.wait i)).1.fresh = s.fresh ∧ (exec N s (.wait i)).1.inUse i = false := by
  obtain ⟨a1, a2, a3, a4⟩ := h.waitFor i
  unfold Req.exec
  simp only [if_pos hi]
  refine ⟨?_, a2, a4, by simp⟩
  refine a1.congr_use (set (Req.waitFor s i).inUse i false) _ a1.idx ?_
  intro j c hj
  by_cases e : j = i
  · subst e; simp [cleared]
  · exact a1.free j c (by rwa [set_ne _ _ e] at hj)

theorem exec_test {N : Nat} {s : St} {P : Nat → Bool → List Nat} (h : Inv N s P) {i : Nat} (hi : i < N)
    (fl : Nat → Bool) :
    ∃ P', Inv N (exec N s (.test i fl)).1 P' ∧ (∀ b, P' i b = keep fl (P i b)) ∧
      (∀ j c, j ≠ i → P' j c = P j c) ∧
      (∃ L, (exec N s (.test i fl)).1.log = s.log ++ L ∧
        L.Perm ((P i false).filter fl ++ (P i true).filter fl) ∧
        ((P i false).filter fl).Sublist L ∧ ((P i true).filter fl).Sublist L) ∧
      (exec N s (.test i fl)).2 = (if P' i false = [] ∧ P' i true = [] then 0 else 1) ∧
      (exec N s (.test i fl)).1.fresh = s.fresh := by
  obtain ⟨s', P', a1, a2, a3, a4, a5, a6, a7⟩ := h.testFor fl i
  have hs : (s'.q i false).size = (P' i false).length ∧ (s'.q i true).size = (P' i true).length :=
    ⟨a2.size i false, a2.size i true⟩
  refine ⟨P', ?_, a3, a4, ?_, ?_, ?_⟩
  · unfold Req.exec
    simp only [if_pos hi, a1]
    by_cases he : P' i false = [] ∧ P' i true = []
    · simp only [he.1, he.2, List.isEmpty_nil, Bool.and_self, Bool.not_true, Bool.false_eq_true, if_false,
        hs.1, hs.2, List.length_nil, and_self, or_true, decide_true, Bool.or_false]
      refine a2.congr_use (set s'.inUse i false) _ a2.idx ?_
      intro j c hj
      by_cases e : j = i
      · subst e; cases c; exacts [he.1, he.2]
      · exact a2.free j c (by rwa [set_ne _ _ e] at hj)
    · have : (!((P' i false).isEmpty && (P' i true).isEmpty)) = true := by
        rw [← Bool.not_eq_false]; intro h; apply he
        simpa using h
      simp only [this, if_true, true_or, decide_true, Bool.not_true, Bool.or_false]
      exact a2
  · unfold Req.exec
    simp only [if_pos hi, a1]; exact a5
  · unfold Req.exec
    simp only [if_pos hi, a1]
    by_cases he : P' i false = [] ∧ P' i true = []
    · rw [if_pos he]; simp [he.1, he.2]
    · rw [if_neg he]
      have : (!((P' i false).isEmpty && (P' i true).isEmpty)) = true := by
        rw [← Bool.not_eq_false]; intro h; apply he
        simpa using h
      rw [this]; rfl
  · unfold Req.exec
    simp only [if_pos hi, a1]; exact a7

theorem waitAllLoop_ok {N : Nat} (n i : Nat) (hn : i + n = N) {s : St} {P : Nat → Bool → List Nat}
    (h : Inv N s P) (hdone : ∀ j c, j < i → P j c = []) :
    Inv N (waitAllLoop n i s) (fun _ _ => []) ∧ (waitAllLoop n i s).fresh = s.fresh ∧
      (∃ L, (waitAllLoop n i s).log = s.log ++ L ∧ ∀ m, m ∈ L ↔ ∃ j c, m ∈ P j c) := by
  induction n generalizing i s P with
  | zero =>
    have hP : P = fun _ _ => [] := by
      funext j c
      by_cases hj : j < i
      · exact hdone j c hj
      · exact h.range j c (by omega)
    subst hP
    unfold waitAllLoop
    refine ⟨h.noErr ?_, rfl, ⟨[], by simp, by simp⟩⟩
    have c1 := h.cnt false
    have c2 := h.cnt true
    simp only [List.length_nil, Finset.sum_const_zero] at c1 c2
    have c3 := h.ev
    have c4 := h.evP
    rw [h.err]
    have : s.ev = s.evP ∧ s.cnt false = s.cntP false ∧ s.cnt true = s.cntP true := by omega
    simp only [this, and_self, decide_true, Bool.not_true, Bool.or_false]
  | succ n ih =>
    obtain ⟨a1, ⟨L, a2, a3, _, _⟩, a4, a5⟩ := h.waitFor i
    have hq : ∀ b : Bool, (Req.waitFor s i).q i b = ⟨none, none, 0⟩ := by
      intro b
      have e : cleared P i i b = [] := by simp [cleared]
      have h1 := a1.head i b
      have h2 := a1.tail0 i b e
      have h3 := a1.size i b
      rw [e] at h1 h3
      cases hx : (Req.waitFor s i).q i b with
      | mk hd tl sz =>
        rw [hx] at h1 h2 h3
        simp only at h1 h2 h3
        subst h1 h2 h3
        rfl
    have a1' : Inv N { Req.waitFor s i with err := (Req.waitFor s i).err || !decide (∀ b : Bool, (Req.waitFor s i).q i b = ⟨none, none, 0⟩) }
        (cleared P i) := a1.noErr (by rw [a1.err]; simp [hq])
    obtain ⟨b1, b2, L', b3, b4⟩ := ih (i + 1) (by omega) a1' (by
      intro j c hj
      by_cases e : j = i
      · subst e; simp [cleared]
      · simp only [cleared, e, if_false]; exact hdone j c (by omega))
    unfold waitAllLoop
    simp only
    refine ⟨b1, by rw [b2]; exact a5, ⟨L ++ L', ?_, ?_⟩⟩
    · rw [b3]; show (Req.waitFor s i).log ++ L' = _; rw [a2]; simp
    · intro m
      rw [List.mem_append, b4, a3.mem_iff]
      simp only [List.mem_append]
      constructor
      · rintro ((h1 | h1) | ⟨j, c, h1⟩)
        · exact ⟨i, false, h1⟩
        · exact ⟨i, true, h1⟩
        · unfold cleared at h1
          split at h1
          · simp at h1
          · exact ⟨j, c, h1⟩
      · rintro ⟨j, c, h1⟩
        by_cases e : j = i
        · subst e; left; cases c; exacts [Or.inl h1, Or.inr h1]
        · right; exact ⟨j, c, by simpa [cleared, e] using h1⟩

theorem exec_waitAll {N : Nat} {s : St} {P : Nat → Bool → List Nat} (h : Inv N s P) :
    Inv N (exec N s .waitAll).1 (fun _ _ => []) ∧ (exec N s .waitAll).1.fresh = s.fresh ∧
      (∃ L, (exec N s .waitAll).1.log = s.log ++ L ∧ ∀ m, m ∈ L ↔ ∃ j c, m ∈ P j c) := by
  unfold exec
  simp only
  refine waitAllLoop_ok N 0 (by omega) (h.noErr ?_) (by intro j c hj; omega)
  have c1 := h.cnt false
  have c2 := h.cnt true
  have c3 := h.ev
  have c4 := h.evP
  rw [h.err]
  have : ¬ s.ev < s.evP := by omega
  simp [this]

theorem Inv.init {N : Nat} (hN : 0 < N) : Inv N Req.init (fun _ _ => []) := by
  refine ⟨⟨?_, ?_, ?_, ?_, ?_, ?_, ?_, ?_, ?_, ?_, ?_, ?_, ?_, ?_, ?_⟩, ?_, ?_, hN⟩ <;>
    simp [Req.init, Linked]

theorem Inv.exec {N : Nat} {s : St} {P : Nat → Bool → List Nat} (h : Inv N s P) (c : Call)
    (hc : CallOK N c) : ∃ P', Inv N (exec N s c).1 P' := by
  cases c with
  | issue ks => obtain ⟨i, _, _, a, _⟩ := exec_issue h ks; exact ⟨_, a⟩
  | wait i => exact ⟨_, (exec_wait h hc).1⟩
  | test i fl => obtain ⟨P', a, _⟩ := exec_test h hc fl; exact ⟨_, a⟩
  | waitAll => exact ⟨_, (exec_waitAll h).1⟩

theorem reach_inv {N : Nat} (cs : List Call) (hcs : ∀ c ∈ cs, CallOK N c) {s : St}
    {P : Nat → Bool → List Nat} (h : Inv N s P) : ∃ P', Inv N (run N s cs) P' := by
  induction cs generalizing s P with
  | nil => exact ⟨P, h⟩
  | cons c cs ih =>
    obtain ⟨P', h'⟩ := h.exec c (hcs c (by simp))
    exact ih (fun c hc => hcs c (by simp [hc])) h'

end GA.Req
