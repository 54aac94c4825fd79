import Verif.Lemmas.NbHandle
import Verif.Spec.NbHandle

/-! # Non-blocking handles: operations and histories -/

namespace GA.Nb
open GA.Req (set set_same set_ne CxOK Held CallOK)

theorem getArm_ok {K N : Nat} (hK : 0 < K) {s : St} {L : Nat → List Nat} (h : Inv K N s L none)
    {index : Nat} (hg : index < K) (ht : 0 ≤ (s.slot index).tag ∧ (s.slot index).tag < 2 ^ 24) :
    ∃ i L', (getArm K N s index).2 = i ∧ i < K ∧ Inv K N (getArm K N s index).1 L' none ∧
      i ∈ L' index ∧ (∀ g, ((getArm K N s index).1.slot g).tag = (s.slot g).tag) ∧
      (getArm K N s index).1.cx.fresh = s.cx.fresh ∧
      (∀ m g t, Track s L m g t → m ∈ (getArm K N s index).1.cx.log ∨
        ((s.slot g).tag = t ∧ ∃ a ∈ L' g, a ≠ i ∧
          Held (getArm K N s index).1.cx ((getArm K N s index).1.arm a).hdl m)) := by
  obtain ⟨i, hi, hi2⟩ : ∃ i, i < K ∧ i = (Req.findFree K (fun j => (s.arm j).active) K (s.a % K)).getD (s.a % K) := by
    cases hf : Req.findFree K (fun j => (s.arm j).active) K (s.a % K) with
    | none => exact ⟨_, Nat.mod_lt _ hK, rfl⟩
    | some j => exact ⟨_, (Req.findFree_some (Nat.mod_lt _ hK) hf).1, rfl⟩
  -- the state after the eviction
  obtain ⟨S, hS⟩ : ∃ S, S = (if (s.arm i).active then
      unlink { s with cx := (Req.exec N s.cx (.wait (s.arm i).hdl)).1 } i (s.arm i).ga else s) := ⟨_, rfl⟩
  have hex : ∃ L1, Inv K N S L1 (some i) ∧ (∀ g, (S.slot g).tag = (s.slot g).tag) ∧
      S.cx.fresh = s.cx.fresh ∧
      (∀ m g t, Track s L m g t → m ∈ S.cx.log ∨ ((s.slot g).tag = t ∧ ∃ a ∈ L1 g, a ≠ i ∧
        Held S.cx (S.arm a).hdl m)) := by
    rw [hS]
    split
    · rename_i hact
      have hmem := h.act i hi hact (by simp)
      obtain ⟨A, B, hL⟩ := List.append_of_mem hmem
      obtain ⟨c1, c2, c3⟩ := h.cx.exec (.wait (s.arm i).hdl) (h.hdl i)
      have cf := h.cx.fresh_wait (h.hdl i)
      have cw : ∀ m, Held s.cx (s.arm i).hdl m → m ∈ (Req.exec N s.cx (.wait (s.arm i).hdl)).1.log :=
        fun m hm => h.cx.wait (h.hdl i) hm
      generalize Req.exec N s.cx (.wait (s.arm i).hdl) = r at *
      have h1 : Inv K N { s with cx := r.1 } L none :=
        ⟨h.dl, h.head, h.nodup, h.mem, h.act, h.out, h.count, h.range, h.tag, h.hdl, c1, h.err⟩
      have h2 := h1.unlink hL
      refine ⟨_, h2, ?_, by rw [unlink_cx]; exact cf, ?_⟩
      · intro g; rw [unlink_slot]; split
        · rename_i e; rw [e]
        · rfl
      · rintro m g t (hm | ⟨htg, a, ha, hm⟩)
        · left; rw [unlink_cx]; exact c3 m hm
        · by_cases e : a = i
          · subst e; left; rw [unlink_cx]; exact cw m hm
          · right
            refine ⟨htg, a, ?_, e, ?_⟩
            · by_cases eg : g = (s.arm i).ga
              · subst eg
                rw [setL_same]
                rw [hL] at ha
                simp only [List.mem_append, List.mem_cons] at *
                tauto
              · rw [setL_ne _ _ eg]; exact ha
            · rw [unlink_cx, unlink_arm]; exact c2 _ m hm
    · rename_i hact
      have hact' : (s.arm i).active = false := by simpa using hact
      have h1 := h.weaken hact'
      refine ⟨L, h1, fun _ => rfl, rfl, ?_⟩
      rintro m g t (hm | ⟨htg, a, ha, hm⟩)
      · left; exact hm
      · right; exact ⟨htg, a, ha, fun e => h1.out i g rfl (e ▸ ha), hm⟩
  obtain ⟨L1, a1, a2, a3, a4⟩ := hex
  have hlink := a1.link hi hg (by rw [a2]; exact ht)
  have hget : getArm K N s index = ({ link S i index with a := i + 1 }, i) := by
    unfold getArm
    simp only [← hi2, ← hS]
  rw [hget]
  refine ⟨i, _, rfl, hi, ⟨hlink.dl, hlink.head, hlink.nodup, hlink.mem, hlink.act, hlink.out, hlink.count,
    hlink.range, hlink.tag, hlink.hdl, hlink.cx, hlink.err⟩, by simp, ?_, ?_, ?_⟩
  · intro g
    show ((link S i index).slot g).tag = _
    rw [link_slot, ← a2 g]
    split
    · rename_i e; rw [e]
    · rfl
  · show (link S i index).cx.fresh = _
    rw [link_cx, a3]
  · intro m g t hm
    have hh : (S.slot index).head ≠ some i := by
      rw [a1.head]
      intro e
      exact a1.out i index rfl (List.mem_of_mem_head? (by rw [e]; rfl))
    show m ∈ (link S i index).cx.log ∨ (_ ∧ ∃ a ∈ _, a ≠ i ∧ Held (link S i index).cx ((link S i index).arm a).hdl m)
    rw [link_cx]
    rcases a4 m g t hm with h1 | ⟨h1, a, ha, hne, h2⟩
    · left; exact h1
    · right
      refine ⟨h1, a, ?_, hne, ?_⟩
      · by_cases e : g = index
        · subst e; rw [setL_same]; simp [ha]
        · rw [setL_ne _ _ e]; exact ha
      · rw [link_arm hh, if_neg hne]; exact h2

theorem piece_ok {K N : Nat} (hK : 0 < K) {s : St} {L : Nat → List Nat} (h : Inv K N s L none)
    {index : Nat} (hg : index < K) (ht : 0 ≤ (s.slot index).tag ∧ (s.slot index).tag < 2 ^ 24)
    (ks : List Bool) :
    ∃ L', Inv K N (piece K N s index ks) L' none ∧
      (∀ g, ((piece K N s index ks).slot g).tag = (s.slot g).tag) ∧
      (piece K N s index ks).cx.fresh = s.cx.fresh + ks.length ∧
      (∀ m g t, Track s L m g t → Track (piece K N s index ks) L' m g t) ∧
      (∀ m, s.cx.fresh ≤ m → m < s.cx.fresh + ks.length →
        Track (piece K N s index ks) L' m index (s.slot index).tag) := by
  obtain ⟨i, L', a1, a2, a3, a4, a5, a6, a7⟩ := getArm_ok (N := N) hK h hg ht
  unfold piece
  simp only [a1]
  generalize (getArm K N s index).1 = S at *
  obtain ⟨c1, c2, c3⟩ := a3.cx.exec (.issue ks) trivial
  obtain ⟨d1, d2, d3⟩ := a3.cx.issue ks
  generalize Req.exec N S.cx (.issue ks) = r at *
  have harm : ∀ a, a ≠ i → (setArm { S with cx := r.1 } i { S.arm i with hdl := r.2 }).arm a = S.arm a :=
    fun a ha => setArm_ne _ _ ha
  have harm2 : ∀ a, ((setArm { S with cx := r.1 } i { S.arm i with hdl := r.2 }).arm a).next = (S.arm a).next ∧
      ((setArm { S with cx := r.1 } i { S.arm i with hdl := r.2 }).arm a).prev = (S.arm a).prev ∧
      ((setArm { S with cx := r.1 } i { S.arm i with hdl := r.2 }).arm a).active = (S.arm a).active ∧
      ((setArm { S with cx := r.1 } i { S.arm i with hdl := r.2 }).arm a).ga = (S.arm a).ga := by
    intro a
    by_cases e : a = i
    · subst e; rw [setArm_same]; exact ⟨rfl, rfl, rfl, rfl⟩
    · rw [harm a e]; exact ⟨rfl, rfl, rfl, rfl⟩
  refine ⟨L', ⟨?_, a3.head, a3.nodup, ?_, ?_, a3.out, a3.count, a3.range, a3.tag, ?_, c1, a3.err⟩, a5,
    by rw [← a6]; exact d2, ?_, ?_⟩
  · intro g
    exact (a3.dl g).congr fun x _ => ⟨(harm2 x).2.1, (harm2 x).1⟩
  · intro g a ha
    rw [(harm2 a).2.2.1, (harm2 a).2.2.2]
    exact a3.mem g a ha
  · intro a ha hact hne
    rw [(harm2 a).2.2.1] at hact
    rw [(harm2 a).2.2.2]
    exact a3.act a ha hact hne
  · intro a
    by_cases e : a = i
    · subst e; rw [setArm_same]; exact d1
    · rw [harm a e]; exact a3.hdl a
  · intro m g t hm
    rcases a7 m g t hm with h1 | ⟨h1, a, ha, hne, h2⟩
    · left; exact c3 m h1
    · right
      refine ⟨by rw [← h1]; exact a5 g, a, ha, ?_⟩
      rw [harm a hne]
      exact c2 _ m h2
  · intro m h1 h2
    right
    refine ⟨a5 index, i, a4, ?_⟩
    rw [setArm_same]
    exact d3 m (by rw [a6]; exact h1) (by rw [a6]; exact h2)

theorem initH_ok {K N : Nat} (hK : 0 < K) (hK2 : K ≤ 256) {s : St} {L : Nat → List Nat} (h : Inv K N s L none) :
    ∃ L', Inv K N (initH K N s).1 L' none ∧ (initH K N s).2.index < K ∧
      ((initH K N s).1.slot (initH K N s).2.index).tag = ((initH K N s).2.tag : Int) ∧
      (initH K N s).2.tag < 2 ^ 24 ∧
      (∀ m g t, Track s L m g t → Track (initH K N s).1 L' m g t) ∧
      (initH K N s).1.cx.fresh = s.cx.fresh := by
  obtain ⟨i, hi, hi2⟩ : ∃ i, i < K ∧ i = (Req.findFree K (fun j => (s.slot j).head.isSome) K (s.g % K)).getD (s.g % K) := by
    cases hf : Req.findFree K (fun j => (s.slot j).head.isSome) K (s.g % K) with
    | none => exact ⟨_, Nat.mod_lt _ hK, rfl⟩
    | some j => exact ⟨_, (Req.findFree_some (Nat.mod_lt _ hK) hf).1, rfl⟩
  obtain ⟨S, hS⟩ : ∃ S, S = (if (s.slot i).head.isSome then
      waitH K N s ⟨i % 256, ((s.slot i).tag % 2 ^ 24).toNat⟩ else s) := ⟨_, rfl⟩
  have h256 : i % 256 = i := Nat.mod_eq_of_lt (by omega)
  have hex : ∃ L1, Inv K N S L1 none ∧ L1 i = [] ∧ S.cx.fresh = s.cx.fresh ∧
      (∀ m g t, Track s L m g t → Track S L1 m g t) := by
    rw [hS]
    split
    · rename_i hsome
      have hne : L i ≠ [] := by
        intro e
        rw [h.head, e] at hsome
        simp at hsome
      obtain ⟨t1, t2⟩ := h.tag i hne
      obtain ⟨L1, b1, b2, b3, b4, b5⟩ := h.waitH ⟨i % 256, ((s.slot i).tag % 2 ^ 24).toNat⟩
      refine ⟨L1, b1, ?_, b5, b2⟩
      have := b4 (by
        show ((((s.slot i).tag % 2 ^ 24).toNat : Nat) : Int) = (s.slot (i % 256)).tag
        rw [h256, Int.emod_eq_of_lt t1 t2]
        omega)
      rw [show (Hdl.mk (i % 256) ((s.slot i).tag % 2 ^ 24).toNat).index = i from h256] at this
      exact this
    · rename_i hnone
      refine ⟨L, h, ?_, rfl, fun _ _ _ h => h⟩
      rw [h.head] at hnone
      simpa using hnone
  obtain ⟨L1, a1, a2, a3, a4⟩ := hex
  have hget : initH K N s = ({ setSlot S i ⟨none, 0, ((S.tg % 2 ^ 24 : Nat) : Int), true⟩ with g := i + 1, tg := S.tg % 2 ^ 24 + 1 },
      ⟨i % 256, S.tg % 2 ^ 24⟩) := by
    unfold initH
    simp only [← hi2, ← hS]
  rw [hget]
  simp only [h256]
  have hsl : ∀ g, g ≠ i → (setSlot S i ⟨none, 0, ((S.tg % 2 ^ 24 : Nat) : Int), true⟩).slot g = S.slot g :=
    fun g hg => setSlot_ne _ _ hg
  have hsi : (setSlot S i ⟨none, 0, ((S.tg % 2 ^ 24 : Nat) : Int), true⟩).slot i = ⟨none, 0, ((S.tg % 2 ^ 24 : Nat) : Int), true⟩ :=
    setSlot_same _ _ _
  refine ⟨L1, ⟨a1.dl, ?_, a1.nodup, a1.mem, a1.act, a1.out, ?_, a1.range, ?_, a1.hdl, a1.cx, a1.err⟩,
    hi, by rw [hsi], Nat.mod_lt _ (by decide), ?_, a3⟩
  · intro g
    by_cases e : g = i
    · subst e; show ((setSlot S g _).slot g).head = _; rw [hsi, a2]; rfl
    · show ((setSlot S i _).slot g).head = _; rw [hsl g e]; exact a1.head g
  · intro g
    by_cases e : g = i
    · subst e; show ((setSlot S g _).slot g).count = _; rw [hsi, a2]; rfl
    · show ((setSlot S i _).slot g).count = _; rw [hsl g e]; exact a1.count g
  · intro g hg
    by_cases e : g = i
    · subst e; exact absurd a2 hg
    · show 0 ≤ ((setSlot S i _).slot g).tag ∧ ((setSlot S i _).slot g).tag < _; rw [hsl g e]; exact a1.tag g hg
  · intro m g t hm
    rcases a4 m g t hm with h1 | ⟨h1, a, ha, h2⟩
    · left; exact h1
    · by_cases e : g = i
      · subst e; rw [a2] at ha; simp at ha
      · right
        refine ⟨?_, a, ha, h2⟩
        show ((setSlot S i _).slot g).tag = _; rw [hsl g e]; exact h1

theorem pieces_ok {K N : Nat} (hK : 0 < K) (kss : List (List Bool)) {s : St} {L : Nat → List Nat}
    (h : Inv K N s L none) {index : Nat} (hg : index < K)
    (ht : 0 ≤ (s.slot index).tag ∧ (s.slot index).tag < 2 ^ 24) :
    ∃ L', Inv K N (kss.foldl (fun s ks => piece K N s index ks) s) L' none ∧
      ((kss.foldl (fun s ks => piece K N s index ks) s).slot index).tag = (s.slot index).tag ∧
      (kss.foldl (fun s ks => piece K N s index ks) s).cx.fresh = s.cx.fresh + total kss ∧
      (∀ m g t, Track s L m g t → Track (kss.foldl (fun s ks => piece K N s index ks) s) L' m g t) ∧
      (∀ m, s.cx.fresh ≤ m → m < s.cx.fresh + total kss →
        Track (kss.foldl (fun s ks => piece K N s index ks) s) L' m index (s.slot index).tag) := by
  induction kss generalizing s L with
  | nil =>
    exact ⟨L, h, rfl, rfl, fun _ _ _ h => h, fun m h1 h2 => by simp [total] at h2; omega⟩
  | cons ks kss ih =>
    obtain ⟨L1, a1, a2, a3, a4, a5⟩ := piece_ok (N := N) hK h hg ht ks
    obtain ⟨L2, b1, b2, b3, b4, b5⟩ := ih a1 (by rw [a2]; exact ht)
    simp only [List.foldl_cons]
    have htot : total (ks :: kss) = ks.length + total kss := by simp [total]
    refine ⟨L2, b1, by rw [b2, a2], by rw [b3, a3, htot]; omega, fun m g t hm => b4 m g t (a4 m g t hm), ?_⟩
    intro m h1 h2
    by_cases hm : m < s.cx.fresh + ks.length
    · exact b4 m _ _ (a5 m h1 hm)
    · have := b5 m (by rw [a3]; omega) (by rw [a3]; omega)
      rwa [a2] at this

theorem nbop_ok {K N : Nat} (hK : 0 < K) (hK2 : K ≤ 256) {s : St} {L : Nat → List Nat} (h : Inv K N s L none)
    (kss : List (List Bool)) :
    ∃ L', Inv K N (nbop K N s kss).1 L' none ∧
      (nbop K N s kss).1.cx.fresh = s.cx.fresh + total kss ∧
      (∀ m g t, Track s L m g t → Track (nbop K N s kss).1 L' m g t) ∧
      (∀ m, s.cx.fresh ≤ m → m < s.cx.fresh + total kss →
        Track (nbop K N s kss).1 L' m (nbop K N s kss).2.index (nbop K N s kss).2.tag) := by
  obtain ⟨L1, a1, a2, a3, a4, a5, a6⟩ := initH_ok (N := N) hK hK2 h
  obtain ⟨L2, b1, b2, b3, b4, b5⟩ := pieces_ok hK kss a1 a2 (by rw [a3]; omega)
  unfold nbop
  refine ⟨L2, b1, by rw [← a6]; exact b3, fun m g t hm => b4 m g t (a5 m g t hm), ?_⟩
  intro m h1 h2
  have := b5 m (by rw [a6]; exact h1) (by rw [a6]; exact h2)
  rw [a3] at this
  exact this

theorem step_ok {K N : Nat} (hK : 0 < K) (hK2 : K ≤ 256) {s : St} {L : Nat → List Nat} (h : Inv K N s L none)
    (o : Op) (ho : OpOK N o) :
    ∃ L', Inv K N (step K N s o) L' none ∧
      (∀ m g t, Track s L m g t → Track (step K N s o) L' m g t) := by
  cases o with
  | nb kss => obtain ⟨L', a1, _, a2, _⟩ := nbop_ok (N := N) hK hK2 h kss; exact ⟨L', a1, a2⟩
  | wait hd => obtain ⟨L', a1, a2, _⟩ := h.waitH hd; exact ⟨L', a1, a2⟩
  | test hd fl => obtain ⟨L', a1, a2, _⟩ := h.testH hd fl; exact ⟨L', a1, a2⟩
  | other c =>
    obtain ⟨c1, c2, c3⟩ := h.cx.exec c ho
    refine ⟨L, ⟨h.dl, h.head, h.nodup, h.mem, h.act, h.out, h.count, h.range, h.tag, h.hdl, c1, h.err⟩, ?_⟩
    rintro m g t (hm | ⟨ht, b, hb, hm⟩)
    · left; exact c3 m hm
    · right; exact ⟨ht, b, hb, c2 _ m hm⟩

theorem run_ok {K N : Nat} (hK : 0 < K) (hK2 : K ≤ 256) (os : List Op) (hos : ∀ o ∈ os, OpOK N o) {s : St}
    {L : Nat → List Nat} (h : Inv K N s L none) :
    ∃ L', Inv K N (run K N s os) L' none ∧ (∀ m g t, Track s L m g t → Track (run K N s os) L' m g t) := by
  induction os generalizing s L with
  | nil => exact ⟨L, h, fun _ _ _ h => h⟩
  | cons o os ih =>
    obtain ⟨L1, a1, a2⟩ := step_ok (N := N) hK hK2 h o (hos o (by simp))
    obtain ⟨L2, b1, b2⟩ := ih (fun o ho => hos o (by simp [ho])) a1
    exact ⟨L2, b1, fun m g t hm => b2 m g t (a2 m g t hm)⟩

theorem Inv.init {K N : Nat} (hN : 0 < N) : Inv K N (Nb.init K) (fun _ => []) none := by
  refine ⟨fun _ => trivial, fun _ => rfl, fun _ => List.nodup_nil, ?_, ?_, ?_, fun _ => rfl, fun _ _ => rfl, ?_, fun _ => hN,
    Req.cxok_init hN, rfl⟩ <;> simp [Nb.init]

end GA.Nb
