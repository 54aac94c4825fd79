import Verif.Lemmas.MAInquire

/-! Free blocks are kept in order of addresses and never touch. -/

namespace GA.MA

/-- in order, and possibly touching -/
abbrev Asc (l : List Blk) : Prop := l.Pairwise fun x y => x.addr + x.nbytes ≤ y.addr

/-- in order, with something between any two -/
abbrev Gap (l : List Blk) : Prop := l.Pairwise fun x y => x.addr + x.nbytes < y.addr

theorem insOrd_asc {b : Blk} (hb : 0 < b.nbytes) : ∀ {l : List Blk}, Asc l → (∀ x ∈ l, 0 < x.nbytes) → (∀ x ∈ l, DisjBlk b x) → Asc (insOrd b l) := by
  intro l
  induction l with
  | nil => intro _ _ _; simp [insOrd]
  | cons x t ih =>
    intro ha hp hd
    obtain ⟨a1, a2⟩ := List.pairwise_cons.1 ha
    have hx := hp x (by simp)
    have hd1 := hd x (by simp)
    unfold DisjBlk at hd1
    unfold insOrd
    split
    · refine List.pairwise_cons.2 ⟨fun y hy => ?_, ha⟩
      rcases List.mem_cons.1 hy with rfl | hy
      · omega
      · have := a1 y hy
        omega
    · refine List.pairwise_cons.2 ⟨fun y hy => ?_, ih a2 (fun y hy => hp y (by simp [hy])) (fun y hy => hd y (by simp [hy]))⟩
      rcases List.mem_cons.1 ((insOrd_perm b t).mem_iff.1 hy) with rfl | hy
      · omega
      · exact a1 y hy

theorem coalFrom_gap : ∀ {l : List Blk} {a : Blk}, Asc (a :: l) → (∀ x ∈ a :: l, 0 < x.nbytes) →
    Gap (coalFrom a l) ∧ ∀ y ∈ coalFrom a l, a.addr ≤ y.addr := by
  intro l
  induction l with
  | nil => intro a _ _; simp [coalFrom]
  | cons b t ih =>
    intro a ha hp
    obtain ⟨a1, a2⟩ := List.pairwise_cons.1 ha
    obtain ⟨b1, b2⟩ := List.pairwise_cons.1 a2
    have pa := hp a (by simp)
    have pb := hp b (by simp)
    have ab := a1 b (by simp)
    unfold coalFrom
    split
    · rename_i he
      refine ih (a := { a with nbytes := a.nbytes + b.nbytes }) (List.pairwise_cons.2 ⟨fun y hy => ?_, b2⟩) fun y hy => ?_
      · have := b1 y hy
        dsimp only
        omega
      · rcases List.mem_cons.1 hy with rfl | hy
        · dsimp only
          omega
        · exact hp y (by simp [hy])
    · rename_i he
      obtain ⟨g1, g2⟩ := ih a2 fun y hy => hp y (List.mem_cons_of_mem _ hy)
      refine ⟨List.pairwise_cons.2 ⟨fun y hy => ?_, g1⟩, fun y hy => ?_⟩
      · have := g2 y hy
        omega
      · rcases List.mem_cons.1 hy with rfl | hy
        · exact Int.le_refl _
        · have := g2 y hy
          omega

theorem coalesce_gap {l : List Blk} (ha : Asc l) (hp : ∀ x ∈ l, 0 < x.nbytes) : Gap (coalesce l) := by
  cases l with
  | nil => simp [coalesce]
  | cons a t => exact (coalFrom_gap ha hp).1

theorem Gap.asc {l : List Blk} (h : Gap l) : Asc l := List.Pairwise.imp (fun h => Int.le_of_lt h) h

theorem delAddr_sub (a : Int) : ∀ l : List Blk, (delAddr a l).Sublist l := by
  intro l
  induction l with
  | nil => exact List.Sublist.refl _
  | cons x t ih =>
    unfold delAddr
    split
    · exact List.sublist_cons_self _ _
    · exact ih.cons_cons x

theorem blockFree_gap {s : St} {b : Blk} (hb : 0 < b.nbytes) (hg : Gap s.hfree) (hp : ∀ x ∈ s.hfree, 0 < x.nbytes) (hd : ∀ x ∈ s.hfree, DisjBlk b x) :
    Gap (blockFree s b).hfree := by
  unfold blockFree
  split
  · dsimp only
    split
    · refine coalesce_gap (insOrd_asc hb (Gap.asc (hg.filter _)) ?_ ?_) ?_
      · intro x hx; exact hp x (List.mem_filter.1 hx).1
      · intro x hx; exact hd x (List.mem_filter.1 hx).1
      · intro x hx
        rcases List.mem_cons.1 ((insOrd_perm _ _).mem_iff.1 hx) with rfl | hx
        · exact hb
        · exact hp x (List.mem_filter.1 hx).1
    · exact hg.filter _
  · exact List.Pairwise.nil

theorem split_gap {x x2 : Blk} (h1 : x.addr ≤ x2.addr) (h2 : x2.addr + x2.nbytes = x.addr + x.nbytes) (h3 : 0 < x2.nbytes) :
    ∀ {l : List Blk}, Gap l → (∀ y ∈ l, 0 < y.nbytes) → x ∈ l → Gap (delAddr x.addr (insOrd x2 l)) := by
  intro l
  induction l with
  | nil => intro _ _ h; cases h
  | cons y t ih =>
    intro hg hp hx
    obtain ⟨g1, g2⟩ := List.pairwise_cons.1 hg
    have py := hp y (by simp)
    by_cases hyx : y = x
    · subst hyx
      rw [insOrd, if_neg (by omega), delAddr, if_pos rfl]
      have : insOrd x2 t = x2 :: t := by
        cases t with
        | nil => rfl
        | cons z t =>
          have := g1 z (by simp)
          rw [insOrd, if_pos (by omega)]
      rw [this]
      refine List.pairwise_cons.2 ⟨fun z hz => ?_, g2⟩
      have := g1 z hz
      omega
    · have hxt : x ∈ t := (List.mem_cons.1 hx).resolve_left fun h => hyx h.symm
      have hyx' := g1 x hxt
      rw [insOrd, if_neg (by omega), delAddr, if_neg (by omega)]
      refine List.pairwise_cons.2 ⟨fun z hz => ?_, ih g2 (fun z hz => hp z (by simp [hz])) hxt⟩
      rcases List.mem_cons.1 ((insOrd_perm _ _).mem_iff.1 ((delAddr_sub _ _).subset hz)) with rfl | hz
      · omega
      · exact g1 z hz

theorem U_nonneg (x : Int) : 0 ≤ U x := Int.emod_nonneg _ (by decide)

theorem alloc_gap {e : Env} {s : St} (hg : Gap s.hfree) (hp : ∀ x ∈ s.hfree, 0 < x.nbytes) (dt : Nat) (n : Int) : Gap (allocHeap e s dt n).1.hfree := by
  unfold allocHeap
  split
  · exact hg
  · split
    · rename_i x hx
      have hm := (firstFit_mem hx).1
      dsimp only
      by_cases hc : x.nbytes - (ballocAfter e s.al x.addr dt n).2 ≥ 96
      · rw [split_some hc]
        refine split_gap ?_ ?_ ?_ hg hp hm
        · have : 0 ≤ (ballocAfter e s.al x.addr dt n).2 := U_nonneg _
          dsimp only
          omega
        · dsimp only
          omega
        · dsimp only
          omega
      · rw [split_none hc]
        exact hg.sublist (delAddr_sub _ _)
    · dsimp only
      split
      · exact hg
      · exact hg

theorem Inv.disjUF {e : Env} {s : St} (h : Inv e s) {b x : Blk} (hb : b ∈ s.hused) (hx : x ∈ s.hfree) : DisjBlk b x :=
  (List.pairwise_append.1 h.disj).2.2 b hb x hx

theorem free_gap {e : Env} (he : EnvOK e) {s : St} (h : Inv e s) (hg : Gap s.hfree) (a : Int) : Gap (freeHeap s a).1.hfree := by
  unfold freeHeap
  split
  · exact hg
  · rename_i b hb
    have hm := findAddr_mem hb
    have hl := ((h.used b hm).free he).2.2.2.2
    exact blockFree_gap (s := { s with hused := delAddr a s.hused }) (by omega) hg (h.pos he) fun x hx => h.disjUF hm hx

theorem piece_gap {e : Env} (he : EnvOK e) {s : St} (h : Inv e s) (hg : Gap s.hfree) (a n : Int) : Gap (freePiece e s a n).1.hfree := by
  unfold freePiece
  split
  · exact hg
  · rename_i b hb
    have hm := findAddr_mem hb
    split
    · exact hg
    · split
      · exact free_gap he h hg a
      · dsimp only
        by_cases hc : b.nbytes - (ballocAfter e s.al a b.dt (b.nelem - n)).2 ≥ 96
        · rw [if_pos (by omega), split_some hc]
          refine blockFree_gap (s := { s with hused := _ }) (by dsimp only; omega) hg (h.pos he) fun x hx => ?_
          have hd := h.disjUF hm hx
          have hn : 0 ≤ (ballocAfter e s.al a b.dt (b.nelem - n)).2 := U_nonneg _
          unfold DisjBlk at hd ⊢
          dsimp only
          omega
        · rw [split_none hc, ite_self]
          exact hg

theorem step_gap {e : Env} (he : EnvOK e) {s : St} (h : Inv e s) (hg : Gap s.hfree) (o : Op) : Gap (step e s o).hfree := by
  cases o with
  | alloc dt n => exact alloc_gap hg (h.pos he) dt n
  | free a => exact free_gap he h hg a
  | piece a n => exact piece_gap he h hg a n
  | push dt n =>
    show Gap (pushStack e s dt n).1.hfree
    unfold pushStack
    split
    · exact hg
    · dsimp only; split <;> exact hg
  | pop a =>
    show Gap (popStack s a).1.hfree
    unfold popStack
    split
    · exact hg
    · split <;> exact hg
  | chop a =>
    show Gap (chopStack s a).1.hfree
    unfold chopStack
    split <;> exact hg
  | numalign v =>
    show Gap (setNumalign s v).1.hfree
    unfold setNumalign
    split <;> exact hg

theorem run_gap {e : Env} (he : EnvOK e) {ops : List Op} : ∀ {s : St}, Inv e s → Gap s.hfree → Allowed e s ops → Gap (run e s ops).hfree := by
  induction ops with
  | nil => intro s _ hg _; exact hg
  | cons o t ih => intro s h hg ha; exact ih (h.step he ha.1 ha.2.1) (step_gap he h hg o) ha.2.2

/-- the heap ends with its last used block -/
def Top (s : St) : Prop := (s.hused = [] ∧ s.hp = s.seg) ∨ ∃ b ∈ s.hused, b.addr + b.nbytes = s.hp

theorem rightmost_nil {l : List Blk} (h : rightmost l = none) : l = [] := by
  cases l with
  | nil => rfl
  | cons x t =>
    rw [rightmost] at h
    split at h
    · cases h
    · split at h <;> cases h

theorem rightmost_in : ∀ {l : List Blk} {m : Blk}, rightmost l = some m → m ∈ l := by
  intro l
  induction l with
  | nil => intro m h; cases h
  | cons x t ih =>
    intro m h
    rw [rightmost] at h
    split at h
    · cases h; simp
    · rename_i m' hm
      split at h
      · cases h; simp
      · cases h; exact List.mem_cons_of_mem _ (ih hm)

theorem blockFree_top (s : St) (b : Blk) : Top (blockFree s b) := by
  unfold blockFree
  split
  · rename_i m hm
    exact .inr ⟨m, rightmost_in hm, rfl⟩
  · rename_i hm
    exact .inl ⟨rightmost_nil hm, rfl⟩

theorem free_top {s : St} (h : Top s) (a : Int) : Top (freeHeap s a).1 := by
  unfold freeHeap
  split
  · exact h
  · exact blockFree_top _ _

theorem setAddr_top {a hp : Int} {b b1 : Blk} (h1 : b1.addr + b1.nbytes = b.addr + b.nbytes) : ∀ {l : List Blk}, findAddr a l = some b →
    (∃ x ∈ l, x.addr + x.nbytes = hp) → ∃ x ∈ setAddr a b1 l, x.addr + x.nbytes = hp := by
  intro l
  induction l with
  | nil => intro h _; cases h
  | cons y t ih =>
    rintro hf ⟨x, hx, he⟩
    unfold findAddr at hf
    unfold setAddr
    split at hf
    · rename_i hy
      cases hf
      rw [if_pos hy]
      rcases List.mem_cons.1 hx with rfl | hx
      · exact ⟨b1, by simp, by omega⟩
      · exact ⟨x, by simp [hx], he⟩
    · rename_i hy
      rw [if_neg hy]
      rcases List.mem_cons.1 hx with rfl | hx
      · exact ⟨x, by simp, he⟩
      · obtain ⟨z, hz, he⟩ := ih hf ⟨x, hx, he⟩
        exact ⟨z, by simp [hz], he⟩

theorem piece_top {e : Env} {s : St} (h : Top s) (a n : Int) : Top (freePiece e s a n).1 := by
  unfold freePiece
  split
  · exact h
  · rename_i b hb
    split
    · exact h
    · split
      · exact free_top h a
      · dsimp only
        split
        · rename_i hn
          have hbb : (if (ballocAfter e s.al a b.dt (b.nelem - n)).2 < b.nbytes then blockSplit b (ballocAfter e s.al a b.dt (b.nelem - n)).2 else (b, none)).1 = b := by
            split at hn
            · rename_i hlt
              rw [if_pos hlt]
              unfold blockSplit at hn ⊢
              dsimp only at hn ⊢
              split at hn
              · cases hn
              · rename_i hc
                rw [if_neg hc]
            · rename_i hlt
              rw [if_neg hlt]
          rcases h with h | h
          · rw [h.1] at hb
            cases hb
          · refine .inr (setAddr_top ?_ hb h)
            dsimp only
            rw [hbb]
        · exact blockFree_top _ _

theorem alloc_top {e : Env} (he : EnvOK e) {s : St} (h : Top s) (dt : Nat) (n : Int) (hi : Inv e (allocHeap e s dt n).1) (hs : s.hused = [] → s.hfree = []) :
    Top (allocHeap e s dt n).1 := by
  unfold allocHeap at hi ⊢
  split
  · exact h
  · rename_i hn
    rw [if_neg hn] at hi
    split
    · rename_i x hx
      dsimp only
      rcases h with h | ⟨b, h1, h2⟩
      · rw [hs h.1] at hx
        cases hx
      · unfold Top
        dsimp only
        split
        · exact .inr ⟨_, List.mem_cons_self, rfl⟩
        · exact .inr ⟨b, List.mem_cons_of_mem _ h1, h2⟩
    · rename_i hx
      rw [hx] at hi
      dsimp only at hi ⊢
      split
      · exact h
      · rename_i hc
        rw [if_neg hc] at hi
        have hl := ((hi.used _ List.mem_cons_self).free he).2.2.2.2
        dsimp only at hl
        unfold Top
        dsimp only
        rw [if_pos (by omega)]
        exact .inr ⟨_, List.mem_cons_self, rfl⟩

theorem Top.nofree {e : Env} (he : EnvOK e) {s : St} (hi : Inv e s) (h : Top s) : ∀ x ∈ s.hfree, x.addr + x.nbytes < s.hp := by
  intro x hx
  have hf := hi.free x hx
  unfold FreeOK at hf
  rcases h with h | ⟨b, h1, h2⟩
  · omega
  · have hd := hi.disjUF h1 hx
    have hu := (hi.used b h1).free he
    unfold FreeOK at hu
    unfold DisjBlk at hd
    omega

theorem step_top {e : Env} (he : EnvOK e) {s : St} (hi : Inv e s) (h : Top s) {o : Op} (h1 : ReqOK e o) (h2 : PieceOK e s o) : Top (step e s o) := by
  have hn := hi.step he h1 h2
  cases o with
  | alloc dt n =>
    refine alloc_top he h dt n hn fun hu => ?_
    rcases h with h | ⟨b, hb, _⟩
    · apply List.eq_nil_iff_forall_not_mem.2
      intro x hx
      have hf := hi.free x hx
      unfold FreeOK at hf
      omega
    · rw [hu] at hb
      cases hb
  | free a => exact free_top h a
  | piece a n => exact piece_top h a n
  | push dt n =>
    show Top (pushStack e s dt n).1
    unfold pushStack
    split
    · exact h
    · dsimp only; split <;> exact h
  | pop a =>
    show Top (popStack s a).1
    unfold popStack
    split
    · exact h
    · split <;> exact h
  | chop a =>
    show Top (chopStack s a).1
    unfold chopStack
    split <;> exact h
  | numalign v =>
    show Top (setNumalign s v).1
    unfold setNumalign
    split <;> exact h

theorem run_top {e : Env} (he : EnvOK e) {ops : List Op} : ∀ {s : St}, Inv e s → Top s → Allowed e s ops → Top (run e s ops) := by
  induction ops with
  | nil => intro s _ h _; exact h
  | cons o t ih => intro s hi h ha; exact ih (hi.step he ha.1 ha.2.1) (step_top he hi h ha.1 ha.2.1) ha.2.2

end GA.MA
