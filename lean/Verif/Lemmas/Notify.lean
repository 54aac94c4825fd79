import Verif.Model.Notify
import Verif.Spec.Notify
import Verif.Lemmas.Field
import Verif.Lemmas.GhostGeom
import Verif.Lemmas.Odometer

/-!
# Put with notification: pending transfers and their order
-/

namespace GA.Notify
open Spec Model

variable {V : Type}

/-- perform transfers in order -/
def applyW (ws : List (Write V)) (m : Int × Addr → V) : Int × Addr → V :=
  ws.foldl (fun m w => upd m w.key w.val) m

theorem applyW_append (a b : List (Write V)) (m : Int × Addr → V) :
    applyW (a ++ b) m = applyW b (applyW a m) := by
  unfold applyW
  rw [List.foldl_append]

theorem applyW_miss (ws : List (Write V)) (m : Int × Addr → V) (k : Int × Addr) (h : ∀ w ∈ ws, w.key ≠ k) :
    applyW ws m k = m k :=
  foldl_upd_miss ws (fun w : Write V => w.key) (fun _ w => w.val) m k h

theorem applyW_hit (ws : List (Write V)) (m : Int × Addr → V) (k : Int × Addr) (v : V)
    (h : ∀ w ∈ ws, w.key = k → w.val = v) (he : ∃ w ∈ ws, w.key = k) : applyW ws m k = v :=
  Field.fold_upd_agree (fun w : Write V => w.key) (fun w => w.val) ws m k v h he

theorem applyW_move (a : List (Write V)) (w : Write V) (m : Int × Addr → V) (h : ∀ u ∈ a, u.key ≠ w.key) :
    applyW a (upd m w.key w.val) = upd (applyW a m) w.key w.val := by
  induction a generalizing m with
  | nil => rfl
  | cons u a ih =>
    have hu : u.key ≠ w.key := h u List.mem_cons_self
    have e : upd (upd m w.key w.val) u.key u.val = upd (upd m u.key u.val) w.key w.val := by
      funext k
      unfold upd
      by_cases h1 : k = u.key <;> by_cases h2 : k = w.key
      · exact absurd (h1.symm.trans h2) hu
      · simp [h1, hu]
      · simp [h2, Ne.symm hu]
      · simp [h1, h2]
    have := ih (upd m u.key u.val) fun v hv => h v (List.mem_cons_of_mem _ hv)
    unfold applyW at this ⊢
    rw [List.foldl_cons, List.foldl_cons, e, this]

/-- memory once everything pending has been performed -/
def flush (s : St V) : Int × Addr → V := applyW s.pend s.mem

theorem deliver_some {k : Nat} {s s' : St V} (h : deliver k s = some s') : ∃ a w b, s.pend = a ++ w :: b ∧
    (∀ u ∈ a, u.key.2.1 ≠ w.key.2.1) ∧ s' = { s with pend := a ++ b, mem := upd s.mem w.key w.val } := by
  unfold deliver at h
  split at h
  · exact absurd h (by simp)
  · rename_i w hw
    split at h
    · exact absurd h (by simp)
    · rename_i hn
      obtain ⟨hk, rfl⟩ := List.getElem?_eq_some_iff.1 hw
      refine ⟨s.pend.take k, s.pend[k], s.pend.drop (k + 1), ?_, ?_, (Option.some.inj h).symm⟩
      · rw [← List.drop_eq_getElem_cons hk, List.take_append_drop]
      · intro u hu e
        exact hn (List.any_eq_true.2 ⟨u, hu, by simp [e]⟩)

theorem flush_deliver {k : Nat} {s s' : St V} (h : deliver k s = some s') : flush s' = flush s := by
  obtain ⟨a, w, b, h1, h2, rfl⟩ := deliver_some h
  unfold flush
  rw [h1]
  dsimp only
  rw [applyW_append, applyW_append, applyW_move _ _ _ fun u hu e => h2 u hu (by rw [e])]
  rfl

theorem wait_some {h : Int} {s s' : St V} (e : nbwaitNotify h s = some s') : s'.pend = s.pend ∧ s'.mem = s.mem ∧
    s'.ub = s.ub ∧ ((h ∉ s.slots ∧ s' = s) ∨ ∃ i, s.slots.findIdx? (· == h) = some i ∧
      (∀ w ∈ s.pend, w.slot ≠ i) ∧ s'.slots = s.slots.set i 0) := by
  unfold nbwaitNotify at e
  split at e
  · rename_i hn
    obtain rfl := Option.some.inj e
    refine ⟨rfl, rfl, rfl, Or.inl ⟨?_, rfl⟩⟩
    intro hm
    rw [List.findIdx?_eq_none_iff] at hn
    simpa using hn h hm
  · rename_i i hi
    split at e
    · exact absurd e (by simp)
    · rename_i hn
      obtain rfl := Option.some.inj e
      refine ⟨rfl, rfl, rfl, Or.inr ⟨i, hi, ?_, rfl⟩⟩
      intro w hw e
      exact hn (List.any_eq_true.2 ⟨w, hw, by simp [e]⟩)

theorem intersects_iff {lo hi e : List Int} (h1 : hi.length = lo.length) (h2 : e.length = lo.length) :
    intersects lo hi e = true ↔ InPatch lo hi e := by
  induction lo generalizing hi e with
  | nil =>
    match hi, e, h1, h2 with
    | [], [], _, _ => simp [intersects, InPatch]
  | cons l lo ih =>
    match hi, e, h1, h2 with
    | b :: hi, c :: e, h1, h2 =>
      simp only [List.length_cons, Nat.add_right_cancel_iff] at h1 h2
      simp only [intersects, InPatch]
      rw [← ih h1 h2]
      split
      · rename_i hc
        simp only [Bool.false_eq_true, false_iff]
        omega
      · rename_i hc
        constructor
        · intro hh; exact ⟨by omega, hh⟩
        · intro hh; exact hh.2

/-- the request a call stands for, in state `s` -/
def reqOf (a : Args) (s : St V) : NotifyReq V :=
  ⟨a.g, a.lo, a.hi, a.ld, fun i => s.ub (a.buf + i), a.gn, a.e, s.ub a.bufn⟩

/-- The caller's part: environments fit the arrays, leading dimensions fit the patch, and a notification
that lies in the patch is the element of the buffer it is stored from. -/
structure ArgsOK (arr : Int → RegArray) (a : Args) : Prop where
  env : EnvOK a.E (arr a.g)
  env' : EnvOK a.E' (arr a.gn)
  ld : LdOK a.lo a.hi a.ld
  dims : a.lo.length = (arr a.g).dims.length
  dims' : a.e.length = (arr a.gn).dims.length
  elem : a.g = a.gn → InPatch a.lo a.hi a.e → a.bufn = a.buf + bufPos a.lo a.ld a.e
  handle : a.h ≠ 0

/-- value first stored for element `x` of the patch -/
def firstVal (bump : V → V) (a : Args) (s : St V) (x : List Int) : V :=
  if a.g = a.gn ∧ x = a.e then bump (s.ub a.bufn) else s.ub (a.buf + bufPos a.lo a.ld x)

theorem impl_of_pieces {A : RegArray} {E : Env} (hA : ArrOK A) (hE : EnvOK E A)
    {lo hi ld : List Int} {rs : List RPiece} (h : regPieces E A lo hi = some rs)
    (hld : ld.length + 1 = lo.length) : PatchOK A.dims lo hi ∧
      Implements (cell A) lo hi ld (xfers E.isLocal lo ld rs) := by
  obtain ⟨h1, h2, h3⟩ := regPieces_spec hA hE h
  refine ⟨h1, xfers_implements _ hld h2 ?_⟩
  intro p hp
  obtain ⟨a, b, c, d, e⟩ := h3 p hp
  exact ⟨a, b, d, fun x hx => (e x hx).2.2⟩

theorem single_xfer {A : RegArray} {E : Env} (hA : ArrOK A) (hE : EnvOK E A) {e : List Int} {qs : List RPiece}
    (hl : e.length = A.dims.length) (h : regPieces E A e e = some qs) : InArray A.dims e ∧
    xfers E.isLocal e (ldn e.length) qs = [⟨0, cell A e⟩] := by
  have hne : 0 < A.dims.length := List.length_pos_iff.2 hA.ne
  have hld : (ldn e.length).length + 1 = e.length := by
    unfold ldn
    rw [List.length_take, List.length_cons, List.length_replicate]
    omega
  obtain ⟨h1, h2⟩ := impl_of_pieces hA hE h hld
  unfold Implements at h2
  rw [Ghost.box_self, List.map_singleton, bufPos_self] at h2
  refine ⟨h1.inArray ?_, List.perm_singleton.1 h2⟩
  have : e ∈ box e e := by rw [Ghost.box_self]; exact List.mem_singleton_self e
  exact mem_box.1 this

theorem put_some {arr : Int → RegArray} {bump : V → V} (hA : ∀ g, ArrOK (arr g)) {a : Args} (ha : ArgsOK arr a)
    {s s' : St V} (h : nbputNotify arr bump a s = some s') :
    ∃ pos W, emptySlot s.slots = some pos ∧ s'.slots = s.slots.set pos a.h ∧ s'.mem = s.mem ∧
      s'.pend = s.pend ++ (W ++ [⟨pos, (a.gn, cell (arr a.gn) a.e), s.ub a.bufn⟩]) ∧
      s'.ub = (if a.g = a.gn ∧ InPatch a.lo a.hi a.e then upd s.ub a.bufn (bump (s.ub a.bufn)) else s.ub) ∧
      PatchOK (arr a.g).dims a.lo a.hi ∧ InArray (arr a.gn).dims a.e ∧
      ∀ w, w ∈ W ↔ ∃ x, InPatch a.lo a.hi x ∧ w = ⟨pos, (a.g, cell (arr a.g) x), firstVal bump a s x⟩ := by
  obtain ⟨hE, hE', hld, hd, hd', hel, hh⟩ := ha
  unfold nbputNotify at h
  rw [Option.bind_eq_some_iff] at h
  obtain ⟨pos, hpos, h⟩ := h
  refine ⟨pos, ?_⟩
  have hl1 : a.hi.length = a.lo.length := hld.length.1
  split at h
  · rename_i hi'
    obtain ⟨hg, hint⟩ := hi'
    have hin : InPatch a.lo a.hi a.e := (intersects_iff hl1 (by rw [hd', ← hg, hd])).1 hint
    split at h
    · simp only [Option.bind_eq_some_iff, Option.map_eq_some_iff] at h
      obtain ⟨ps, hps, qs, hqs, rfl⟩ := h
      rw [hg] at hqs
      obtain ⟨h1, h2⟩ := impl_of_pieces (hA _) hE hps hld.length.2
      obtain ⟨h3, h4⟩ := single_xfer (hA _) hE' hd' hqs
      refine ⟨writes pos a.g (xfers a.E.isLocal a.lo a.ld ps)
        (fun i => upd s.ub a.bufn (bump (s.ub a.bufn)) (a.buf + i)), hpos, rfl, rfl, ?_, ?_, h1, h3, ?_⟩
      · dsimp only
        rw [h4]
        simp only [writes, List.map_cons, List.map_nil, hg]
      · rw [if_pos ⟨hg, hin⟩]
      · intro w
        unfold writes
        rw [List.mem_map]
        have hval : ∀ x, InPatch a.lo a.hi x →
            upd s.ub a.bufn (bump (s.ub a.bufn)) (a.buf + bufPos a.lo a.ld x) = firstVal bump a s x := by
          intro x hx
          have hb := hel hg hin
          unfold upd firstVal
          by_cases hxe : x = a.e
          · rw [if_pos (by rw [hb, hxe]), if_pos ⟨hg, hxe⟩]
          · rw [if_neg, if_neg fun hh => hxe hh.2]
            intro e
            exact hxe (bufPos_inj hld hx hin (by omega))
        constructor
        · rintro ⟨t, ht, rfl⟩
          obtain ⟨x, hx, rfl⟩ := h2.of_mem ht
          exact ⟨x, hx, by dsimp only; rw [hval x hx]⟩
        · rintro ⟨x, hx, rfl⟩
          exact ⟨_, h2.mem hx, by dsimp only; rw [hval x hx]⟩
    · exact absurd h (by simp)
  · rename_i hi'
    simp only [Option.bind_eq_some_iff, Option.map_eq_some_iff] at h
    obtain ⟨ps, hps, qs, hqs, rfl⟩ := h
    obtain ⟨h1, h2⟩ := impl_of_pieces (hA _) hE hps hld.length.2
    obtain ⟨h3, h4⟩ := single_xfer (hA _) hE' hd' hqs
    have hni : ¬ (a.g = a.gn ∧ InPatch a.lo a.hi a.e) := by
      rintro ⟨hg, hin⟩
      exact hi' ⟨hg, (intersects_iff hl1 (by rw [hd', ← hg, hd])).2 hin⟩
    refine ⟨writes pos a.g (xfers a.E.isLocal a.lo a.ld ps) (fun i => s.ub (a.buf + i)), hpos, rfl, rfl, ?_, ?_,
      h1, h3, ?_⟩
    · dsimp only
      rw [h4]
      simp only [writes, List.map_cons, List.map_nil, Int.add_zero]
    · rw [if_neg hni]
    · intro w
      unfold writes
      rw [List.mem_map]
      have hval : ∀ x, InPatch a.lo a.hi x → s.ub (a.buf + bufPos a.lo a.ld x) = firstVal bump a s x := by
        intro x hx
        unfold firstVal
        rw [if_neg]
        rintro ⟨hg, rfl⟩
        exact hni ⟨hg, hx⟩
      constructor
      · rintro ⟨t, ht, rfl⟩
        obtain ⟨x, hx, rfl⟩ := h2.of_mem ht
        exact ⟨x, hx, by dsimp only; rw [hval x hx]⟩
      · rintro ⟨x, hx, rfl⟩
        exact ⟨_, h2.mem hx, by dsimp only; rw [hval x hx]⟩

/-- contents of the arrays in memory `m` -/
def contents (arr : Int → RegArray) (m : Int × Addr → V) (g : Int) (x : List Int) : V := m (g, cell (arr g) x)

theorem key_inj {arr : Int → RegArray} (hA : ∀ g, ArrOK (arr g)) {g g' : Int} {x y : List Int}
    (hx : InArray (arr g).dims x) (hy : InArray (arr g').dims y)
    (h : (g, cell (arr g) x) = (g', cell (arr g') y)) : g = g' ∧ x = y := by
  rw [Prod.mk.injEq] at h
  obtain ⟨rfl, h2⟩ := h
  exact ⟨rfl, cell_inj (hA g) hx hy h2⟩

/-- what the transfers of a request do to the arrays -/
theorem put_contents {arr : Int → RegArray} {bump : V → V} (hA : ∀ g, ArrOK (arr g)) {a : Args} {s : St V}
    {pos : Nat} {W : List (Write V)} (hP : PatchOK (arr a.g).dims a.lo a.hi) (hI : InArray (arr a.gn).dims a.e)
    (hW : ∀ w, w ∈ W ↔ ∃ x, InPatch a.lo a.hi x ∧ w = ⟨pos, (a.g, cell (arr a.g) x), firstVal bump a s x⟩)
    (m : Int × Addr → V) {f : Int → List Int → V}
    (hf : ∀ g x, InArray (arr g).dims x → contents arr m g x = f g x) (g : Int) (x : List Int)
    (hx : InArray (arr g).dims x) :
    contents arr (applyW (W ++ [⟨pos, (a.gn, cell (arr a.gn) a.e), s.ub a.bufn⟩]) m) g x =
      notifyStep f (reqOf a s) g x := by
  unfold contents notifyStep reqOf
  rw [applyW_append]
  dsimp only
  split
  · rename_i h
    obtain ⟨rfl, rfl⟩ := h
    apply applyW_hit
    · intro w hw _
      rw [List.mem_singleton.1 hw]
    · exact ⟨_, List.mem_singleton_self _, rfl⟩
  · rename_i hne
    rw [applyW_miss]
    · split
      · rename_i h
        obtain ⟨rfl, h⟩ := h
        apply applyW_hit
        · intro w hw e
          obtain ⟨y, hy, rfl⟩ := (hW w).1 hw
          obtain ⟨-, rfl⟩ := key_inj hA (hP.inArray hy) hx e
          dsimp only
          unfold firstVal
          rw [if_neg hne]
        · exact ⟨_, (hW _).2 ⟨x, h, rfl⟩, rfl⟩
      · rename_i h
        rw [applyW_miss]
        · exact hf g x hx
        · intro w hw e
          obtain ⟨y, hy, rfl⟩ := (hW w).1 hw
          obtain ⟨rfl, rfl⟩ := key_inj hA (hP.inArray hy) hx e
          exact h ⟨rfl, hy⟩
    · intro w hw e
      rw [List.mem_singleton.1 hw] at e
      obtain ⟨rfl, rfl⟩ := key_inj hA hI hx e
      exact hne ⟨rfl, rfl⟩

/-- the requests made in a history -/
def requests (arr : Int → RegArray) (bump : V → V) : List Ev → St V → List (NotifyReq V)
  | [], _ => []
  | .put a :: evs, s => reqOf a s :: ((nbputNotify arr bump a s).elim [] fun s' => requests arr bump evs s')
  | ev :: evs, s => (step arr bump s ev).elim [] fun s' => requests arr bump evs s'

/-- the caller's part in a history -/
def EvOK (arr : Int → RegArray) : Ev → Prop
  | .put a => ArgsOK arr a
  | _ => True

theorem flush_run {arr : Int → RegArray} {bump : V → V} (hA : ∀ g, ArrOK (arr g)) (evs : List Ev)
    (hev : ∀ ev ∈ evs, EvOK arr ev) {s s' : St V} {f : Int → List Int → V}
    (hf : ∀ g x, InArray (arr g).dims x → contents arr (flush s) g x = f g x)
    (h : run arr bump evs s = some s') : ∀ g x, InArray (arr g).dims x →
      contents arr (flush s') g x = notifyRun f (requests arr bump evs s) g x := by
  induction evs generalizing s f with
  | nil =>
    obtain rfl := Option.some.inj h
    exact hf
  | cons ev evs ih =>
    obtain ⟨s1, h1, h2⟩ := Option.bind_eq_some_iff.1 h
    have hev' : ∀ ev ∈ evs, EvOK arr ev := fun e he => hev e (List.mem_cons_of_mem _ he)
    have hev1 := hev ev List.mem_cons_self
    cases ev with
    | put a =>
      have h1' : nbputNotify arr bump a s = some s1 := h1
      obtain ⟨pos, W, -, -, hm, hp, -, hP, hI, hW⟩ := put_some hA hev1 h1'
      have := ih hev' (f := notifyStep f (reqOf a s)) ?_ h2
      · simp only [requests, h1', Option.elim_some, notifyRun, List.foldl_cons]
        exact this
      · intro g x hx
        have e : flush s1 = applyW (W ++ [⟨pos, (a.gn, cell (arr a.gn) a.e), s.ub a.bufn⟩]) (flush s) := by
          unfold flush
          rw [hp, hm, applyW_append]
        rw [e]
        exact put_contents hA hP hI hW _ hf g x hx
    | wait k =>
      have h1' : nbwaitNotify k s = some s1 := h1
      obtain ⟨e1, e2, -, -⟩ := wait_some h1'
      have := ih hev' (f := f) ?_ h2
      · simp only [requests, h1, Option.elim_some]
        exact this
      · unfold flush
        rw [e1, e2]
        exact hf
    | deliver k =>
      have h1' : deliver k s = some s1 := h1
      have := ih hev' (f := f) ?_ h2
      · simp only [requests, h1, Option.elim_some]
        exact this
      · rw [flush_deliver h1']
        exact hf

end GA.Notify
