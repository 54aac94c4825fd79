import Verif.Model.Select
import Verif.Lemmas.Pieces
import Verif.Lemmas.GatScat

/-! # Lemmas: selection of the extreme element -/

namespace GA
open Spec Model

section
variable {K V : Type} [LinearOrder K]

theorem atLeast_refl (op : SelOp) (a : K) : op.atLeast a a := by
  cases op <;> simp [SelOp.atLeast]

theorem atLeast_trans {op : SelOp} {a b c : K} (h1 : op.atLeast a b) (h2 : op.atLeast b c) : op.atLeast a c := by
  cases op <;> simp only [SelOp.atLeast] at *
  · exact le_trans h1 h2
  · exact le_trans h2 h1

theorem better_true {op : SelOp} {a b : K} (h : selBetter op a b = true) : op.atLeast a b := by
  cases op <;> simp only [SelOp.atLeast, selBetter, decide_eq_true_eq] at * <;> exact le_of_lt h

theorem better_false {op : SelOp} {a b : K} (h : ¬ selBetter op a b = true) : op.atLeast b a := by
  cases op <;> simp only [SelOp.atLeast, selBetter, decide_eq_true_eq, not_lt] at * <;> exact h

theorem selLoop_spec (op : SelOp) (key : V → K) (rd : Nat → V) (n i : Nat) (k : K) (ind : Int) :
    ((selLoop op key rd n i k ind = (k, ind)) ∨
      ∃ j, i ≤ j ∧ j < i + n ∧ selLoop op key rd n i k ind = (key (rd j), (j : Int))) ∧
    (op.atLeast (selLoop op key rd n i k ind).1 k) ∧
    (∀ j, i ≤ j → j < i + n → op.atLeast (selLoop op key rd n i k ind).1 (key (rd j))) := by
  induction n generalizing i k ind with
  | zero => exact ⟨Or.inl rfl, atLeast_refl _ _, fun j h1 h2 => by omega⟩
  | succ n ih =>
    unfold selLoop
    split
    · rename_i hb
      obtain ⟨h1, h2, h3⟩ := ih (i + 1) (key (rd i)) i
      refine ⟨Or.inr ?_, atLeast_trans h2 (better_true hb), ?_⟩
      · rcases h1 with h | ⟨j, j1, j2, j3⟩
        · exact ⟨i, by omega, by omega, h⟩
        · exact ⟨j, by omega, by omega, j3⟩
      · intro j j1 j2
        by_cases hj : j = i
        · subst hj; exact h2
        · exact h3 j (by omega) (by omega)
    · rename_i hb
      obtain ⟨h1, h2, h3⟩ := ih (i + 1) k ind
      refine ⟨?_, h2, ?_⟩
      · rcases h1 with h | ⟨j, j1, j2, j3⟩
        · exact Or.inl h
        · exact Or.inr ⟨j, by omega, by omega, j3⟩
      · intro j j1 j2
        by_cases hj : j = i
        · subst hj; exact atLeast_trans h2 (better_false hb)
        · exact h3 j (by omega) (by omega)

/-- index within a packed block to subscript -/
theorem selSubscr_spec {lo hi : List Int} (h : InPatch lo hi lo) (j : Int) (h0 : 0 ≤ j) (hne : lo ≠ [])
    (h1 : j < prodI (edges lo hi)) :
    ∃ x, selSubscr lo hi j = some (x, 0) ∧ InPatch lo hi x ∧ bufPos lo (edges lo hi).dropLast x = j := by
  induction lo generalizing hi j with
  | nil => exact absurd rfl hne
  | cons l lo ih =>
    match lo, hi, h with
    | [], [hh], h =>
      have := h.1
      simp only [edges, prodI, Int.mul_one] at h1
      refine ⟨[j + l], ?_, ⟨by omega, trivial⟩, by simp [bufPos, edges]⟩
      simp only [selSubscr]
      rw [if_neg (by omega), Int.tdiv_eq_ediv_of_nonneg h0, Int.tmod_eq_emod_of_nonneg h0,
        Int.ediv_eq_zero_of_lt h0 (by omega), Int.emod_eq_of_lt h0 (by omega)]
      rfl
    | l' :: lo, hh :: h' :: hi, h =>
      have hl := h.1
      have he : 0 < hh - l + 1 := by omega
      have hq : j / (hh - l + 1) < prodI (edges (l' :: lo) (h' :: hi)) := by
        rw [Int.ediv_lt_iff_lt_mul he]
        simp only [edges, prodI] at h1 ⊢
        rw [Int.mul_comm (a := (h' - l' + 1) * _)]
        exact h1
      obtain ⟨x, x1, x2, x3⟩ := ih h.2 (j / (hh - l + 1)) (Int.ediv_nonneg h0 (by omega)) (by simp) hq
      have m0 := Int.emod_nonneg j (by omega : hh - l + 1 ≠ 0)
      have m1 := Int.emod_lt_of_pos j he
      have m2 := Int.emod_add_mul_ediv j (hh - l + 1)
      refine ⟨(j % (hh - l + 1) + l) :: x, ?_, ⟨by omega, x2⟩, ?_⟩
      · rw [selSubscr, if_neg (by omega), Int.tdiv_eq_ediv_of_nonneg h0, Int.tmod_eq_emod_of_nonneg h0, x1]
        rfl
      · simp only [edges, List.dropLast_cons₂, bufPos] at x3 ⊢
        rw [x3]; omega

theorem bufPos_lt {lo hi x : List Int} (h : InPatch lo hi x) (hne : lo ≠ []) :
    0 ≤ bufPos lo (edges lo hi).dropLast x ∧ bufPos lo (edges lo hi).dropLast x < prodI (edges lo hi) := by
  induction lo generalizing hi x with
  | nil => exact absurd rfl hne
  | cons l lo ih =>
    match lo, hi, x, h with
    | [], [hh], [x], h =>
      have := h.1
      simp only [edges, prodI, bufPos, List.dropLast_singleton, Int.mul_one]
      omega
    | [], _ :: _ :: _, [_], h => exact absurd h.2 (by simp [InPatch])
    | [], _ :: _ :: _, _ :: _ :: _, h => exact absurd h.2 (by simp [InPatch])
    | _ :: _, [_], [_], h => exact absurd h.2 (by simp [InPatch])
    | _ :: _, [_], _ :: _ :: _, h => exact absurd h.2 (by simp [InPatch])
    | l' :: lo, hh :: h' :: hi, x :: xs, h =>
      have hl := h.1
      obtain ⟨h1, h2⟩ := ih h.2 (by simp)
      simp only [edges, prodI, List.dropLast_cons₂, bufPos] at h1 h2 ⊢
      generalize bufPos (l' :: lo) ((h' - l' + 1) :: edges lo hi).dropLast xs = b at *
      generalize (h' - l' + 1) * prodI (edges lo hi) = q at *
      constructor
      · have := Int.mul_nonneg (show 0 ≤ hh - l + 1 by omega) h1
        omega
      · have : (hh - l + 1) * (b + 1) ≤ (hh - l + 1) * q := Int.mul_le_mul_of_nonneg_left (by omega) (by omega)
        rw [Int.mul_add] at this
        omega

theorem selSubscr_some {lo hi : List Int} (h : InPatch lo hi lo) (j : Int) : ∃ s, selSubscr lo hi j = some s := by
  induction lo generalizing hi j with
  | nil => exact ⟨([], j), by simp only [selSubscr]⟩
  | cons l lo ih =>
    match hi, h with
    | hh :: hi, h =>
      have := h.1
      obtain ⟨s, hs⟩ := ih h.2 (j.tdiv (hh - l + 1))
      exact ⟨_, by simp only [selSubscr]; rw [if_neg (by omega), hs]; rfl⟩

/-- what `selStep` needs to know about a block -/
structure SelBlockOK (cl : List Int → Addr) (it : LItem) : Prop where
  full : InPatch it.lo it.hi it.lo
  ne : it.lo ≠ []
  ld : it.ld = (edges it.lo it.hi).dropLast
  cell : ∀ x, InPatch it.lo it.hi x → cl x = ((it.proc : Int), it.off + bufPos it.lo it.ld x)

variable {op : SelOp} {key : V → K} {m : Addr → V} {cl : List Int → Addr}

/-- the block's extreme key, and its index if `ind` was zero -/
theorem selBlock_spec {it : LItem} (h : SelBlockOK cl it) (ind : Int) :
    ∃ k ind', selLoop op key (fun j : Nat => m ((it.proc : Int), it.off + j)) (prodI (edges it.lo it.hi)).toNat 0
        (key (m ((it.proc : Int), it.off + (0 : Nat)))) ind = (k, ind') ∧
      (∃ x, InPatch it.lo it.hi x ∧ key (m (cl x)) = k) ∧
      (∀ x, InPatch it.lo it.hi x → op.atLeast k (key (m (cl x)))) ∧
      (ind = 0 → ∃ x, selSubscr it.lo it.hi ind' = some (x, 0) ∧ InPatch it.lo it.hi x ∧
        key (m (cl x)) = k ∧ m ((it.proc : Int), it.off + ind') = m (cl x)) := by
  obtain ⟨h1, h2, h3⟩ := selLoop_spec op key (fun j : Nat => m ((it.proc : Int), it.off + j))
    (prodI (edges it.lo it.hi)).toNat 0 (key (m ((it.proc : Int), it.off + (0 : Nat)))) ind
  have hpos : 0 < prodI (edges it.lo it.hi) := by
    have := bufPos_lt h.full h.ne
    omega
  have hx : ∀ j : Int, 0 ≤ j → j < prodI (edges it.lo it.hi) → ∃ x, selSubscr it.lo it.hi j = some (x, 0) ∧
      InPatch it.lo it.hi x ∧ m (cl x) = m ((it.proc : Int), it.off + j) := by
    intro j j0 j1
    obtain ⟨x, x1, x2, x3⟩ := selSubscr_spec h.full j j0 h.ne j1
    exact ⟨x, x1, x2, by rw [h.cell x x2, h.ld, x3]⟩
  refine ⟨_, _, rfl, ?_, ?_, ?_⟩
  · rcases h1 with e | ⟨j, _, j2, e⟩
    · rw [e]
      obtain ⟨x, _, x2, x3⟩ := hx 0 (le_refl _) hpos
      exact ⟨x, x2, by rw [x3]; rfl⟩
    · rw [e]
      obtain ⟨x, _, x2, x3⟩ := hx j (by omega) (by omega)
      exact ⟨x, x2, by rw [x3]⟩
  · intro x hxp
    have hb := bufPos_lt hxp h.ne
    have := h3 (bufPos it.lo it.ld x).toNat (by omega) (by rw [h.ld]; omega)
    rw [h.cell x hxp]
    have e : ((bufPos it.lo it.ld x).toNat : Int) = bufPos it.lo it.ld x := by rw [h.ld]; omega
    rw [e] at this
    exact this
  · intro h0
    rcases h1 with e | ⟨j, _, j2, e⟩
    · rw [e, h0]
      obtain ⟨x, x1, x2, x3⟩ := hx 0 (le_refl _) hpos
      exact ⟨x, x1, x2, by rw [x3]; rfl, by rw [x3]⟩
    · rw [e]
      obtain ⟨x, x1, x2, x3⟩ := hx j (by omega) (by omega)
      exact ⟨x, x1, x2, by rw [x3], by rw [x3]⟩

/-- `v` is the extreme key of the elements of the blocks -/
def BlkExtreme (op : SelOp) (key : V → K) (m : Addr → V) (cl : List Int → Addr) (its : List LItem) (v : K) : Prop :=
  (∃ it ∈ its, ∃ x, InPatch it.lo it.hi x ∧ key (m (cl x)) = v) ∧
  ∀ it ∈ its, ∀ x, InPatch it.lo it.hi x → op.atLeast v (key (m (cl x)))

/-- `info` names an element of the blocks -/
def BlkNames (key : V → K) (m : Addr → V) (cl : List Int → Addr) (its : List LItem) (info : SelInfo K V) : Prop :=
  ∃ it ∈ its, InPatch it.lo it.hi info.subscr ∧ key (m (cl info.subscr)) = info.v ∧
    info.extra = m (cl info.subscr)

theorem selStep_spec {it : LItem} (h : SelBlockOK cl it) (done : List LItem) {st st' : Option (SelInfo K V) × Int}
    (hst : ∀ info, st.1 = some info → BlkExtreme op key m cl done info.v)
    (hst0 : st.1 = none → done = [])
    (hs : selStep op key m st it = some st') :
    ∃ info', st'.1 = some info' ∧ BlkExtreme op key m cl (done ++ [it]) info'.v ∧
      (st.2 = 0 → (∀ info, st.1 = some info → BlkNames key m cl done info) →
        BlkNames key m cl (done ++ [it]) info' ∧ (st.1 = none → st'.2 = 0)) := by
  obtain ⟨k, ind', e, ⟨x, hx, hk⟩, hall, hnm⟩ := selBlock_spec (op := op) (key := key) (m := m) h st.2
  have hge : getElems it.lo it.hi it.ld = some (prodI (edges it.lo it.hi)) := by
    unfold getElems
    rw [extents_eq, if_pos h.ld]
  obtain ⟨s, hss⟩ := selSubscr_some h.full ind'
  simp only [selStep, hge, Option.bind_some, e, hss, Option.map_some] at hs
  have key1 : ∀ it' ∈ done ++ [it], it' ∈ done ∨ it' = it := by
    intro it' h'; simpa using h'
  cases h1 : st.1 with
  | none =>
    rw [h1] at hs
    simp only [Option.some.injEq] at hs
    subst hs
    have hd := hst0 h1
    subst hd
    refine ⟨_, rfl, ⟨⟨it, by simp, x, hx, hk⟩, ?_⟩, ?_⟩
    · intro it' h' y hy
      simp at h'; subst h'
      exact hall y hy
    · intro h0 _
      obtain ⟨y, y1, y2, y3, y4⟩ := hnm h0
      rw [y1] at hss
      simp only [Option.some.injEq] at hss
      subst hss
      exact ⟨⟨it, by simp, y2, y3, y4⟩, fun _ => rfl⟩
  | some info =>
    rw [h1] at hs
    simp only at hs
    obtain ⟨⟨it0, i0, x0, x1, x2⟩, hb⟩ := hst info h1
    split at hs
    · rename_i hbt
      simp only [Option.some.injEq] at hs
      subst hs
      refine ⟨_, rfl, ⟨⟨it, by simp, x, hx, hk⟩, ?_⟩, ?_⟩
      · intro it' h' y hy
        rcases key1 it' h' with h' | rfl
        · exact atLeast_trans (better_true hbt) (hb it' h' y hy)
        · exact hall y hy
      · intro h0 _
        obtain ⟨y, y1, y2, y3, y4⟩ := hnm h0
        rw [y1] at hss
        simp only [Option.some.injEq] at hss
        subst hss
        exact ⟨⟨it, by simp, y2, y3, y4⟩, by simp⟩
    · rename_i hbf
      simp only [Option.some.injEq] at hs
      subst hs
      refine ⟨info, rfl, ⟨⟨it0, by simp [i0], x0, x1, x2⟩, ?_⟩, ?_⟩
      · intro it' h' y hy
        rcases key1 it' h' with h' | rfl
        · exact hb it' h' y hy
        · exact atLeast_trans (better_false hbf) (hall y hy)
      · intro _ hnames
        obtain ⟨it1, j1, j2⟩ := hnames info rfl
        exact ⟨⟨it1, by simp [j1], j2⟩, by simp⟩

theorem selBlocks_spec {its done : List LItem} (h : ∀ it ∈ its, SelBlockOK cl it) {st st' : Option (SelInfo K V) × Int}
    (hst : ∀ info, st.1 = some info → BlkExtreme op key m cl done info.v)
    (hst0 : st.1 = none → done = [])
    (hs : selBlocks op key m its st = some st') :
    (∀ info, st'.1 = some info → BlkExtreme op key m cl (done ++ its) info.v) ∧
    (st'.1 = none → its = []) := by
  induction its generalizing done st with
  | nil =>
    simp only [selBlocks, Option.some.injEq] at hs
    subst hs
    rw [List.append_nil]
    exact ⟨hst, fun _ => rfl⟩
  | cons it its ih =>
    simp only [selBlocks] at hs
    obtain ⟨st1, e1, e2⟩ := Option.bind_eq_some_iff.1 hs
    obtain ⟨info', f1, f2, _⟩ := selStep_spec (h it (by simp)) done hst hst0 e1
    obtain ⟨g1, g2⟩ := ih (done := done ++ [it]) (fun a ha => h a (by simp [ha])) (st := st1)
      (by intro info hi; rw [f1] at hi; cases hi; exact f2) (by intro h0; rw [f1] at h0; cases h0) e2
    rw [List.append_assoc, List.singleton_append] at g1
    refine ⟨g1, ?_⟩
    intro h0
    exfalso
    have hmono : ∀ (l : List LItem) (s s' : Option (SelInfo K V) × Int), s.1 ≠ none →
        selBlocks op key m l s = some s' → s'.1 ≠ none := by
      intro l
      induction l with
      | nil => intro s s' hn hh; simp only [selBlocks, Option.some.injEq] at hh; subst hh; exact hn
      | cons a l ihl =>
        intro s s' hn hh
        simp only [selBlocks] at hh
        obtain ⟨s1, a1, a2⟩ := Option.bind_eq_some_iff.1 hh
        refine ihl s1 s' ?_ a2
        simp only [selStep] at a1
        obtain ⟨n, _, a3⟩ := Option.bind_eq_some_iff.1 a1
        cases hs1 : s.1 with
        | none => exact absurd hs1 hn
        | some info =>
          rw [hs1] at a3
          simp only at a3
          split at a3
          · obtain ⟨q, _, rfl⟩ := Option.map_eq_some_iff.1 a3
            simp
          · simp only [Option.some.injEq] at a3
            subst a3; simp
    exact hmono its st1 st' (by rw [f1]; simp) e2 h0

/-- with at most two blocks the subscript is right -/
theorem selBlocks_names {its : List LItem} (h : ∀ it ∈ its, SelBlockOK cl it) (h2 : its.length ≤ 2)
    {st' : Option (SelInfo K V) × Int} (hs : selBlocks op key m its (none, 0) = some st') :
    ∀ info, st'.1 = some info → BlkNames key m cl its info := by
  match its, h2 with
  | [], _ =>
    simp only [selBlocks, Option.some.injEq] at hs
    subst hs
    intro info hi; cases hi
  | [a], _ =>
    simp only [selBlocks] at hs
    obtain ⟨st1, e1, e2⟩ := Option.bind_eq_some_iff.1 hs
    simp only [Option.some.injEq] at e2
    subst e2
    obtain ⟨info', f1, f2, f3⟩ := selStep_spec (h a (by simp)) [] (by simp) (by simp) e1
    obtain ⟨g1, g2⟩ := f3 rfl (by simp)
    intro info hi
    rw [f1] at hi; cases hi
    exact g1
  | [a, b], _ =>
    simp only [selBlocks] at hs
    obtain ⟨st1, e1, e2⟩ := Option.bind_eq_some_iff.1 hs
    obtain ⟨st2, e3, e4⟩ := Option.bind_eq_some_iff.1 e2
    simp only [Option.some.injEq] at e4
    subst e4
    obtain ⟨info', f1, f2, f3⟩ := selStep_spec (h a (by simp)) [] (by simp) (by simp) e1
    obtain ⟨g1, g2⟩ := f3 rfl (by simp)
    obtain ⟨info2, k1, k2, k3⟩ := selStep_spec (h b (by simp)) [a]
      (by intro i hi; rw [f1] at hi; cases hi; exact f2) (by intro h0; rw [f1] at h0; cases h0) e3
    obtain ⟨q1, _⟩ := k3 (g2 rfl) (by intro i hi; rw [f1] at hi; cases hi; exact g1)
    intro info hi
    rw [k1] at hi; cases hi
    exact q1

/-- the layout is accepted: no failure -/
theorem selBlocks_some {its : List LItem} (h : ∀ it ∈ its, SelBlockOK cl it) (st : Option (SelInfo K V) × Int) :
    ∃ st', selBlocks op key m its st = some st' := by
  induction its generalizing st with
  | nil => exact ⟨st, rfl⟩
  | cons it its ih =>
    have hi := h it (by simp)
    have hge : getElems it.lo it.hi it.ld = some (prodI (edges it.lo it.hi)) := by
      unfold getElems
      rw [extents_eq, if_pos hi.ld]
    have : ∃ st1, selStep op key m st it = some st1 := by
      simp only [selStep, hge, Option.bind_some]
      obtain ⟨s, hs⟩ := selSubscr_some hi.full (selLoop op key (fun j : Nat => m ((it.proc : Int), it.off + j))
        (prodI (edges it.lo it.hi)).toNat 0 (key (m ((it.proc : Int), it.off + (0 : Nat)))) st.2).2
      rw [hs]
      cases st.1 with
      | none => exact ⟨_, rfl⟩
      | some i => simp only; split <;> exact ⟨_, rfl⟩
    obtain ⟨st1, h1⟩ := this
    obtain ⟨st', h2⟩ := ih (fun a ha => h a (by simp [ha])) st1
    exact ⟨st', by simp only [selBlocks, h1, Option.bind_some, h2]⟩

theorem selBlocks_ld {its : List LItem} {st st' : Option (SelInfo K V) × Int}
    (hs : selBlocks op key m its st = some st') : ∀ it ∈ its, it.ld = (edges it.lo it.hi).dropLast := by
  induction its generalizing st with
  | nil => simp
  | cons it its ih =>
    simp only [selBlocks] at hs
    obtain ⟨st1, e1, e2⟩ := Option.bind_eq_some_iff.1 hs
    intro a ha
    rcases List.mem_cons.1 ha with rfl | ha
    · simp only [selStep] at e1
      obtain ⟨n, e3, _⟩ := Option.bind_eq_some_iff.1 e1
      unfold getElems at e3
      split at e3
      · rename_i h; rw [h, extents_eq]
      · cases e3
    · exact ih e2 a ha

theorem selGlobal_spec {is : List (SelInfo K V)} {r : SelInfo K V} (h : selGlobal op is = some r) :
    r ∈ is ∧ ∀ i ∈ is, op.atLeast r.v i.v := by
  cases is with
  | nil => simp [selGlobal] at h
  | cons i is =>
    simp only [selGlobal, Option.some.injEq] at h
    subst h
    induction is generalizing i with
    | nil => simp [atLeast_refl]
    | cons j is ih =>
      simp only [List.foldl_cons]
      obtain ⟨h1, h2⟩ := ih (if selBetter op j.v i.v then j else i)
      generalize List.foldl _ (if selBetter op j.v i.v then j else i) is = r at h1 h2
      have h3 := h2 _ (List.mem_cons_self)
      constructor
      · rcases List.mem_cons.1 h1 with rfl | h1
        · split <;> simp
        · simp [h1]
      · intro a ha
        rcases List.mem_cons.1 ha with rfl | ha
        · split at h3
          · rename_i hb; exact atLeast_trans h3 (better_true hb)
          · exact h3
        · rcases List.mem_cons.1 ha with rfl | ha
          · split at h3
            · exact h3
            · rename_i hb; exact atLeast_trans h3 (better_false hb)
          · exact h2 a (by simp [ha])

end

end GA
