import Verif.Lemmas.ComexPrefix
import Mathlib.Algebra.BigOperators.Group.Finset.Piecewise

/-!
# C11: fetch-and-add hands out distinct, gap-free tickets

`fetches r a tr` lists the fetch-and-add operations on one cell in the order in which they took
place, with caller, number of the call, increment and the value found. The theorems hold for every
run of the communication layer in which only fetch-and-add calls change the cell (other cells may be
changed in any way).
-/

namespace GA.Comex

/-- increment handed in -/
private def inc (x : Nat × Nat × Int × Int) : Int := x.2.2.1

/-- what an effect adds to the cell -/
private def amt (r a : Nat) (f : Fx) : Int :=
  if f.rank = r ∧ f.addr = a then
    match f.upd with
    | .add w => w
    | _ => 0
  else 0

private theorem fetches_append {r a : Nat} {x y : List Ev} :
    fetches r a (x ++ y) = fetches r a x ++ fetches r a y := by
  induction x with
  | nil => rfl
  | cons e x ih =>
    cases e with
    | rmw p old fx =>
      simp only [List.cons_append, fetches]
      split
      · split
        · rw [ih]; rfl
        · exact ih
      · exact ih
    | _ => simpa [fetches] using ih

/-- the effect of a fetch-and-add call -/
private theorem only_fadd {r a : Nat} {tr : List Ev} (h : OnlyFetchAdd r a tr) {p : Nat} {f : Fx} {op : Op}
    (h1 : (calls p tr)[f.tag]? = some op) (h2 : f ∈ opFx f.tag op) (h3 : f.touches r a) :
    ∃ i, op = .fadd r a i ∧ f = ⟨f.tag, r, a, .add i⟩ := by
  obtain ⟨i, rfl⟩ := h p op (List.mem_of_getElem? h1) f.tag f h2 h3
  refine ⟨i, rfl, ?_⟩
  simpa [opFx] using h2

private theorem on_amt {r a : Nat} {f : Fx} (h : f.touches r a → ∃ i, f.upd = .add i) (y : Int) :
    f.on r a y = y + amt r a f := by
  unfold Fx.on amt
  split
  · rename_i hc
    cases hu : f.upd with
    | put w =>
      obtain ⟨i, hi⟩ := h ⟨hc.1, hc.2, by rw [hu]; simp⟩
      rw [hu] at hi; simp at hi
    | add w => rfl
    | unlock id => simp
  · simp

private theorem fold_amt {r a : Nat} {l : List (Nat × Fx)} (h : ∀ e ∈ l, e.2.touches r a → ∃ i, e.2.upd = .add i)
    (y : Int) : l.foldl (fun v e => e.2.on r a v) y = y + (l.map fun e => amt r a e.2).sum := by
  induction l generalizing y with
  | nil => simp
  | cons e l ih =>
    rw [List.foldl_cons, ih (fun e' he' => h e' (by simp [he'])), on_amt (h e (by simp))]
    simp only [List.map_cons, List.sum_cons]
    omega

private theorem cellVal_amt {mem0 : Nat → Nat → Int} {r a : Nat} {l : List (Nat × Fx)}
    (h : ∀ e ∈ l, e.2.touches r a → ∃ i, e.2.upd = .add i) :
    cellVal mem0 l r a = mem0 r a + (l.map fun e => amt r a e.2).sum := fold_amt h _

private theorem mem_appliedBy {tr : List Ev} {e : Nat × Fx} (h : e ∈ applied tr) : e.2 ∈ appliedBy e.1 tr := by
  simp only [appliedBy, List.mem_map, List.mem_filter, decide_eq_true_eq]
  exact ⟨e, ⟨h, rfl⟩, rfl⟩

/-- the facts about a run used below -/
private structure Facts (c : Cfg) (mem0 : Nat → Nat → Int) (r a : Nat) (tr : List Ev) : Prop where
  hist : Hist c mem0 tr
  touch : ∀ e ∈ applied tr, e.2.touches r a → ∃ i, (calls e.1 tr)[e.2.tag]? = some (.fadd r a i) ∧
    e.2 = ⟨e.2.tag, r, a, .add i⟩
  plain : ∀ p fx, .mem p fx ∈ tr → ∀ f ∈ fx, ¬ f.touches r a

private theorem facts {c : Cfg} (hc : c.OK) {mem0 : Nat → Nat → Int} {as : List Act} {s : State}
    (hrun : run c (start mem0) as = some s) {r a : Nat} (honly : OnlyFetchAdd r a s.tr) :
    Facts c mem0 r a s.tr := by
  have hP := reachPlain hc hrun
  have htouch : ∀ e ∈ applied s.tr, e.2.touches r a → ∃ i, (calls e.1 s.tr)[e.2.tag]? = some (.fadd r a i) ∧
      e.2 = ⟨e.2.tag, r, a, .add i⟩ := by
    intro e he hto
    obtain ⟨op, h1, h2⟩ := applied_called hc hrun (pre := s.tr) (post := []) (by simp) (mem_appliedBy he)
    obtain ⟨i, rfl, h3⟩ := only_fadd honly h1 h2 hto
    exact ⟨i, h1, h3⟩
  refine ⟨(reach hc hrun).1.hist, htouch, ?_⟩
  intro p fx hm f hf hto
  obtain ⟨op, h1, h2⟩ := hP.mem p fx hm f hf
  have hap : (p, f) ∈ applied s.tr := by
    obtain ⟨u, w, e⟩ := List.append_of_mem hm
    rw [e, applied_append]
    simp [applied, hf]
  obtain ⟨i, h3, _⟩ := htouch (p, f) hap hto
  rw [h1] at h3
  simp only [Option.some.injEq] at h3
  subst h3
  simp [isRmw] at h2

private theorem Facts.pre {c : Cfg} {mem0 : Nat → Nat → Int} {r a : Nat} {tr pre post : List Ev}
    (h : Facts c mem0 r a tr) (he : tr = pre ++ post) :
    cellVal mem0 (applied pre) r a = mem0 r a + ((fetches r a pre).map inc).sum := by
  have hadd : ∀ e ∈ applied pre, e.2.touches r a → ∃ i, e.2.upd = .add i := by
    intro e hm hto
    obtain ⟨i, _, h2⟩ := h.touch e (by rw [he, applied_append]; simp [hm]) hto
    exact ⟨i, by rw [h2]⟩
  have hmem : ∀ p fx, .mem p fx ∈ pre → ∀ f ∈ fx, ¬ f.touches r a := by
    intro p fx hm
    exact h.plain p fx (by rw [he]; simp [hm])
  rw [cellVal_amt hadd]
  congr 1
  clear he h
  induction pre with
  | nil => rfl
  | cons e pre ih =>
    have ih' := ih (fun e' he' => hadd e' (by
      have : e' ∈ applied ([e] ++ pre) := by rw [applied_append]; simp [he']
      exact this)) (fun p fx hm => hmem p fx (by simp [hm]))
    cases e with
    | mem p fx =>
      have h0 : (fx.map fun f => amt r a f).sum = 0 := by
        have : fx.map (fun f => amt r a f) = fx.map (fun _ => 0) := by
          refine List.map_congr_left ?_
          intro f hf
          have hn := hmem p fx (by simp) f hf
          unfold amt
          split
          · rename_i hcc
            cases hu : f.upd with
            | add w => exact absurd ⟨hcc.1, hcc.2, by rw [hu]; simp⟩ hn
            | _ => rfl
          · rfl
        rw [this]; simp
      simp only [applied, fetches, List.map_append, List.map_map, List.sum_append]
      rw [ih']
      have : (List.map ((fun e : Nat × Fx => amt r a e.2) ∘ fun f => (p, f)) fx).sum = 0 := h0
      omega
    | rmw p old fx =>
      simp only [applied, fetches, List.map_cons, List.sum_cons, ih']
      cases hu : fx.upd with
      | add w =>
        simp only [amt, hu]
        split
        · simp [inc]
        · simp
      | put w => simp [amt, hu]
      | unlock id => simp [amt, hu]
    | _ => simpa [applied, fetches] using ih'

/-- Each operation finds the initial value plus the increments of exactly the operations ordered
before it. -/
theorem C11_fetch_value (c : Cfg) (hc : c.OK) (mem0 : Nat → Nat → Int) (as : List Act) (s : State)
    (hrun : run c (start mem0) as = some s) (r a : Nat) (honly : OnlyFetchAdd r a s.tr)
    (l1 l2 : List (Nat × Nat × Int × Int)) (p t : Nat) (i old : Int)
    (hl : fetches r a s.tr = l1 ++ (p, t, i, old) :: l2) :
    old = mem0 r a + (l1.map fun x => x.2.2.1).sum := by
  have hF := facts hc hrun honly
  have key : ∀ pre post, s.tr = pre ++ post → ∀ l1 l2, fetches r a pre = l1 ++ (p, t, i, old) :: l2 →
      old = mem0 r a + (l1.map inc).sum := by
    intro pre
    induction pre using List.reverseRecOn with
    | nil => intro post _ l1 l2 h; simp [fetches] at h
    | append_singleton pre e ih =>
      intro post htr l1 l2 h
      rw [List.append_assoc] at htr
      rw [fetches_append] at h
      have hsame : fetches r a [e] = [] → old = mem0 r a + (l1.map inc).sum := by
        intro h0
        rw [h0, List.append_nil] at h
        exact ih _ htr l1 l2 h
      cases e with
      | rmw q o fx =>
        cases hu : fx.upd with
        | add w =>
          by_cases hcc : fx.rank = r ∧ fx.addr = a
          · simp only [fetches, hu, if_pos hcc] at h
            rcases List.append_eq_append_iff.1 h with ⟨l, h2, h3⟩ | ⟨l, h2, h3⟩
            · cases l with
              | nil =>
                simp only [List.nil_append, List.cons.injEq, Prod.mk.injEq] at h3
                simp only [List.append_nil] at h2
                obtain ⟨h4, _⟩ := hF.hist pre _ _ htr
                rw [h2, ← hF.pre htr, ← h3.1.2.2.2, h4, hcc.1, hcc.2]
              | cons x l => simp at h3
            · cases l with
              | nil =>
                simp only [List.nil_append, List.cons.injEq, Prod.mk.injEq] at h3
                simp only [List.append_nil] at h2
                obtain ⟨h4, _⟩ := hF.hist pre _ _ htr
                rw [← h2, ← hF.pre htr, h3.1.2.2.2, h4, hcc.1, hcc.2]
              | cons x l =>
                simp only [List.cons_append, List.cons.injEq] at h3
                refine ih _ htr l1 l ?_
                rw [h2, h3.1]
          · exact hsame (by simp [fetches, hu, hcc])
        | put w => exact hsame (by simp [fetches, hu])
        | unlock id => exact hsame (by simp [fetches, hu])
      | _ => exact hsame rfl
  exact key s.tr [] (by simp) l1 l2 hl

/-- At any time the cell holds the initial value plus all increments that have taken place. -/
theorem C11_value (c : Cfg) (hc : c.OK) (mem0 : Nat → Nat → Int) (as : List Act) (s : State)
    (hrun : run c (start mem0) as = some s) (r a : Nat) (honly : OnlyFetchAdd r a s.tr) :
    s.mem r a = mem0 r a + ((fetches r a s.tr).map fun x => x.2.2.1).sum := by
  rw [(reach hc hrun).1.mem r a, (facts hc hrun honly).pre (post := []) (by simp)]
  rfl

private theorem mem_fetches {r a p : Nat} {old : Int} {t : Nat} {i : Int} {tr : List Ev}
    (h : .rmw p old ⟨t, r, a, .add i⟩ ∈ tr) : (p, t, i, old) ∈ fetches r a tr := by
  obtain ⟨u, w, rfl⟩ := List.append_of_mem h
  rw [fetches_append]
  simp [fetches]

private theorem fetches_mem {r a p : Nat} {old : Int} {t : Nat} {i : Int} {tr : List Ev}
    (h : (p, t, i, old) ∈ fetches r a tr) : .rmw p old ⟨t, r, a, .add i⟩ ∈ tr := by
  induction tr with
  | nil => simp [fetches] at h
  | cons e tr ih =>
    cases e with
    | rmw q o fx =>
      simp only [fetches] at h
      split at h
      · rename_i w hu
        split at h
        · rename_i hcc
          rcases List.mem_cons.1 h with h | h
          · simp only [Prod.mk.injEq] at h
            obtain ⟨rfl, rfl, rfl, rfl⟩ := h
            obtain ⟨f1, f2, f3, f4⟩ := fx
            simp only at hcc hu
            obtain ⟨rfl, rfl⟩ := hcc
            subst hu
            simp
          · exact List.mem_cons.2 (.inr (ih h))
        · exact List.mem_cons.2 (.inr (ih h))
      · exact List.mem_cons.2 (.inr (ih h))
    | _ => exact List.mem_cons.2 (.inr (ih (by simpa [fetches] using h)))

/-- What a fetch-and-add call returns is the value its operation found. -/
theorem C11_result (c : Cfg) (hc : c.OK) (mem0 : Nat → Nat → Int) (as : List Act) (s : State)
    (hrun : run c (start mem0) as = some s) (pre post : List Ev) (p t r a : Nat) (i : Int) (vals : List Int)
    (htr : s.tr = pre ++ .ret p t vals :: post) (hcall : (calls p pre)[t]? = some (.fadd r a i)) :
    ∃ old, vals = [old] ∧ (p, t, i, old) ∈ fetches r a pre := by
  obtain ⟨op, h1, h2⟩ := (reach hc hrun).1.hist pre _ post htr
  rw [hcall] at h1
  simp only [Option.some.injEq] at h1
  subst h1
  obtain ⟨old, h3, h4⟩ := h2
  exact ⟨old, h3, mem_fetches h4⟩

/-- Every operation belongs to a call with that increment. -/
theorem C11_caller (c : Cfg) (hc : c.OK) (mem0 : Nat → Nat → Int) (as : List Act) (s : State)
    (hrun : run c (start mem0) as = some s) (r a p t : Nat) (i old : Int)
    (h : (p, t, i, old) ∈ fetches r a s.tr) : (calls p s.tr)[t]? = some (.fadd r a i) := by
  have hm := fetches_mem h
  obtain ⟨u, w, e⟩ := List.append_of_mem hm
  obtain ⟨_, op, h1, h2, h3⟩ := (reach hc hrun).1.hist u _ w e
  rcases h3 with ⟨r', a', v, rfl⟩ | ⟨r', a', v, rfl⟩
  · simp only [opFx, List.cons.injEq, Fx.mk.injEq, Upd.add.injEq, and_true, true_and] at h2
    obtain ⟨rfl, rfl, rfl⟩ := h2
    rw [e, calls_append]
    exact getElem?_app h1
  · simp [opFx] at h2

private theorem pairwise_key {S : Fx → Fx → Prop} {l : List (Nat × Fx)}
    (h : ∀ p, (l.filter (fun e => decide (e.1 = p))).Pairwise (fun x y => S x.2 y.2)) :
    l.Pairwise (fun x y => x.1 = y.1 → S x.2 y.2) := by
  induction l with
  | nil => exact .nil
  | cons e l ih =>
    refine List.pairwise_cons.2 ⟨?_, ih fun p => ?_⟩
    · intro y hy hey
      have := h e.1
      rw [List.filter_cons_of_pos (by simp)] at this
      exact (List.pairwise_cons.1 this).1 y (List.mem_filter.2 ⟨hy, by simp [hey]⟩)
    · have := h p
      rw [List.filter_cons] at this
      split at this
      · exact (List.pairwise_cons.1 this).2
      · exact this

/-- under `OnlyFetchAdd` every call touches the cell at most once -/
private theorem opsFx_strict {r a n : Nat} {ops : List Op}
    (h : ∀ op ∈ ops, ∀ tag, ∀ f ∈ opFx tag op, f.touches r a → ∃ i, op = .fadd r a i) :
    (opsFx n ops).Pairwise (fun f g => f.touches r a → g.touches r a → f.tag < g.tag) := by
  induction ops generalizing n with
  | nil => exact .nil
  | cons op ops ih =>
    simp only [opsFx]
    refine List.pairwise_append.2 ⟨?_, ih fun o ho => h o (by simp [ho]), ?_⟩
    · by_cases hex : ∃ f ∈ opFx n op, f.touches r a
      · obtain ⟨f, hf, hto⟩ := hex
        obtain ⟨i, rfl⟩ := h op (by simp) n f hf hto
        simp [opFx]
      · rw [List.pairwise_iff_getElem]
        intro i j hi hj _ hto
        exact absurd ⟨_, List.getElem_mem hi, hto⟩ hex
    · intro f hf g hg _ _
      obtain ⟨i, _, _, h2, _⟩ := opsFx_mem hg
      rw [(opFx_tag hf).1]; omega

private theorem applied_strict {c : Cfg} (hc : c.OK) {mem0 : Nat → Nat → Int} {as : List Act} {s : State}
    (hrun : run c (start mem0) as = some s) {r a : Nat} (honly : OnlyFetchAdd r a s.tr) :
    (applied s.tr).Pairwise (fun x y => x.1 = y.1 → x.2.touches r a → y.2.touches r a → x.2.tag < y.2.tag) := by
  refine pairwise_key (S := fun f g => f.touches r a → g.touches r a → f.tag < g.tag) ?_
  intro p
  have h1 := opsFx_strict (n := 0) (honly p)
  obtain ⟨F, R, _, _, h3, _⟩ := ((reach hc hrun).1.pm p (c.master r)).stream
  have h2 : ((appliedBy p s.tr).filter (onM c (c.master r))).Pairwise
      (fun f g => f.touches r a → g.touches r a → f.tag < g.tag) := by
    have := h1.filter (onM c (c.master r))
    have h4 : (opsFx 0 (calls p s.tr)).filter (onM c (c.master r)) =
      (issued p s.tr).filter (onM c (c.master r)) := rfl
    rw [h4, ← h3, List.append_assoc] at this
    exact (List.pairwise_append.1 this).1
  have h5 : (appliedBy p s.tr).Pairwise (fun f g => f.touches r a → g.touches r a → f.tag < g.tag) := by
    rw [List.pairwise_filter] at h2
    refine h2.imp ?_
    intro f g h hf hg
    exact h (by simp [onM, hf.1]) (by simp [onM, hg.1]) hf hg
  rw [appliedBy, List.pairwise_map] at h5
  exact h5

private theorem fetches_sublist {r a : Nat} {tr : List Ev} :
    ((fetches r a tr).map fun x => (x.1, (⟨x.2.1, r, a, .add x.2.2.1⟩ : Fx))).Sublist (applied tr) := by
  induction tr with
  | nil => simp [fetches]
  | cons e tr ih =>
    cases e with
    | rmw q o fx =>
      simp only [fetches, applied]
      split
      · rename_i w hu
        split
        · rename_i hcc
          rw [List.map_cons]
          have : (⟨fx.tag, r, a, .add w⟩ : Fx) = fx := by
            obtain ⟨f1, f2, f3, f4⟩ := fx
            simp only at hcc hu
            obtain ⟨rfl, rfl⟩ := hcc
            subst hu; rfl
          simp only [this]
          exact ih.cons_cons _
        · exact ih.cons _
      · exact ih.cons _
    | mem p fx => simp only [fetches, applied]; exact ih.trans (List.sublist_append_right _ _)
    | _ => simpa [fetches, applied] using ih

/-- No call is carried out twice. -/
theorem C11_once (c : Cfg) (hc : c.OK) (mem0 : Nat → Nat → Int) (as : List Act) (s : State)
    (hrun : run c (start mem0) as = some s) (r a : Nat) (honly : OnlyFetchAdd r a s.tr) :
    ((fetches r a s.tr).map fun x => (x.1, x.2.1)).Nodup := by
  have h := (applied_strict hc hrun honly).sublist (fetches_sublist (r := r) (a := a))
  rw [List.pairwise_map] at h
  rw [List.Nodup, List.pairwise_map]
  refine h.imp ?_
  intro x y h e
  simp only [Prod.mk.injEq] at e
  have := h e.1 ⟨rfl, rfl, by simp⟩ ⟨rfl, rfl, by simp⟩
  simp only at this
  omega

/-- With increment 1 the values found are the initial value, the next one, and so on, without gaps. -/
theorem C11_contiguous (c : Cfg) (hc : c.OK) (mem0 : Nat → Nat → Int) (as : List Act) (s : State)
    (hrun : run c (start mem0) as = some s) (r a : Nat)
    (hone : ∀ p, ∀ op ∈ calls p s.tr, ∀ tag, ∀ f ∈ opFx tag op, f.touches r a → op = .fadd r a 1) :
    (fetches r a s.tr).map (fun x => x.2.2.2) =
      (List.range (fetches r a s.tr).length).map fun (k : Nat) => mem0 r a + k := by
  have honly : OnlyFetchAdd r a s.tr := fun p op ho tag f hf ht => ⟨1, hone p op ho tag f hf ht⟩
  have hinc : ∀ x ∈ fetches r a s.tr, x.2.2.1 = 1 := by
    intro x hx
    obtain ⟨p, t, i, old⟩ := x
    have h1 := C11_caller c hc mem0 as s hrun r a p t i old hx
    have h2 := hone p _ (List.mem_of_getElem? h1) t ⟨t, r, a, .add i⟩ (by simp [opFx]) ⟨rfl, rfl, by simp⟩
    simpa using h2
  refine List.ext_getElem (by simp) ?_
  intro k h1 h2
  simp only [List.length_map] at h1
  simp only [List.getElem_map, List.getElem_range]
  have hsplit : fetches r a s.tr = (fetches r a s.tr).take k ++ (fetches r a s.tr)[k] ::
      (fetches r a s.tr).drop (k + 1) := by
    rw [← List.drop_eq_getElem_cons h1, List.take_append_drop]
  have hv := C11_fetch_value c hc mem0 as s hrun r a honly _ _ (fetches r a s.tr)[k].1
    (fetches r a s.tr)[k].2.1 (fetches r a s.tr)[k].2.2.1 (fetches r a s.tr)[k].2.2.2 hsplit
  rw [hv]
  have : ((fetches r a s.tr).take k).map (fun x => x.2.2.1) = List.replicate k 1 := by
    rw [List.eq_replicate_iff]
    refine ⟨by simp; omega, ?_⟩
    intro b hb
    obtain ⟨x, hx, rfl⟩ := List.mem_map.1 hb
    exact hinc x (List.mem_of_mem_take hx)
  rw [this]
  simp

/-- With increment 1, two different calls never return the same value. -/
theorem C11_distinct (c : Cfg) (hc : c.OK) (mem0 : Nat → Nat → Int) (as : List Act) (s : State)
    (hrun : run c (start mem0) as = some s) (r a : Nat)
    (hone : ∀ p, ∀ op ∈ calls p s.tr, ∀ tag, ∀ f ∈ opFx tag op, f.touches r a → op = .fadd r a 1)
    (p t q u : Nat) (x y : Int) (hne : (p, t) ≠ (q, u))
    (hp : (calls p s.tr)[t]? = some (.fadd r a 1)) (hq : (calls q s.tr)[u]? = some (.fadd r a 1))
    (hx : .ret p t [x] ∈ s.tr) (hy : .ret q u [y] ∈ s.tr) : x ≠ y := by
  have key : ∀ p t x, (calls p s.tr)[t]? = some (.fadd r a 1) → .ret p t [x] ∈ s.tr →
      (p, t, 1, x) ∈ fetches r a s.tr := by
    intro p t x h1 h2
    obtain ⟨v, w, e⟩ := List.append_of_mem h2
    obtain ⟨op, h3, _⟩ := (reach hc hrun).1.hist v _ w e
    have h4 : (calls p s.tr)[t]? = some op := by rw [e, calls_append]; exact getElem?_app h3
    rw [h1] at h4
    simp only [Option.some.injEq] at h4
    subst h4
    obtain ⟨old, h5, h6⟩ := C11_result c hc mem0 as s hrun v w p t r a 1 [x] e h3
    simp only [List.cons.injEq, and_true] at h5
    rw [h5, e, fetches_append]
    exact List.mem_append.2 (.inl h6)
  have hc' := C11_contiguous c hc mem0 as s hrun r a hone
  obtain ⟨i, hi, ei⟩ := List.getElem_of_mem (key p t x hp hx)
  obtain ⟨j, hj, ej⟩ := List.getElem_of_mem (key q u y hq hy)
  have val : ∀ i (hi : i < (fetches r a s.tr).length), (fetches r a s.tr)[i].2.2.2 = mem0 r a + (i : Int) := by
    intro i hi
    have h1 : ((fetches r a s.tr).map (fun x => x.2.2.2))[i]? =
        ((List.range (fetches r a s.tr).length).map fun (k : Nat) => mem0 r a + k)[i]? := by rw [hc']
    simpa [hi] using h1
  have vi := val i hi
  have vj := val j hj
  rw [ei] at vi
  rw [ej] at vj
  simp only at vi vj
  intro hxy
  have : i = j := by omega
  subst this
  rw [ei] at ej
  simp only [Prod.mk.injEq] at ej
  exact hne (by rw [ej.1, ej.2.1])

/-- sum of the increments of the fetch-and-add calls on a cell -/
def addsTo (r a : Nat) : List Op → Int
  | .fadd r' a' i :: ops => (if r' = r ∧ a' = a then i else 0) + addsTo r a ops
  | _ :: ops => addsTo r a ops
  | [] => 0

private theorem sum_key {g : Nat × Fx → Int} {l : List (Nat × Fx)} {n : Nat} (h : ∀ e ∈ l, e.1 < n) :
    (l.map g).sum = ∑ p ∈ Finset.range n, ((l.filter (fun e => decide (e.1 = p))).map g).sum := by
  induction l with
  | nil => simp
  | cons e l ih =>
    rw [List.map_cons, List.sum_cons, ih fun e' he' => h e' (by simp [he'])]
    have : ∀ p, (((e :: l).filter (fun e => decide (e.1 = p))).map g).sum =
        (if p = e.1 then g e else 0) + ((l.filter (fun e => decide (e.1 = p))).map g).sum := by
      intro p
      rw [List.filter_cons]
      by_cases hp : e.1 = p
      · simp [hp]
      · simp [hp, Ne.symm hp]
    simp only [this, Finset.sum_add_distrib]
    rw [Finset.sum_ite_eq' (Finset.range n) e.1 (fun _ => g e), if_pos (Finset.mem_range.2 (h e (by simp)))]

private theorem addsTo_amt {r a n : Nat} {ops : List Op}
    (h : ∀ op ∈ ops, ∀ tag, ∀ f ∈ opFx tag op, f.touches r a → ∃ i, op = .fadd r a i) :
    ((opsFx n ops).map (amt r a)).sum = addsTo r a ops := by
  induction ops generalizing n with
  | nil => rfl
  | cons op ops ih =>
    have ih' := ih (n := n + 1) (fun o ho => h o (by simp [ho]))
    have h0 : (∀ f ∈ opFx n op, ¬ f.touches r a) → ((opFx n op).map (amt r a)).sum = 0 := by
      intro hn
      have : (opFx n op).map (amt r a) = (opFx n op).map (fun _ => 0) := by
        refine List.map_congr_left ?_
        intro f hf
        unfold amt
        split
        · rename_i hcc
          cases hu : f.upd with
          | add w => exact absurd ⟨hcc.1, hcc.2, by rw [hu]; simp⟩ (hn f hf)
          | _ => rfl
        · rfl
      rw [this]; simp
    simp only [opsFx, List.map_append, List.sum_append, ih']
    cases op with
    | fadd r' a' i =>
      simp only [addsTo, opFx, List.map_cons, List.map_nil, List.sum_cons, List.sum_nil, amt]
      split <;> simp
    | _ =>
      rw [h0 ?_]
      · simp [addsTo]
      · intro f hf hto
        obtain ⟨i, hi⟩ := h _ (by simp) n f hf hto
        simp at hi

/-- When all fetch-and-add calls have returned, the final value is the initial value plus the sum of
all increments handed in by all processes. -/
theorem C11_final_value (c : Cfg) (hc : c.OK) (mem0 : Nat → Nat → Int) (as : List Act) (s : State)
    (hrun : run c (start mem0) as = some s) (r a : Nat) (honly : OnlyFetchAdd r a s.tr)
    (hdone : ∀ p t i, (calls p s.tr)[t]? = some (.fadd r a i) → ∃ vals, .ret p t vals ∈ s.tr) :
    s.mem r a = mem0 r a + ∑ p ∈ Finset.range c.size, addsTo r a (calls p s.tr) := by
  have hF := facts hc hrun honly
  have hP := reachPlain hc hrun
  have hadd : ∀ e ∈ applied s.tr, e.2.touches r a → ∃ i, e.2.upd = .add i := by
    intro e hm hto
    obtain ⟨i, _, h2⟩ := hF.touch e hm hto
    exact ⟨i, by rw [h2]⟩
  rw [(reach hc hrun).1.mem r a, cellVal_amt hadd]
  congr 1
  have hlt : ∀ e ∈ applied s.tr, e.1 < c.size := by
    intro e he
    obtain ⟨op, h1, _⟩ := applied_called hc hrun (pre := s.tr) (post := []) (by simp) (mem_appliedBy he)
    have hin : ∀ (tr : List Ev) p op, op ∈ calls p tr → .call p op ∈ tr := by
      intro tr
      induction tr with
      | nil => intro p op h; simp [calls] at h
      | cons x tr ih =>
        intro p op h
        cases x with
        | call q o =>
          simp only [calls] at h
          split at h
          · rename_i hqp
            rcases List.mem_cons.1 h with rfl | h
            · simp [hqp]
            · exact List.mem_cons.2 (.inr (ih p op h))
          · exact List.mem_cons.2 (.inr (ih p op h))
        | _ => exact List.mem_cons.2 (.inr (ih p op (by simpa [calls] using h)))
    exact hP.callslt e.1 op (hin _ _ _ (List.mem_of_getElem? h1))
  rw [sum_key hlt]
  refine Finset.sum_congr rfl ?_
  intro p _
  have hmap : ((applied s.tr).filter (fun e => decide (e.1 = p))).map (fun e => amt r a e.2) =
      (appliedBy p s.tr).map (amt r a) := by
    simp [appliedBy]
  rw [hmap, ← addsTo_amt (n := 0) (honly p)]
  -- effects elsewhere do not count
  have hfil : ∀ l : List Fx, (l.map (amt r a)).sum = ((l.filter (onM c (c.master r))).map (amt r a)).sum := by
    intro l
    induction l with
    | nil => rfl
    | cons f l ih =>
      rw [List.filter_cons]
      split
      · simp [ih]
      · rename_i hn
        have : amt r a f = 0 := by
          unfold amt
          split
          · rename_i hcc
            exact absurd (by simp [onM, hcc.1]) hn
          · rfl
        simp [ih, this]
  rw [hfil (appliedBy p s.tr), hfil (opsFx 0 (calls p s.tr))]
  obtain ⟨F, R, _, _, h3, _⟩ := ((reach hc hrun).1.pm p (c.master r)).stream
  have hstrict := (opsFx_strict (n := 0) (honly p)).filter (onM c (c.master r))
  have h4 : (opsFx 0 (calls p s.tr)).filter (onM c (c.master r)) =
    (issued p s.tr).filter (onM c (c.master r)) := rfl
  rw [h4, ← h3, List.append_assoc] at hstrict
  rw [h4, ← h3, List.append_assoc, List.map_append, List.sum_append]
  have hrest : ((F ++ (ctlFx (s.ctl p)).filter (onM c (c.master r))).map (amt r a)).sum = 0 := by
    have : (F ++ (ctlFx (s.ctl p)).filter (onM c (c.master r))).map (amt r a) =
        (F ++ (ctlFx (s.ctl p)).filter (onM c (c.master r))).map (fun _ => 0) := by
      refine List.map_congr_left ?_
      intro f hf
      by_contra hne
      have hto : f.touches r a := by
        unfold amt at hne
        split at hne
        · rename_i hcc
          cases hu : f.upd with
          | add w => exact ⟨hcc.1, hcc.2, by rw [hu]; simp⟩
          | _ => simp [hu] at hne
        · simp at hne
      have hfi : f ∈ issued p s.tr := by
        have : f ∈ (issued p s.tr).filter (onM c (c.master r)) := by
          rw [← h3, List.append_assoc]; exact List.mem_append.2 (.inr hf)
        exact (List.mem_filter.1 this).1
      obtain ⟨op, h5, h6⟩ := issued_mem hfi
      obtain ⟨i, rfl, h7⟩ := only_fadd honly h5 h6 hto
      obtain ⟨vals, hret⟩ := hdone p f.tag i h5
      obtain ⟨v, w, e⟩ := List.append_of_mem hret
      obtain ⟨op', h8, h9⟩ := (reach hc hrun).1.hist v _ w e
      have h10 : (calls p s.tr)[f.tag]? = some op' := by rw [e, calls_append]; exact getElem?_app h8
      rw [h5] at h10
      simp only [Option.some.injEq] at h10
      subst h10
      obtain ⟨old, _, h11⟩ := h9
      rw [← h7] at h11
      have hap : f ∈ (appliedBy p s.tr).filter (onM c (c.master r)) := by
        rw [List.mem_filter]
        refine ⟨?_, by simp [onM, hto.1]⟩
        have h12 : (p, f) ∈ applied s.tr := by
          rw [e, applied_append]
          obtain ⟨v1, v2, e'⟩ := List.append_of_mem h11
          rw [e', applied_append]
          simp [applied]
        exact mem_appliedBy h12
      have := (List.pairwise_append.1 hstrict).2.2 f hap f hf hto hto
      omega
    rw [this]; simp
  rw [hrest]
  simp

/-! ## The hypotheses are met: three processes take tickets, one cell away another put happens -/

private def exCfg : Cfg :=
  { size := 4, master := fun _ => 3, user := fun r => r < 3, putSelf := true, getSelf := true, accSelf := true,
    putSmp := true, getSmp := true, accSmp := true, eager := fun _ => true, chunk := 8 }

private def exActs : List Act :=
  [.call 0 (.fadd 1 5 1), .call 1 (.fadd 1 5 1), .call 2 (.put 1 6 [3]), .serve 3 1, .direct 2, .serve 3 0,
   .recv 0 3, .resume 0, .call 0 (.fadd 1 5 1), .serve 3 0, .recv 1 3, .recv 0 3]

example : (run exCfg (start fun _ _ => 10) exActs).map (·.tr) = some
    [.call 0 (.fadd 1 5 1), .call 1 (.fadd 1 5 1), .call 2 (.put 1 6 [3]), .rmw 1 10 ⟨0, 1, 5, .add 1⟩,
     .mem 2 [⟨0, 1, 6, .put 3⟩], .rmw 0 11 ⟨0, 1, 5, .add 1⟩, .ret 0 0 [11], .call 0 (.fadd 1 5 1),
     .rmw 0 12 ⟨1, 1, 5, .add 1⟩, .ret 1 0 [10], .ret 0 1 [12]] := by decide +kernel

example : (run exCfg (start fun _ _ => 10) exActs).map (fun s => (fetches 1 5 s.tr, s.mem 1 5)) = some
    ([(1, 0, 1, 10), (0, 0, 1, 11), (0, 1, 1, 12)], 13) := by decide +kernel

example (s : State) (h : run exCfg (start fun _ _ => 10) exActs = some s) : OnlyFetchAdd 1 5 s.tr := by
  have htr : (run exCfg (start fun _ _ => 10) exActs).map (·.tr) = some
    [.call 0 (.fadd 1 5 1), .call 1 (.fadd 1 5 1), .call 2 (.put 1 6 [3]), .rmw 1 10 ⟨0, 1, 5, .add 1⟩,
     .mem 2 [⟨0, 1, 6, .put 3⟩], .rmw 0 11 ⟨0, 1, 5, .add 1⟩, .ret 0 0 [11], .call 0 (.fadd 1 5 1),
     .rmw 0 12 ⟨1, 1, 5, .add 1⟩, .ret 1 0 [10], .ret 0 1 [12]] := by decide +kernel
  rw [h] at htr
  simp only [Option.map_some, Option.some.injEq] at htr
  rw [htr]
  intro p op hop tag f hf hto
  simp only [calls] at hop
  by_cases h0 : 0 = p
  · subst h0; simp at hop; subst hop; exact ⟨1, rfl⟩
  · by_cases h1 : 1 = p
    · subst h1; simp at hop; subst hop; exact ⟨1, rfl⟩
    · by_cases h2 : 2 = p
      · subst h2; simp at hop; subst hop
        simp [opFx, putFx] at hf
        subst hf
        simp [Fx.touches] at hto
      · simp [h0, h1, h2] at hop

end GA.Comex
