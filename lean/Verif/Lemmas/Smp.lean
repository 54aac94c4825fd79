import Verif.Model.Smp

/-!
# The broadcast through shared memory: the invariant of the protocol
-/

namespace GA.Smp

open GA.Net (upd)

variable {α : Type}

theorem upd_eq {γ : Type} (f : Nat → γ) (p : Nat) (v : γ) : upd f p v p = v := by simp [upd]

theorem upd_ne {γ : Type} (f : Nat → γ) {p q : Nat} (v : γ) (h : q ≠ p) : upd f p v q = f q := by
  simp [upd, h]

/-- The buffer of turn `t`. -/
def bid (t : Nat) : Nat := t % 2 + 1

theorem other_bid (t : Nat) : other (bid t) = bid (t + 1) := by unfold other bid; omega

theorem bid_ne (t : Nat) : bid (t + 1) ≠ bid t := by unfold bid; omega

theorem bid_two (t : Nat) : bid (t + 2) = bid t := by unfold bid; omega

/-- The memory of process `i` when it has copied `k` bytes of the round. -/
def part (R : Round) (k : Nat) (y : Nat → Nat → α) (i : Nat) : Nat → α :=
  fun j => if R.off ≤ j ∧ j < R.off + k then y R.root j else y i j

theorem part_zero (R : Round) (y : Nat → Nat → α) (i : Nat) : part R 0 y i = y i := by
  funext j; unfold part; rw [if_neg (by omega)]

theorem part_succ (R : Round) (k : Nat) (y : Nat → Nat → α) (i : Nat) :
    upd (part R k y i) (R.off + k) (y R.root (R.off + k)) = part R (k + 1) y i := by
  funext j
  unfold upd part
  by_cases h : j = R.off + k
  · rw [if_pos h, if_pos (by omega), h]
  · rw [if_neg h]
    by_cases h2 : R.off ≤ j ∧ j < R.off + k
    · rw [if_pos h2, if_pos (by omega)]
    · rw [if_neg h2, if_neg (by omega)]

theorem part_root (R : Round) (k : Nat) (y : Nat → Nat → α) : part R k y R.root = y R.root := by
  funext j; unfold part; split <;> rfl

/-- A receiver in turn `u`. -/
def Rcv (E : Nat → Nat → Nat → α) (R : Round) (u i : Nat) (l : Loc) (x : Nat → α) : Prop :=
  (l = ⟨u, .begin, bid u⟩ ∧ x = E u i) ∨
  (∃ k, k ≤ R.len ∧ l = ⟨u, .copy k, bid u⟩ ∧ x = part R k (E u) i) ∨
  (l = ⟨u, .last, bid u⟩ ∧ x = E (u + 1) i)

/-- Process `i` has been told of the turns before `t`. -/
def Told (rs : List Round) (E : Nat → Nat → Nat → α) (s : State α) (i t : Nat) : Prop :=
  (s.loc i = ⟨t, .begin, bid t⟩ ∧ s.b i = false ∧ s.x i = E t i) ∨
  (∃ u R, t = u + 1 ∧ rs[u]? = some R ∧ i ≠ R.root ∧ s.b i = true ∧
    Rcv E R u i (s.loc i) (s.x i))

/-- The buffer of turn `t` holds the first `k` bytes of the turn. -/
def Holds (E : Nat → Nat → Nat → α) (R : Round) (t k : Nat) (s : State α) : Prop :=
  ∀ j, j < k → s.arr (bid t) j = E t R.root (R.off + j)

/-- The sender of turn `T`; the processes below `front` have been told. -/
def Sender (n : Nat) (rs : List Round) (E : Nat → Nat → Nat → α) (R : Round) (T front : Nat)
    (s : State α) : Prop :=
  (front = 0 ∧ s.a (bid T) = false ∧ Told rs E s R.root T) ∨
  (s.b R.root = false ∧ s.x R.root = E T R.root ∧
    ((front = 0 ∧ s.a (bid T) = false ∧ s.loc R.root = ⟨T, .set, bid T⟩) ∨
     (s.a (bid T) = true ∧
      ((∃ k, k ≤ R.len ∧ front = 0 ∧ s.loc R.root = ⟨T, .copy k, bid T⟩ ∧ Holds E R T k s) ∨
       (Holds E R T R.len s ∧
        ((front ≤ n ∧ s.loc R.root = ⟨T, .wait front, bid T⟩) ∨
         (front < n ∧ front ≠ R.root ∧ s.b front = false ∧
            s.loc R.root = ⟨T, .full front, bid T⟩) ∨
         (front = n ∧ s.loc R.root = ⟨T, .last, bid T⟩)))))))

/-- The invariant. -/
def Inv (n : Nat) (rs : List Round) (E : Nat → Nat → Nat → α) (s : State α) : Prop :=
  ∃ T front, T ≤ rs.length ∧ (T = rs.length → front = 0) ∧
    (∀ R, rs[T]? = some R → Sender n rs E R T front s) ∧
    (∀ i, i < n → (∀ R, rs[T]? = some R → i ≠ R.root) →
      Told rs E s i (if i < front then T + 1 else T)) ∧
    (0 < T → s.a (bid (T + 1)) = true) ∧
    (∀ u R, T = u + 1 → rs[u]? = some R → Holds E R u R.len s)

/-- What the invariant is about: senders exist, the first two turns have the
same sender, `E` gives the memories after every turn. -/
structure Ok (n : Nat) (rs : List Round) (E : Nat → Nat → Nat → α) : Prop where
  root : ∀ (t : Nat) R, rs[t]? = some R → R.root < n
  same : ∀ R R', rs[0]? = some R → rs[1]? = some R' → R.root = R'.root
  next : ∀ (t : Nat) R, rs[t]? = some R → ∀ i, i < n → E (t + 1) i = part R R.len (E t) i

theorem get_none {rs : List Round} {t : Nat} (h : rs[t]? = none) : rs.length ≤ t := by
  simpa using h

theorem get_some {rs : List Round} {t : Nat} {R : Round} (h : rs[t]? = some R) :
    t < rs.length := by
  by_cases h' : t < rs.length
  · exact h'
  · rw [List.getElem?_eq_none (by omega)] at h
    exact absurd h (by simp)

/-- `Told` depends on the state of process `i` only. -/
theorem Told.congr {rs : List Round} {E : Nat → Nat → Nat → α} {s s' : State α} {i t : Nat}
    (h : Told rs E s i t) (h1 : s'.loc i = s.loc i) (h2 : s'.b i = s.b i) (h3 : s'.x i = s.x i) :
    Told rs E s' i t := by
  unfold Told at h ⊢
  rw [h1, h2, h3]
  exact h

/-- A receiver that has been told of its turn can make a step, and stays
told. -/
theorem recv_move {n : Nat} {rs : List Round} {E : Nat → Nat → Nat → α} (ok : Ok n rs E)
    {s : State α} {i u : Nat} {R : Round} (hi : i < n) (hR : rs[u]? = some R) (hne : i ≠ R.root)
    (hb : s.b i = true) (hr : Rcv E R u i (s.loc i) (s.x i)) (hh : Holds E R u R.len s) :
    ∃ s', step n rs i s = some s' ∧ Told rs E s' i (u + 1) ∧ s'.a = s.a ∧ s'.arr = s.arr ∧
      (∀ j, j ≠ i → s'.b j = s.b j ∧ s'.x j = s.x j ∧ s'.loc j = s.loc j) := by
  have E1 := ok.next u R hR i hi
  rcases hr with ⟨hl, hx⟩ | ⟨k, hk, hl, hx⟩ | ⟨hl, hx⟩
  · refine ⟨go s i ⟨u, .copy 0, bid u⟩, ?_, Or.inr ⟨u, R, rfl, hR, hne, hb, Or.inr (Or.inl
      ⟨0, by omega, upd_eq _ _ _, by rw [part_zero]; exact hx⟩)⟩, rfl, rfl,
      fun j hj => ⟨rfl, rfl, upd_ne _ _ hj⟩⟩
    simp only [step, if_pos hi, hl, hR, if_neg hne, recvStep, hb, if_true]
  · by_cases hkl : k < R.len
    · refine ⟨go { s with x := upd s.x i (upd (s.x i) (R.off + k) (s.arr (bid u) k)) } i
          ⟨u, .copy (k + 1), bid u⟩,
        by simp only [step, if_pos hi, hl, hR, if_neg hne, recvStep, if_pos hkl],
        Or.inr ⟨u, R, rfl, hR, hne, hb, Or.inr (Or.inl ⟨k + 1, by omega, upd_eq _ _ _, ?_⟩)⟩,
        rfl, rfl, fun j hj => ⟨rfl, upd_ne _ _ hj, upd_ne _ _ hj⟩⟩
      simp only [go, upd_eq]
      rw [hx, hh k hkl, part_succ]
    · refine ⟨go s i ⟨u, .last, bid u⟩,
        by simp only [step, if_pos hi, hl, hR, if_neg hne, recvStep, if_neg hkl],
        Or.inr ⟨u, R, rfl, hR, hne, hb, Or.inr (Or.inr ⟨upd_eq _ _ _, ?_⟩)⟩,
        rfl, rfl, fun j hj => ⟨rfl, rfl, upd_ne _ _ hj⟩⟩
      show s.x i = _
      rw [hx, E1, show k = R.len by omega]
  · refine ⟨go { s with b := upd s.b i false } i ⟨u + 1, .begin, bid (u + 1)⟩,
      by simp only [step, if_pos hi, hl, hR, if_neg hne, recvStep, other_bid],
      Or.inl ⟨?_, upd_eq _ _ _, hx⟩, rfl, rfl, fun j hj => ⟨upd_ne _ _ hj, rfl, upd_ne _ _ hj⟩⟩
    simp only [go, upd_eq]

/-- A process that has been told of the turns before `t` and has done them
waits. -/
theorem told_wait {n : Nat} {rs : List Round} {s : State α} {i t : Nat}
    (hl : s.loc i = ⟨t, .begin, bid t⟩) (hb : s.b i = false)
    (hr : ∀ R, rs[t]? = some R → i = R.root → s.a (bid t) = true) : step n rs i s = none := by
  unfold step
  split
  · rw [hl]
    dsimp only
    cases h : rs[t]? with
    | none => rfl
    | some R =>
      dsimp only
      split
      · rename_i e
        simp only [rootStep, hl, hr R h e]
        rfl
      · simp only [recvStep, hl, hb]
        rfl
  · rfl

/-- The buffer is full when the sender tells the others. -/
theorem Sender.holds {n : Nat} {rs : List Round} {E : Nat → Nat → Nat → α} {R : Round}
    {T front : Nat} {s : State α} (h : Sender n rs E R T front s) (hf : 0 < front) :
    Holds E R T R.len s := by
  rcases h with h | ⟨-, -, h | ⟨-, ⟨k, -, h, -⟩ | ⟨h, -⟩⟩⟩
  · omega
  · omega
  · omega
  · exact h

theorem Sender.front_le {n : Nat} {rs : List Round} {E : Nat → Nat → Nat → α} {R : Round}
    {T front : Nat} {s : State α} (h : Sender n rs E R T front s) : front ≤ n := by
  rcases h with h | ⟨-, -, h | ⟨-, ⟨k, -, h, -⟩ | ⟨-, h | h | h⟩⟩⟩ <;> omega

/-- Steps of the others keep the sender. -/
theorem Sender.congr {n : Nat} {rs : List Round} {E : Nat → Nat → Nat → α} {R : Round}
    {T front : Nat} {s s' : State α} (h : Sender n rs E R T front s)
    (h1 : s'.loc R.root = s.loc R.root) (h2 : s'.b R.root = s.b R.root)
    (h3 : s'.x R.root = s.x R.root) (h4 : s'.a = s.a) (h5 : s'.arr = s.arr)
    (h6 : s.b front = false → s'.b front = false) : Sender n rs E R T front s' := by
  have hh : ∀ k, Holds E R T k s → Holds E R T k s' := fun k h j hj => by rw [h5]; exact h j hj
  rcases h with ⟨f, ha, ht⟩ | ⟨hb, hx, h⟩
  · exact Or.inl ⟨f, by rw [h4]; exact ha, ht.congr h1 h2 h3⟩
  · refine Or.inr ⟨by rw [h2]; exact hb, by rw [h3]; exact hx, ?_⟩
    rw [h4, h1]
    rcases h with h | ⟨ha, ⟨k, hk, hf, hl, hH⟩ | ⟨hH, h | ⟨g1, g2, g3, g4⟩ | h⟩⟩
    · exact Or.inl h
    · exact Or.inr ⟨ha, Or.inl ⟨k, hk, hf, hl, hh k hH⟩⟩
    · exact Or.inr ⟨ha, Or.inr ⟨hh _ hH, Or.inl h⟩⟩
    · exact Or.inr ⟨ha, Or.inr ⟨hh _ hH, Or.inr (Or.inl ⟨g1, g2, h6 g3, g4⟩)⟩⟩
    · exact Or.inr ⟨ha, Or.inr ⟨hh _ hH, Or.inr (Or.inr h)⟩⟩

/-- The first turn has nobody who has been told; the sender of turn `T + 1`
finds its buffer taken. -/
theorem told_cases {n : Nat} {rs : List Round} {E : Nat → Nat → Nat → α} (ok : Ok n rs E)
    {s : State α} {T i t : Nat} (ht : t = T ∨ t = T + 1)
    (hne : ∀ R, rs[T]? = some R → i ≠ R.root) (hT : T ≤ rs.length)
    (ha : 0 < T → s.a (bid (T + 1)) = true)
    (h : Told rs E s i t) : step n rs i s = none ∨
      ∃ u R, t = u + 1 ∧ rs[u]? = some R ∧ i ≠ R.root ∧ s.b i = true ∧
        Rcv E R u i (s.loc i) (s.x i) := by
  rcases h with ⟨hl, hb, -⟩ | h
  · refine Or.inl (told_wait hl hb fun R hR e => ?_)
    rcases ht with rfl | rfl
    · exact absurd e (hne R hR)
    · rcases Nat.eq_zero_or_pos T with rfl | h0
      · have h1 := get_some hR
        obtain ⟨R0, hR0⟩ : ∃ R0, rs[0]? = some R0 := ⟨rs[0], List.getElem?_eq_getElem (by omega)⟩
        exact absurd (e.trans (ok.same R0 R hR0 hR).symm) (hne R0 hR0)
      · exact ha h0
  · exact Or.inr h

/-- Steps keep the invariant. -/
theorem inv_step {n : Nat} {rs : List Round} {E : Nat → Nat → Nat → α} (ok : Ok n rs E)
    {s s' : State α} {p : Nat} (h : Inv n rs E s) (hs : step n rs p s = some s') :
    Inv n rs E s' := by
  obtain ⟨T, front, hT, hf0, hS, hO, ha, hH⟩ := h
  have hp : p < n := by
    by_cases hp : p < n
    · exact hp
    · simp only [step, if_neg hp] at hs; exact absurd hs (by simp)
  -- a step of a receiver in turn `u`
  have key : ∀ u R t, t = u + 1 → rs[u]? = some R → p ≠ R.root → s.b p = true →
      Rcv E R u p (s.loc p) (s.x p) → Holds E R u R.len s →
      (∀ R, rs[T]? = some R → p = R.root → front = 0 ∧ s.a (bid T) = false ∧ t = T) →
      ((∀ R, rs[T]? = some R → p ≠ R.root) → t = if p < front then T + 1 else T) →
      Inv n rs E s' := by
    intro u R t htu hR hne hb hr hh hroot hoth
    obtain ⟨s1, hs1, ht1, ha1, harr1, hj⟩ := recv_move ok hp hR hne hb hr hh
    rw [hs] at hs1
    obtain rfl : s' = s1 := by simpa using hs1
    refine ⟨T, front, hT, hf0, fun R' hR' => ?_, fun i hi hi2 => ?_, fun h0 => ?_,
      fun v R' hv hR' => ?_⟩
    · by_cases e : p = R'.root
      · obtain ⟨f0, a0, tT⟩ := hroot R' hR' e
        refine Or.inl ⟨f0, by rw [ha1]; exact a0, ?_⟩
        rw [← e, ← tT, htu]; exact ht1
      · obtain ⟨j1, j2, j3⟩ := hj R'.root (fun x => e x.symm)
        refine (hS R' hR').congr j3 j1 j2 ha1 harr1 fun hb0 => ?_
        by_cases e2 : front = p
        · subst e2; rw [hb] at hb0; exact absurd hb0 (by simp)
        · rw [(hj front e2).1]; exact hb0
    · by_cases e : i = p
      · subst e
        rw [← hoth hi2, htu]; exact ht1
      · obtain ⟨j1, j2, j3⟩ := hj i e
        exact (hO i hi hi2).congr j3 j1 j2
    · rw [ha1]; exact ha h0
    · intro j hj'; rw [harr1]; exact hH v R' hv hR' j hj'
  by_cases hpr : ∀ R, rs[T]? = some R → p ≠ R.root
  · have ht := hO p hp hpr
    have hcase : (if p < front then T + 1 else T) = T ∨ (if p < front then T + 1 else T) = T + 1 := by
      split <;> simp
    rcases told_cases ok hcase hpr hT ha ht with h0 | ⟨u, R, htu, hR, hne, hb, hr⟩
    · rw [h0] at hs; exact absurd hs (by simp)
    · refine key u R _ htu hR hne hb hr ?_ (fun R' hR' e => absurd e (hpr R' hR')) (fun _ => rfl)
      by_cases hpf : p < front
      · rw [if_pos hpf] at htu
        obtain rfl : T = u := by omega
        exact (hS R hR).holds (by omega)
      · rw [if_neg hpf] at htu
        exact hH u R htu hR
  · -- the sender
    obtain ⟨R, hRp⟩ := Classical.not_forall.mp hpr
    have hR : rs[T]? = some R := Classical.byContradiction fun x => hRp (fun y => absurd y x)
    have hpR : p = R.root := Classical.byContradiction fun x => hRp (fun _ => x)
    have hTl := get_some hR
    have hun : ∀ R', rs[T]? = some R' → R' = R := fun R' h' => by
      rw [hR] at h'; exact (Option.some.inj h').symm
    rcases hS R hR with ⟨f0, a0, ht⟩ | ⟨hb, hx, h⟩
    · rcases ht with ⟨hl, hb, hx⟩ | ⟨u, R', htu, hR', hne, hb, hr⟩
      · -- begin
        rw [← hpR] at hl
        simp only [step, if_pos hp, hl, hR, if_pos hpR, rootStep, a0, if_true] at hs
        obtain rfl := Option.some.inj hs
        refine ⟨T, front, hT, hf0, fun R' h' => ?_, fun i hi hi2 => ?_, ha, hH⟩
        · rw [hun R' h']
          exact Or.inr ⟨hb, hx, Or.inl ⟨f0, a0, by rw [← hpR]; exact upd_eq _ _ _⟩⟩
        · have := hi2 R hR
          exact (hO i hi hi2).congr (upd_ne _ _ (by rw [hpR]; exact this)) rfl rfl
      · rw [← hpR] at hne hb hr
        refine key u R' T htu hR' hne hb hr (hH u R' htu hR') (fun _ _ _ => ⟨f0, a0, rfl⟩)
          (fun hh => absurd hpR (hh R hR))
    · have hloc : ∀ l i, i ≠ R.root → upd s.loc p l i = s.loc i := fun l i hi =>
        upd_ne _ _ (by rw [hpR]; exact hi)
      rcases h with ⟨f0, a0, hl⟩ | ⟨a1, h⟩
      · -- set
        rw [← hpR] at hl
        simp only [step, if_pos hp, hl, hR, if_pos hpR, rootStep] at hs
        obtain rfl := Option.some.inj hs
        refine ⟨T, front, hT, hf0, fun R' h' => ?_, fun i hi hi2 => ?_, fun h0 => ?_, hH⟩
        · rw [hun R' h']
          exact Or.inr ⟨hb, hx, Or.inr ⟨upd_eq _ _ _, Or.inl ⟨0, by omega, f0,
            by rw [← hpR]; exact upd_eq _ _ _, fun j hj => absurd hj (by omega)⟩⟩⟩
        · exact (hO i hi hi2).congr (hloc _ i (hi2 R hR)) rfl rfl
        · exact (upd_ne _ _ (bid_ne T)).trans (ha h0)
      · rcases h with ⟨k, hk, f0, hl, hHk⟩ | ⟨hHl, h⟩
        · rw [← hpR] at hl
          by_cases hkl : k < R.len
          · -- copy
            simp only [step, if_pos hp, hl, hR, if_pos hpR, rootStep, if_pos hkl] at hs
            obtain rfl := Option.some.inj hs
            refine ⟨T, front, hT, hf0, fun R' h' => ?_, fun i hi hi2 => ?_, ha,
              fun u R' hu hR' j hj => ?_⟩
            · rw [hun R' h']
              refine Or.inr ⟨hb, hx, Or.inr ⟨a1, Or.inl ⟨k + 1, by omega, f0,
                by rw [← hpR]; exact upd_eq _ _ _, fun j hj => ?_⟩⟩⟩
              simp only [go, upd_eq]
              by_cases e : j = k
              · rw [e, upd_eq, hpR, hx]
              · rw [upd_ne _ _ e]; exact hHk j (by omega)
            · exact (hO i hi hi2).congr (hloc _ i (hi2 R hR)) rfl rfl
            · simp only [go]
              rw [upd_ne _ _ (by rw [hu]; exact (bid_ne u).symm)]
              exact hH u R' hu hR' j hj
          · simp only [step, if_pos hp, hl, hR, if_pos hpR, rootStep, if_neg hkl] at hs
            obtain rfl := Option.some.inj hs
            refine ⟨T, front, hT, hf0, fun R' h' => ?_, fun i hi hi2 => ?_, ha, hH⟩
            · rw [hun R' h']
              refine Or.inr ⟨hb, hx, Or.inr ⟨a1, Or.inr ⟨?_, Or.inl ⟨by omega,
                by rw [← hpR, f0]; exact upd_eq _ _ _⟩⟩⟩⟩
              rw [show R.len = k by omega]; exact hHk
            · exact (hO i hi hi2).congr (hloc _ i (hi2 R hR)) rfl rfl
        · rcases h with ⟨hfn, hl⟩ | ⟨hfn, hfr, hbf, hl⟩ | ⟨hfn, hl⟩
          · -- wait
            rw [← hpR] at hl
            by_cases h1 : front < n
            · by_cases h2 : front = p
              · simp only [step, if_pos hp, hl, hR, if_pos hpR, rootStep, if_pos h1, if_pos h2] at hs
                obtain rfl := Option.some.inj hs
                refine ⟨T, front + 1, hT, fun h => absurd h (by omega), fun R' h' => ?_,
                  fun i hi hi2 => ?_, ha, hH⟩
                · rw [hun R' h']
                  exact Or.inr ⟨hb, hx, Or.inr ⟨a1, Or.inr ⟨hHl, Or.inl ⟨by omega,
                    by rw [← hpR]; exact upd_eq _ _ _⟩⟩⟩⟩
                · have hir := hi2 R hR
                  have := (hO i hi hi2).congr (s' := go s p ⟨T, .wait (front + 1), bid T⟩)
                    (hloc _ i hir) rfl rfl
                  rw [show (if i < front + 1 then T + 1 else T) = if i < front then T + 1 else T by
                    by_cases e : i < front
                    · rw [if_pos e, if_pos (by omega)]
                    · rw [if_neg e, if_neg (by omega)]]
                  exact this
              · simp only [step, if_pos hp, hl, hR, if_pos hpR, rootStep, if_pos h1, if_neg h2] at hs
                cases hbf : s.b front with
                | true => rw [hbf] at hs; exact absurd hs (by simp)
                | false =>
                  rw [hbf, if_pos rfl] at hs
                  obtain rfl := Option.some.inj hs
                  refine ⟨T, front, hT, hf0, fun R' h' => ?_, fun i hi hi2 => ?_, ha, hH⟩
                  · rw [hun R' h']
                    exact Or.inr ⟨hb, hx, Or.inr ⟨a1, Or.inr ⟨hHl, Or.inr (Or.inl ⟨h1,
                      by rw [← hpR]; exact h2, hbf, by rw [← hpR]; exact upd_eq _ _ _⟩)⟩⟩⟩
                  · exact (hO i hi hi2).congr (hloc _ i (hi2 R hR)) rfl rfl
            · simp only [step, if_pos hp, hl, hR, if_pos hpR, rootStep, if_neg h1] at hs
              obtain rfl := Option.some.inj hs
              refine ⟨T, front, hT, hf0, fun R' h' => ?_, fun i hi hi2 => ?_, ha, hH⟩
              · rw [hun R' h']
                exact Or.inr ⟨hb, hx, Or.inr ⟨a1, Or.inr ⟨hHl, Or.inr (Or.inr ⟨by omega,
                  by rw [← hpR]; exact upd_eq _ _ _⟩)⟩⟩⟩
              · exact (hO i hi hi2).congr (hloc _ i (hi2 R hR)) rfl rfl
          · -- full
            rw [← hpR] at hl
            simp only [step, if_pos hp, hl, hR, if_pos hpR, rootStep] at hs
            obtain rfl := Option.some.inj hs
            refine ⟨T, front + 1, hT, fun h => absurd h (by omega), fun R' h' => ?_,
              fun i hi hi2 => ?_, ha, hH⟩
            · rw [hun R' h']
              exact Or.inr ⟨(upd_ne _ _ (fun e => hfr e.symm)).trans hb, hx, Or.inr ⟨a1, Or.inr
                ⟨hHl, Or.inl ⟨by omega, by rw [← hpR]; exact upd_eq _ _ _⟩⟩⟩⟩
            · have hir := hi2 R hR
              have h0 := hO i hi hi2
              by_cases e : i = front
              · subst e
                rw [if_neg (by omega)] at h0
                rw [if_pos (by omega)]
                rcases h0 with ⟨q1, q2, q3⟩ | ⟨_, _, _, _, _, q, _⟩
                · exact Or.inr ⟨T, R, rfl, hR, hir, upd_eq _ _ _, Or.inl
                    ⟨(hloc _ i hir).trans q1, q3⟩⟩
                · rw [hbf] at q; exact absurd q (by simp)
              · rw [show (if i < front + 1 then T + 1 else T) = if i < front then T + 1 else T by
                  by_cases e' : i < front
                  · rw [if_pos e', if_pos (by omega)]
                  · rw [if_neg e', if_neg (by omega)]]
                exact h0.congr (hloc _ i hir) (upd_ne _ _ e) rfl
          · -- last
            rw [← hpR] at hl
            simp only [step, if_pos hp, hl, hR, if_pos hpR, rootStep, other_bid] at hs
            obtain rfl := Option.some.inj hs
            have hall : ∀ i, i < n → Told rs E (go { s with a := upd s.a (bid (T + 1)) false } p
                ⟨T + 1, .begin, bid (T + 1)⟩) i (T + 1) := by
              intro i hi
              by_cases e : i = R.root
              · subst e
                refine Or.inl ⟨by rw [← hpR]; exact upd_eq _ _ _, hb, ?_⟩
                rw [ok.next T R hR R.root hi, part_root]
                exact hx
              · have h0 := hO i hi (fun R' h' => by rw [hun R' h']; exact e)
                rw [if_pos (by omega)] at h0
                exact h0.congr (hloc _ i e) rfl rfl
            refine ⟨T + 1, 0, by omega, fun _ => rfl, fun R' h' => ?_, fun i hi _ => ?_,
              fun _ => ?_, fun u R' hu hR' => ?_⟩
            · exact Or.inl ⟨rfl, upd_eq _ _ _, hall R'.root (ok.root _ _ h')⟩
            · rw [if_neg (by omega)]; exact hall i hi
            · show upd s.a (bid (T + 1)) false (bid (T + 2)) = true
              rw [upd_ne _ _ (bid_ne (T + 1)), bid_two]; exact a1
            · obtain rfl : T = u := by omega
              rw [hun R' hR']; exact hHl

/-- A state that satisfies the invariant and has not finished has a process
that can move. -/
theorem inv_progress {n : Nat} {rs : List Round} {E : Nat → Nat → Nat → α} (ok : Ok n rs E)
    {s : State α} (h : Inv n rs E s) (hs : ∀ p, step n rs p s = none) : Done n rs s ∧
    ∀ i, i < n → s.x i = E rs.length i := by
  obtain ⟨T, front, hT, hf0, hS, hO, ha, hH⟩ := h
  by_cases hTl : T < rs.length
  · exfalso
    obtain ⟨R, hR⟩ : ∃ R, rs[T]? = some R := ⟨rs[T], List.getElem?_eq_getElem hTl⟩
    have hp := ok.root T R hR
    have hst := hs R.root
    rcases hS R hR with ⟨f0, a0, ⟨hl, hb, hx⟩ | ⟨u, R', htu, hR', hne, hb, hr⟩⟩ | ⟨hb, hx, h⟩
    · simp only [step, if_pos hp, hl, hR, if_true, rootStep, a0] at hst
      exact absurd hst (by simp)
    · obtain ⟨s1, hs1, -⟩ := recv_move ok hp hR' hne hb hr (hH u R' htu hR')
      rw [hst] at hs1; exact absurd hs1 (by simp)
    · rcases h with ⟨f0, a0, hl⟩ | ⟨a1, ⟨k, hk, f0, hl, hHk⟩ | ⟨hHl, ⟨hfn, hl⟩ |
        ⟨hfn, hfr, hbf, hl⟩ | ⟨hfn, hl⟩⟩⟩
      · simp only [step, if_pos hp, hl, hR, if_true, rootStep] at hst
        exact absurd hst (by simp)
      · simp only [step, if_pos hp, hl, hR, if_true, rootStep] at hst
        split at hst <;> exact absurd hst (by simp)
      · simp only [step, if_pos hp, hl, hR, if_true, rootStep] at hst
        split at hst
        · split at hst
          · exact absurd hst (by simp)
          · rename_i h1 h2
            have h0 := hO front h1 (fun R' h' => by
              rw [hR] at h'; rw [← Option.some.inj h']; exact h2)
            rw [if_neg (by omega)] at h0
            rcases h0 with ⟨-, q, -⟩ | ⟨u, R', htu, hR', hne, hb', hr⟩
            · rw [q] at hst; exact absurd hst (by simp)
            · obtain ⟨s1, hs1, -⟩ := recv_move ok h1 hR' hne hb' hr (hH u R' htu hR')
              rw [hs front] at hs1; exact absurd hs1 (by simp)
        · exact absurd hst (by simp)
      · simp only [step, if_pos hp, hl, hR, if_true, rootStep] at hst
        exact absurd hst (by simp)
      · simp only [step, if_pos hp, hl, hR, if_true, rootStep] at hst
        exact absurd hst (by simp)
  · obtain rfl : T = rs.length := by omega
    have hn : rs[rs.length]? = none := List.getElem?_eq_none (by omega)
    have hall : ∀ i, i < n → s.loc i = ⟨rs.length, .begin, bid rs.length⟩ ∧
        s.x i = E rs.length i := by
      intro i hi
      have h0 := hO i hi (fun R h => by rw [hn] at h; exact absurd h (by simp))
      rw [hf0 rfl, if_neg (by omega)] at h0
      rcases h0 with ⟨q1, -, q2⟩ | ⟨u, R', htu, hR', hne, hb', hr⟩
      · exact ⟨q1, q2⟩
      · obtain ⟨s1, hs1, -⟩ := recv_move ok hi hR' hne hb' hr (hH u R' htu hR')
        rw [hs i] at hs1; exact absurd hs1 (by simp)
    exact ⟨fun i hi => by rw [(hall i hi).1], fun i hi => (hall i hi).2⟩

/-- The first state. -/
theorem inv_start {n : Nat} {rs : List Round} {E : Nat → Nat → Nat → α} (ok : Ok n rs E)
    (arr x : Nat → Nat → α) (h0 : E 0 = x) : Inv n rs E (start arr x) := by
  have ht : ∀ i, Told rs E (start arr x) i 0 := fun i => Or.inl ⟨rfl, rfl, by rw [h0]; rfl⟩
  refine ⟨0, 0, by omega, fun _ => rfl, fun R _ => Or.inl ⟨rfl, rfl, ht _⟩, fun i _ _ => ?_,
    fun h => absurd h (by omega), fun u R h => absurd h (by omega)⟩
  rw [if_neg (by omega)]; exact ht i

end GA.Smp
