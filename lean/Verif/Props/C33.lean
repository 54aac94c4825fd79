import Verif.Lemmas.GhostSpec

/-! # C33: GA_Update_ghosts fills every ghost cell, and C52: it always comes to an end

A run of `GA_Update_ghosts` is any sequence of steps of the processes from the synchronisation at its
start: every process works through its own message plan (computed when the array was allocated),
messages may be buffered or not, and nothing is assumed about the schedule or about the content of
the message buffers. -/

namespace GA
open Spec Model Ghost

variable {V : Type} [Inhabited V]

/-- blocks at least as wide as the ghost cells, on all processes -/
private theorem wideC {A : RegArray} (hA : ArrOK A)
    (hW : ∀ p, p < gridSize A.nblock → WideBlock (owns A p).1 (owns A p).2 A.width) : WideC A := by
  intro c hc d hd
  have := hW _ (undigits_lt hc)
  rw [owns_of_coord hc, wideBlock_iff] at this
  obtain ⟨h1, h2, h3⟩ := this
  have hw := hA.width
  exact h3 d (by show d < (coordLo A.nblock A.mapc c).length; simp only at h2; omega)

private theorem step_mono {n : Nat} {blen : Nat → Int} {b : Bool} {s s' : Sys V}
    (h : Step n blen b s s') : Step n blen true s s' := by
  cases h with
  | pack p t m rest c0 cs b hp ht hc hb hl => exact .pack s p t m rest c0 cs b hp ht hc hb hl
  | snd p q t m rest hb hp hq ht hm hl => exact .snd s p q t m rest rfl hp hq ht hm hl
  | rcv p q t m rest d net hp ht hm hd hl => exact .rcv s p q t m rest d net hp ht hm hd hl
  | rendezvous p q t m m' rest rest' hp hq hpq ht hm ht' hm' hl hl' =>
    exact .rendezvous s p q t m m' rest rest' hp hq hpq ht hm ht' hm' hl hl'
  | copy p t m rest hp ht => exact .copy s p t m rest hp ht
  | unpack p t m rest c0 cs mem hp ht hc hl hb => exact .unpack s p t m rest c0 cs mem hp ht hc hl hb

/-- only the processes that exist take steps -/
private theorem step_len {n : Nat} {blen blen' : Nat → Int} (h : ∀ p, p < n → blen p = blen' p) {b : Bool}
    {s s' : Sys V} (hs : Step n blen b s s') : Step n blen' b s s' := by
  cases hs with
  | pack p t m rest c0 cs b hp ht hc hb hl =>
    exact .pack s p t m rest c0 cs b hp ht hc hb (by rw [← h p hp]; exact hl)
  | snd p q t m rest hb hp hq ht hm hl => exact .snd s p q t m rest hb hp hq ht hm hl
  | rcv p q t m rest d net hp ht hm hd hl =>
    exact .rcv s p q t m rest d net hp ht hm hd (by rw [← h p hp]; exact hl)
  | rendezvous p q t m m' rest rest' hp hq hpq ht hm ht' hm' hl hl' =>
    exact .rendezvous s p q t m m' rest rest' hp hq hpq ht hm ht' hm' hl (by rw [← h q hq]; exact hl')
  | copy p t m rest hp ht => exact .copy s p t m rest hp ht
  | unpack p t m rest c0 cs mem hp ht hc hl hb => exact .unpack s p t m rest c0 cs mem hp ht hc hl hb

private theorem reach_len {n : Nat} {blen blen' : Nat → Int} (h : ∀ p, p < n → blen p = blen' p)
    {s s' : Sys V} (hs : Reach n blen s s') : Reach n blen' s s' := by
  induction hs with
  | refl => exact .refl s
  | step _ h' ih => exact .step ih (step_len h h')

private theorem info_eq {A : RegArray} (hA : ArrOK A) (hW : WideC A) {flag : Bool}
    {cand : List Int → List Nat} (hc : ∀ x, CandOK A.nblock (cand x)) {p : Nat} (hp : p < gridSize A.nblock)
    {i : Int × List Msg} (h : setInfo A flag cand p = some i) (hg : hasGhosts A.width = true) :
    i = (bufLen (coordLo A.nblock A.mapc (digits A.nblock p)) (coordHi A.nblock A.dims A.mapc (digits A.nblock p))
      A.width, (RR A).map fun r => msgOf A flag (ridx r) (rpos r) (digits A.nblock p)) := by
  have := setInfo_eq hA hW hc (digits_ok hp) flag hg
  rw [undigits_digits hp, h] at this
  exact Option.some.inj this

/-- the invariant of all runs -/
private theorem run_inv {A : RegArray} (hA : ArrOK A) (hW : WideC A) {flag : Bool}
    {cand : Nat → List Int → List Nat} (hc : ∀ p x, CandOK A.nblock (cand p x)) {info : Nat → Int × List Msg}
    (hi : ∀ p, p < gridSize A.nblock → setInfo A flag (cand p) p = some (info p))
    (hg : hasGhosts A.width = true) (m : Addr → V) (junk : Nat → List V × List V) {s : Sys V}
    (hr : Reach (gridSize A.nblock) (fun p => (info p).1) (start A info m junk) s) :
    (thePlan A flag fun p o => m ((p : Int), o)).Inv s ∧
      ∀ p, p < gridSize A.nblock → (info p).1 = (thePlan A flag fun p o => m ((p : Int), o)).blen p := by
  have hlen : ∀ p, p < gridSize A.nblock →
      (info p).1 = (thePlan A flag fun p o => m ((p : Int), o)).blen p := by
    intro p hp
    rw [info_eq hA hW (hc p) hp (hi p hp) hg]
    rfl
  refine ⟨?_, hlen⟩
  refine Plan.inv_reach (plan_ok hA hW flag _) (Plan.inv_start (plan_ok hA hW flag _) rfl ?_)
    (reach_len hlen hr)
  intro p hp
  have hp' : p < gridSize A.nblock := hp
  refine ⟨?_, rfl⟩
  show (if hasGhosts A.width then progLoop A p A.dims.length 0 0 (info p).2 else []) = _
  rw [if_pos hg, info_eq hA hW (hc p) hp' (hi p hp') hg]
  exact prog_eq hA flag _ hp' (by omega) (by rw [List.drop_zero]; rfl)

private theorem no_ghosts {A : RegArray} (hg : ¬ hasGhosts A.width = true) : RR A = [] := by
  rw [List.eq_nil_iff_forall_not_mem]
  intro r hr
  unfold RR at hr
  rw [mem_rounds] at hr
  apply hg
  unfold Ghost.hasGhosts
  rw [List.any_eq_true]
  have h := hr.2
  have hlt : r / 2 < A.width.length := by
    by_contra hh
    simp [List.getD, Nat.not_lt.1 hh] at h
  refine ⟨A.width[r / 2], List.getElem_mem _, ?_⟩
  simp [List.getD, hlt] at h
  simp only [decide_eq_true_eq]; omega

/-- without ghost cells nothing happens -/
private theorem reach_none {n : Nat} {blen : Nat → Int} {s s' : Sys V} (h : Reach n blen s s')
    (hs : Finished n s) : s' = s := by
  induction h with
  | refl => rfl
  | step _ hst ih =>
    rw [ih] at hst
    cases hst with
    | pack p t m rest c0 cs b hp ht hc hb hl => rw [hs p hp] at ht; cases ht
    | snd p q t m rest hb hp hq ht hm hl => rw [hs p hp] at ht; cases ht
    | rcv p q t m rest d net hp ht hm hd hl => rw [hs p hp] at ht; cases ht
    | rendezvous p q t m m' rest rest' hp hq hpq ht hm ht' hm' hl hl' => rw [hs p hp] at ht; cases ht
    | copy p t m rest hp ht => rw [hs p hp] at ht; cases ht
    | unpack p t m rest c0 cs mem hp ht hc hl hb => rw [hs p hp] at ht; cases ht

private theorem update_all (A : RegArray) (hA : ArrOK A)
    (hW : ∀ p, p < gridSize A.nblock → WideBlock (owns A p).1 (owns A p).2 A.width)
    (flag : Bool) (cand : Nat → List Int → List Nat) (hc : ∀ p x, CandOK A.nblock (cand p x))
    (info : Nat → Int × List Msg)
    (hi : ∀ p, p < gridSize A.nblock → setInfo A flag (cand p) p = some (info p))
    (m : Addr → V) (f : List Int → V) (hf : Holds (.reg A (gridSize A.nblock)) m f)
    (junk : Nat → List V × List V) (s : Sys V)
    (hr : Reach (gridSize A.nblock) (fun p => (info p).1) (start A info m junk) s)
    (hfin : Finished (gridSize A.nblock) s) :
    Updated A (gridSize A.nblock) flag m (memOf s m (gridSize A.nblock)) f := by
  have hWC := wideC hA hW
  have h0 := content_start hA hWC (Nat.le_refl _) flag hf
  refine updated_of_content hA hWC rfl ?_ ?_
  · have hmem : ∀ p, p < gridSize A.nblock → ∀ o, memOf s m (gridSize A.nblock) ((p : Int), o) =
        (s.procs p).mem o := by
      intro p hp o
      unfold memOf
      rw [if_pos (by simp only; omega)]
      simp
    have hM : ∀ p, p < gridSize A.nblock → (s.procs p).mem =
        runM A flag (RR A) (fun p o => m ((p : Int), o)) p := by
      intro p hp
      by_cases hg : hasGhosts A.width = true
      · obtain ⟨hinv, -⟩ := run_inv hA hWC hc hi hg m junk hr
        have := Plan.final hinv hfin (p := p) hp
        rw [this]
        show runM A flag ((RR A).take (RR A).length) _ p = _
        rw [List.take_length]
      · have hs0 : Finished (gridSize A.nblock) (start A info m junk) := by
          intro q _
          show (if hasGhosts A.width then _ else []) = []
          rw [if_neg hg]
        rw [reach_none hr hs0, no_ghosts hg]
        rfl
    have hcr := content_run hA hWC h0 (Nat.le_refl (RR A).length)
    rw [List.take_length] at hcr
    constructor
    · intro c hc' y hv
      rw [hmem _ (undigits_lt hc'), hM _ (undigits_lt hc')]
      exact hcr.val c hc' y hv
    · intro c hc' x hx
      show memOf s m (gridSize A.nblock) (((undigits A.nblock c : Nat) : Int), x) = _
      rw [hmem _ (undigits_lt hc'), hM _ (undigits_lt hc')]
      exact hcr.rest c hc' x hx
  · intro a ha
    unfold memOf
    rw [if_neg ha]

/-- **C33.** For every regular array distributed over all processes whose blocks are at least as wide
as the ghost cells, every content, every schedule: when `GA_Update_ghosts` is finished, every stored
cell of every process — owned, face or corner — holds the element its subscript stands for, with
periodic wrap-around. The array has the same content as before, and no other memory changed. -/
theorem C33_update (A : RegArray) (hA : ArrOK A)
    (hW : ∀ p, p < gridSize A.nblock → WideBlock (owns A p).1 (owns A p).2 A.width)
    (cand : Nat → List Int → List Nat) (hc : ∀ p x, CandOK A.nblock (cand p x))
    (info : Nat → Int × List Msg)
    (hi : ∀ p, p < gridSize A.nblock → setInfo A true (cand p) p = some (info p))
    (m : Addr → V) (f : List Int → V) (hf : Holds (.reg A (gridSize A.nblock)) m f)
    (junk : Nat → List V × List V) (s : Sys V)
    (hr : Reach (gridSize A.nblock) (fun p => (info p).1) (start A info m junk) s)
    (hfin : Finished (gridSize A.nblock) s) :
    (∀ p, p < gridSize A.nblock → GhostsCurrent A.dims (owns A p).1 (owns A p).2 A.width f
      (fun o => memOf s m (gridSize A.nblock) ((p : Int), o))) ∧
    Holds (.reg A (gridSize A.nblock)) (memOf s m (gridSize A.nblock)) f ∧
    (∀ p, p < gridSize A.nblock → OnlyGhosts (owns A p).1 (owns A p).2 A.width
      (fun o => m ((p : Int), o)) (fun o => memOf s m (gridSize A.nblock) ((p : Int), o))) ∧
    (∀ a : Addr, ¬ (0 ≤ a.1 ∧ a.1 < gridSize A.nblock) → memOf s m (gridSize A.nblock) a = m a) :=
  have h := update_all A hA hW true cand hc info hi m f hf junk s hr hfin
  ⟨h.ghosts rfl, h.holds, h.rest, h.elsewhere⟩

/-- **C33, corner flag off.** With `GA_Set_ghost_corner_flag(g_a, 0)` in effect, the same holds for
all cells but the corner cells. -/
theorem C33_faces (A : RegArray) (hA : ArrOK A)
    (hW : ∀ p, p < gridSize A.nblock → WideBlock (owns A p).1 (owns A p).2 A.width)
    (cand : Nat → List Int → List Nat) (hc : ∀ p x, CandOK A.nblock (cand p x))
    (info : Nat → Int × List Msg)
    (hi : ∀ p, p < gridSize A.nblock → setInfo A false (cand p) p = some (info p))
    (m : Addr → V) (f : List Int → V) (hf : Holds (.reg A (gridSize A.nblock)) m f)
    (junk : Nat → List V × List V) (s : Sys V)
    (hr : Reach (gridSize A.nblock) (fun p => (info p).1) (start A info m junk) s)
    (hfin : Finished (gridSize A.nblock) s) :
    (∀ p, p < gridSize A.nblock → FacesCurrent A.dims (owns A p).1 (owns A p).2 A.width f
      (fun o => memOf s m (gridSize A.nblock) ((p : Int), o))) ∧
    Holds (.reg A (gridSize A.nblock)) (memOf s m (gridSize A.nblock)) f ∧
    (∀ p, p < gridSize A.nblock → OnlyGhosts (owns A p).1 (owns A p).2 A.width
      (fun o => m ((p : Int), o)) (fun o => memOf s m (gridSize A.nblock) ((p : Int), o))) ∧
    (∀ a : Addr, ¬ (0 ≤ a.1 ∧ a.1 < gridSize A.nblock) → memOf s m (gridSize A.nblock) a = m a) :=
  have h := update_all A hA hW false cand hc info hi m f hf junk s hr hfin
  ⟨h.faces, h.holds, h.rest, h.elsewhere⟩

/-- **C33, allocation.** For such an array the message plan can be computed on every process, so the
allocation does not fail, whatever the floating point guesses of the block search are. -/
theorem C33_setup (A : RegArray) (hA : ArrOK A)
    (hW : ∀ p, p < gridSize A.nblock → WideBlock (owns A p).1 (owns A p).2 A.width) (flag : Bool)
    (cand : Nat → List Int → List Nat) (hc : ∀ p x, CandOK A.nblock (cand p x)) :
    ∃ info : Nat → Int × List Msg,
      ∀ p, p < gridSize A.nblock → setInfo A flag (cand p) p = some (info p) := by
  have hWC := wideC hA hW
  by_cases hg : hasGhosts A.width = true
  · refine ⟨fun p => (bufLen (coordLo A.nblock A.mapc (digits A.nblock p))
      (coordHi A.nblock A.dims A.mapc (digits A.nblock p)) A.width,
      (rounds A A.dims.length 0).map fun r => msgOf A flag (ridx r) (rpos r) (digits A.nblock p)), ?_⟩
    intro p hp
    have := setInfo_eq hA hWC (hc p) (digits_ok hp) flag hg
    rw [undigits_digits hp] at this
    exact this
  · refine ⟨fun _ => (0, []), ?_⟩
    intro p _
    unfold setInfo
    rw [if_neg hg]

/-- **C52, no deadlock.** In every state `GA_Update_ghosts` can reach, as long as some process is not
finished, some process can take a step — even if the message layer buffers nothing. -/
theorem C52_no_deadlock (A : RegArray) (hA : ArrOK A)
    (hW : ∀ p, p < gridSize A.nblock → WideBlock (owns A p).1 (owns A p).2 A.width)
    (flag : Bool) (cand : Nat → List Int → List Nat) (hc : ∀ p x, CandOK A.nblock (cand p x))
    (info : Nat → Int × List Msg)
    (hi : ∀ p, p < gridSize A.nblock → setInfo A flag (cand p) p = some (info p))
    (m : Addr → V) (junk : Nat → List V × List V) (s : Sys V)
    (hr : Reach (gridSize A.nblock) (fun p => (info p).1) (start A info m junk) s)
    (hfin : ¬ Finished (gridSize A.nblock) s) :
    ∃ s', Step (gridSize A.nblock) (fun p => (info p).1) false s s' := by
  have hWC := wideC hA hW
  by_cases hg : hasGhosts A.width = true
  · obtain ⟨hinv, hlen⟩ := run_inv hA hWC hc hi hg m junk hr
    obtain ⟨s', h⟩ := Plan.progress (plan_ok hA hWC flag _) hinv hfin
    exact ⟨s', step_len (fun p hp => (hlen p hp).symm) h⟩
  · have hs0 : Finished (gridSize A.nblock) (start A info m junk) := by
      intro q _
      show (if hasGhosts A.width then _ else []) = []
      rw [if_neg hg]
    rw [reach_none hr hs0] at hfin
    exact absurd hs0 hfin

/-- **C52, termination.** Every run from a given state is shorter than the number of steps all
processes together have in front of them; so every schedule that keeps taking possible steps ends
with all processes finished. -/
theorem C52_bounded (n : Nat) (blen : Nat → Int) (b : Bool) (s : Sys V) :
    ∀ (k : Nat) (run : Nat → Sys V), run 0 = s → (∀ i, i < k → Step n blen b (run i) (run (i + 1))) →
      k ≤ ((List.range n).map fun p => ((s.procs p).todo).length).sum := by
  intro k run h0 hrun
  have : ∀ i, i ≤ k → work n (run i) + i ≤ work n s := by
    intro i
    induction i with
    | zero => intro _; rw [h0]; omega
    | succ i ih =>
      intro hi
      have h1 := ih (by omega)
      have h2 := work_step (hrun i (by omega))
      omega
  have := this k (Nat.le_refl _)
  show k ≤ work n s
  omega

/-- **C52.** From every reachable state a finished state can be reached, even without any buffering:
a schedule that completes the update always exists, and by `C52_no_deadlock` and `C52_bounded` every
schedule that goes on as long as possible completes it. -/
theorem C52_completes (A : RegArray) (hA : ArrOK A)
    (hW : ∀ p, p < gridSize A.nblock → WideBlock (owns A p).1 (owns A p).2 A.width)
    (flag : Bool) (cand : Nat → List Int → List Nat) (hc : ∀ p x, CandOK A.nblock (cand p x))
    (info : Nat → Int × List Msg)
    (hi : ∀ p, p < gridSize A.nblock → setInfo A flag (cand p) p = some (info p))
    (m : Addr → V) (junk : Nat → List V × List V) (s : Sys V)
    (hr : Reach (gridSize A.nblock) (fun p => (info p).1) (start A info m junk) s) :
    ∃ s', Reach (gridSize A.nblock) (fun p => (info p).1) s s' ∧ Finished (gridSize A.nblock) s' := by
  have key : ∀ w s, work (gridSize A.nblock) s ≤ w →
      Reach (gridSize A.nblock) (fun p => (info p).1) (start A info m junk) s →
      ∃ s', Reach (gridSize A.nblock) (fun p => (info p).1) s s' ∧ Finished (gridSize A.nblock) s' := by
    intro w
    induction w with
    | zero =>
      intro s hw hr
      by_cases hfin : Finished (gridSize A.nblock) s
      · exact ⟨s, .refl s, hfin⟩
      · obtain ⟨s', h⟩ := C52_no_deadlock A hA hW flag cand hc info hi m junk s hr hfin
        have := work_step h
        omega
    | succ w ih =>
      intro s hw hr
      by_cases hfin : Finished (gridSize A.nblock) s
      · exact ⟨s, .refl s, hfin⟩
      · obtain ⟨s', h⟩ := C52_no_deadlock A hA hW flag cand hc info hi m junk s hr hfin
        have := work_step h
        obtain ⟨u, h1, h2⟩ := ih s' (by omega) (.step hr (step_mono h))
        refine ⟨u, ?_, h2⟩
        clear ih h2 hw this hr
        induction h1 with
        | refl => exact .step (.refl s) (step_mono h)
        | step _ hst ih => exact .step ih hst
  exact key _ s (Nat.le_refl _) hr

/-! ## Where the code differs -/

/-- `p` waits for a message that `q` is not going to send -/
private def Waits (p q t : Nat) (s : Sys V) : Prop :=
  (∃ m : Msg, ⟨.rcv, t, m⟩ ∈ (s.procs p).todo ∧ m.rcv = (q : Int)) ∧
  (∀ m : Msg, ⟨.rcv, t, m⟩ ∈ (s.procs p).todo → m.rcv = (q : Int)) ∧
  (∀ m : Msg, ⟨.snd, t, m⟩ ∈ (s.procs q).todo → m.snd ≠ (p : Int)) ∧
  (∀ k ∈ s.net, ¬ (k.src = q ∧ k.dst = p ∧ k.tag = t))

private theorem take_mem {a b t : Nat} {net : List (Packet V)} {d : List V} {net' : List (Packet V)}
    (h : takePacket a b t net = some (d, net')) :
    (∃ k ∈ net, k.src = a ∧ k.dst = b ∧ k.tag = t) ∧ ∀ k ∈ net', k ∈ net := by
  induction net generalizing net' with
  | nil => simp [takePacket] at h
  | cons k ks ih =>
    simp only [takePacket] at h
    split at h
    · next hk => cases h; exact ⟨⟨k, by simp, hk⟩, fun x hx => List.mem_cons_of_mem _ hx⟩
    · cases hq : takePacket a b t ks with
      | none => rw [hq] at h; cases h
      | some r =>
        rw [hq] at h; cases h
        obtain ⟨⟨x, hx, h1⟩, h2⟩ := ih hq
        refine ⟨⟨x, List.mem_cons_of_mem _ hx, h1⟩, ?_⟩
        intro y hy
        rcases List.mem_cons.1 hy with rfl | hy
        · simp
        · exact List.mem_cons_of_mem _ (h2 y hy)

/-- popping the head of one process -/
private theorem waits_pop {p q t : Nat} {s : Sys V} (h : Waits p q t s) {a : Nat} {x : Act} {rest : List Act}
    (ht : (s.procs a).todo = x :: rest) (hx : a = p → x.op = .rcv → x.tag ≠ t)
    {y : Proc V} (hy : y.todo = rest) {net : List (Packet V)}
    (hn : ∀ k ∈ net, ¬ (k.src = q ∧ k.dst = p ∧ k.tag = t)) : Waits p q t ⟨upd s.procs a y, net⟩ := by
  obtain ⟨⟨m, h1, h2⟩, h3, h4, h5⟩ := h
  have hsub : ∀ b (z : Act), z ∈ ((upd s.procs a y) b).todo → z ∈ (s.procs b).todo := by
    intro b z hz
    by_cases hb : b = a
    · subst hb
      rw [Plan.upd_procs_self, hy] at hz
      rw [ht]; exact List.mem_cons_of_mem _ hz
    · rwa [Plan.upd_procs_ne _ _ hb] at hz
  refine ⟨⟨m, ?_, h2⟩, fun m' hm => h3 m' (hsub _ _ hm), fun m' hm => h4 m' (hsub _ _ hm), hn⟩
  by_cases hb : p = a
  · subst hb
    show _ ∈ ((upd s.procs p y) p).todo
    rw [Plan.upd_procs_self, hy]
    rw [ht] at h1
    rcases List.mem_cons.1 h1 with h1 | h1
    · exact absurd (by rw [← h1]) (hx rfl (by rw [← h1]))
    · exact h1
  · show _ ∈ ((upd s.procs a y) p).todo
    rw [Plan.upd_procs_ne _ _ hb]; exact h1

private theorem waits_step {n : Nat} {blen : Nat → Int} {b : Bool} {p q t : Nat} (hpq : p ≠ q) {s s' : Sys V}
    (h : Waits p q t s) (hs : Step n blen b s s') : Waits p q t s' := by
  cases hs with
  | pack a t' m rest c0 cs b hp ht hc hb hl => exact waits_pop h ht (fun _ h => by cases h) rfl h.2.2.2
  | snd a c t' m rest hb hp hq ht hm hl =>
    refine waits_pop h ht (fun _ h => by cases h) rfl ?_
    intro k hk
    rcases List.mem_append.1 hk with hk | hk
    · exact h.2.2.2 k hk
    · rw [List.mem_singleton] at hk
      subst hk
      rintro ⟨h1, h2, h3⟩
      simp only at h1 h2 h3
      subst h1 h2 h3
      exact h.2.2.1 m (by rw [ht]; simp) hm
  | rcv a c t' m rest d net hp ht hm hd hl =>
    obtain ⟨⟨k, k1, k2⟩, k3⟩ := take_mem hd
    refine waits_pop h ht ?_ rfl (fun k hk => h.2.2.2 k (k3 k hk))
    rintro rfl - rfl
    have := h.2.1 m (by rw [ht]; simp)
    have hcq : c = q := by omega
    subst hcq
    exact h.2.2.2 k k1 k2
  | rendezvous a c t' m m' rest rest' hp hq hac ht hm ht' hm' hl hl' =>
    have h1 : Waits p q t ⟨upd s.procs a { s.procs a with todo := rest }, s.net⟩ :=
      waits_pop h ht (fun _ h => by cases h) rfl h.2.2.2
    refine waits_pop h1 (a := c) (x := ⟨.rcv, t', m'⟩) (rest := rest') ?_ ?_ rfl h.2.2.2
    · show ((upd s.procs a _) c).todo = _
      rw [Plan.upd_procs_ne _ _ (Ne.symm hac)]; exact ht'
    · rintro rfl - rfl
      have h6 := h.2.1 m' (by rw [ht']; simp)
      have hq : a = q := by omega
      subst hq
      exact h.2.2.1 m (by rw [ht]; simp) hm
  | copy a t' m rest hp ht => exact waits_pop h ht (fun _ h => by cases h) rfl h.2.2.2
  | unpack a t' m rest c0 cs mem hp ht hc hl hb => exact waits_pop h ht (fun _ h => by cases h) rfl h.2.2.2

/-- Three blocks 1..3, 4..5, 6..8 with ghost width 3: the middle block is narrower than the ghost
cells. -/
def narrow : RegArray := ⟨[8], [3], [1, 4, 6], [3]⟩

private def narrowInfo (p : Nat) : Int × List Msg := (setInfo narrow true (fun _ => [0]) p).getD (0, [])

/-- **The width check accepts blocks that are too narrow.** `gai_check_ghost_distr` compares
`mapc[i+1] - mapc[i] + 1`, one more than the width of the block, so an array with a block one element
narrower than its ghost width is allocated without an error on every process; but then
`GA_Update_ghosts` never comes to an end, under no schedule: process 1 waits for a message that
process 2 sends to process 0. -/
theorem C33_narrow_never_finishes :
    ArrOK narrow ∧ ¬ WideBlock (owns narrow 1).1 (owns narrow 1).2 narrow.width ∧
    (∀ p, p < 3 → setInfo narrow true (fun _ => [0]) p = some (narrowInfo p)) ∧
    ∀ (m : Addr → V) (junk : Nat → List V × List V) (s : Sys V),
      Reach 3 (fun p => (narrowInfo p).1) (start narrow narrowInfo m junk) s → ¬ Finished 3 s := by
  refine ⟨⟨by decide, by decide +kernel, by decide⟩, by decide +kernel, ?_, ?_⟩
  · intro p hp
    have : p = 0 ∨ p = 1 ∨ p = 2 := by omega
    rcases this with rfl | rfl | rfl <;> decide +kernel
  · intro m junk s hr hf
    have hw : Waits 1 2 0 s := by
      clear hf
      induction hr with
      | refl =>
        have e1 : ((start narrow narrowInfo m junk).procs 1).todo =
            progLoop narrow 1 1 0 0 (narrowInfo 1).2 := rfl
        have e2 : ((start narrow narrowInfo m junk).procs 2).todo =
            progLoop narrow 2 1 0 0 (narrowInfo 2).2 := rfl
        unfold Waits
        rw [e1, e2]
        have d1 : (progLoop narrow 1 1 0 0 (narrowInfo 1).2).any
            (fun a => decide (a.op = .rcv ∧ a.tag = 0 ∧ a.msg.rcv = 2)) = true := by decide +kernel
        have d2 : (progLoop narrow 1 1 0 0 (narrowInfo 1).2).all
            (fun a => decide (a.op = .rcv → a.tag = 0 → a.msg.rcv = 2)) = true := by decide +kernel
        have d3 : (progLoop narrow 2 1 0 0 (narrowInfo 2).2).all
            (fun a => decide (a.op = .snd → a.tag = 0 → a.msg.snd ≠ 1)) = true := by decide +kernel
        rw [List.any_eq_true] at d1
        rw [List.all_eq_true] at d2 d3
        refine ⟨?_, ?_, ?_, by intro k hk; cases hk⟩
        · obtain ⟨⟨o, t, m⟩, h1, h2⟩ := d1
          simp only [decide_eq_true_eq] at h2
          obtain ⟨rfl, rfl, h3⟩ := h2
          exact ⟨m, h1, h3⟩
        · intro m hm
          have := d2 _ hm
          simpa using this
        · intro m hm
          have := d3 _ hm
          simpa using this
      | step hr' hst ih => exact waits_step (by decide) ih hst
    obtain ⟨⟨m', h, -⟩, -⟩ := hw
    rw [hf 1 (by decide)] at h
    cases h

/-- **The corner flag set before `GA_Allocate` is ignored**: whatever the user has set, the value in
effect after the allocation is the number of dimensions, so corner cells are always updated. -/
theorem C33_corner_flag_ignored (ndim : Nat) (h : 1 ≤ ndim) (user : Int) :
    allocFlag ndim user = ndim ∧ allocFlag ndim user ≠ 0 := by
  have key : ∀ k i, loopEnd k i = i + k := by
    intro k
    induction k with
    | zero => intro i; simp [loopEnd]
    | succ k ih => intro i; simp only [loopEnd, ih]; omega
  unfold allocFlag
  simp only [key]
  omega

/-! ## Instances -/

/-- 5 x 6 on 2 x 3 processes, ghost widths 1 and 2 -/
def ghostEx : RegArray := ⟨[5, 6], [2, 3], [1, 4, 1, 3, 5], [1, 2]⟩

example : ArrOK ghostEx := ⟨by decide, by decide +kernel, by decide⟩
example : gridSize ghostEx.nblock = 6 := by decide
example : ∀ p : Nat, p < 6 → WideBlock (owns ghostEx p).1 (owns ghostEx p).2 ghostEx.width := by
  intro p hp
  have : p = 0 ∨ p = 1 ∨ p = 2 ∨ p = 3 ∨ p = 4 ∨ p = 5 := by omega
  rcases this with rfl | rfl | rfl | rfl | rfl | rfl <;> decide +kernel

/-- the plan of process 0 has four messages; it exchanges with process 1 in the first dimension and
with processes 2 and 4 in the second -/
example : (setInfo ghostEx true (fun _ => [0, 0]) 0).map (fun i => (i.1, i.2.map fun m => (m.snd, m.rcv, m.length))) =
    some (10, [(1, 1, 2), (1, 1, 2), (4, 2, 10), (2, 4, 10)]) := by decide +kernel

/-- A finished run on this array exists, for every content: the hypotheses of `C33_update` are met. -/
example (f : List Int → Int) : ∃ (info : Nat → Int × List Msg) (m : Addr → Int) (s : Sys Int),
    (∀ p, p < gridSize ghostEx.nblock → setInfo ghostEx true (fun _ => [0, 0]) p = some (info p)) ∧
    Holds (.reg ghostEx 6) m f ∧
    Reach (gridSize ghostEx.nblock) (fun p => (info p).1) (start ghostEx info m fun _ => ([], [])) s ∧
    Finished (gridSize ghostEx.nblock) s := by
  have hA : ArrOK ghostEx := ⟨by decide, by decide +kernel, by decide⟩
  have hW : ∀ p, p < gridSize ghostEx.nblock →
      WideBlock (owns ghostEx p).1 (owns ghostEx p).2 ghostEx.width := by
    intro p hp
    have : p = 0 ∨ p = 1 ∨ p = 2 ∨ p = 3 ∨ p = 4 ∨ p = 5 := by
      have : gridSize ghostEx.nblock = 6 := by decide
      omega
    rcases this with rfl | rfl | rfl | rfl | rfl | rfl <;> decide +kernel
  have hc : ∀ (p : Nat) (x : List Int), CandOK ghostEx.nblock ((fun _ _ => [0, 0]) p x) := by
    intro _ _; simp [CandOK, ghostEx]
  obtain ⟨info, hi⟩ := C33_setup ghostEx hA hW true (fun _ _ => [0, 0]) hc
  obtain ⟨m, hm⟩ : ∃ m : Addr → Int, Holds (.reg ghostEx 6) m f := by
    classical
    refine ⟨fun a => if h : ∃ x, InArray ghostEx.dims x ∧ cell ghostEx x = a then f h.choose else 0, ?_⟩
    rw [holds_iff (show Sound (.reg ghostEx 6) from ⟨hA, by decide⟩)]
    intro x hx
    have h : ∃ y, InArray ghostEx.dims y ∧ cell ghostEx y = cellG (.reg ghostEx 6) x := ⟨x, hx, rfl⟩
    rw [dif_pos h]
    have := cell_inj hA h.choose_spec.1 hx h.choose_spec.2
    rw [this]
  obtain ⟨s, h1, h2⟩ := C52_completes ghostEx hA hW true (fun _ _ => [0, 0]) hc info hi m
    (fun _ => ([], [])) _ (.refl _)
  exact ⟨info, m, s, hi, hm, h1, h2⟩

end GA
