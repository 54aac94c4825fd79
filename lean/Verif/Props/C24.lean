import Verif.Lemmas.Handles

/-! # C24: memory limit accounting -/

namespace GA.Handles

/-- the process state agrees with the accounting of the specification -/
private structure Match (p : PState) (s : St) : Prop where
  tbl : abs p = s.tbl
  lim : ∀ m, s.limit = some m → 0 ≤ m ∧ p.limited = true ∧
    p.total = m - liveBytes p.slots.length s.tbl ∧ (s.replaced = false → p.limit = m)
  unl : s.limit = none → p.limited = false ∧ p.total < 0
  nonneg : ∀ h n, s.tbl h = .live n → 0 ≤ n

private theorem succeeds_iff {p : PState} {s : St} (m : Match p s) (n : Int) (o : Bool) :
    Succeeds p.slots.length s n o ↔ (p.limited = true → n ≤ p.total ∧ o = true) := by
  unfold Succeeds Fits
  cases e : s.limit with
  | none => simp [(m.unl e).1]
  | some l =>
    obtain ⟨_, h1, h2, _⟩ := m.lim l e
    simp [h1, h2]

private theorem match_upd {p q : PState} {s : St} (m : Match p s) {g : Int} {st : HState} {d : Int}
    (hv : Valid p.slots.length g) (hq : abs q = upd (abs p) g st) (hc : Acct p q d)
    (hd : d = st.bytes - (abs p g).bytes) (hn : ∀ n, st = .live n → 0 ≤ n) :
    Match q { s with tbl := upd s.tbl g st } := by
  constructor
  · rw [hq, m.tbl]
  · intro l hl
    obtain ⟨h0, h1, h2, h3⟩ := m.lim l hl
    refine ⟨h0, by rw [hc.limited, h1], ?_, by rw [hc.limit]; exact h3⟩
    rw [hc.total, h1, hc.len, liveBytes_upd hv, hd, m.tbl, h2]
    simp; omega
  · intro hl
    obtain ⟨h1, h2⟩ := m.unl hl
    exact ⟨by rw [hc.limited, h1], by rw [hc.total, h1]; simpa using h2⟩
  · intro h n
    simp only [upd]
    split
    · exact fun e => hn n e
    · exact m.nonneg h n

private theorem valid_of_ne_free {p : PState} {g : Int} (h : abs p g ≠ .free) :
    Valid p.slots.length g := by
  obtain ⟨i, hi, rfl⟩ := abs_ne_free h
  exact valid_index hi

private theorem step_memory {p : PState} {s : St} (h : Inv p) (m : Match p s) {o : Op}
    (ha : Allowed p.slots.length s.tbl o) (hl : LimitOnce p.slots.length s o) :
    ∃ s', MStep p.slots.length s o (step p o).1 s' ∧ Match (step p o).2 s' ∧
      Inv (step p o).2 ∧ (step p o).2.slots.length = p.slots.length := by
  cases o with
  | create =>
    rcases eff_create h with ⟨q, g, e, hv, hf, e2, hi, hc⟩ | ⟨e, hf⟩
    · simp only [step, e]
      refine ⟨_, .create g hv (m.tbl ▸ hf), ?_, hi, hc.len⟩
      exact match_upd m hv e2 hc (by simp [hf, HState.bytes]) (by simp)
    · simp only [step, e]
      exact ⟨s, .createFull (m.tbl ▸ hf), m, h, trivial⟩
  | allocate g n ot =>
    obtain ⟨ha1, ha2⟩ := ha
    have hcr : abs p g = .created := by rw [m.tbl]; exact ha1
    obtain ⟨q, ok, hok, e, hi, e2, hc⟩ := eff_allocate h hcr n ot
    have hv := valid_of_ne_free (p := p) (g := g) (by rw [hcr]; simp)
    rw [← succeeds_iff m] at hok
    simp only [step, e]
    cases ok with
    | true =>
      exact ⟨_, .allocateOk ha1 (hok.1 rfl), match_upd m hv e2 hc (by simp [hcr, HState.bytes])
        (by rintro k ⟨⟩; exact ha2), hi, hc.len⟩
    | false =>
      exact ⟨_, .allocateFail ha1 (fun x => by simpa using hok.2 x),
        match_upd m hv e2 hc (by simp [hcr, HState.bytes]) (by simp), hi, hc.len⟩
  | duplicate g ot =>
    by_cases hlv : ∃ n, abs p g = .live n
    · obtain ⟨n, hn⟩ := hlv
      have hn' : s.tbl g = .live n := by rw [← m.tbl]; exact hn
      rcases eff_duplicate h hn ot with ⟨q, g', ok, hok, e, hi, hv, hf, e2, hc⟩ | ⟨e, hf⟩
      · rw [← succeeds_iff m] at hok
        simp only [step, e]
        cases ok with
        | true =>
          exact ⟨_, .duplicateOk g' hn' (hok.1 rfl) hv (m.tbl ▸ hf),
            match_upd m hv e2 hc (by simp [hf, HState.bytes])
              (by rintro k ⟨⟩; exact m.nonneg g _ hn'), hi, hc.len⟩
        | false =>
          refine ⟨s, ?_, ?_, hi, hc.len⟩
          · simpa using MStep.duplicateFail hn' (fun x => by simpa using hok.2 x)
          · have := match_upd m hv e2 hc (by simp [hf, HState.bytes]) (by simp)
            have e3 : upd s.tbl g' .free = s.tbl := by
              funext x; simp only [upd]; split
              · next hx => rw [hx, ← m.tbl, hf]
              · rfl
            simpa [e3] using this
      · simp only [step, e]
        exact ⟨s, .duplicateFull hn' (m.tbl ▸ hf), m, h, trivial⟩
    · have hl' : ∀ n, abs p g ≠ .live n := fun n hn => hlv ⟨n, hn⟩
      simp only [step, eff_duplicate_bad hl' ot]
      exact ⟨s, .duplicateBad (m.tbl ▸ hl'), m, h, trivial⟩
  | destroy g =>
    by_cases hlv : ∃ n, abs p g = .live n
    · obtain ⟨n, hn⟩ := hlv
      obtain ⟨q, e, e2, hi, hc⟩ := eff_destroy h hn
      simp only [step, e]
      exact ⟨_, .destroy (m.tbl ▸ hn), match_upd m (valid_of_ne_free (by rw [hn]; simp)) e2 hc
        (by simp [hn, HState.bytes]) (by simp), hi, hc.len⟩
    · have hl' : ∀ n, abs p g ≠ .live n := fun n hn => hlv ⟨n, hn⟩
      simp only [step, eff_destroy_bad hl']
      exact ⟨s, .destroyBad (m.tbl ▸ hl'), m, h, trivial⟩
  | deallocate g =>
    by_cases hlv : ∃ n, abs p g = .live n
    · obtain ⟨n, hn⟩ := hlv
      obtain ⟨q, e, e2, hi, hc⟩ := eff_deallocate h hn
      simp only [step, e]
      exact ⟨_, .deallocate (m.tbl ▸ hn), match_upd m (valid_of_ne_free (by rw [hn]; simp)) e2 hc
        (by simp [hn, HState.bytes]) (by simp), hi, hc.len⟩
    · have hl' : ∀ n, abs p g ≠ .live n := fun n hn => hlv ⟨n, hn⟩
      simp only [step, eff_deallocate_bad hl']
      exact ⟨s, .deallocateBad (m.tbl ▸ hl'), m, h, trivial⟩
  | use g =>
    by_cases hlv : ∃ n, abs p g = .live n
    · obtain ⟨n, hn⟩ := hlv
      simp only [step, eff_use hn]
      exact ⟨s, .use (m.tbl ▸ hn), m, h, trivial⟩
    · have hl' : ∀ n, abs p g ≠ .live n := fun n hn => hlv ⟨n, hn⟩
      simp only [step, eff_use_bad hl']
      exact ⟨s, .useBad (m.tbl ▸ hl'), m, h, trivial⟩
  | avail =>
    simp only [step, memoryAvail]
    cases e : s.limit with
    | none => exact ⟨s, .availUnlimited e (m.unl e).2, m, h, trivial⟩
    | some l =>
      rw [(m.lim l e).2.2.1]
      exact ⟨s, .avail e, m, h, trivial⟩
  | inquire =>
    simp only [step, inquire_eq, m.tbl]
    exact ⟨s, .inquire, m, h, trivial⟩
  | setLimit l =>
    have es : (setMemoryLimit p l).slots = p.slots := by
      unfold setMemoryLimit; split
      · split <;> rfl
      · rfl
    simp only [step]
    by_cases hneg : l < 0
    · refine ⟨_, .setUnlimited hneg, ⟨(abs_congr es).trans m.tbl, by simp, fun _ => ?_, m.nonneg⟩,
        inv_congr es.symm h, by rw [es]⟩
      unfold setMemoryLimit
      by_cases hlim : p.limited = true
      · simp only [hlim, if_true, if_neg (show ¬ l ≥ 0 by omega)]
        exact ⟨trivial, by omega⟩
      · simp only [hlim, if_neg (show ¬ l ≥ 0 by omega)]
        exact ⟨rfl, hneg⟩
    · refine ⟨_, .setLimit (by omega), ⟨(abs_congr es).trans m.tbl, ?_, by simp, m.nonneg⟩,
        inv_congr es.symm h, by rw [es]⟩
      rintro k ⟨⟩
      refine ⟨by omega, ?_⟩
      rw [es]
      rcases hl (by omega) with ⟨h1, h2⟩ | ⟨h1, h2⟩
      · obtain ⟨u1, u2⟩ := m.unl h1
        simp only [setMemoryLimit, u1, h2, h1, if_pos (show l ≥ 0 by omega)]
        simp
      · obtain ⟨k, hk⟩ := Option.isSome_iff_exists.1 h1
        obtain ⟨_, h3, h4, h5⟩ := m.lim k hk
        simp only [setMemoryLimit, h3, if_pos (show l ≥ 0 by omega), hk, h4, h5 h2, if_true]
        refine ⟨trivial, by omega, by simp⟩

private theorem run_memory (p : PState) (s : St) (h : Inv p) (m : Match p s) (os : List Op) :
    Run (MStep p.slots.length)
      (fun s o => Allowed p.slots.length s.tbl o ∧ LimitOnce p.slots.length s o) s os (run p os) := by
  induction os generalizing p s with
  | nil => exact .nil
  | cons o os ih =>
    by_cases ha : Allowed p.slots.length s.tbl o ∧ LimitOnce p.slots.length s o
    · obtain ⟨s', h1, h2, h3, h4⟩ := step_memory h m ha.1 ha.2
      unfold run
      by_cases e : (step p o).1 = .abort
      · simp only [e, if_true]
        rw [e] at h1
        exact .abort h1
      · simp only [e, if_false]
        refine .cons h1 e ?_
        have := ih (step p o).2 s' h3 h2
        rwa [h4] at this
    · exact .outside ha

private theorem liveBytes_free (max : Nat) : liveBytes max (fun _ => .free) = 0 := by
  unfold liveBytes
  induction max with
  | zero => rfl
  | succ n ih => rw [List.range_succ]; simp [HState.bytes] at ih ⊢

/-- **C24 (partial).** For every history of calls after `GA_Initialize_ltd(m)`, or after
`GA_Initialize`, in which a limit is imposed only when no array is live and is replaced at most once
(`LimitOnce`): the memory available is always the limit less the bytes of the live arrays, creation
of an array succeeds exactly when that many bytes are available on all processes, a creation that
fails changes nothing but freeing the handle, and destroying returns exactly the bytes.

Missing: histories that replace the limit more than once or impose it while arrays are live. There
the statement is false of the code, see `C24_replace_twice_fails` and `C24_limit_live_fails`. -/
theorem C24_accounting_partial (max : Nat) (m : Int) (os : List Op) :
    Run (MStep max) (fun s o => Allowed max s.tbl o ∧ LimitOnce max s o)
      ⟨fun _ => .free, if 0 ≤ m then some m else none, false⟩ os (run (initLtd max m) os) ∧
    Run (MStep max) (fun s o => Allowed max s.tbl o ∧ LimitOnce max s o)
      ⟨fun _ => .free, none, false⟩ os (run (init max) os) := by
  constructor
  · have := run_memory (initLtd max m) ⟨fun _ => .free, if 0 ≤ m then some m else none, false⟩
      (inv_init _ max rfl) ⟨abs_init _ max rfl, ?_, ?_, by simp⟩ os
    · simpa [initLtd] using this
    · intro k hk
      split at hk
      · cases hk
        rename_i h0
        simp [initLtd, liveBytes_free, h0]
      · simp at hk
    · intro hk
      split at hk
      · simp at hk
      · simp only [initLtd]
        refine ⟨by simp; omega, by omega⟩
  · have := run_memory (init max) ⟨fun _ => .free, none, false⟩
      (inv_init _ max rfl) ⟨abs_init _ max rfl, by simp, by simp [init], by simp⟩ os
    simpa [init] using this

private theorem cons_inv {σ : Type} {step : σ → Op → Res → σ → Prop} {P : σ → Op → Prop} {s o os r rs}
    (h : Run step P s (o :: os) (r :: rs)) (hp : P s o) (hr : r ≠ .abort) :
    ∃ s', step s o r s' ∧ Run step P s' os rs := by
  cases h with
  | cons h1 _ h2 => exact ⟨_, h1, h2⟩
  | abort _ => exact absurd rfl hr
  | outside h => exact absurd hp h

private theorem avail_inv {max s n s' m} (h : MStep max s .avail (.num n) s') (hl : s.limit = some m) :
    n = m - liveBytes max s.tbl := by
  generalize hr : Res.num n = r at h
  cases h with
  | avail h => rw [hl] at h; cases h; exact Res.num.inj hr
  | availUnlimited h => rw [hl] at h; cases h

private theorem setLimit_inv {max s m r s'} (h : MStep max s (.setLimit m) r s') (hm : 0 ≤ m) :
    s'.limit = some m ∧ s'.tbl = s.tbl := by
  cases h with
  | setLimit _ => exact ⟨rfl, rfl⟩
  | setUnlimited h => omega

private theorem create_inv {max s g s'} (h : MStep max s .create (.handle g) s') :
    s'.tbl = upd s.tbl g .created ∧ s'.limit = s.limit := by
  cases h; exact ⟨rfl, rfl⟩

private theorem allocate_inv {max s g n o s'} (h : MStep max s (.allocate g n o) (.bool true) s') :
    s'.tbl = upd s.tbl g (.live n) ∧ s'.limit = s.limit := by
  cases h; exact ⟨rfl, rfl⟩

/-- The limit 100 is replaced by 200 and by 100 again: the memory available is then reported as 200,
not as 100. -/
theorem C24_replace_twice_fails :
    run (init 4) [.setLimit 100, .setLimit 200, .setLimit 100, .avail] =
      [.done, .done, .done, .num 200] ∧
    ¬ Run (MStep 4) (fun s o => Allowed 4 s.tbl o) ⟨fun _ => .free, none, false⟩
      [.setLimit 100, .setLimit 200, .setLimit 100, .avail]
      (run (init 4) [.setLimit 100, .setLimit 200, .setLimit 100, .avail]) := by
  have e : run (init 4) [.setLimit 100, .setLimit 200, .setLimit 100, .avail] =
      [.done, .done, .done, .num 200] := by decide
  refine ⟨e, ?_⟩
  rw [e]
  intro h
  obtain ⟨s1, h1, h⟩ := cons_inv h trivial (by simp)
  obtain ⟨s2, h2, h⟩ := cons_inv h trivial (by simp)
  obtain ⟨s3, h3, h⟩ := cons_inv h trivial (by simp)
  obtain ⟨s4, h4, -⟩ := cons_inv h trivial (by simp)
  have l := avail_inv h4 (setLimit_inv h3 (by omega)).1
  rw [(setLimit_inv h3 (by omega)).2, (setLimit_inv h2 (by omega)).2, (setLimit_inv h1 (by omega)).2,
    liveBytes_free] at l
  omega

/-- A limit of 100 bytes is imposed while an array of 60 bytes is live: 100 bytes are reported as
available, not 40, and an array of 90 bytes can be created. -/
theorem C24_limit_live_fails :
    run (init 4) [.create, .allocate (-1000) 60 true, .setLimit 100, .avail, .create,
      .allocate (-999) 90 true] =
      [.handle (-1000), .bool true, .done, .num 100, .handle (-999), .bool true] ∧
    ¬ Run (MStep 4) (fun s o => Allowed 4 s.tbl o) ⟨fun _ => .free, none, false⟩
      [.create, .allocate (-1000) 60 true, .setLimit 100, .avail]
      (run (init 4) [.create, .allocate (-1000) 60 true, .setLimit 100, .avail]) := by
  refine ⟨by decide, ?_⟩
  have e : run (init 4) [.create, .allocate (-1000) 60 true, .setLimit 100, .avail] =
      [.handle (-1000), .bool true, .done, .num 100] := by decide
  rw [e]
  intro h
  obtain ⟨s1, h1, h⟩ := cons_inv h trivial (by simp)
  obtain ⟨s2, h2, h⟩ := cons_inv h (by
    refine ⟨?_, by omega⟩
    rw [(create_inv h1).1]; simp [upd]) (by simp)
  obtain ⟨s3, h3, h⟩ := cons_inv h trivial (by simp)
  obtain ⟨s4, h4, -⟩ := cons_inv h trivial (by simp)
  have l := avail_inv h4 (setLimit_inv h3 (by omega)).1
  rw [(setLimit_inv h3 (by omega)).2, (allocate_inv h2).1, (create_inv h1).1] at l
  revert l
  decide

/-- a history with a failing creation, within the partial theorem -/
example : run (initLtd 3 100) [.create, .allocate (-1000) 60 true, .avail, .create,
      .allocate (-999) 50 true, .avail, .setLimit 120, .create, .allocate (-999) 50 true, .avail,
      .duplicate (-999) true, .destroy (-1000), .avail, .inquire] =
    [.handle (-1000), .bool true, .num 40, .handle (-999), .bool false, .num 40, .done, .handle (-999),
      .bool true, .num 10, .bool false, .bool true, .num 70, .num 50] := by decide

end GA.Handles
