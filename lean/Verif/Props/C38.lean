import Verif.Lemmas.Bin

/-!
# C38: binning

`GA_Bin_index` puts the values of all processes into their bins: each bin ends up with exactly the
values contributed to it, and nothing else in the bin array changes.

The property holds when the number of processes is odd (for every history of earlier calls) and, for
an even number of processes, for the first use of each position of a work array; it fails afterwards
(`C38_second_call_overlaps`, `C38_second_chunk_overlaps`).
-/

namespace GA.Bin

/-- **C38 (offsets).** For every bin, the ranges given to the processes are disjoint and exactly
fill the bin. Missing: later calls with an even number of processes. -/
theorem C38_ranges_partial (n nbin : Nat) (hn : 0 < n) (x : Nat → Nat → Int)
    (hx : ∀ r b, 0 ≤ x r b) (w : Work) (hw : WorkOK n nbin w) (b : Nat) (hb : b < nbin) :
    Fills n (fun r => x r b) (fun r => (offsets n nbin x w).off r b) (total n fun r => x r b) :=
  fills_of_layout n _ _ (fun r => hx r b) hn (offsets_layout n nbin hn x w hw b hb)

section
variable {V : Type} {n nbin : Nat} {goff : Int → Int} {inp : Nat → Input V} {w : Work}

private theorem off_fills (hn : 0 < n) (hw : WorkOK n nbin w) (b : Int) (h1 : 1 ≤ b)
    (h2 : b ≤ (nbin : Int)) :
    Layout (fun r => (((inp r).subs.count b : Nat) : Int))
      (fun r => (offsets n nbin (fun q b => contrib (inp q).subs b) w).off r (b - 1).toNat) 0
      (post n n 0) := by
  have h := offsets_layout n nbin hn (fun q b => contrib (inp q).subs b) w hw (b - 1).toNat
    (by omega)
  have e : (((b - 1).toNat : Int) + 1) = b := by omega
  simpa only [contrib, e] using h

private theorem procPuts_spec (hn : 0 < n) (hc : CallOK n nbin goff inp) (hw : WorkOK n nbin w)
    (r : Nat) (hr : r < n) :
    (procPuts n nbin goff inp w r).2 = true ∧
    ∀ p, p ∈ (procPuts n nbin goff inp w r).1 ↔ ∃ b ∈ (inp r).subs, p = groupPut goff
      ((offsets n nbin (fun q b => contrib (inp q).subs b) w).off r) (inp r) b := by
  unfold procPuts
  apply putLoop_spec nbin goff _ (inp r) _ [] (inp r).subs rfl (by simp) (hc.sorted r hr)
    (Nat.le_refl _) (fun b hb => (hc.range r hr b hb).1)
  intro b hb
  obtain ⟨b1, b2⟩ := hc.range r hr b hb
  have hF := fills_of_layout n _ _ (fun r => by omega) hn
    (off_fills (inp := inp) (w := w) hn hw b b1 b2)
  have h3 := hF.inside r hr
  have h4 := hc.room b b1 b2
  have h5 := hc.low b
  constructor <;> omega

private theorem unique_put (hn : 0 < n) (hc : CallOK n nbin goff inp) (hw : WorkOK n nbin w)
    (r s : Nat) (hr : r < n) (hs : s < n) (b c : Int) (hb : b ∈ (inp r).subs)
    (hcm : c ∈ (inp s).subs) (g : Int)
    (h1 : (groupPut goff ((offsets n nbin (fun q b => contrib (inp q).subs b) w).off r) (inp r)
      b).Covers g)
    (h2 : (groupPut goff ((offsets n nbin (fun q b => contrib (inp q).subs b) w).off s) (inp s)
      c).Covers g) : r = s ∧ b = c := by
  simp only [Put.Covers, groupPut] at h1 h2
  rw [valuesFor_length _ _ (hc.len r hr)] at h1
  rw [valuesFor_length _ _ (hc.len s hs)] at h2
  obtain ⟨b1, b2⟩ := hc.range r hr b hb
  obtain ⟨c1, c2⟩ := hc.range s hs c hcm
  have hFb := fills_of_layout n _ _ (fun r => by omega) hn
    (off_fills (inp := inp) (w := w) hn hw b b1 b2)
  have hFc := fills_of_layout n _ _ (fun r => by omega) hn
    (off_fills (inp := inp) (w := w) hn hw c c1 c2)
  have i1 := hFb.inside r hr
  have i2 := hFc.inside s hs
  have hbc : b = c := by
    rcases Int.lt_trichotomy b c with h | h | h
    · have := hc.apart b c b1 h c2
      omega
    · exact h
    · have := hc.apart c b c1 h b2
      omega
  subst hbc
  refine ⟨?_, rfl⟩
  by_contra hne
  have := hFb.disjoint r s hr hs hne
  omega

/-- **C38 (contents).** After a legal call, bin `b` holds exactly the values which the processes
contributed to it (in some order, with multiplicity), and every element of the bin array outside
the bins' ranges is unchanged. This holds for every order in which the puts of the processes reach
the array. Missing: later calls with an even number of processes. -/
theorem C38_contents_partial (hn : 0 < n) (hc : CallOK n nbin goff inp) (hw : WorkOK n nbin w)
    (a : Int → V) (sched : List (Put V))
    (hsched : sched.Perm ((List.range n).flatMap fun r => (procPuts n nbin goff inp w r).1)) :
    ∃ a', binIndex n nbin goff inp w sched a = some a' ∧
      (∀ b : Int, 1 ≤ b → b ≤ (nbin : Int) →
        (elements a' (goff b + 1) (total n fun r => ((inp r).subs.count b : Nat)).toNat).Perm
          ((List.range n).flatMap fun r => valuesFor (inp r) b)) ∧
      (∀ g : Int, (∀ b : Int, 1 ≤ b → b ≤ (nbin : Int) → ¬ (goff b + 1 ≤ g ∧
        g ≤ goff b + total n fun r => ((inp r).subs.count b : Nat))) → a' g = a g) := by
  have hmem : ∀ p, p ∈ sched ↔ ∃ r, r < n ∧ ∃ b ∈ (inp r).subs, p = groupPut goff
      ((offsets n nbin (fun q b => contrib (inp q).subs b) w).off r) (inp r) b := by
    intro p
    rw [hsched.mem_iff, List.mem_flatMap]
    constructor
    · rintro ⟨r, hr, h⟩
      have hr := List.mem_range.1 hr
      exact ⟨r, hr, ((procPuts_spec hn hc hw r hr).2 p).1 h⟩
    · rintro ⟨r, hr, h⟩
      exact ⟨r, List.mem_range.2 hr, ((procPuts_spec hn hc hw r hr).2 p).2 h⟩
  refine ⟨sched.foldl (fun a p => p.apply a) a, ?_, ?_, ?_⟩
  · unfold binIndex
    rw [if_pos]
    rw [List.all_eq_true]
    intro r hr
    have hr := List.mem_range.1 hr
    rw [(procPuts_spec hn hc hw r hr).1, Bool.and_true, List.all_eq_true]
    intro s hs
    exact decide_eq_true (hc.range r hr s hs)
  · intro b b1 b2
    have hL := off_fills (inp := inp) (w := w) hn hw b b1 b2
    have := readList_layout (sched.foldl (fun a p => p.apply a) a) (goff b + 1)
      (fun r => if r < n then valuesFor (inp r) b else List.replicate ((inp r).subs.count b)
        (a 0)) _ _ (by
          intro r
          split
          · rw [valuesFor_length _ _ (hc.len r (by assumption))]
          · rw [List.length_replicate]) 0 _ hL (by
        intro s hs
        have hs := mem_post_lt n n 0 s hn hs
        simp only [if_pos hs]
        apply List.ext_getElem
        · simp [elements]
        · intro k hk1 hk2
          simp only [elements, List.getElem_map, List.getElem_range]
          have hbm : b ∈ (inp s).subs := by
            apply List.count_pos_iff.1
            rw [← valuesFor_length _ _ (hc.len s hs)]
            omega
          have hcov : (groupPut goff ((offsets n nbin (fun q b => contrib (inp q).subs b) w).off s)
              (inp s) b).Covers (goff b + 1 + (offsets n nbin (fun q b => contrib (inp q).subs b)
                w).off s (b - 1).toNat + (k : Int)) := by
            simp only [Put.Covers, groupPut]
            omega
          rw [foldl_cov _ _ _ _ ((hmem _).2 ⟨s, hs, b, hbm, rfl⟩) hcov]
          · exact apply_at _ _ _ k (by simp only [groupPut]; omega) hk2
          · intro q hq hqc
            obtain ⟨r, hr, c, hcm, e⟩ := (hmem q).1 hq
            subst e
            obtain ⟨e1, e2⟩ := unique_put hn hc hw r s hr hs c b hcm hbm _ hqc hcov
            subst e1 e2
            rfl)
    rw [Int.add_zero] at this
    rw [total_post n _ hn, this]
    apply ((post_perm n hn).flatMap_right _).trans
    apply List.Perm.of_eq
    apply List.flatMap_congr
    intro r hr
    rw [if_pos (List.mem_range.1 hr)]
  · intro g hg
    apply foldl_not
    intro p hp hcov
    obtain ⟨r, hr, b, hbm, e⟩ := (hmem p).1 hp
    subst e
    obtain ⟨b1, b2⟩ := hc.range r hr b hbm
    have hFb := fills_of_layout n _ _ (fun r => by omega) hn
      (off_fills (inp := inp) (w := w) hn hw b b1 b2)
    have i1 := hFb.inside r hr
    simp only [Put.Covers, groupPut] at hcov
    rw [valuesFor_length _ _ (hc.len r hr)] at hcov
    exact hg b b1 b2 ⟨by omega, by omega⟩

end

/-! ## a history of calls -/

/-- The arguments of one call. -/
structure CallArgs (V : Type) where
  nbin : Nat
  inp : Nat → Input V

/-- Content of the work arrays after a history of calls, all zero at program start. -/
def history {V : Type} (n : Nat) : List (CallArgs V) → Work
  | [] => fun _ _ => 0
  | c :: l => workAfter n c.nbin c.inp (history n l)

/-- With an odd number of processes the contents are right after every history of calls. -/
theorem C38_history_partial {V : Type} {n nbin : Nat} {goff : Int → Int} {inp : Nat → Input V}
    (hodd : n % 2 = 1) (hc : CallOK n nbin goff inp) (l : List (CallArgs V)) (a : Int → V)
    (sched : List (Put V)) (hsched : sched.Perm ((List.range n).flatMap fun r =>
      (procPuts n nbin goff inp (history n l) r).1)) :
    ∃ a', binIndex n nbin goff inp (history n l) sched a = some a' ∧
      (∀ b : Int, 1 ≤ b → b ≤ (nbin : Int) →
        (elements a' (goff b + 1) (total n fun r => ((inp r).subs.count b : Nat)).toNat).Perm
          ((List.range n).flatMap fun r => valuesFor (inp r) b)) ∧
      (∀ g : Int, (∀ b : Int, 1 ≤ b → b ≤ (nbin : Int) → ¬ (goff b + 1 ≤ g ∧
        g ≤ goff b + total n fun r => ((inp r).subs.count b : Nat))) → a' g = a g) :=
  C38_contents_partial (by omega) hc (Or.inl hodd) a sched hsched

/-- The first call with at most `NWORK` bins is right for every number of processes. -/
theorem C38_first_call_partial {V : Type} {n nbin : Nat} {goff : Int → Int} {inp : Nat → Input V}
    (hn : 0 < n) (hb : nbin ≤ 2000) (hc : CallOK n nbin goff inp) (a : Int → V)
    (sched : List (Put V)) (hsched : sched.Perm ((List.range n).flatMap fun r =>
      (procPuts n nbin goff inp (history n ([] : List (CallArgs V))) r).1)) :
    ∃ a', binIndex n nbin goff inp (history n ([] : List (CallArgs V))) sched a = some a' ∧
      (∀ b : Int, 1 ≤ b → b ≤ (nbin : Int) →
        (elements a' (goff b + 1) (total n fun r => ((inp r).subs.count b : Nat)).toNat).Perm
          ((List.range n).flatMap fun r => valuesFor (inp r) b)) ∧
      (∀ g : Int, (∀ b : Int, 1 ≤ b → b ≤ (nbin : Int) → ¬ (goff b + 1 ≤ g ∧
        g ≤ goff b + total n fun r => ((inp r).subs.count b : Nat))) → a' g = a g) :=
  C38_contents_partial hn hc (Or.inr ⟨hb, fun _ _ _ _ => rfl⟩) a sched hsched

/-! ## the property fails for later calls with an even number of processes -/

/-- two processes, each contributes one value to bin 1 -/
private def inp2 : Nat → Input Int := fun r => ⟨[1], [10 + r]⟩

/-- the call is legal -/
private theorem inp2_ok : CallOK 2 2 (fun b => if b = 1 then 0 else 2) inp2 := by
  refine ⟨fun _ _ => rfl, fun _ _ => by simp [inp2], ?_, ?_, ?_, ?_⟩
  · intro r _ s hs
    simp [inp2] at hs
    omega
  · intro b; split <;> omega
  · intro b b1 b2
    rcases (show b = 1 ∨ b = 2 by omega) with h | h <;> subst h <;> decide
  · intro b c b1 h c2
    obtain rfl : b = 1 := by omega
    obtain rfl : c = 2 := by omega
    decide

/-- **Negation of C38.** Two processes make the same legal call twice. In the second call process 1
is given offset -1: it writes at subscript 0 of the bin array, which is outside of it, so the call
does not store the values. -/
theorem C38_second_call_overlaps :
    CallOK 2 2 (fun b => if b = 1 then 0 else 2) inp2 ∧
    (offsets 2 2 (fun q b => contrib (inp2 q).subs b) (history 2 [⟨2, inp2⟩])).off 1 0 = -1 ∧
    (∀ sched a, binIndex 2 2 (fun b => if b = 1 then 0 else 2) inp2 (history 2 [⟨2, inp2⟩]) sched a
      = none) := by
  refine ⟨inp2_ok, by decide +kernel, fun sched a => ?_⟩
  unfold binIndex
  rw [if_neg]
  decide +kernel

/-- **Negation of C38.** A single call with more than `NWORK` bins: two processes, each contributes
one value to every one of the bins 1 and 2001. The offset of process 1 in bin 2001 is -1. -/
theorem C38_second_chunk_overlaps :
    (offsets 2 2001 (fun _ b => if b = 0 ∨ b = 2000 then 1 else 0)
      (history 2 ([] : List (CallArgs Int)))).off 1 2000 = -1 := by
  decide +kernel

/-! ## the hypotheses are met -/

/-- three processes, two bins -/
private def inp3 : Nat → Input Int := fun r => if r = 1 then ⟨[1, 1, 2], [5, 6, 7]⟩ else ⟨[2], [8]⟩

private theorem inp3_ok : CallOK 3 6 (fun b => if b = 1 then 0 else if b = 2 then 2 else 5) inp3 := by
  have hall : ∀ r, inp3 r = ⟨[1, 1, 2], [5, 6, 7]⟩ ∨ inp3 r = ⟨[2], [8]⟩ := by
    intro r; unfold inp3; split
    · exact Or.inl rfl
    · exact Or.inr rfl
  refine ⟨fun r _ => ?_, fun r _ => ?_, ?_, ?_, ?_, ?_⟩
  · rcases hall r with h | h <;> rw [h] <;> rfl
  · rcases hall r with h | h <;> rw [h] <;> decide
  · intro r _ s hs
    rcases hall r with h | h <;> rw [h] at hs <;> simp at hs <;> omega
  · intro b; split
    · omega
    · split <;> omega
  · intro b b1 b2
    rcases (show b = 1 ∨ b = 2 ∨ b = 3 ∨ b = 4 ∨ b = 5 ∨ b = 6 by omega) with
      h | h | h | h | h | h <;> subst h <;> decide
  · intro b c b1 h c2
    rcases (show b = 1 ∨ b = 2 ∨ b = 3 ∨ b = 4 ∨ b = 5 by omega) with h' | h' | h' | h' | h' <;>
      rcases (show c = 2 ∨ c = 3 ∨ c = 4 ∨ c = 5 ∨ c = 6 by omega) with h'' | h'' | h'' | h'' | h'' <;>
      subst h' h'' <;> first | omega | decide

example (l : List (CallArgs Int)) : ∃ sched : List (Put Int), sched.Perm ((List.range 3).flatMap fun r =>
      (procPuts 3 6 (fun b => if b = 1 then 0 else if b = 2 then 2 else 5) inp3 (history 3 l) r).1) ∧
    CallOK 3 6 (fun b => if b = 1 then 0 else if b = 2 then 2 else 5) inp3 ∧ WorkOK 3 6 (history 3 l) :=
  ⟨_, List.Perm.refl _, inp3_ok, Or.inl rfl⟩

example : ((binIndex 3 6 (fun b => if b = 1 then 0 else if b = 2 then 2 else 5) inp3
    (history 3 ([⟨6, inp3⟩] : List (CallArgs Int)))
    ((List.range 3).flatMap fun r => (procPuts 3 6
      (fun b => if b = 1 then 0 else if b = 2 then 2 else 5) inp3 (history 3 [⟨6, inp3⟩]) r).1)
      (fun _ => 0)).map fun a => elements a 1 6) = some [5, 6, 7, 8, 8, 0] := by decide +kernel

example : WorkOK 2 2 (history 2 ([] : List (CallArgs Int))) := Or.inr ⟨by omega, fun _ _ _ _ => rfl⟩

end GA.Bin
