import Verif.Lemmas.TwoSidedMem

/-! # Lemmas on the port over two-sided MPI: fences -/

namespace GA.TwoSided

open GA.Spec.Rma

variable {M R : Type}

def isUpd : Msg M R → Bool
  | .upd .. => true
  | _ => false

def isFreq : Msg M R → Bool
  | .freq => true
  | _ => false

def isFresp : Msg M R → Bool
  | .fresp => true
  | _ => false

/-- behind every update there is a fence request -/
def Behind : List (Msg M R) → Prop
  | [] => True
  | m :: c => (isUpd m = true → 0 < c.countP isFreq) ∧ Behind c

theorem Behind.append {c d : List (Msg M R)} (h : Behind c) (hd : ∀ m ∈ d, isUpd m = false) :
    Behind (c ++ d) := by
  induction c with
  | nil =>
    induction d with
    | nil => trivial
    | cons m d ih =>
      refine ⟨fun e => ?_, ih fun x hx => hd x (List.mem_cons_of_mem _ hx)⟩
      rw [hd m (by simp)] at e; exact absurd e (by simp)
  | cons m c ih =>
    refine ⟨fun e => ?_, ih h.2⟩
    show 0 < List.countP isFreq (c ++ d)
    rw [List.countP_append]
    have := h.1 e
    omega

theorem behind_freq (c : List (Msg M R)) : Behind (c ++ [.freq]) := by
  induction c with
  | nil => exact ⟨fun e => absurd e (by simp [isUpd]), trivial⟩
  | cons m c ih => exact ⟨fun _ => by show 0 < List.countP isFreq (c ++ [.freq]); rw [List.countP_append]; simp [isFreq], ih⟩

theorem Behind.clean {c : List (Msg M R)} (h : Behind c) (hz : c.countP isFreq = 0) :
    ∀ m ∈ c, isUpd m = false := by
  induction c with
  | nil => simp
  | cons m c ih =>
    rw [List.countP_cons] at hz
    intro x hx
    rcases List.mem_cons.1 hx with e | hx
    · subst e
      cases hu : isUpd x
      · rfl
      · have := h.1 hu; omega
    · exact ih h.2 (by omega) x hx

def sumN (f : Nat → Nat) : Nat → Nat
  | 0 => 0
  | n + 1 => sumN f n + f n

theorem sumN_add (f g : Nat → Nat) : ∀ n, sumN (fun x => f x + g x) n = sumN f n + sumN g n
  | 0 => rfl
  | n + 1 => by simp only [sumN, sumN_add f g n]; omega

theorem sumN_congr {f g : Nat → Nat} : ∀ {n : Nat}, (∀ x, x < n → f x = g x) → sumN f n = sumN g n
  | 0, _ => rfl
  | n + 1, h => by
      simp only [sumN]
      rw [sumN_congr (n := n) fun x hx => h x (by omega), h n (by omega)]

theorem sumN_zero : ∀ {n : Nat} {f : Nat → Nat}, (∀ x, x < n → f x = 0) → sumN f n = 0
  | 0, _, _ => rfl
  | n + 1, f, h => by
      simp only [sumN]
      rw [sumN_zero (n := n) fun x hx => h x (by omega), h n (by omega)]

theorem sumN_one : ∀ {n b : Nat} {v : Nat}, b < n → sumN (fun x => if x = b then v else 0) n = v
  | n + 1, b, v, h => by
      simp only [sumN]
      by_cases e : b = n
      · subst e
        rw [sumN_zero (n := b) fun x hx => if_neg (by omega)]
        simp
      · rw [sumN_one (n := n) (by omega), if_neg (fun x => e x.symm), Nat.add_zero]

theorem le_sumN : ∀ {n b : Nat} {f : Nat → Nat}, b < n → f b ≤ sumN f n
  | n + 1, b, f, h => by
      simp only [sumN]
      by_cases e : b = n
      · subst e; omega
      · have := le_sumN (n := n) (b := b) (f := f) (by omega); omega

/-- has the fence sent a request to `q`? -/
def fsent (l : Loc M R) (q : Nat) : Prop :=
  match l.ph with
  | .fence q' => q' = q
  | .fall i => q < i ∧ l.flag q = true
  | .fallw => l.flag q = true
  | _ => False

/-- requests the fence has not sent yet -/
def toSend (n : Nat) (l : Loc M R) : Nat :=
  match l.ph with
  | .fall i => countN l.flag n - countN l.flag i
  | _ => 0

/-- `*notify` of the fence -/
def fcnt (l : Loc M R) : Nat :=
  match l.ph with
  | .fence _ => l.cnt
  | .fall _ => l.cnt
  | .fallw => l.cnt
  | _ => 0

theorem countN_mono (b : Nat → Bool) {i : Nat} : ∀ {n : Nat}, i ≤ n → countN b i ≤ countN b n
  | 0, h => by rw [Nat.le_zero.1 h]; exact Nat.le_refl _
  | n + 1, h => by
      by_cases e : i = n + 1
      · rw [e]; exact Nat.le_refl _
      · have := countN_mono b (n := n) (i := i) (by omega)
        simp only [countN]; omega

theorem sumN_sent {n q : Nat} {m : Msg M R} (hq : q < n) :
    sumN (fun b => (sent (some (q, m)) b).countP isFreq) n = if isFreq m then 1 else 0 := by
  rw [← sumN_one (n := n) (b := q) (v := if isFreq m then 1 else 0) hq]
  refine sumN_congr fun x _ => ?_
  by_cases e : q = x
  · subst e; simp [sent, List.countP_cons]
  · have e' : ¬ x = q := fun y => e y.symm
    simp [sent, e, e']

theorem sumN_none {n : Nat} :
    sumN (fun b => (sent (none : Option (Nat × Msg M R)) b).countP isFreq) n = 0 :=
  sumN_zero fun _ _ => rfl

/-- may the updates for `q` be taken to be done? -/
def Quiet (l : Loc M R) (q : Nat) : Prop := l.flag q = false ∨ (fsent l q ∧ fcnt l = 0)

theorem own_fence {n me : Nat} {prog : List (Op M R)} {l l' : Loc M R}
    {o : Option (Nat × Msg M R)} (h : Own n me prog l l' o) (hme : me < n) (hi : LI n me prog l)
    (hv : ∀ op ∈ prog, ∀ q, op.other = some q → q < n) (hfm : l.flag me = false) :
    l'.flag me = false ∧
    (∀ q, q < n → l'.flag q = false → Quiet l q ∧ ∀ m ∈ sent o q, isUpd m = false) ∧
    (∀ q, q < n → fsent l' q → (fsent l q ∧ ∀ m ∈ sent o q, isUpd m = false) ∨ sent o q = [.freq]) ∧
    sumN (fun q => (sent o q).countP isFreq) n + toSend n l' + fcnt l = toSend n l + fcnt l' ∧
    (∀ q, (sent o q).countP isFresp = 0) ∧
    (∀ q k f, o = some (q, .upd k f) → k = l.pc ∧ l'.pc = l.pc + 1 ∧ prog[l.pc]? = some (.upd q f)) ∧
    (∀ q, q < n → l'.pc = l.pc + 1 →
      (prog[l.pc]? = some (.fence q) ∨ prog[l.pc]? = some .fenceAll) → Quiet l q) := by
  have hsn : ∀ q, ∀ m ∈ sent (none : Option (Nat × Msg M R)) q, isUpd m = false := by
    intro q m hm; exact absurd (mem_sent hm) (by simp)
  have hso : ∀ q' m', isUpd m' = false → ∀ q, ∀ m ∈ sent (some (q', m') : Option (Nat × Msg M R)) q, isUpd m = false := by
    intro q' m' h q m hm
    have := mem_sent hm
    cases this
    exact h
  have hph := hi.phase
  have hpc : ∀ {a : Nat}, ¬ a = a + 1 := by omega
  have hfr : ∀ (q' : Nat) (m' : Msg M R), isFresp m' = false → ∀ q, (sent (some (q', m')) q).countP isFresp = 0 := by
    intro q' m' h q
    rw [List.countP_eq_zero]
    intro x hx
    have := mem_sent hx
    cases this
    simp [h]
  cases h with
  | updSelf f h1 h2 =>
    exact ⟨hfm, fun q _ hf => ⟨.inl hf, hsn q⟩, fun q _ hf => absurd hf (by simp [fsent, h1]),
      by rw [sumN_none]; simp [toSend, fcnt, h1], fun q => rfl, by simp, by simp [h2]⟩
  | getSelf f h1 h2 =>
    exact ⟨hfm, fun q _ hf => ⟨.inl hf, hsn q⟩, fun q _ hf => absurd hf (by simp [fsent, h1]),
      by rw [sumN_none]; simp [toSend, fcnt, h1], fun q => rfl, by simp, by simp [h2]⟩
  | updRem q' f h1 h2 h3 =>
    have hq := hv _ (List.mem_of_getElem? h2) _ rfl
    refine ⟨?_, fun q _ hf => ?_, fun q _ hf => absurd hf (by simp [fsent, h1]),
      by rw [sumN_sent hq]; simp [toSend, fcnt, h1, isFreq], hfr _ _ rfl, ?_, by simp [h2]⟩
    · simp only [set1]; rw [if_neg (fun x => h3 x.symm)]; exact hfm
    · simp only [set1] at hf
      split at hf
      · exact absurd hf (by simp)
      · rename_i e
        refine ⟨.inl hf, fun m hm => ?_⟩
        have := mem_sent hm
        cases this
        exact absurd rfl e
    · rintro _ _ _ ⟨⟩; exact ⟨rfl, rfl, h2⟩
  | getRem q' f h1 h2 h3 =>
    have hq := hv _ (List.mem_of_getElem? h2) _ rfl
    exact ⟨hfm, fun q _ hf => ⟨.inl hf, hso _ _ rfl q⟩, fun q _ hf => absurd hf (by simp [fsent, h1]),
      by rw [sumN_sent hq]; simp [toSend, fcnt, h1, isFreq], hfr _ _ rfl, by simp, by simp [h2]⟩
  | rmw q' f r h1 h2 =>
    have hq := hv _ (List.mem_of_getElem? h2) _ rfl
    exact ⟨hfm, fun q _ hf => ⟨.inl hf, hso _ _ rfl q⟩, fun q _ hf => absurd hf (by simp [fsent]),
      by rw [sumN_sent hq]; simp [toSend, fcnt, h1, isFreq], hfr _ _ rfl, by simp, by simp⟩
  | wait h1 h2 h3 =>
    exact ⟨hfm, fun q _ hf => ⟨.inl hf, hsn q⟩, fun q _ hf => absurd hf (by simp [fsent, h1]),
      by rw [sumN_none]; simp [toSend, fcnt, h1], fun q => rfl, by simp, by simp [h2]⟩
  | fenceSkip q' h1 h2 h3 =>
    refine ⟨hfm, fun q _ hf => ⟨.inl hf, hsn q⟩, fun q _ hf => absurd hf (by simp [fsent, h1]),
      by rw [sumN_none]; simp [toSend, fcnt, h1], fun q => rfl, by simp, fun q _ _ hf => .inl ?_⟩
    rcases hf with hf | hf
    · rw [h2] at hf
      have : q' = q := by simpa using hf
      subst this
      rcases h3 with h3 | h3
      · rw [h3]; exact hfm
      · exact h3
    · rw [h2] at hf; exact absurd hf (by simp)
  | fence q' h1 h2 h3 h4 =>
    have hq := hv _ (List.mem_of_getElem? h2) _ rfl
    refine ⟨hfm, fun q _ hf => ⟨.inl hf, hso _ _ rfl q⟩, fun q _ hf => .inr ?_,
      by rw [sumN_sent hq]; simp [toSend, fcnt, h1, isFreq], hfr _ _ rfl, by simp, by simp⟩
    have : q' = q := hf
    simp [sent, this]
  | fallSkip h1 h2 h3 =>
    refine ⟨hfm, fun q _ hf => ⟨.inl hf, hsn q⟩, fun q _ hf => absurd hf (by simp [fsent, h1]),
      by rw [sumN_none]; simp [toSend, fcnt, h1], fun q => rfl, by simp, fun q hq _ hf => .inl (countN_zero h3 q hq)⟩
  | fall0 h1 h2 =>
    refine ⟨hfm, fun q _ hf => ⟨.inl hf, hsn q⟩, fun q _ hf => absurd hf (by simp [fsent]),
      ?_, fun q => rfl, by simp, by simp⟩
    rw [sumN_none]
    simp [toSend, fcnt, h1, countN]
  | barrier h1 h2 =>
    exact ⟨hfm, fun q _ hf => ⟨.inl hf, hsn q⟩, fun q _ hf => absurd hf (by simp [fsent]),
      by rw [sumN_none]; simp [toSend, fcnt, h1], fun q => rfl, by simp, by simp⟩
  | rmwEnd h1 h2 =>
    rw [h1] at hph
    obtain ⟨_, _, _, hp⟩ := hph
    exact ⟨hfm, fun q _ hf => ⟨.inl hf, hsn q⟩, fun q _ hf => absurd hf (by simp [fsent]),
      by rw [sumN_none]; simp [toSend, fcnt, h1], fun q => rfl, by simp, by simp [hp]⟩
  | fenceEnd q' h1 h2 =>
    rw [h1] at hph
    have hqt : Quiet l q' := .inr ⟨by simp [fsent, h1], by simp [fcnt, h1, h2]⟩
    refine ⟨?_, fun q _ hf => ⟨?_, hsn q⟩, fun q _ hf => absurd hf (by simp [fsent]),
      by rw [sumN_none]; simp [toSend, fcnt, h1, h2], fun q => rfl, by simp, fun q hq _ hf => ?_⟩
    · simp only [set1]; split
      · rfl
      · exact hfm
    · simp only [set1] at hf
      split at hf
      · rename_i e; rw [e]; exact hqt
      · exact .inl hf
    · rcases hf with hf | hf
      · rw [hph.2] at hf
        have : q' = q := by simpa using hf
        exact this ▸ hqt
      · rw [hph.2] at hf; exact absurd hf (by simp)
  | fallSend i h1 h2 h3 h4 =>
    refine ⟨hfm, fun q _ hf => ⟨.inl hf, hso _ _ rfl q⟩, fun q _ hf => ?_, ?_, hfr _ _ rfl, by simp, by simp⟩
    · have hf : q < i + 1 ∧ l.flag q = true := hf
      by_cases e : i = q
      · right; simp [sent, e]
      · exact .inl ⟨by simp only [fsent, h1]; exact ⟨by omega, hf.2⟩, hso _ _ rfl q⟩
    · rw [sumN_sent h2]
      simp only [toSend, fcnt, h1, isFreq, if_true, countN, h4]
      have := countN_mono l.flag (i := i + 1) (n := n) (by omega)
      simp only [countN, h4, if_true] at this
      omega
  | fallNext i h1 h2 h3 =>
    have h4 : l.flag i = false := by
      rcases h3 with h3 | h3
      · rw [h3]; exact hfm
      · exact h3
    refine ⟨hfm, fun q _ hf => ⟨.inl hf, hsn q⟩, fun q _ hf => ?_, ?_, fun q => rfl, by simp, by simp⟩
    · have hf : q < i + 1 ∧ l.flag q = true := hf
      by_cases e : i = q
      · rw [← e, h4] at hf; exact absurd hf.2 (by simp)
      · exact .inl ⟨by simp only [fsent, h1]; exact ⟨by omega, hf.2⟩, hsn q⟩
    · rw [sumN_none]
      simp only [toSend, fcnt, h1, countN, h4]
      simp
  | fallEnd i h1 h2 =>
    refine ⟨hfm, fun q _ hf => ⟨.inl hf, hsn q⟩, fun q hq hf => ?_, ?_, fun q => rfl, by simp, by simp⟩
    · have hf : l.flag q = true := hf
      exact .inl ⟨by simp only [fsent, h1]; exact ⟨by omega, hf⟩, hsn q⟩
    · rw [sumN_none]
      have := countN_mono l.flag (i := n) (n := i) h2
      simp only [toSend, fcnt, h1]
      omega
  | fallwEnd h1 h2 =>
    have hqt : ∀ q, Quiet l q := by
      intro q
      cases hf : l.flag q
      · exact .inl hf
      · exact .inr ⟨by simp [fsent, h1, hf], by simp [fcnt, h1, h2]⟩
    exact ⟨rfl, fun q _ hf => ⟨hqt q, hsn q⟩, fun q _ hf => absurd hf (by simp [fsent]),
      by rw [sumN_none]; simp [toSend, fcnt, h1, h2], fun q => rfl, by simp, fun q _ _ _ => hqt q⟩
  | bself i h1 h2 h3 =>
    exact ⟨hfm, fun q _ hf => ⟨.inl hf, hsn q⟩, fun q _ hf => absurd hf (by simp [fsent]),
      by rw [sumN_none]; simp [toSend, fcnt, h1], fun q => rfl, by simp, by simp⟩
  | bsend i h1 h2 h3 =>
    exact ⟨hfm, fun q _ hf => ⟨.inl hf, hso _ _ rfl q⟩, fun q _ hf => absurd hf (by simp [fsent]),
      by rw [sumN_sent (Nat.mod_lt _ (by omega))]; simp [toSend, fcnt, h1, isFreq], hfr _ _ rfl, by simp, by simp⟩
  | bsendEnd i h1 h2 =>
    exact ⟨hfm, fun q _ hf => ⟨.inl hf, hsn q⟩, fun q _ hf => absurd hf (by simp [fsent]),
      by rw [sumN_none]; simp [toSend, fcnt, h1], fun q => rfl, by simp, by simp⟩
  | bcoll h1 h2 =>
    exact ⟨hfm, fun q _ hf => ⟨.inl hf, hsn q⟩, fun q _ hf => absurd hf (by simp [fsent]),
      by rw [sumN_none]; simp [toSend, fcnt, h1], fun q => rfl, by simp, by simp⟩
  | brespYes kept q' rest h1 h2 h3 =>
    have : q' ∈ queue l := by simp [queue, h1, h2]
    exact ⟨hfm, fun q _ hf => ⟨.inl hf, hso _ _ rfl q⟩, fun q _ hf => absurd hf (by simp [fsent, h1]),
      by rw [sumN_sent (hi.que q' this).1]; simp [toSend, fcnt, h1, isFreq], hfr _ _ rfl, by simp, by simp⟩
  | brespKeep kept q' rest h1 h2 h3 =>
    exact ⟨hfm, fun q _ hf => ⟨.inl hf, hsn q⟩, fun q _ hf => absurd hf (by simp [fsent]),
      by rw [sumN_none]; simp [toSend, fcnt, h1], fun q => rfl, by simp, by simp⟩
  | brespEnd kept h1 h2 h3 =>
    exact ⟨hfm, fun q _ hf => ⟨.inl hf, hsn q⟩, fun q _ hf => absurd hf (by simp [fsent]),
      by rw [sumN_none]; simp [toSend, fcnt, h1], fun q => rfl, by simp, by simp⟩
  | brespAgain kept h1 h2 h3 =>
    exact ⟨hfm, fun q _ hf => ⟨.inl hf, hsn q⟩, fun q _ hf => absurd hf (by simp [fsent]),
      by rw [sumN_none]; simp [toSend, fcnt, h1], fun q => rfl, by simp, by simp⟩
  | bwaitEnd h1 h2 =>
    rw [h1] at hph
    exact ⟨hfm, fun q _ hf => ⟨.inl hf, hsn q⟩, fun q _ hf => absurd hf (by simp [fsent]),
      by rw [sumN_none]; simp [toSend, fcnt, h1], fun q => rfl, by simp, by simp [hph.1]⟩

/-- fence messages between `p` and `q` -/
def fmsg (s : State M R) (p q : Nat) : Nat :=
  (s.chan p q).countP isFreq + (s.chan q p).countP isFresp

structure FI (n : Nat) (prog : Nat → List (Op M R)) (s : State M R) : Prop where
  me : ∀ p, p < n → (s.loc p).flag p = false
  fl : ∀ p q, p < n → q < n → (s.loc p).flag q = false → ∀ m ∈ s.chan p q, isUpd m = false
  beh : ∀ p q, p < n → q < n → fsent (s.loc p) q → Behind (s.chan p q)
  sum : ∀ p, p < n → sumN (fmsg s p) n + toSend n (s.loc p) = fcnt (s.loc p)
  upk : ∀ p q, p < n → q < n → ∀ k f, .upd k f ∈ s.chan p q → k < (s.loc p).pc ∧
    ∀ j, k < j → j < (s.loc p).pc → (prog p)[j]? ≠ some (.fence q) ∧ (prog p)[j]? ≠ some .fenceAll

theorem FI.quiet {n : Nat} {prog : Nat → List (Op M R)} {s : State M R} (h : FI n prog s)
    {p q : Nat} (hp : p < n) (hq : q < n) (hqt : Quiet (s.loc p) q) :
    ∀ m ∈ s.chan p q, isUpd m = false := by
  rcases hqt with hf | ⟨hs, hz⟩
  · exact h.fl p q hp hq hf
  · have h1 := h.sum p hp
    have h2 := le_sumN (f := fmsg s p) hq
    have h3 : (s.chan p q).countP isFreq = 0 := by
      have : (s.chan p q).countP isFreq ≤ fmsg s p q := Nat.le_add_right _ _
      omega
    exact (h.beh p q hp hq hs).clean h3

theorem recv_fence {n src : Nat} {m : Msg M R} (l : Loc M R) (hf : isFresp m = true → 0 < fcnt l) :
    (recv src m l).1.flag = l.flag ∧ (∀ q, fsent (recv src m l).1 q = fsent l q) ∧
    toSend n (recv src m l).1 = toSend n l ∧
    fcnt (recv src m l).1 + (if isFresp m then 1 else 0) = fcnt l ∧
    (recv src m l).2.toList.countP isFreq = 0 ∧
    (recv src m l).2.toList.countP isFresp = (if isFreq m then 1 else 0) ∧
    (∀ a, (recv src m l).2 = some a → isUpd a = false) := by
  refine ⟨?_, fun q => ?_, ?_, ?_, ?_, ?_, ?_⟩
  · cases m <;> rfl
  · cases m <;> rfl
  · cases m <;> rfl
  · cases m <;> try (simp only [isFresp, Bool.false_eq_true, if_false, Nat.add_zero]; rfl)
    have := hf rfl
    cases hph : l.ph <;> simp [fcnt, hph] at this <;> simp [recv, fcnt, hph, isFresp] <;> omega
  · cases m <;> simp [recv, isFreq]
  · cases m <;> simp [recv, isFreq, isFresp]
  · cases m <;> simp [recv, isUpd]

theorem FI.step {n : Nat} {prog : Nat → List (Op M R)} {s s' : State M R} (hv : Valid n prog)
    (hg : GI n prog s) (h : FI n prog s) (hs : Step n prog s s') : FI n prog s' := by
  cases hs with
  | own p l o c hp ho hc =>
    obtain ⟨h1, h2, h3, h4, h5, h6, h7⟩ := own_fence ho hp (hg.li p hp) (hv p hp) (h.me p hp)
    have hpc := (own_pc ho).1
    refine ⟨fun a ha => ?_, fun a b ha hb hf m hm => ?_, fun a b ha hb hf => ?_, fun a ha => ?_, fun a b ha hb k f hm => ?_⟩
    · dsimp only
      by_cases e : a = p
      · subst e; rw [set1_same]; exact h1
      · rw [set1_ne _ _ e]; exact h.me a ha
    · dsimp only at hf hm
      rw [hc] at hm
      by_cases e : a = p
      · subst e
        rw [set1_same] at hf
        rw [if_pos rfl] at hm
        rcases List.mem_append.1 hm with hm | hm
        · exact h.quiet ha hb (h2 b hb hf).1 m hm
        · exact (h2 b hb hf).2 m hm
      · rw [set1_ne _ _ e] at hf
        rw [if_neg e] at hm
        exact h.fl a b ha hb hf m hm
    · dsimp only at hf ⊢
      rw [hc]
      by_cases e : a = p
      · subst e
        rw [set1_same] at hf
        rw [if_pos rfl]
        rcases h3 b hb hf with ⟨h8, h9⟩ | h8
        · exact (h.beh a b ha hb h8).append h9
        · rw [h8]; exact behind_freq _
      · rw [set1_ne _ _ e] at hf
        rw [if_neg e]
        exact h.beh a b ha hb hf
    · dsimp only
      by_cases e : a = p
      · subst e
        rw [set1_same]
        have h8 : ∀ b, b < n → fmsg ⟨set1 s.loc a l, c⟩ a b = fmsg s a b + (sent o b).countP isFreq := by
          intro b hb
          simp only [fmsg]
          rw [hc, hc, if_pos rfl, List.countP_append]
          by_cases e2 : b = a
          · subst e2
            rw [if_pos rfl, List.countP_append, h5]; omega
          · rw [if_neg e2]; omega
        rw [sumN_congr h8, sumN_add]
        have := h.sum a ha
        omega
      · rw [set1_ne _ _ e]
        have h8 : ∀ b, b < n → fmsg ⟨set1 s.loc p l, c⟩ a b = fmsg s a b := by
          intro b hb
          simp only [fmsg]
          rw [hc, hc, if_neg e]
          by_cases e2 : b = p
          · subst e2
            rw [if_pos rfl, List.countP_append, h5]; omega
          · rw [if_neg e2]
        rw [sumN_congr h8]
        exact h.sum a ha
    · dsimp only at hm ⊢
      rw [hc] at hm
      by_cases e : a = p
      · subst e
        rw [set1_same]
        rw [if_pos rfl] at hm
        rcases List.mem_append.1 hm with hm | hm
        · obtain ⟨h8, h9⟩ := h.upk a b ha hb k f hm
          rcases hpc with hpc | ⟨hpc, _⟩
          · rw [hpc]; exact ⟨h8, h9⟩
          · refine ⟨by omega, fun j hj hj2 => ?_⟩
            by_cases e2 : j = (s.loc a).pc
            · subst e2
              have hno : ¬ Quiet (s.loc a) b := by
                intro hqt
                have := h.quiet ha hb hqt _ hm
                simp [isUpd] at this
              exact ⟨fun x => hno (h7 b hb hpc (.inl x)), fun x => hno (h7 b hb hpc (.inr x))⟩
            · exact h9 j hj (by omega)
        · obtain ⟨h8, h9, _⟩ := h6 b k f (mem_sent hm)
          exact ⟨by omega, fun j hj hj2 => by omega⟩
      · rw [set1_ne _ _ e]
        rw [if_neg e] at hm
        exact h.upk a b ha hb k f hm
  | recv p q m rest c hp hq hpc hm hc =>
    have hmem : m ∈ s.chan q p := by rw [hm]; simp
    have hf0 : isFresp m = true → 0 < fcnt (s.loc p) := by
      intro e
      have h1 := h.sum p hp
      have h2 := le_sumN (f := fmsg s p) hq
      have h3 : 0 < (s.chan q p).countP isFresp := List.countP_pos_iff.2 ⟨m, hmem, e⟩
      have : (s.chan q p).countP isFresp ≤ fmsg s p q := Nat.le_add_left _ _
      omega
    obtain ⟨h1, h2, h3, h4, h5, h6, h7⟩ := recv_fence (n := n) (src := q) (m := m) (s.loc p) hf0
    have hpc' : (TwoSided.recv q m (s.loc p)).1.pc = (s.loc p).pc := by cases m <;> rfl
    have hpcs : ∀ a, (set1 s.loc p (TwoSided.recv q m (s.loc p)).1 a).pc = (s.loc a).pc := by
      intro a
      by_cases e : a = p
      · subst e; rw [set1_same]; exact hpc'
      · rw [set1_ne _ _ e]
    have hfl : ∀ a, (set1 s.loc p (TwoSided.recv q m (s.loc p)).1 a).flag = (s.loc a).flag := by
      intro a
      by_cases e : a = p
      · subst e; rw [set1_same]; exact h1
      · rw [set1_ne _ _ e]
    have hfs : ∀ a b, fsent (set1 s.loc p (TwoSided.recv q m (s.loc p)).1 a) b = fsent (s.loc a) b := by
      intro a b
      by_cases e : a = p
      · subst e; rw [set1_same]; exact h2 b
      · rw [set1_ne _ _ e]
    have hup : ∀ a b x, x ∈ c a b → isUpd x = true → x ∈ s.chan a b := by
      intro a b x hx hu
      rw [hc] at hx
      rcases List.mem_append.1 hx with hy | hy
      · clear hx
        split at hy
        · rename_i e; rw [e.1, e.2, hm]; exact List.mem_cons_of_mem _ hy
        · exact hy
      · clear hx
        split at hy
        · have := h7 x (by simpa using hy)
          rw [this] at hu; exact absurd hu (by simp)
        · exact absurd hy (by simp)
    refine ⟨fun a ha => ?_, fun a b ha hb hf x hx => ?_, fun a b ha hb hf => ?_, fun a ha => ?_, fun a b ha hb k f hx => ?_⟩
    · dsimp only; rw [hfl]; exact h.me a ha
    · dsimp only at hf hx
      rw [hfl] at hf
      cases hu : isUpd x
      · rfl
      · rw [← hu]; exact h.fl a b ha hb hf x (hup a b x hx hu)
    · dsimp only at hf ⊢
      rw [hfs] at hf
      rw [hc]
      have hb1 := h.beh a b ha hb hf
      refine Behind.append ?_ ?_
      · split
        · rename_i e; rw [e.1, e.2, hm] at hb1; exact hb1.2
        · exact hb1
      · intro x hx
        split at hx
        · exact h7 x (by simpa using hx)
        · exact absurd hx (by simp)
    · dsimp only
      -- a message of a process to itself is no fence message
      have hself : q = p → isFreq m = false ∧ isFresp m = false := by
        intro e
        subst e
        have := hg.self q hq m hmem
        cases m <;> simp [isRmw, isRmwResp] at this <;> simp [isFreq, isFresp]
      have ht : ∀ b, b < n → fmsg ⟨set1 s.loc p (TwoSided.recv q m (s.loc p)).1, c⟩ a b +
          (if b = q then (if a = p ∧ isFresp m = true then 1 else 0) else 0) = fmsg s a b := by
        intro b hb
        simp only [fmsg]
        have hz1 : (c a b).countP isFreq = (if a = q ∧ b = p then rest else s.chan a b).countP isFreq := by
          have hz : (if a = p ∧ b = q then (TwoSided.recv q m (s.loc p)).2.toList else []).countP isFreq = 0 := by
            split
            · exact h5
            · rfl
          rw [hc, List.countP_append, hz, Nat.add_zero]
        have hz2 : (c b a).countP isFresp = (if b = q ∧ a = p then rest else s.chan b a).countP isFresp +
            (if b = p ∧ a = q then (if isFreq m then 1 else 0) else 0) := by
          have hz : (if b = p ∧ a = q then (TwoSided.recv q m (s.loc p)).2.toList else []).countP isFresp = if b = p ∧ a = q then (if isFreq m then 1 else 0) else 0 := by
            split
            · exact h6
            · rfl
          rw [hc, List.countP_append, hz]
        rw [hz1, hz2]
        have hr1 : (rest.countP isFreq + if isFreq m = true then 1 else 0) = (s.chan q p).countP isFreq := by
          rw [hm, List.countP_cons]
        have hr2 : (rest.countP isFresp + if isFresp m = true then 1 else 0) = (s.chan q p).countP isFresp := by
          rw [hm, List.countP_cons]
        by_cases e1 : a = q ∧ b = p
        · obtain ⟨ea, eb⟩ := e1
          subst ea; subst eb
          by_cases e2 : a = b
          · subst e2
            obtain ⟨x1, x2⟩ := hself rfl
            simp [x1, x2] at hr1 hr2 ⊢
            omega
          · have e3 : ¬ b = a := fun x => e2 x.symm
            simp only [and_self, if_true, e3, e2, false_and, if_false]
            omega
        · rw [if_neg e1, if_neg (c := b = p ∧ a = q) (fun x => e1 ⟨x.2, x.1⟩)]
          by_cases e2 : b = q ∧ a = p
          · obtain ⟨ea, eb⟩ := e2
            subst ea; subst eb
            simp only [and_self, if_true, true_and]
            omega
          · rw [if_neg e2]
            by_cases e3 : b = q
            · have e4 : ¬ a = p := fun x => e2 ⟨e3, x⟩
              simp [e4]
            · simp [e3]
      have hsum := sumN_congr ht
      rw [sumN_add, sumN_one hq] at hsum
      have h8 := h.sum a ha
      by_cases e : a = p
      · subst e
        rw [set1_same, h3]
        simp only [true_and] at hsum
        omega
      · rw [set1_ne _ _ e]
        rw [if_neg (fun x => e x.1)] at hsum
        omega
    · dsimp only at hx ⊢
      rw [hpcs]
      exact h.upk a b ha hb k f (hup a b _ hx rfl)

end GA.TwoSided
