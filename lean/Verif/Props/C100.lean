import Verif.Lemmas.Stamp
import Verif.Props.C99

/-!
# C100: the pieces of an answer are noticed when they have arrived
-/

namespace GA
open Spec Model Model.StridedInc Model.Stamp

/-- What a look at the buffer can meet: bytes arrive in order, the last four at once, the acknowledgement after all of them. -/
def C100_seen (len a : Nat) (flag : Bool) : Prop := (a + 4 ≤ len ∨ a = len) ∧ (flag = true → a = len)

/-- lengths in whole words, a descriptor below 1024 bytes -/
def C100_words (len D : Nat) : Prop := 4 ≤ len ∧ 4 ∣ len ∧ 4 ∣ D ∧ D < 1024

private theorem no_overlap {len D : Nat} (hw : C100_words len D) (k : Nat) (h : D + 1024 + 1024 * (k : Int) < lastPos len D) :
    D + 1024 + 1024 * (k : Int) + 4 ≤ lastPos len D := by
  obtain ⟨h1, ⟨l, rfl⟩, ⟨d, rfl⟩, h2⟩ := hw
  unfold lastPos dataStart at *
  split at h <;> rename_i hc
  · rw [if_pos hc]
    omega
  · rw [if_neg hc]
    omega

/-- **C100, one look.** Whatever the data (they may contain the stamp), the old contents of the buffer and the moment: no assertion fails, and a look reports only
bytes that have arrived, and more than the last one did. -/
theorem C100_look {len D : Nat} (hw : C100_words len D) (m : Int → Nat) (data : Nat → Nat) {a : Nat} {flag : Bool} (hs : C100_seen len a flag) {done : Nat}
    (hg : Good len D done) (hd : done + 4 ≤ len) : look len D (arrived len D data a (stamped len D m)) flag done ≠ .fail ∧
    ∀ n, look len D (arrived len D data a (stamped len D m)) flag done = .report n → done < n ∧ n ≤ a ∧ (n = len ∨ Good len D n ∧ n + 4 ≤ len) := by
  have hstart : dataStart len D ≤ D := by unfold dataStart; split <;> omega
  have hlast : (lastPos len D : Int) = dataStart len D + (len : Int) - 4 := rfl
  obtain ⟨k, k1, k2, k3⟩ := next_ptr (len := len) hw.2.2.2 hg
  rw [look]
  by_cases hc : (isStamp (arrived len D data a (stamped len D m)) (lastPos len D) && !flag) = true
  · rw [if_pos hc]
    dsimp only
    rw [k1, if_neg (by omega), if_neg (by omega)]
    split
    · rename_i hp
      refine ⟨by simp, fun n hn => ?_⟩
      cases hn
      obtain ⟨hp1, hp2⟩ := hp
      have hna : ¬ (dataStart len D : Int) + a ≤ D + 1024 + 1024 * (k : Int) := by
        intro hle
        rcases Int.lt_or_eq_of_le hp1 with hlt | heq
        · rw [stamp_mid hlt hle] at hp2
          cases hp2
        · rw [heq, stamp_last (no_overlap hw) (by omega)] at hp2
          cases hp2
      refine ⟨by omega, by omega, .inr ⟨.inr ⟨k, by omega⟩, by omega⟩⟩
    · exact ⟨by simp, fun n hn => by cases hn⟩
  · rw [if_neg hc]
    refine ⟨by simp, fun n hn => ?_⟩
    cases hn
    refine ⟨by omega, ?_, .inl rfl⟩
    rcases hs.1 with h | h
    · exfalso
      rw [stamp_last (no_overlap hw) (by omega)] at hc
      cases hf : flag with
      | false => simp [hf] at hc
      | true => have := hs.2 hf; omega
    · omega

/-- **C100, what is taken.** The bytes a look reports are those of the answer: the buffer holds them, not stamps or old contents. -/
theorem C100_taken {len D : Nat} (hw : C100_words len D) (m : Int → Nat) (data : Nat → Nat) {a : Nat} {flag : Bool} (hs : C100_seen len a flag) {done : Nat}
    (hg : Good len D done) (hd : done + 4 ≤ len) {n : Nat} (hn : look len D (arrived len D data a (stamped len D m)) flag done = .report n) {t : Nat} (ht : t < n) :
    arrived len D data a (stamped len D m) (dataStart len D + (t : Int)) = data t := by
  have := ((C100_look hw m data hs hg hd).2 n hn).2.1
  rw [arrived, if_pos (by omega)]
  congr 1
  omega

/-- **C100, all looks.** For every sequence of looks the pieces are not empty; the loop ends only with the whole answer, and it does end at the latest
when the acknowledgement is seen. -/
theorem C100_pieces {len D : Nat} (hw : C100_words len D) (m : Int → Nat) (data : Nat → Nat) (looks : List (Nat × Bool)) (hs : ∀ o ∈ looks, C100_seen len o.1 o.2) :
    ∃ ps fin, pieces len D m data looks 0 = some (ps, fin) ∧ (∀ n ∈ ps, 0 < n) ∧ (fin = true → ps.sum = len) ∧ (fin = false → ps.sum < len) ∧
      ((∃ o ∈ looks, o.2 = true) → fin = true) := by
  have key : ∀ (looks : List (Nat × Bool)) (done : Nat), (∀ o ∈ looks, C100_seen len o.1 o.2) → Good len D done → done + 4 ≤ len →
      ∃ ps fin, pieces len D m data looks done = some (ps, fin) ∧ (∀ n ∈ ps, 0 < n) ∧ (fin = true → done + ps.sum = len) ∧ (fin = false → done + ps.sum < len) ∧
        ((∃ o ∈ looks, o.2 = true) → fin = true) := by
    intro looks
    induction looks with
    | nil => intro done _ _ hd; exact ⟨[], false, rfl, by simp, by simp, fun _ => by simp only [List.sum_nil]; omega, by simp⟩
    | cons o os ih =>
      intro done hs hg hd
      obtain ⟨a, flag⟩ := o
      have ho := hs (a, flag) (by simp)
      obtain ⟨h1, h2⟩ := C100_look hw m data ho hg hd
      rw [pieces]
      cases hl : look len D (arrived len D data a (stamped len D m)) flag done with
      | fail => exact absurd hl h1
      | again =>
        have hf : flag = false := by
          cases hf : flag with
          | false => rfl
          | true => simp [look, hf] at hl
        obtain ⟨ps, fin, e1, e2, e3, e4, e5⟩ := ih done (fun o ho => hs o (by simp [ho])) hg hd
        refine ⟨ps, fin, e1, e2, e3, e4, ?_⟩
        rintro ⟨o, ho, hot⟩
        rcases List.mem_cons.1 ho with rfl | ho
        · rw [hf] at hot
          cases hot
        · exact e5 ⟨o, ho, hot⟩
      | report n =>
        obtain ⟨n1, n2, n3⟩ := h2 n hl
        dsimp only
        by_cases hlt : n < len
        · rw [if_pos hlt]
          obtain ⟨n4, n5⟩ := n3.resolve_left (by omega)
          obtain ⟨ps, fin, e1, e2, e3, e4, e5⟩ := ih n (fun o ho => hs o (by simp [ho])) n4 n5
          rw [e1]
          refine ⟨(n - done) :: ps, fin, rfl, ?_, fun h => ?_, fun h => ?_, ?_⟩
          · intro x hx
            rcases List.mem_cons.1 hx with rfl | hx
            · omega
            · exact e2 x hx
          · have := e3 h
            rw [List.sum_cons]
            omega
          · have := e4 h
            rw [List.sum_cons]
            omega
          · rintro ⟨o, ho, hot⟩
            rcases List.mem_cons.1 ho with rfl | ho
            · have hot : flag = true := hot
              rw [look, hot] at hl
              simp only [Bool.not_true, Bool.and_false, Bool.false_eq_true, if_false, Look.report.injEq] at hl
              omega
            · exact e5 ⟨o, ho, hot⟩
        · rw [if_neg hlt]
          have hnl : n = len := by
            rcases n3 with h | ⟨-, h⟩ <;> omega
          refine ⟨[n - done], true, rfl, ?_, fun _ => ?_, by simp, by simp⟩
          · intro x hx
            rw [List.mem_singleton.1 hx]
            omega
          · simp only [List.sum_cons, List.sum_nil]
            omega
  obtain ⟨ps, fin, h⟩ := key looks 0 hs (.inl rfl) (by have := hw.1; omega)
  simp only [Nat.zero_add] at h
  exact ⟨ps, fin, h⟩

/-- **C100, the whole get.** Together with C99: once the acknowledgement is seen the region of the caller holds the answer as if it had been received as a whole. -/
theorem C100_get {D : Nat} (base : Int) (strides : List Int) (c0 : Nat) (counts : List Nat) (hl : strides.length = counts.length) (hc0 : 0 < c0)
    (hpos : ∀ c ∈ counts, 0 < c) (hfit : StrideFit c0 strides counts) (hw : C100_words (prodNat (c0 :: counts)) D) (m : Int → Nat) (data : Nat → Nat)
    (looks : List (Nat × Bool)) (hs : ∀ o ∈ looks, C100_seen (prodNat (c0 :: counts)) o.1 o.2) (hack : ∃ o ∈ looks, o.2 = true) (mem : Int → Nat) :
    ∃ ps, pieces (prodNat (c0 :: counts)) D m data looks 0 = some (ps, true) ∧
      receive base strides c0 counts data ps mem = readStrided data mem base strides c0 counts := by
  obtain ⟨ps, fin, h1, h2, h3, -, h5⟩ := C100_pieces hw m data looks hs
  have hf := h5 hack
  subst hf
  exact ⟨ps, h1, C99_whole base strides c0 counts hl hc0 hpos hfit data mem ps h2 (h3 rfl)⟩

/-- **C100, negation: lengths that are not whole words.** When the last stamp starts one to three bytes behind another one, it is damaged by that one before the request
is sent: the first look reports the whole answer although no byte has arrived. -/
theorem C100_damaged {len D : Nat} (m : Int → Nat) (data : Nat → Nat) {k : Nat}
    (h : D + 1024 + 1024 * (k : Int) < lastPos len D ∧ lastPos len D < D + 1024 + 1024 * (k : Int) + 4) :
    look len D (arrived len D data 0 (stamped len D m)) false 0 = .report len := by
  obtain ⟨r, hr, hr1, hr4⟩ : ∃ r : Nat, lastPos len D = D + 1024 + 1024 * (k : Int) + r ∧ 1 ≤ r ∧ r < 4 :=
    ⟨(lastPos len D - (D + 1024 + 1024 * (k : Int))).toNat, by omega, by omega, by omega⟩
  have hb : arrived len D data 0 (stamped len D m) (lastPos len D) = stampByte r := by
    rw [arrived, if_neg (by omega), stamped, lastSent_eq, ← fold_in (D := D) (store4 m (lastPos len D)) hr4 (num_iff.2 h.1), ← hr]
  have hne : isStamp (arrived len D data 0 (stamped len D m)) (lastPos len D) = false := by
    have : stampByte r ≠ stampByte 0 := by
      have : r = 1 ∨ r = 2 ∨ r = 3 := by omega
      rcases this with rfl | rfl | rfl <;> decide
    simp [isStamp, hb, this]
  simp [look, hne]

/-- **C100, negation: answers of less than four bytes.** The last stamp is written into the request header. -/
theorem C100_short {len D : Nat} (h : len < 4) (m : Int → Nat) : lastPos len D < 0 ∧ stamped len D m (lastPos len D) = 0x90 := by
  have hl : lastPos len D = (len : Int) - 4 := by
    unfold lastPos dataStart
    rw [if_pos (.inl h)]
    simp
  refine ⟨by omega, ?_⟩
  rw [stamped, lastSent_eq, fold_out _ (fun k _ => .inl (by omega)), store4, if_pos (by omega)]
  simp [stampByte]

/-! ## concrete cases -/

/-- an answer of 3000 bytes: looks before anything has arrived, in the middle of a word, with the acknowledgement -/
example : C100_words 3000 40 ∧ (∀ o ∈ [(0, false), (1066, false), (1066, false), (2996, false), (3000, true)], C100_seen 3000 o.1 o.2) := by
  refine ⟨by unfold C100_words; omega, ?_⟩
  intro o ho
  simp only [List.mem_cons, List.not_mem_nil, or_false] at ho
  rcases ho with rfl | rfl | rfl | rfl | rfl <;> simp [C100_seen]

example : pieces 3000 40 (fun _ => 7) (fun t => t % 251) [(0, false), (1066, false), (1066, false), (2996, false), (3000, true)] 0 = some ([1064, 1024, 912], true) := by
  decide +kernel

/-- the damaged stamp: descriptor of 40 bytes, answer of 1069 bytes -/
example : (40 : Int) + 1024 + 1024 * ((0 : Nat) : Int) < lastPos 1069 40 ∧ lastPos 1069 40 < (40 : Int) + 1024 + 1024 * ((0 : Nat) : Int) + 4 := by decide

end GA
