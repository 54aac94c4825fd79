import Verif.Lemmas.DraChunks

/-! # Lemmas: the decomposition of a section of a disk resident array -/

namespace GA.Dra
open GA.Spec GA.Model

def AxOK (a : Ax) : Prop := 1 ≤ a.c ∧ a.c ≤ a.d ∧ 1 ≤ a.l ∧ a.l ≤ a.h ∧ a.h ≤ a.d

/-- what a row of `cover`, `unaligned` has to satisfy in one dimension but the last -/
structure EntOK (a : Ax) (e : Ent) : Prop where
  al : (e.cl - 1) % a.c = 0
  pos : 1 ≤ e.cl
  le : e.cl ≤ e.ch
  led : e.ch ≤ a.d
  ah : e.ch % a.c = 0 ∨ e.ch = a.d
  iff : ∀ x, e.cl ≤ x → x ≤ e.ch → ((e.ul ≤ x ∧ x ≤ e.uh) ↔ (a.l ≤ x ∧ x ≤ a.h))
  ule : e.ul ≤ e.uh
  meet : ∀ b, (e.cl - 1) / a.c ≤ b → b ≤ (e.ch - 1) / a.c → max e.cl (b * a.c + 1) ≤ e.uh ∧ e.ul ≤ min e.ch (b * a.c + a.c)

def RowOK : List Ax → List Ent → Prop
  | [z], [e] => e = z.whole
  | a :: as, e :: es => EntOK a e ∧ RowOK as es
  | _, _ => False

/-- in the cover section -/
def InRow : List Ent → List Int → Prop
  | e :: es, x :: xs => (e.cl ≤ x ∧ x ≤ e.ch) ∧ InRow es xs
  | [], [] => True
  | _, _ => False

def InSec : List Ax → List Int → Prop
  | a :: as, x :: xs => (a.l ≤ x ∧ x ≤ a.h) ∧ InSec as xs
  | [], [] => True
  | _, _ => False

theorem low_facts {a : Ax} (h : AxOK a) : ∃ P, (a.l - 1) / a.c * a.c = P ∧ P + 1 ≤ a.l ∧ a.l ≤ P + a.c ∧ a.offLow = a.l - 1 - P ∧ 0 ≤ P := by
  obtain ⟨h1, h2, h3, h4, h5⟩ := h
  refine ⟨_, rfl, ?_⟩
  have k := (div_char (x := a.l) h1).1 rfl
  have : 0 ≤ (a.l - 1) / a.c * a.c := Int.mul_nonneg (Int.ediv_nonneg (by omega) (by omega)) (by omega)
  unfold Ax.offLow
  have e := divmod a.l a.c
  omega

theorem high_facts {a : Ax} (h : AxOK a) : ∃ Q, a.h / a.c * a.c = Q ∧ Q ≤ a.h ∧ a.h < Q + a.c ∧ a.offHi = a.h - Q ∧ 0 ≤ Q := by
  obtain ⟨h1, h2, h3, h4, h5⟩ := h
  refine ⟨_, rfl, ?_⟩
  have k := divd (d := a.h) h1
  have : 0 ≤ a.h / a.c * a.c := Int.mul_nonneg (Int.ediv_nonneg (by omega) (by omega)) (by omega)
  unfold Ax.offHi
  have e := Int.emod_add_mul_ediv a.h a.c
  have e2 : a.c * (a.h / a.c) = a.h / a.c * a.c := by ring
  omega

/-- different multiples -/
theorem mult_lt {p q c : Int} (hc : 1 ≤ c) (h : p * c < q * c) : p * c + c ≤ q * c := by
  apply mul_le_iff hc
  by_contra hcon
  have : q * c ≤ p * c := Int.mul_le_mul_of_nonneg_right (by omega) (by omega)
  omega

theorem full_eq {a : Ax} (h : AxOK a) : a.full = ⟨(a.l - 1) / a.c * a.c + 1, if a.offHi ≠ 0 then min ((a.h / a.c + 1) * a.c) a.d else a.h, a.l, a.h⟩ := by
  obtain ⟨P, e1, e2, e3, e4, e5⟩ := low_facts h
  unfold Ax.full
  congr 1
  split
  · rfl
  · omega

theorem emod_mul_add_one {p c : Int} : (p * c + 1 - 1) % c = 0 := by rw [Int.add_sub_cancel, Int.mul_emod_left]

theorem meet_of {c l h cl ch : Int} (hc : 1 ≤ c) (h2 : (cl - 1) / c = (l - 1) / c) (h3 : (ch - 1) / c = (h - 1) / c) (hlh : l ≤ h) (h5 : l ≤ ch) (h6 : cl ≤ h) :
    ∀ b, (cl - 1) / c ≤ b → b ≤ (ch - 1) / c → max cl (b * c + 1) ≤ h ∧ l ≤ min ch (b * c + c) := by
  intro b hb1 hb2
  rw [h2] at hb1
  rw [h3] at hb2
  have k1 := (div_char (x := l) hc).1 rfl
  have k2 := (div_char (x := h) hc).1 rfl
  have m1 : (l - 1) / c * c ≤ b * c := Int.mul_le_mul_of_nonneg_right hb1 (by omega)
  have m2 : b * c ≤ (h - 1) / c * c := Int.mul_le_mul_of_nonneg_right hb2 (by omega)
  omega

theorem full_ok {a : Ax} (h : AxOK a) : EntOK a a.full := by
  rw [full_eq h]
  obtain ⟨P, e1, e2, e3, e4, e5⟩ := low_facts h
  obtain ⟨Q, f1, f2, f3, f4, f5⟩ := high_facts h
  obtain ⟨h1, h2, h3, h4, h5⟩ := h
  have fe : (a.h / a.c + 1) * a.c = Q + a.c := by rw [← f1]; ring
  have hh : (a.offHi ≠ 0 ∧ (if a.offHi ≠ 0 then min ((a.h / a.c + 1) * a.c) a.d else a.h) = min (Q + a.c) a.d ∧ Q < a.h) ∨
      (a.offHi = 0 ∧ (if a.offHi ≠ 0 then min ((a.h / a.c + 1) * a.c) a.d else a.h) = a.h ∧ Q = a.h) := by
    by_cases hz : a.offHi ≠ 0
    · left; rw [if_pos hz, fe]; exact ⟨hz, rfl, by omega⟩
    · right; rw [if_neg hz]; exact ⟨by omega, rfl, by omega⟩
  generalize hM : (if a.offHi ≠ 0 then min ((a.h / a.c + 1) * a.c) a.d else a.h) = M at hh ⊢
  refine ⟨?_, ?_, ?_, ?_, ?_, ?_, ?_, ?_⟩ <;> dsimp only
  · exact emod_mul_add_one
  · omega
  · omega
  · omega
  · rcases hh with ⟨z1, z2, z3⟩ | ⟨z1, z2, z3⟩
    · rcases le_or_gt (Q + a.c) a.d with z4 | z4
      · left
        have : M = (a.h / a.c + 1) * a.c := by omega
        rw [this, Int.mul_emod_left]
      · right; omega
    · left
      rw [z2]; exact z1
  · intro x _ _; rfl
  · exact h4
  · apply meet_of h1 _ _ h4 (by omega) (by omega)
    · rw [Int.add_sub_cancel, Int.mul_ediv_cancel _ (by omega)]
    · rcases hh with ⟨z1, z2, z3⟩ | ⟨z1, z2, z3⟩
      · have k1 : (M - 1) / a.c = a.h / a.c := by rw [div_char h1]; omega
        have k2 : (a.h - 1) / a.c = a.h / a.c := by rw [div_char h1]; omega
        rw [k1, k2]
      · rw [z2]

theorem low_ok {a : Ax} (h : AxOK a) : EntOK a a.low := by
  unfold Ax.low
  obtain ⟨P, e1, e2, e3, e4, e5⟩ := low_facts h
  obtain ⟨h1, h2, h3, h4, h5⟩ := h
  refine ⟨?_, ?_, ?_, ?_, ?_, ?_, ?_, ?_⟩ <;> dsimp only
  · exact emod_mul_add_one
  · omega
  · omega
  · omega
  · rcases le_or_gt (P + a.c) a.d with z4 | z4
    · left
      have : min ((a.l - 1) / a.c * a.c + 1 + a.c - 1) a.d = ((a.l - 1) / a.c + 1) * a.c := by
        have : ((a.l - 1) / a.c + 1) * a.c = (a.l - 1) / a.c * a.c + a.c := by ring
        omega
      rw [this, Int.mul_emod_left]
    · right; omega
  · intro x _ _; omega
  · omega
  · apply meet_of h1 _ _ (by omega) (by omega) (by omega)
    · rw [Int.add_sub_cancel, Int.mul_ediv_cancel _ (by omega)]
    · have k1 : (min ((a.l - 1) / a.c * a.c + 1 + a.c - 1) a.d - 1) / a.c = (a.l - 1) / a.c := by rw [div_char h1]; omega
      have k2 : (min a.h (min ((a.l - 1) / a.c * a.c + 1 + a.c - 1) a.d) - 1) / a.c = (a.l - 1) / a.c := by rw [div_char h1]; omega
      rw [k1, k2]

theorem high_ok {a : Ax} (h : AxOK a) (ho : a.offHi ≠ 0) (hm : a.l ≤ a.h / a.c * a.c + 1) : EntOK a a.high := by
  unfold Ax.high
  obtain ⟨Q, f1, f2, f3, f4, f5⟩ := high_facts h
  obtain ⟨h1, h2, h3, h4, h5⟩ := h
  refine ⟨?_, ?_, ?_, ?_, ?_, ?_, ?_, ?_⟩ <;> dsimp only
  · exact emod_mul_add_one
  · omega
  · omega
  · omega
  · rcases le_or_gt (Q + a.c) a.d with z4 | z4
    · left
      have : min (a.h / a.c * a.c + 1 + a.c - 1) a.d = (a.h / a.c + 1) * a.c := by
        have : (a.h / a.c + 1) * a.c = a.h / a.c * a.c + a.c := by ring
        omega
      rw [this, Int.mul_emod_left]
    · right; omega
  · intro x _ _; omega
  · omega
  · apply meet_of h1 rfl _ (by omega) (by omega) (by omega)
    · have k1 : (min (a.h / a.c * a.c + 1 + a.c - 1) a.d - 1) / a.c = a.h / a.c := by rw [div_char h1]; omega
      have k2 : (min a.h (min (a.h / a.c * a.c + 1 + a.c - 1) a.d) - 1) / a.c = a.h / a.c := by rw [div_char h1]; omega
      rw [k1, k2]

theorem mid_facts {a : Ax} (h : AxOK a) : ∃ P Q, (a.l - 1) / a.c * a.c = P ∧ a.h / a.c * a.c = Q ∧ P + 1 ≤ a.l ∧ a.l ≤ P + a.c ∧ Q ≤ a.h ∧ a.h < Q + a.c ∧ 0 ≤ P ∧
    (a.offLow ≠ 0 ∧ a.mid.cl = P + a.c + 1 ∧ P + 1 < a.l ∨ a.offLow = 0 ∧ a.mid.cl = a.l ∧ P + 1 = a.l) ∧
    (a.offHi ≠ 0 ∧ a.mid.ch = Q ∧ Q < a.h ∨ a.offHi = 0 ∧ a.mid.ch = a.h ∧ Q = a.h) := by
  obtain ⟨P, e1, e2, e3, e4, e5⟩ := low_facts h
  obtain ⟨Q, f1, f2, f3, f4, f5⟩ := high_facts h
  refine ⟨P, Q, e1, f1, e2, e3, f2, f3, e5, ?_, ?_⟩
  · unfold Ax.mid
    dsimp only
    by_cases hz : a.offLow ≠ 0
    · left; rw [if_pos hz]
      have : ((a.l - 1) / a.c + 1) * a.c = P + a.c := by rw [← e1]; ring
      omega
    · right; rw [if_neg hz]; omega
  · unfold Ax.mid
    dsimp only
    by_cases hz : a.offHi ≠ 0
    · left; rw [if_pos hz]; omega
    · right; rw [if_neg hz]; omega

theorem mid_al {a : Ax} (h : AxOK a) : (a.mid.cl - 1) % a.c = 0 ∧ a.mid.ch % a.c = 0 := by
  unfold Ax.mid
  dsimp only
  constructor
  · split
    · exact emod_mul_add_one
    · rename_i hz; unfold Ax.offLow at hz; omega
  · split
    · exact Int.mul_emod_left _ _
    · rename_i hz; unfold Ax.offHi at hz; omega

theorem mid_ok {a : Ax} (h : AxOK a) (hm : a.mid.cl ≤ a.mid.ch) : EntOK a a.mid := by
  obtain ⟨P, Q, p1, q1, p2, p3, q2, q3, p4, c1, c2⟩ := mid_facts h
  obtain ⟨m1, m2⟩ := mid_al h
  obtain ⟨h1, h2, h3, h4, h5⟩ := h
  have e1 : a.mid.ul = a.l := rfl
  have e2 : a.mid.uh = a.h := rfl
  refine ⟨m1, by omega, hm, by omega, Or.inl m2, ?_, ?_, ?_⟩
  · intro x _ _; rw [e1, e2]
  · rw [e1, e2]; exact h4
  · intro b hb1 hb2
    have k1 := (div_char (x := a.mid.cl) h1).1 rfl
    have k2 := (div_char (x := a.mid.ch) h1).1 rfl
    have m1 : (a.mid.cl - 1) / a.c * a.c ≤ b * a.c := Int.mul_le_mul_of_nonneg_right hb1 (by omega)
    have m2 : b * a.c ≤ (a.mid.ch - 1) / a.c * a.c := Int.mul_le_mul_of_nonneg_right hb2 (by omega)
    rw [e1, e2]
    omega

/-- when there is an aligned section, the dimension is divided into lower end, middle and upper end -/
theorem split_dim {a : Ax} (h : AxOK a) (hm : a.mid.cl ≤ a.mid.ch) :
    (∀ x, a.l ≤ x → x ≤ a.h → (a.mid.cl ≤ x ∧ x ≤ a.mid.ch) ∨ (a.offLow ≠ 0 ∧ a.low.cl ≤ x ∧ x ≤ a.low.ch) ∨
      (a.offHi ≠ 0 ∧ a.high.cl ≤ x ∧ x ≤ a.high.ch)) ∧
    (a.offLow ≠ 0 → a.low.ch < a.mid.cl ∧ a.low.ch < a.h ∧ a.low.ch + 1 = a.mid.cl) ∧ (a.offHi ≠ 0 → a.mid.ch < a.high.cl ∧ a.mid.ch < a.h ∧
      a.l ≤ a.h / a.c * a.c + 1) := by
  obtain ⟨P, Q, p1, q1, p2, p3, q2, q3, p4, c1, c2⟩ := mid_facts h
  obtain ⟨h1, h2, h3, h4, h5⟩ := h
  have l1 : a.low.cl = P + 1 := by unfold Ax.low; dsimp only; omega
  have l2 : a.low.ch = min (P + a.c) a.d := by unfold Ax.low; dsimp only; congr 1; omega
  have g1 : a.high.cl = Q + 1 := by unfold Ax.high; dsimp only; omega
  have g2 : a.high.ch = min (Q + a.c) a.d := by unfold Ax.high; dsimp only; congr 1; omega
  rw [l1, l2, g1, g2, q1]
  refine ⟨fun x hx1 hx2 => ?_, fun hz => ?_, fun hz => ?_⟩
  · rcases c1 with ⟨u1, u2, u3⟩ | ⟨u1, u2, u3⟩ <;> rcases c2 with ⟨v1, v2, v3⟩ | ⟨v1, v2, v3⟩
    · by_cases z1 : x ≤ P + a.c
      · exact Or.inr (Or.inl ⟨u1, by omega, by omega⟩)
      · by_cases z2 : x ≤ Q
        · exact Or.inl (by omega)
        · exact Or.inr (Or.inr ⟨v1, by omega, by omega⟩)
    · by_cases z1 : x ≤ P + a.c
      · exact Or.inr (Or.inl ⟨u1, by omega, by omega⟩)
      · exact Or.inl (by omega)
    · by_cases z2 : x ≤ Q
      · exact Or.inl (by omega)
      · exact Or.inr (Or.inr ⟨v1, by omega, by omega⟩)
    · exact Or.inl (by omega)
  · omega
  · omega

/-! ## rows -/

/-- the sections around the aligned one -/
def clean (last : Ent) : List Ax → List (List Ent)
  | [] => []
  | a :: rest => (if a.offLow ≠ 0 then [a.low :: rest.map Ax.mid ++ [last]] else []) ++ (if a.offHi ≠ 0 then [a.high :: rest.map Ax.mid ++ [last]] else []) ++
      (clean last rest).map (a.full :: ·)

theorem getD_row (pre : List Ent) (e : Ent) (rest : List Ent) (j : Nat) : ((pre ++ e :: rest).getD (pre.length + j) default) = (e :: rest).getD j default := by
  rw [List.getD_eq_getElem?_getD, List.getD_eq_getElem?_getD, List.getElem?_append_right (by omega)]
  congr 2
  omega

theorem coverLoop_clean (last : Ent) (pre : List Ax) (prev : Nat → Int) (rest : List Ax) (hok : ∀ a ∈ rest, AxOK a) (hm : ∀ a ∈ rest, a.mid.cl ≤ a.mid.ch)
    (hp : ∀ j (h : j < rest.length), rest[j].offHi ≠ 0 → prev (pre.length + j) < rest[j].h) :
    coverLoop last pre prev rest = (clean last rest).map (pre.map Ax.full ++ ·) := by
  induction rest generalizing pre prev with
  | nil => simp [coverLoop, clean]
  | cons a rest ih =>
    have ha := hok a List.mem_cons_self
    have hma := hm a List.mem_cons_self
    obtain ⟨s1, s2, s3⟩ := split_dim ha hma
    have hrow : ∀ (e : Ent) (j : Nat) (h : j < rest.length), rest[j].offHi ≠ 0 →
        ((pre.map Ax.full ++ e :: rest.map Ax.mid ++ [last]).getD (pre.length + 1 + j) default).ch < rest[j].h := by
      intro e j hj ho
      have := getD_row (pre.map Ax.full) e (rest.map Ax.mid ++ [last]) (1 + j)
      rw [List.length_map] at this
      rw [List.append_assoc, List.cons_append, Nat.add_assoc, this]
      rw [Nat.add_comm 1 j, List.getD_cons_succ, List.getD_eq_getElem?_getD, List.getElem?_append_left (by simpa using hj)]
      rw [List.getElem?_map, List.getElem?_eq_getElem hj]
      simp only [Option.map_some, Option.getD_some]
      exact ((split_dim (hok _ (List.mem_cons_of_mem _ (List.getElem_mem hj))) (hm _ (List.mem_cons_of_mem _ (List.getElem_mem hj)))).2.2 ho).2.1
    have hlow0 : ((pre.map Ax.full ++ a.low :: rest.map Ax.mid ++ [last]).getD pre.length default).ch = a.low.ch := by
      have := getD_row (pre.map Ax.full) a.low (rest.map Ax.mid ++ [last]) 0
      rw [List.length_map, Nat.add_zero] at this
      rw [List.append_assoc, List.cons_append, this]
      rfl
    have hpa : a.offHi ≠ 0 → prev pre.length < a.h := by
      intro ho
      have := hp 0 (by simp) ho
      simpa using this
    have hprest : ∀ j (h : j < rest.length), rest[j].offHi ≠ 0 → prev (pre.length + 1 + j) < rest[j].h := by
      intro j hj ho
      have := hp (j + 1) (by simpa using hj) (by simpa using ho)
      rw [Nat.add_assoc, Nat.add_comm 1 j]
      simpa using this
    simp only [coverLoop, clean]
    have IH := fun prev h => ih (pre ++ [a]) prev (fun b hb => hok b (List.mem_cons_of_mem _ hb)) (fun b hb => hm b (List.mem_cons_of_mem _ hb)) h
    by_cases hz1 : a.offLow ≠ 0
    · rw [if_pos hz1]
      simp only
      by_cases hz2 : a.offHi ≠ 0
      · rw [if_pos ⟨hz2, fun hle => by
          have hle' : a.h ≤ ((pre.map Ax.full ++ a.low :: rest.map Ax.mid ++ [last]).getD pre.length default).ch := hle
          rw [hlow0] at hle'
          have := (s2 hz1).2.1; omega⟩, if_pos hz1, if_pos hz2]
        simp only
        rw [IH _ (fun j hj ho => by simpa using hrow a.high j hj ho)]
        simp [List.map_append]
      · rw [if_neg (fun h => hz2 h.1), if_pos hz1, if_neg hz2]
        simp only
        rw [IH _ (fun j hj ho => by simpa using hrow a.low j hj ho)]
        simp [List.map_append]
    · rw [if_neg hz1]
      simp only
      by_cases hz2 : a.offHi ≠ 0
      · rw [if_pos ⟨hz2, by have := hpa hz2; omega⟩, if_neg hz1, if_pos hz2]
        simp only
        rw [IH _ (fun j hj ho => by simpa using hrow a.high j hj ho)]
        simp [List.map_append]
      · rw [if_neg (fun h => hz2 h.1), if_neg hz1, if_neg hz2]
        simp only
        rw [IH _ (fun j hj ho => by simpa using hprest j hj ho)]
        simp [List.map_append]

def midRow (ini : List Ax) (z : Ax) : List Ent := ini.map Ax.mid ++ [z.whole]

theorem midRow_cons (a : Ax) (ini : List Ax) (z : Ax) : midRow (a :: ini) z = a.mid :: midRow ini z := rfl

theorem midRow_ne (ini : List Ax) (z : Ax) : midRow ini z ≠ [] := by simp [midRow]

theorem RowOK.cons {a : Ax} {as : List Ax} {e : Ent} {es : List Ent} (h : EntOK a e) (h2 : RowOK as es) : RowOK (a :: as) (e :: es) := by
  cases as with
  | nil => simp [RowOK] at h2
  | cons b as => exact ⟨h, h2⟩

theorem midRow_ok {ini : List Ax} {z : Ax} (hok : ∀ a ∈ ini, AxOK a) (hm : ∀ a ∈ ini, a.mid.cl ≤ a.mid.ch) : RowOK (ini ++ [z]) (midRow ini z) := by
  induction ini with
  | nil => simp [RowOK, midRow]
  | cons a ini ih =>
    rw [midRow_cons]
    exact RowOK.cons (mid_ok (hok a List.mem_cons_self) (hm a List.mem_cons_self))
      (ih (fun b hb => hok b (List.mem_cons_of_mem _ hb)) fun b hb => hm b (List.mem_cons_of_mem _ hb))

theorem fullRow_ok {ini : List Ax} {z : Ax} (hok : ∀ a ∈ ini, AxOK a) : RowOK (ini ++ [z]) (ini.map Ax.full ++ [z.whole]) := by
  induction ini with
  | nil => simp [RowOK]
  | cons a ini ih => exact RowOK.cons (full_ok (hok a List.mem_cons_self)) (ih fun b hb => hok b (List.mem_cons_of_mem _ hb))

theorem clean_cons (a : Ax) (ini : List Ax) (z : Ax) : clean z.whole (a :: ini) = (if a.offLow ≠ 0 then [a.low :: midRow ini z] else []) ++
    (if a.offHi ≠ 0 then [a.high :: midRow ini z] else []) ++ (clean z.whole ini).map (a.full :: ·) := rfl

theorem clean_ok {ini : List Ax} {z : Ax} (hok : ∀ a ∈ ini, AxOK a) (hm : ∀ a ∈ ini, a.mid.cl ≤ a.mid.ch) : ∀ r ∈ clean z.whole ini, RowOK (ini ++ [z]) r := by
  induction ini with
  | nil => simp [clean]
  | cons a ini ih =>
    have ha := hok a List.mem_cons_self
    have hma := hm a List.mem_cons_self
    have h2 : ∀ b ∈ ini, AxOK b := fun b hb => hok b (List.mem_cons_of_mem _ hb)
    have h3 : ∀ b ∈ ini, b.mid.cl ≤ b.mid.ch := fun b hb => hm b (List.mem_cons_of_mem _ hb)
    intro r hr
    rw [clean_cons] at hr
    rcases List.mem_append.1 hr with hr | hr
    · rcases List.mem_append.1 hr with hr | hr
      · split at hr
        · rw [List.mem_singleton] at hr; rw [hr]; exact RowOK.cons (low_ok ha) (midRow_ok h2 h3)
        · simp at hr
      · split at hr
        · rename_i hz
          rw [List.mem_singleton] at hr; rw [hr]; exact RowOK.cons (high_ok ha hz ((split_dim ha hma).2.2 hz).2.2) (midRow_ok h2 h3)
        · simp at hr
    · obtain ⟨r', hr', rfl⟩ := List.mem_map.1 hr
      exact RowOK.cons (full_ok ha) (ih h2 h3 r' hr')

theorem clean_cover {ini : List Ax} {z : Ax} (hok : ∀ a ∈ ini, AxOK a) (hm : ∀ a ∈ ini, a.mid.cl ≤ a.mid.ch) {x : List Int} (hx : InSec (ini ++ [z]) x) :
    InRow (midRow ini z) x ∨ ∃ r ∈ clean z.whole ini, InRow r x := by
  induction ini generalizing x with
  | nil =>
    left
    match x, hx with
    | x :: xs, hx =>
      cases xs with
      | nil => simpa [midRow, InRow, InSec, Ax.whole] using hx
      | cons _ _ => simp [InSec] at hx
  | cons a ini ih =>
    have ha := hok a List.mem_cons_self
    have hma := hm a List.mem_cons_self
    match x, hx with
    | x :: xs, hx =>
      simp only [List.cons_append, InSec] at hx
      rw [midRow_cons, clean_cons]
      rcases ih (fun b hb => hok b (List.mem_cons_of_mem _ hb)) (fun b hb => hm b (List.mem_cons_of_mem _ hb)) hx.2 with h | ⟨r, hr, h⟩
      · rcases (split_dim ha hma).1 x hx.1.1 hx.1.2 with h1 | ⟨h0, h1⟩ | ⟨h0, h1⟩
        · exact Or.inl ⟨h1, h⟩
        · exact Or.inr ⟨a.low :: midRow ini z, by simp [h0], h1, h⟩
        · exact Or.inr ⟨a.high :: midRow ini z, by simp [h0], h1, h⟩
      · refine Or.inr ⟨a.full :: r, by simp [hr], ?_, h⟩
        have := full_eq ha
        obtain ⟨P, e1, e2, e3, e4, e5⟩ := low_facts ha
        obtain ⟨Q, f1, f2, f3, f4, f5⟩ := high_facts ha
        rw [this]
        dsimp only
        refine ⟨by omega, ?_⟩
        obtain ⟨h1, h2, h3, h4, h5⟩ := ha
        split
        · have : (a.h / a.c + 1) * a.c = Q + a.c := by rw [← f1]; ring
          omega
        · exact hx.1.2

theorem clean_not_mid {ini : List Ax} {z : Ax} (hok : ∀ a ∈ ini, AxOK a) (hm : ∀ a ∈ ini, a.mid.cl ≤ a.mid.ch) {x : List Int} {r : List Ent}
    (hr : r ∈ clean z.whole ini) (hx : InRow r x) : ¬ InRow (midRow ini z) x := by
  induction ini generalizing x r with
  | nil => simp [clean] at hr
  | cons a ini ih =>
    have ha := hok a List.mem_cons_self
    have hma := hm a List.mem_cons_self
    rw [midRow_cons]
    rw [clean_cons] at hr
    cases x with
    | nil => simp [InRow]
    | cons x xs =>
      rintro ⟨m1, m2⟩
      rcases List.mem_append.1 hr with hr | hr
      · rcases List.mem_append.1 hr with hr | hr
        · split at hr
          · rename_i hz
            rw [List.mem_singleton] at hr; subst hr
            have := (split_dim ha hma).2.1 hz
            simp only [InRow] at hx
            omega
          · simp at hr
        · split at hr
          · rename_i hz
            rw [List.mem_singleton] at hr; subst hr
            have := (split_dim ha hma).2.2 hz
            simp only [InRow] at hx
            omega
          · simp at hr
      · obtain ⟨r', hr', rfl⟩ := List.mem_map.1 hr
        simp only [InRow] at hx
        exact ih (fun b hb => hok b (List.mem_cons_of_mem _ hb)) (fun b hb => hm b (List.mem_cons_of_mem _ hb)) hr' hx.2 m2

theorem clean_disjoint {ini : List Ax} {z : Ax} (hok : ∀ a ∈ ini, AxOK a) (hm : ∀ a ∈ ini, a.mid.cl ≤ a.mid.ch) :
    (clean z.whole ini).Pairwise fun r r' => ∀ x, InRow r x → ¬ InRow r' x := by
  induction ini with
  | nil => simp [clean]
  | cons a ini ih =>
    have ha := hok a List.mem_cons_self
    have hma := hm a List.mem_cons_self
    have h2 : ∀ b ∈ ini, AxOK b := fun b hb => hok b (List.mem_cons_of_mem _ hb)
    have h3 : ∀ b ∈ ini, b.mid.cl ≤ b.mid.ch := fun b hb => hm b (List.mem_cons_of_mem _ hb)
    have s := split_dim ha hma
    rw [clean_cons, List.pairwise_append, List.pairwise_append]
    refine ⟨⟨?_, ?_, ?_⟩, ?_, ?_⟩
    · split <;> simp
    · split <;> simp
    · intro r hr r' hr' x hx hx'
      split at hr
      · split at hr'
        · rename_i z1 z2
          rw [List.mem_singleton] at hr hr'; subst hr hr'
          cases x with
          | nil => simp [InRow] at hx
          | cons x xs =>
            simp only [InRow] at hx hx'
            have := s.2.1 z1; have := s.2.2 z2
            omega
        · simp at hr'
      · simp at hr
    · rw [List.pairwise_map]
      refine (ih h2 h3).imp fun {r r'} h x hx hx' => ?_
      cases x with
      | nil => simp [InRow] at hx
      | cons x xs => exact h xs hx.2 hx'.2
    · intro r hr r' hr' x hx hx'
      obtain ⟨r'', hr'', rfl⟩ := List.mem_map.1 hr'
      cases x with
      | nil => simp [InRow] at hx'
      | cons x xs =>
        have hm' : InRow (midRow ini z) xs := by
          rcases List.mem_append.1 hr with hr | hr
          · split at hr
            · rw [List.mem_singleton] at hr; subst hr; exact hx.2
            · simp at hr
          · split at hr
            · rw [List.mem_singleton] at hr; subst hr; exact hx.2
            · simp at hr
        exact clean_not_mid h2 h3 hr'' hx'.2 hm'

/-! ## from rows to sections -/

def shOf (ax : List Ax) : List (Int × Int) := ax.map fun a => (a.d, a.c)

theorem RowOK.inv {a : Ax} {b : Ax} {as : List Ax} {r : List Ent} (h : RowOK (a :: b :: as) r) : ∃ e es, r = e :: es ∧ EntOK a e ∧ RowOK (b :: as) es := by
  match r, h with
  | e :: es, h => exact ⟨e, es, rfl, h⟩

theorem RowOK.inv1 {z : Ax} {r : List Ent} (h : RowOK [z] r) : r = [z.whole] := by
  match r, h with
  | [e], h => simpa [RowOK] using h
  | e :: e' :: es, h => simp [RowOK] at h

theorem RowOK.coverOK {ax : List Ax} (hok : ∀ a ∈ ax, AxOK a) {r : List Ent} (h : RowOK ax r) : CoverOK (shOf ax) (r.map (·.cl)) (r.map (·.ch)) := by
  induction ax generalizing r with
  | nil => simp [RowOK] at h
  | cons a as ih =>
    cases as with
    | nil =>
      rw [h.inv1]
      have := hok a List.mem_cons_self
      simp only [shOf, List.map_cons, List.map_nil, CoverOK, Ax.whole]
      obtain ⟨h1, h2, h3, h4, h5⟩ := this
      exact ⟨h3, h4, h5⟩
    | cons b as =>
      obtain ⟨e, es, rfl, h1, h2⟩ := h.inv
      have := ih (fun b hb => hok b (List.mem_cons_of_mem _ hb)) h2
      simp only [shOf, List.map_cons, CoverOK] at this ⊢
      exact ⟨⟨h1.al, h1.pos, h1.le, h1.led, h1.ah⟩, this⟩

theorem inRow_iff {r : List Ent} {x : List Int} : InRow r x ↔ InPatch (r.map (·.cl)) (r.map (·.ch)) x := by
  induction r generalizing x with
  | nil => cases x <;> simp [InRow, InPatch]
  | cons e es ih => cases x <;> simp [InRow, InPatch, ih]

theorem RowOK.iff {ax : List Ax} {r : List Ent} (h : RowOK ax r) {x : List Int} (hx : InRow r x) :
    InPatch (r.map (·.ul)) (r.map (·.uh)) x ↔ InSec ax x := by
  induction ax generalizing r x with
  | nil => simp [RowOK] at h
  | cons a as ih =>
    cases as with
    | nil =>
      rw [h.inv1]
      cases x with
      | nil => simp [InPatch, InSec]
      | cons x xs => cases xs <;> simp [InPatch, InSec, Ax.whole]
    | cons b as =>
      obtain ⟨e, es, rfl, h1, h2⟩ := h.inv
      cases x with
      | nil => simp [InPatch, InSec]
      | cons x xs =>
        simp only [InRow] at hx
        have := ih h2 hx.2
        simp only [List.map_cons, InPatch, InSec]
        rw [this, h1.iff x hx.1.1 hx.1.2]

/-- in every block of the cover section there is something to transfer -/
theorem RowOK.inter {ax : List Ax} (hok : ∀ a ∈ ax, AxOK a) {r : List Ent} (h : RowOK ax r) {b : List Int}
    (hb : InPatch (blkOf (shOf ax) (r.map (·.cl))) (blkOf (shOf ax) (r.map (·.ch))) b) :
    sectInter (secLo (shOf ax) (r.map (·.cl)) b) (secHi (shOf ax) (r.map (·.ch)) b) (r.map (·.ul)) (r.map (·.uh)) =
      some (List.zipWith max (secLo (shOf ax) (r.map (·.cl)) b) (r.map (·.ul)), List.zipWith min (secHi (shOf ax) (r.map (·.ch)) b) (r.map (·.uh))) := by
  unfold sectInter
  rw [if_pos]
  simp only [Bool.and_eq_true]
  induction ax generalizing r b with
  | nil => simp [RowOK] at h
  | cons a as ih =>
    have ha := hok a List.mem_cons_self
    cases as with
    | nil =>
      rw [h.inv1] at hb ⊢
      match b, hb with
      | [b], hb =>
        simp only [shOf, List.map_cons, List.map_nil, blkOf, InPatch, Ax.whole] at hb
        obtain ⟨h1, h2, h3, h4, h5⟩ := ha
        have := meet_of h1 (l := a.l) (h := a.h) rfl rfl h4 h4 h4 b hb.1.1 hb.1.2
        simp only [shOf, List.map_cons, List.map_nil, secLo, secHi, Ax.whole, List.zip_cons_cons, List.zip_nil_right, List.all_cons, List.all_nil,
          Bool.and_true, decide_eq_true_eq]
        omega
    | cons b' as =>
      obtain ⟨e, es, rfl, h1, h2⟩ := h.inv
      match b, hb with
      | b :: bs, hb =>
        simp only [shOf, List.map_cons, blkOf, InPatch] at hb
        have ih := @ih (fun b hb => hok b (List.mem_cons_of_mem _ hb)) es h2 bs hb.2
        have m := h1.meet b hb.1.1 hb.1.2
        have hle := h1.le
        have hule := h1.ule
        have k1 := (div_char (x := e.cl) ha.1).1 rfl
        have k2 := (div_char (x := e.ch) ha.1).1 rfl
        have m1 : (e.cl - 1) / a.c * a.c ≤ b * a.c := Int.mul_le_mul_of_nonneg_right hb.1.1 (by have := ha.1; omega)
        have m2 : b * a.c ≤ (e.ch - 1) / a.c * a.c := Int.mul_le_mul_of_nonneg_right hb.1.2 (by have := ha.1; omega)
        have hc := ha.1
        have e6 : ∀ z zs y ys, secLo (shOf (a :: b' :: as)) (z :: zs) (y :: ys) = max z (y * a.c + 1) :: secLo (shOf (b' :: as)) zs ys := fun _ _ _ _ => rfl
        have e7 : ∀ z zs y ys, secHi (shOf (a :: b' :: as)) (z :: zs) (y :: ys) = min z (y * a.c + a.c) :: secHi (shOf (b' :: as)) zs ys := fun _ _ _ _ => rfl
        simp only [List.map_cons] at ih ⊢
        rw [e6, e7]
        simp only [List.zip_cons_cons, List.all_cons, Bool.and_eq_true, decide_eq_true_eq]
        obtain ⟨⟨⟨i1, i2⟩, i3⟩, i4⟩ := ih
        refine ⟨⟨⟨⟨by omega, i1⟩, by omega, i2⟩, by omega, i3⟩, by omega, i4⟩

theorem mem_inter {lo hi ulo uhi x : List Int} (h1 : hi.length = lo.length) (h2 : ulo.length = lo.length) (h3 : uhi.length = lo.length) :
    InPatch (List.zipWith max lo ulo) (List.zipWith min hi uhi) x ↔ InPatch lo hi x ∧ InPatch ulo uhi x := by
  induction lo generalizing hi ulo uhi x with
  | nil => cases hi <;> cases ulo <;> cases uhi <;> cases x <;> simp_all [InPatch]
  | cons l lo ih =>
    match hi, ulo, uhi, h1, h2, h3 with
    | h :: hi, u :: ulo, v :: uhi, h1, h2, h3 =>
      cases x with
      | nil => simp [InPatch]
      | cons x xs =>
        simp only [List.zipWith_cons_cons, InPatch]
        rw [ih (by simpa using h1) (by simpa using h2) (by simpa using h3)]
        constructor
        · rintro ⟨a, b, c⟩; exact ⟨⟨by omega, b⟩, by omega, c⟩
        · rintro ⟨⟨a, b⟩, c, d⟩; exact ⟨by omega, b, d⟩

theorem RowOK.length {ax : List Ax} {r : List Ent} (h : RowOK ax r) : r.length = ax.length := by
  induction ax generalizing r with
  | nil => simp [RowOK] at h
  | cons a as ih =>
    cases as with
    | nil => rw [h.inv1]; rfl
    | cons b as => obtain ⟨e, es, rfl, h1, h2⟩ := h.inv; simp [ih h2]

end GA.Dra
