import Verif.Model.Distr
import Verif.Lemmas.Index

namespace GA
open Spec Model

/-! ## findblock -/

/-- what a correct block search returns -/
def BlockOf (map : List Int) (n : Nat) (e : Int) (b : Nat) : Prop :=
  b < n ∧ map.getD b 0 ≤ e ∧ (b + 1 < n → e < map.getD (b + 1) 0)

theorem findUp_spec {map : List Int} {n : Nat} {e : Int} {b : Nat} (k : Nat) (hb : b + 1 + k = n)
    (h : map.getD b 0 ≤ e) :
    ((findUp map e k b).2 = true → BlockOf map n e (findUp map e k b).1) ∧
    ((findUp map e k b).2 = false → BlockOf map n e (n - 1)) := by
  induction k generalizing b with
  | zero =>
    refine ⟨by simp [findUp], fun _ => ?_⟩
    have : n - 1 = b := by omega
    rw [this]
    exact ⟨by omega, h, fun h' => absurd h' (by omega)⟩
  | succ k ih =>
    simp only [findUp]
    split
    · rename_i hgt
      exact ⟨fun _ => ⟨by omega, h, fun _ => hgt⟩, by simp⟩
    · exact ih (by omega) (by omega)

theorem findDown_spec {map : List Int} {n : Nat} {e : Int} {c : Nat} (hc : c < n)
    (h : e < map.getD c 0) (h0 : map.getD 0 0 ≤ e) :
    (findDown map e c).2 = true ∧ BlockOf map n e (findDown map e c).1 := by
  induction c with
  | zero => omega
  | succ b ih =>
    simp only [findDown]
    split
    · rename_i hle
      exact ⟨rfl, by omega, hle, fun _ => h⟩
    · rename_i hnle
      exact ih (by omega) (by omega)

theorem findblock_spec {map : List Int} {n c : Nat} {e : Int} (hn : 0 < n) (hc : c ≤ n)
    (h0 : map.getD 0 0 ≤ e) : BlockOf map n e (findblock map n c e) := by
  unfold findblock
  have hc' : (if c = n then n - 1 else c) < n := by split <;> omega
  generalize (if c = n then n - 1 else c) = c' at hc'
  simp only
  split
  · rename_i h
    have := findUp_spec (n := n) (n - 1 - c') (by omega) h
    cases hf : (findUp map e (n - 1 - c') c').2
    · simpa using this.2 hf
    · simpa using this.1 hf
  · rename_i h
    have := findDown_spec hc' (by omega) h0
    rw [this.1]; simpa using this.2

theorem pairwise_getD {s : List Int} (h : s.Pairwise (· ≤ ·)) {i j : Nat} (hij : i ≤ j)
    (hj : j < s.length) : s.getD i 0 ≤ s.getD j 0 := by
  rcases Nat.lt_or_eq_of_le hij with hlt | rfl
  · have := List.pairwise_iff_getElem.1 h i j (by omega) hj hlt
    simpa [List.getD_eq_getElem?_getD, List.getElem?_eq_getElem, hj, (by omega : i < s.length)]
      using this
  · exact le_refl _

theorem getD_take {m : List Int} {n i : Nat} (h : i < n) : (m.take n).getD i 0 = m.getD i 0 := by
  simp [List.getD_eq_getElem?_getD, List.getElem?_take, h]

/-- the block containing an element is unique when the starts are monotone -/
theorem BlockOf.unique {d : Int} {map : List Int} {n : Nat} {e : Int} {b b' : Nat}
    (hok : AxisOK d (map.take n)) (hlen : n ≤ map.length)
    (h : BlockOf map n e b) (h' : BlockOf map n e b') : b = b' := by
  have hl : (map.take n).length = n := by simp [hlen]
  have mono : ∀ {i j : Nat}, i ≤ j → j < n → map.getD i 0 ≤ map.getD j 0 := by
    intro i j hij hj
    have := pairwise_getD hok.2.1 hij (by omega)
    rwa [getD_take (by omega), getD_take hj] at this
  obtain ⟨h1, h2, h3⟩ := h
  obtain ⟨h1', h2', h3'⟩ := h'
  rcases Nat.lt_trichotomy b b' with hlt | heq | hgt
  · have := mono (i := b + 1) (j := b') (by omega) h1'
    have := h3 (by omega)
    omega
  · exact heq
  · have := mono (i := b' + 1) (j := b) (by omega) h1
    have := h3' (by omega)
    omega

theorem Spec.AxisOK.start {d : Int} {m : List Int} {n : Nat} (hn : 0 < n) (h : AxisOK d (m.take n)) :
    m.getD 0 0 = 1 := by
  have := h.1
  cases m with
  | nil => simp at this
  | cons a as =>
    cases n with
    | zero => omega
    | succ n => simpa using this

/-- membership of an element in block `b` of one axis, in the form computed by `ga_ownsM` -/
theorem axis_mem_iff {d : Int} {m : List Int} {n b : Nat} {e : Int} (hb : b < n)
    (hlen : n ≤ m.length) (hok : AxisOK d (m.take n)) (hed : e ≤ d) :
    (m.getD b 0 ≤ e ∧ e ≤ (if b = n - 1 then d else m.getD (b + 1) 0 - 1)) ↔ BlockOf m n e b := by
  unfold BlockOf
  split
  · constructor
    · rintro ⟨h1, h2⟩; exact ⟨hb, h1, fun h => by omega⟩
    · rintro ⟨h1, h2, h3⟩; exact ⟨h2, hed⟩
  · constructor
    · rintro ⟨h1, h2⟩; exact ⟨hb, h1, fun h => by omega⟩
    · rintro ⟨h1, h2, h3⟩; exact ⟨h2, by have := h3 (by omega); omega⟩

/-- block bounds stay inside the axis -/
theorem axis_hi_le {d : Int} {m : List Int} {n b : Nat} (hb : b < n) (hlen : n ≤ m.length)
    (hok : AxisOK d (m.take n)) : (if b = n - 1 then d else m.getD (b + 1) 0 - 1) ≤ d := by
  split
  · exact le_refl _
  · have : m.getD (b + 1) 0 ∈ m.take n := by
      rw [← getD_take (n := n) (by omega)]
      rw [List.getD_eq_getElem?_getD, List.getElem?_eq_getElem (by simp; omega)]
      exact List.getElem_mem _
    have := hok.2.2 _ this
    omega

theorem axis_lo_ge {d : Int} {m : List Int} {n b : Nat} (hb : b < n) (hlen : n ≤ m.length)
    (hok : AxisOK d (m.take n)) : 1 ≤ m.getD b 0 := by
  have h0 := AxisOK.start (by omega : 0 < n) hok
  have hl : (m.take n).length = n := by simp [hlen]
  have := pairwise_getD hok.2.1 (i := 0) (j := b) (by omega) (by omega)
  rw [getD_take (by omega), getD_take hb] at this
  omega

/-! ## mixed radix digits -/

/-- grid coordinates of a block number -/
def digits : List Nat → Nat → List Nat
  | n :: ns, i => (i % n) :: digits ns (i / n)
  | [], _ => []

/-- block number of grid coordinates -/
def undigits : List Nat → List Nat → Nat
  | n :: ns, c :: cs => c + n * undigits ns cs
  | _, _ => 0

/-- coordinates inside the grid -/
def CoordOK : List Nat → List Nat → Prop
  | n :: ns, c :: cs => c < n ∧ CoordOK ns cs
  | [], [] => True
  | _, _ => False

theorem horner_cast (cs ns : List Nat) :
    horner (cs.map Int.ofNat) (ns.map Int.ofNat) = (undigits ns cs : Int) := by
  induction cs generalizing ns with
  | nil => cases ns <;> simp [horner, undigits]
  | cons c cs ih =>
    cases ns with
    | nil => simp [horner, undigits]
    | cons n ns => simp [horner, undigits, ih]

theorem digits_undigits {ns cs : List Nat} (h : CoordOK ns cs) : digits ns (undigits ns cs) = cs := by
  induction ns generalizing cs with
  | nil => cases cs <;> simp_all [digits, CoordOK]
  | cons n ns ih =>
    cases cs with
    | nil => simp [CoordOK] at h
    | cons c cs =>
      simp only [CoordOK] at h
      simp only [digits, undigits]
      rw [Nat.add_mul_mod_self_left, Nat.mod_eq_of_lt h.1, Nat.add_mul_div_left _ _ (by omega),
        Nat.div_eq_of_lt h.1, Nat.zero_add, ih h.2]

theorem undigits_lt {ns cs : List Nat} (h : CoordOK ns cs) : undigits ns cs < gridSize ns := by
  induction ns generalizing cs with
  | nil => cases cs <;> simp_all [undigits, CoordOK, gridSize]
  | cons n ns ih =>
    cases cs with
    | nil => simp [CoordOK] at h
    | cons c cs =>
      simp only [CoordOK] at h
      simp only [undigits, gridSize]
      have := ih h.2
      calc c + n * undigits ns cs < n * 1 + n * undigits ns cs := by omega
        _ = n * (undigits ns cs + 1) := by ring
        _ ≤ n * gridSize ns := Nat.mul_le_mul_left _ this

theorem undigits_digits {ns : List Nat} {i : Nat} (h : i < gridSize ns) :
    undigits ns (digits ns i) = i := by
  induction ns generalizing i with
  | nil => simp [gridSize] at h; simp [undigits, digits, h]
  | cons n ns ih =>
    simp only [gridSize] at h
    simp only [undigits, digits]
    rw [ih (Nat.div_lt_of_lt_mul h), Nat.mod_add_div]

theorem digits_ok {ns : List Nat} {i : Nat} (h : i < gridSize ns) : CoordOK ns (digits ns i) := by
  induction ns generalizing i with
  | nil => simp [digits, CoordOK]
  | cons n ns ih =>
    simp only [gridSize] at h
    simp only [digits, CoordOK]
    refine ⟨Nat.mod_lt _ ?_, ih (Nat.div_lt_of_lt_mul h)⟩
    rcases Nat.eq_zero_or_pos n with rfl | h'
    · simp at h
    · exact h'

/-! ## ownership by coordinates -/

def coordLo : List Nat → List Int → List Nat → List Int
  | n :: ns, m, c :: cs => m.getD c 0 :: coordLo ns (m.drop n) cs
  | _, _, _ => []

def coordHi : List Nat → List Int → List Int → List Nat → List Int
  | n :: ns, d :: ds, m, c :: cs =>
    (if c = n - 1 then d else m.getD (c + 1) 0 - 1) :: coordHi ns ds (m.drop n) cs
  | _, _, _, _ => []

theorem ownsLo_eq (ns : List Nat) (m : List Int) (i : Nat) :
    ownsLo ns m i = coordLo ns m (digits ns i) := by
  induction ns generalizing m i with
  | nil => simp [ownsLo, coordLo, digits]
  | cons n ns ih => simp [ownsLo, coordLo, digits, ih]

theorem ownsHi_eq (ns : List Nat) (ds m : List Int) (i : Nat) :
    ownsHi ns ds m i = coordHi ns ds m (digits ns i) := by
  induction ns generalizing ds m i with
  | nil => simp [ownsHi, coordHi, digits]
  | cons n ns ih => cases ds <;> simp [ownsHi, coordHi, digits, ih]

/-- candidate guesses in the range the code can produce -/
def CandOK : List Nat → List Nat → Prop
  | n :: ns, c :: cs => c ≤ n ∧ CandOK ns cs
  | [], [] => True
  | _, _ => False

theorem findblocks_ok {ns : List Nat} {ds m : List Int} {cs : List Nat} {x : List Int}
    (hm : MapOK ns ds m) (hc : CandOK ns cs) (hx : InArray ds x) :
    CoordOK ns (findblocks ns m cs x) ∧
      InPatch (coordLo ns m (findblocks ns m cs x)) (coordHi ns ds m (findblocks ns m cs x)) x := by
  induction ns generalizing ds m cs x with
  | nil =>
    cases ds with
    | nil => cases x <;> simp_all [findblocks, CoordOK, coordLo, coordHi, InArray, InPatch]
    | cons => simp [MapOK] at hm
  | cons n ns ih =>
    cases ds with
    | nil => simp [MapOK] at hm
    | cons d ds =>
      cases cs with
      | nil => simp [CandOK] at hc
      | cons c cs =>
        cases x with
        | nil => simp [InArray, InPatch] at hx
        | cons x xs =>
          simp only [MapOK] at hm
          simp only [CandOK] at hc
          have hx' : (1 ≤ x ∧ x ≤ d) ∧ InArray ds xs := hx
          obtain ⟨⟨hn, hlen, hd, hok⟩, hm⟩ := hm
          have hb : BlockOf m n x (findblock m n c x) :=
            findblock_spec hn hc.1 (by rw [AxisOK.start hn hok]; exact hx'.1.1)
          obtain ⟨i1, i2⟩ := ih hm hc.2 hx'.2
          simp only [findblocks, CoordOK, coordLo, coordHi, InPatch]
          exact ⟨⟨hb.1, i1⟩, (axis_mem_iff hb.1 hlen hok hx'.1.2).2 hb, i2⟩

theorem coord_unique {ns : List Nat} {ds m : List Int} {x : List Int} {b b' : List Nat}
    (hm : MapOK ns ds m) (hb : CoordOK ns b) (hb' : CoordOK ns b')
    (h : InPatch (coordLo ns m b) (coordHi ns ds m b) x)
    (h' : InPatch (coordLo ns m b') (coordHi ns ds m b') x) : b = b' := by
  induction ns generalizing ds m x b b' with
  | nil => cases b <;> cases b' <;> simp_all [CoordOK]
  | cons n ns ih =>
    cases ds with
    | nil => simp [MapOK] at hm
    | cons d ds =>
      cases b with
      | nil => simp [CoordOK] at hb
      | cons b bs =>
        cases b' with
        | nil => simp [CoordOK] at hb'
        | cons b' bs' =>
          cases x with
          | nil => simp [coordLo, coordHi, InPatch] at h
          | cons x xs =>
            simp only [MapOK] at hm
            simp only [CoordOK] at hb hb'
            simp only [coordLo, coordHi, InPatch] at h h'
            obtain ⟨⟨hn, hlen, hd, hok⟩, hm⟩ := hm
            have hxd : x ≤ d := le_trans h.1.2 (axis_hi_le hb.1 hlen hok)
            have e1 := (axis_mem_iff hb.1 hlen hok hxd).1 h.1
            have e2 := (axis_mem_iff hb'.1 hlen hok hxd).1 h'.1
            rw [BlockOf.unique hok hlen e1 e2, ih hm hb.2 hb'.2 h.2 h'.2]

/-- a block lies inside the array -/
theorem coord_inArray {ns : List Nat} {ds m : List Int} {x : List Int} {b : List Nat}
    (hm : MapOK ns ds m) (hb : CoordOK ns b)
    (h : InPatch (coordLo ns m b) (coordHi ns ds m b) x) : InArray ds x := by
  induction ns generalizing ds m x b with
  | nil =>
    cases ds with
    | nil =>
      cases x with
      | nil => simp [InArray, InPatch]
      | cons => simp [coordLo, coordHi, InPatch] at h
    | cons => simp [MapOK] at hm
  | cons n ns ih =>
    cases ds with
    | nil => simp [MapOK] at hm
    | cons d ds =>
      cases b with
      | nil => simp [CoordOK] at hb
      | cons b bs =>
        cases x with
        | nil => simp [coordLo, coordHi, InPatch] at h
        | cons x xs =>
          simp only [MapOK] at hm
          simp only [CoordOK] at hb
          simp only [coordLo, coordHi, InPatch] at h
          obtain ⟨⟨hn, hlen, hd, hok⟩, hm⟩ := hm
          have := axis_hi_le hb.1 hlen hok
          have := axis_lo_ge hb.1 hlen hok
          refine ⟨⟨?_, by omega⟩, ih hm hb.2 h.2⟩
          show (1 : Int) ≤ x
          omega

theorem subscriptOK_iff {ds x : List Int} (hl : x.length = ds.length) :
    subscriptOK ds x = true ↔ InArray ds x := by
  induction ds generalizing x with
  | nil => cases x <;> simp_all [subscriptOK, InArray, InPatch]
  | cons d ds ih =>
    cases x with
    | nil => simp at hl
    | cons x xs =>
      have := ih (x := xs) (by simpa using hl)
      unfold InArray at this ⊢
      simp only [subscriptOK, List.map_cons, InPatch, Bool.and_eq_true, decide_eq_true_eq, this]
      constructor
      · rintro ⟨h1, h2⟩; exact ⟨by omega, h2⟩
      · rintro ⟨h1, h2⟩; exact ⟨by omega, h2⟩

theorem Spec.InPatch.length {lo hi x : List Int} (h : InPatch lo hi x) :
    x.length = lo.length ∧ hi.length = lo.length := by
  induction lo generalizing hi x with
  | nil => cases hi <;> cases x <;> simp_all [InPatch]
  | cons l lo ih =>
    cases hi with
    | nil => simp [InPatch] at h
    | cons hh hi =>
      cases x with
      | nil => simp [InPatch] at h
      | cons x xs =>
        simp only [InPatch] at h
        have := ih h.2
        simp [this]

theorem Spec.InArray.length {ds x : List Int} (h : InArray ds x) : x.length = ds.length := by
  have := InPatch.length h
  simpa using this.1

end GA
