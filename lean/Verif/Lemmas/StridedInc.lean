import Verif.Lemmas.Strided
import Verif.Model.StridedInc

namespace GA.Model.StridedInc
open Spec

variable {V : Type} {ss : List Int} {c0 : Nat} {cs : List Nat} {base : Int} {data : Nat → V}

/-- iterator at segment `k` -/
def itAt (ss : List Int) (c0 : Nat) (cs : List Nat) (k : Nat) : StrideIt := ⟨ss, c0, cs, prodNat cs, k, oDig cs k⟩

/-- the address of byte `t` of the message -/
def addrOf (ss : List Int) (c0 : Nat) (cs : List Nat) (base : Int) (t : Nat) : Int := base + strideSum ss (digits cs (t / c0)) + (t % c0 : Nat)

/-- memory with the first bytes stored -/
def place (ss : List Int) (c0 : Nat) (cs : List Nat) (base : Int) (data : Nat → V) (mem : Int → V) : Nat → Int → V
  | 0 => mem
  | t + 1 => upd (place ss c0 cs base data mem t) (addrOf ss c0 cs base t) (data t)

theorem next_at (hpos : ∀ c ∈ cs, 0 < c) {k : Nat} (hk : k < prodNat cs) : strideNext (itAt ss c0 cs k) = some (itAt ss c0 cs (k + 1)) := by
  unfold strideNext itAt
  simp only
  rw [if_pos hk]
  cases cs with
  | nil => simp [oDig]
  | cons c cs =>
    obtain ⟨a, as, h1, h2⟩ := strideCarry_step c cs hpos k hk
    rw [h1]
    simp [h2]

theorem more_at {k : Nat} : strideMore (itAt ss c0 cs k) = true ↔ k < prodNat cs := by simp only [strideMore, itAt]; exact decide_eq_true_iff

/-- writing within one segment -/
theorem write_place (mem : Int → V) {k o : Nat} (size : Nat) (h : o + size ≤ c0) (hk : k < prodNat cs) :
    writeSeg (place ss c0 cs base data mem (k * c0 + o)) (base + segOff (itAt ss c0 cs k).itr ss + o) (fun b => data (k * c0 + o + b)) size =
      place ss c0 cs base data mem (k * c0 + o + size) := by
  induction size with
  | zero => rfl
  | succ n ih =>
    have hc : 0 < c0 := by omega
    rw [writeSeg, ih (by omega), ← Nat.add_assoc, place]
    congr 1
    have h1 : (k * c0 + o + n) / c0 = k := by
      rw [Nat.add_assoc, Nat.mul_comm, Nat.mul_add_div hc, Nat.div_eq_of_lt (by omega), Nat.add_zero]
    have h2 : (k * c0 + o + n) % c0 = o + n := by
      rw [Nat.add_assoc, Nat.mul_comm, Nat.mul_add_mod, Nat.mod_eq_of_lt (by omega)]
    rw [addrOf, h1, h2, segOff_eq]
    simp only [itAt]
    rw [oDig_eq hk]
    push_cast
    omega

theorem loop_place (hpos : ∀ c ∈ cs, 0 < c) (hc : 0 < c0) (mem : Int → V) {usr bytes : Nat} {fuel : Nat} : ∀ {k off : Nat}, usr + off = k * c0 → off ≤ bytes →
    usr + bytes ≤ prodNat cs * c0 → bytes < off + fuel →
    incLoop base (fun b => data (usr + b)) bytes fuel (itAt ss c0 cs k) off (place ss c0 cs base data mem (usr + off)) =
      some (itAt ss c0 cs ((usr + bytes) / c0), place ss c0 cs base data mem (usr + bytes)) := by
  induction fuel with
  | zero => intro k off _ _ _ _; omega
  | succ fuel ih =>
    intro k off h1 h2 h3 h4
    rw [incLoop]
    by_cases hlt : bytes > off
    · rw [if_pos hlt]
      have hk : k < prodNat cs := by
        refine Nat.lt_of_mul_lt_mul_right (a := c0) ?_
        omega
      rw [if_pos (more_at.2 hk)]
      have hw := write_place (c0 := c0) (ss := ss) (base := base) (data := data) mem (k := k) (o := 0) (min c0 (bytes - off)) (by omega) hk
      simp only [Nat.add_zero, Nat.cast_zero, Int.add_zero] at hw
      rw [h1]
      have hd : (fun b => data (usr + (off + b))) = fun b => data (k * c0 + b) := by
        funext b
        rw [← h1, Nat.add_assoc]
      simp only [show (itAt ss c0 cs k).c0 = c0 from rfl, show (itAt ss c0 cs k).strides = ss from rfl, hd, hw]
      by_cases hs : min c0 (bytes - off) = c0
      · rw [if_pos hs, next_at hpos hk]
        dsimp only
        have := ih (k := k + 1) (off := off + c0) (by rw [Nat.succ_mul]; omega) (by omega) h3 (by omega)
        rw [← Nat.add_assoc, h1] at this
        rw [hs]
        exact this
      · rw [if_neg hs]
        dsimp only
        have e : min c0 (bytes - off) = bytes - off := by omega
        rw [e, ← h1, show off + (bytes - off) = bytes by omega, show usr + off + (bytes - off) = usr + bytes by omega]
        have hkk : (usr + bytes) / c0 = k := by
          rw [show usr + bytes = c0 * k + (bytes - off) by rw [Nat.mul_comm]; omega, Nat.mul_add_div hc, Nat.div_eq_of_lt (by omega), Nat.add_zero]
        rw [hkk]
        cases fuel with
        | zero => omega
        | succ f => rw [incLoop, if_neg (by omega)]
    · have : off = bytes := by omega
      subst this
      rw [if_neg hlt, h1, Nat.mul_div_cancel _ hc]

theorem inc_place (hpos : ∀ c ∈ cs, 0 < c) (hc : 0 < c0) (mem : Int → V) {usr bytes : Nat} (hb : 0 < bytes) (h : usr + bytes ≤ prodNat cs * c0) :
    readInc base (fun b => data (usr + b)) bytes (itAt ss c0 cs (usr / c0)) (usr % c0) (place ss c0 cs base data mem usr) =
      some (itAt ss c0 cs ((usr + bytes) / c0), (usr + bytes) % c0, place ss c0 cs base data mem (usr + bytes)) := by
  have hdm := Nat.div_add_mod usr c0
  have hml := Nat.mod_lt usr hc
  have hk : usr / c0 < prodNat cs := by
    rw [Nat.div_lt_iff_lt_mul hc]
    omega
  have hmod : (bytes + usr % c0) % c0 = (usr + bytes) % c0 := by rw [Nat.add_mod, Nat.mod_mod, ← Nat.add_mod, Nat.add_comm]
  rw [readInc, if_pos hb]
  by_cases hz : usr % c0 = 0
  · have hf : incFirst base (fun b => data (usr + b)) bytes (itAt ss c0 cs (usr / c0)) (usr % c0) (place ss c0 cs base data mem usr) =
        some (itAt ss c0 cs (usr / c0), 0, place ss c0 cs base data mem usr) := by
      rw [incFirst, if_neg (by simp [hz])]
    rw [hf, Option.bind_some]
    dsimp only
    have := loop_place (ss := ss) (base := base) (data := data) hpos hc mem (usr := usr) (bytes := bytes) (fuel := bytes + 1) (k := usr / c0) (off := 0)
      (by rw [Nat.mul_comm]; omega) (by omega) h (by omega)
    simp only [Nat.add_zero] at this
    rw [this]
    simp only [Option.map_some, show (itAt ss c0 cs (usr / c0)).c0 = c0 from rfl, hmod]
  · have hw := write_place (c0 := c0) (ss := ss) (base := base) (data := data) mem (k := usr / c0) (o := usr % c0) (min (c0 - usr % c0) bytes) (by omega) hk
    rw [show usr / c0 * c0 + usr % c0 = usr by rw [Nat.mul_comm]; exact hdm] at hw
    by_cases hs : usr % c0 + min (c0 - usr % c0) bytes = c0
    · have hf : incFirst base (fun b => data (usr + b)) bytes (itAt ss c0 cs (usr / c0)) (usr % c0) (place ss c0 cs base data mem usr) =
          some (itAt ss c0 cs (usr / c0 + 1), min (c0 - usr % c0) bytes, place ss c0 cs base data mem (usr + min (c0 - usr % c0) bytes)) := by
        rw [incFirst, if_pos hz, if_pos (more_at.2 hk)]
        simp only [show (itAt ss c0 cs (usr / c0)).c0 = c0 from rfl, show (itAt ss c0 cs (usr / c0)).strides = ss from rfl, hw]
        rw [if_pos hs, next_at hpos hk]
        rfl
      rw [hf, Option.bind_some]
      dsimp only
      rw [loop_place hpos hc mem (by rw [Nat.succ_mul, Nat.mul_comm]; omega) (by omega) h (by omega)]
      simp only [Option.map_some, show (itAt ss c0 cs (usr / c0)).c0 = c0 from rfl, hmod]
    · have hsz : min (c0 - usr % c0) bytes = bytes := by omega
      have hf : incFirst base (fun b => data (usr + b)) bytes (itAt ss c0 cs (usr / c0)) (usr % c0) (place ss c0 cs base data mem usr) =
          some (itAt ss c0 cs (usr / c0), bytes, place ss c0 cs base data mem (usr + bytes)) := by
        rw [incFirst, if_pos hz, if_pos (more_at.2 hk)]
        simp only [show (itAt ss c0 cs (usr / c0)).c0 = c0 from rfl, show (itAt ss c0 cs (usr / c0)).strides = ss from rfl, hw]
        rw [if_neg hs, hsz]
        rfl
      rw [hf, Option.bind_some]
      dsimp only
      rw [incLoop, if_neg (by omega)]
      have hkk : (usr + bytes) / c0 = usr / c0 := by
        rw [show usr + bytes = c0 * (usr / c0) + (usr % c0 + bytes) by omega, Nat.mul_add_div hc,
          Nat.div_eq_of_lt (show usr % c0 + bytes < c0 by omega), Nat.add_zero]
      simp only [Option.map_some, show (itAt ss c0 cs (usr / c0)).c0 = c0 from rfl, hmod, hkk]

theorem loop_receive (hpos : ∀ c ∈ cs, 0 < c) (hc : 0 < c0) (mem : Int → V) {ns : List Nat} : ∀ {usr : Nat}, usr < prodNat cs * c0 → (∀ n ∈ ns, 0 < n) →
    usr + ns.sum = prodNat cs * c0 →
    receiveLoop base data (prodNat cs * c0) ns usr (itAt ss c0 cs (usr / c0)) (usr % c0) (place ss c0 cs base data mem usr) =
      some (place ss c0 cs base data mem (prodNat cs * c0)) := by
  induction ns with
  | nil => intro usr h1 _ h2; simp only [List.sum_nil] at h2; omega
  | cons n ns ih =>
    intro usr h1 h2 h3
    rw [List.sum_cons] at h3
    rw [receiveLoop, inc_place hpos hc mem (h2 n (by simp)) (by omega)]
    dsimp only
    by_cases hlt : usr + n < prodNat cs * c0
    · rw [if_pos hlt]
      exact ih hlt (fun m hm => h2 m (by simp [hm])) (by omega)
    · rw [if_neg hlt, show usr + n = prodNat cs * c0 by omega]

/-! ## what is stored -/

theorem place_miss (mem : Int → V) {x : Int} {n : Nat} (h : ∀ t < n, addrOf ss c0 cs base t ≠ x) : place ss c0 cs base data mem n x = mem x := by
  induction n with
  | zero => rfl
  | succ n ih =>
    rw [place, upd, if_neg fun e => h n (by omega) e.symm]
    exact ih fun t ht => h t (by omega)

theorem addr_inj (hfit : StrideFit c0 ss cs) (hc : 0 < c0) {t u : Nat} (ht : t < prodNat cs * c0) (hu : u < prodNat cs * c0)
    (he : addrOf ss c0 cs base t = addrOf ss c0 cs base u) : t = u := by
  have h1 : t / c0 < gridSize cs := by rw [gridSize_eq, Nat.div_lt_iff_lt_mul hc]; exact ht
  have h2 : u / c0 < gridSize cs := by rw [gridSize_eq, Nat.div_lt_iff_lt_mul hc]; exact hu
  have m1 := Nat.mod_lt t hc
  have m2 := Nat.mod_lt u hc
  have hq : t / c0 = u / c0 := by
    by_contra hne
    have hd : digits cs (t / c0) ≠ digits cs (u / c0) := fun e => hne (by rw [← undigits_digits h1, ← undigits_digits h2, e])
    have := strideSum_sep (w := c0) (by omega) hfit ((idxOK_iff _ _).2 (digits_ok h1)) ((idxOK_iff _ _).2 (digits_ok h2)) hd
    unfold addrOf at he
    omega
  have hr : t % c0 = u % c0 := by
    unfold addrOf at he
    rw [hq] at he
    omega
  rw [← Nat.div_add_mod t c0, ← Nat.div_add_mod u c0, hq, hr]

theorem place_hit (hfit : StrideFit c0 ss cs) (hc : 0 < c0) (mem : Int → V) {n : Nat} (hn : n ≤ prodNat cs * c0) {t : Nat} (ht : t < n) :
    place ss c0 cs base data mem n (addrOf ss c0 cs base t) = data t := by
  induction n with
  | zero => omega
  | succ n ih =>
    rw [place, upd]
    by_cases he : t = n
    · rw [he, if_pos rfl]
    · rw [if_neg fun e => he (addr_inj hfit hc (by omega) (by omega) e)]
      exact ih (by omega) (by omega)

theorem addr_idx (hc : 0 < c0) {b : Nat} {is : List Nat} (hb : b < c0) (his : IdxOK cs is) :
    addrOf ss c0 cs base (packPos (c0 :: cs) (b :: is)) = base + strAddr ss (b :: is) ∧ packPos (c0 :: cs) (b :: is) < prodNat cs * c0 := by
  have h := (idxOK_iff _ _).1 his
  have hlt := undigits_lt h
  rw [gridSize_eq] at hlt
  have e1 : (b + c0 * undigits cs is) / c0 = undigits cs is := by rw [Nat.add_mul_div_left _ _ hc, Nat.div_eq_of_lt hb, Nat.zero_add]
  have e2 : (b + c0 * undigits cs is) % c0 = b := by rw [Nat.add_mul_mod_self_left, Nat.mod_eq_of_lt hb]
  constructor
  · simp only [addrOf, packPos, packPos_eq, e1, e2, digits_undigits h, strAddr]
    omega
  · simp only [packPos, packPos_eq]
    have := Nat.mul_le_mul_right c0 hlt
    rw [Nat.succ_mul, Nat.mul_comm] at this
    omega

theorem idx_addr (hc : 0 < c0) {t : Nat} (ht : t < prodNat cs * c0) : IdxOK (c0 :: cs) (t % c0 :: digits cs (t / c0)) ∧
    base + strAddr ss (t % c0 :: digits cs (t / c0)) = addrOf ss c0 cs base t ∧ packPos (c0 :: cs) (t % c0 :: digits cs (t / c0)) = t := by
  have h1 : t / c0 < gridSize cs := by rw [gridSize_eq, Nat.div_lt_iff_lt_mul hc]; exact ht
  refine ⟨⟨Nat.mod_lt t hc, (idxOK_iff _ _).2 (digits_ok h1)⟩, ?_, ?_⟩
  · simp only [addrOf, strAddr]
    omega
  · simp only [packPos, packPos_eq, undigits_digits h1]
    rw [Nat.add_comm]
    exact Nat.div_add_mod t c0

end GA.Model.StridedInc
