import Verif.Lemmas.StridedInc

/-!
# C99: a strided message may arrive in pieces of any size
-/

namespace GA
open Spec Model Model.StridedInc

variable {V : Type}

private theorem prod_pos {cs : List Nat} (hpos : ∀ c ∈ cs, 0 < c) : 0 < prodNat cs := by
  induction cs with
  | nil => simp [prodNat]
  | cons c cs ih => exact Nat.mul_pos (hpos c (by simp)) (ih fun x hx => hpos x (by simp [hx]))

private theorem init_eq {ss : List Int} {c0 : Nat} {cs : List Nat} (hl : ss.length = cs.length) (hpos : ∀ c ∈ cs, 0 < c) (hfit : StrideFit c0 ss cs) :
    strideInit ss c0 cs = some (itAt ss c0 cs 0) := by
  rw [strideInit, (strideAsserts_iff hl).2 hfit, n1dim_eq]
  simp [prod_pos hpos, itAt, oDig_zero]

/-- the state after some pieces -/
private theorem steps {ss : List Int} {c0 : Nat} {cs : List Nat} (base : Int) (hc0 : 0 < c0) (hpos : ∀ c ∈ cs, 0 < c) (data : Nat → V) (mem : Int → V) {pieces : List Nat}
    (hn : ∀ n ∈ pieces, 0 < n) (hsum : pieces.sum = prodNat cs * c0) :
    receiveLoop base data (prodNat cs * c0) pieces 0 (itAt ss c0 cs 0) 0 mem = some (place ss c0 cs base data mem (prodNat cs * c0)) := by
  have := loop_receive (ss := ss) (base := base) (data := data) hpos hc0 mem (ns := pieces) (usr := 0) (Nat.mul_pos (prod_pos hpos) hc0) hn (by omega)
  rw [Nat.zero_div, Nat.zero_mod] at this
  exact this

/-- **C99.** For every strided region and every way to cut the message into pieces that are not empty, whether or not they end at the ends of segments, no
assertion fails and in the end every element of the region holds its byte of the message; nothing else is written. -/
theorem C99_pieces (base : Int) (strides : List Int) (c0 : Nat) (counts : List Nat) (hl : strides.length = counts.length) (hc0 : 0 < c0) (hpos : ∀ c ∈ counts, 0 < c)
    (hfit : StrideFit c0 strides counts) (data : Nat → V) (mem : Int → V) (pieces : List Nat) (hn : ∀ n ∈ pieces, 0 < n) (hsum : pieces.sum = prodNat (c0 :: counts)) :
    ∃ mem', receive base strides c0 counts data pieces mem = some mem' ∧
      (∀ idx, IdxOK (c0 :: counts) idx → mem' (base + strAddr strides idx) = data (packPos (c0 :: counts) idx)) ∧
      (∀ x, (∀ idx, IdxOK (c0 :: counts) idx → base + strAddr strides idx ≠ x) → mem' x = mem x) := by
  rw [prodNat, Nat.mul_comm] at hsum
  refine ⟨place strides c0 counts base data mem (prodNat counts * c0), ?_, ?_, ?_⟩
  · rw [receive, init_eq hl hpos hfit, Option.bind_some, n1dim_eq]
    exact steps base hc0 hpos data mem hn hsum
  · intro idx hidx
    cases idx with
    | nil => simp [IdxOK] at hidx
    | cons b is =>
      obtain ⟨h1, h2⟩ := addr_idx (ss := strides) (base := base) hc0 hidx.1 hidx.2
      rw [← h1]
      exact place_hit hfit hc0 mem (Nat.le_refl _) h2
  · intro x hx
    refine place_miss mem fun t ht => ?_
    obtain ⟨h1, h2, -⟩ := idx_addr (ss := strides) (base := base) hc0 ht
    rw [← h2]
    exact hx _ h1

/-- **C99, same result.** Cutting a message differently, or receiving it as a whole, makes no difference. -/
theorem C99_whole (base : Int) (strides : List Int) (c0 : Nat) (counts : List Nat) (hl : strides.length = counts.length) (hc0 : 0 < c0) (hpos : ∀ c ∈ counts, 0 < c)
    (hfit : StrideFit c0 strides counts) (data : Nat → V) (mem : Int → V) (pieces : List Nat) (hn : ∀ n ∈ pieces, 0 < n) (hsum : pieces.sum = prodNat (c0 :: counts)) :
    receive base strides c0 counts data pieces mem = readStrided data mem base strides c0 counts := by
  obtain ⟨mem', h1, h2, h3⟩ := C99_pieces base strides c0 counts hl hc0 hpos hfit data mem pieces hn hsum
  obtain ⟨u1, u2⟩ := unpack_spec data mem base c0 hl hfit
  rw [h1, readStrided, stridedSegs_eq hl hc0 hpos hfit, Option.map_some]
  congr 1
  funext x
  change mem' x = unpack data mem base strides c0 counts x
  by_cases hx : ∃ idx, IdxOK (c0 :: counts) idx ∧ base + strAddr strides idx = x
  · obtain ⟨idx, hi, rfl⟩ := hx
    rw [h2 idx hi, u1 idx hi]
  · have hx' : ∀ idx, IdxOK (c0 :: counts) idx → base + strAddr strides idx ≠ x := fun idx hi he => hx ⟨idx, hi, he⟩
    rw [h3 x hx', u2 x hx']

/-- **C99, one piece.** After every piece the bytes that have arrived are in place and the others untouched: a call at `usr` bytes goes on where the last one stopped. -/
theorem C99_piece (base : Int) (strides : List Int) (c0 : Nat) (counts : List Nat) (hl : strides.length = counts.length) (hc0 : 0 < c0) (hpos : ∀ c ∈ counts, 0 < c)
    (hfit : StrideFit c0 strides counts) (data : Nat → V) (mem : Int → V) (pieces : List Nat) (hn : ∀ n ∈ pieces, 0 < n) (hsum : pieces.sum ≤ prodNat (c0 :: counts)) :
    ∃ it so mem', (strideInit strides c0 counts).bind (fun it => pieces.foldlM (fun (x : Nat × StrideIt × Nat × (Int → V)) n =>
        (readInc base (fun b => data (x.1 + b)) n x.2.1 x.2.2.1 x.2.2.2).map fun y => (x.1 + n, y)) (0, it, 0, mem)) = some (pieces.sum, it, so, mem') ∧
      (∀ idx, IdxOK (c0 :: counts) idx → mem' (base + strAddr strides idx) =
        if packPos (c0 :: counts) idx < pieces.sum then data (packPos (c0 :: counts) idx) else mem (base + strAddr strides idx)) ∧
      (∀ x, (∀ idx, IdxOK (c0 :: counts) idx → base + strAddr strides idx ≠ x) → mem' x = mem x) := by
  rw [prodNat, Nat.mul_comm] at hsum
  have key : ∀ (ns : List Nat) (usr : Nat), (∀ n ∈ ns, 0 < n) → usr + ns.sum ≤ prodNat counts * c0 →
      ns.foldlM (fun (x : Nat × StrideIt × Nat × (Int → V)) n =>
        (readInc base (fun b => data (x.1 + b)) n x.2.1 x.2.2.1 x.2.2.2).map fun y => (x.1 + n, y))
        (usr, itAt strides c0 counts (usr / c0), usr % c0, place strides c0 counts base data mem usr) =
      some (usr + ns.sum, itAt strides c0 counts ((usr + ns.sum) / c0), (usr + ns.sum) % c0, place strides c0 counts base data mem (usr + ns.sum)) := by
    intro ns
    induction ns with
    | nil => intro usr _ _; simp
    | cons n ns ih =>
      intro usr h1 h2
      rw [List.sum_cons] at h2
      rw [List.foldlM_cons]
      dsimp only
      rw [inc_place hpos hc0 mem (h1 n (by simp)) (by omega)]
      have := ih (usr + n) (fun m hm => h1 m (by simp [hm])) (by omega)
      rw [List.sum_cons, ← Nat.add_assoc]
      exact this
  have h0 := key pieces 0 hn (by omega)
  simp only [Nat.zero_div, Nat.zero_mod, Nat.zero_add] at h0
  refine ⟨itAt strides c0 counts (pieces.sum / c0), pieces.sum % c0, place strides c0 counts base data mem pieces.sum, ?_, ?_, ?_⟩
  · rw [init_eq hl hpos hfit, Option.bind_some]
    exact h0
  · intro idx hidx
    cases idx with
    | nil => simp [IdxOK] at hidx
    | cons b is =>
      obtain ⟨h1, h2⟩ := addr_idx (ss := strides) (base := base) hc0 hidx.1 hidx.2
      rw [← h1]
      split
      · rename_i hlt
        exact place_hit hfit hc0 mem hsum hlt
      · rename_i hge
        refine place_miss mem fun t ht he => ?_
        have := addr_inj hfit hc0 (by omega) h2 he
        omega
  · intro x hx
    refine place_miss mem fun t ht => ?_
    obtain ⟨h1, h2, -⟩ := idx_addr (ss := strides) (base := base) hc0 (Nat.lt_of_lt_of_le ht hsum)
    rw [← h2]
    exact hx _ h1

/-- An empty piece stops the program. -/
theorem C99_empty_piece (base : Int) (buf : Nat → V) (it : StrideIt) (so : Nat) (mem : Int → V) : readInc base buf 0 it so mem = none := by
  simp [readInc]

/-! ## concrete cases -/

/-- segments of 3 bytes, 2 x 2 of them, in pieces of 2, 5, 1 and 4 bytes -/
example : StrideFit 3 [4, 10] [2, 2] ∧ prodNat [3, 2, 2] = 12 ∧ ([2, 5, 1, 4] : List Nat).sum = 12 ∧
    (receive 100 [4, 10] 3 [2, 2] (fun t => t + 1) [2, 5, 1, 4] (fun _ => 0)).map (fun m => (List.range 19).map fun (x : Nat) => m (99 + x)) =
      some [0, 1, 2, 3, 0, 4, 5, 6, 0, 0, 0, 7, 8, 9, 0, 10, 11, 12, 0] := by decide +kernel

end GA
