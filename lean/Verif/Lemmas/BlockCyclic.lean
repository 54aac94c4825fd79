import Verif.Model.BlockCyclic
import Verif.Lemmas.OneSided
import Mathlib.Tactic.Linarith

/-! # Lemmas: blocks of block-cyclic arrays -/

namespace GA
open Spec Model

theorem splitIdx_eq (ns : List Nat) (t : Nat) : splitIdx ns t = digits ns t := by
  induction ns generalizing t with
  | nil => rfl
  | cons n ns ih => simp only [splitIdx, digits, ← Nat.div_eq_sub_mod_div, ih]

theorem joinIdx_eq (ns idx : List Nat) : joinIdx ns idx = undigits ns idx := by
  induction ns generalizing idx with
  | nil => cases idx <;> rfl
  | cons n ns ih =>
    cases idx with
    | nil => rfl
    | cons i is => simp only [joinIdx, undigits, ih]; ring

/-- componentwise remainder -/
def modL : (grid idx : List Nat) → List Nat
  | g :: gs, i :: is => (i % g) :: modL gs is
  | _, _ => []

theorem procOfIdx_eq (gs idx : List Nat) : procOfIdx gs idx = undigits gs (modL gs idx) := by
  induction gs generalizing idx with
  | nil => cases idx <;> rfl
  | cons n ns ih =>
    cases idx with
    | nil => rfl
    | cons i is => simp only [procOfIdx, undigits, modL, ih]; ring

theorem modL_ok {gs idx : List Nat} (hl : idx.length = gs.length) (hg : ∀ g ∈ gs, 0 < g) :
    CoordOK gs (modL gs idx) := by
  induction gs generalizing idx with
  | nil => cases idx <;> simp_all [modL, CoordOK]
  | cons g gs ih =>
    cases idx with
    | nil => simp at hl
    | cons i is =>
      exact ⟨Nat.mod_lt _ (hg g (by simp)), ih (by simpa using hl) fun g' h' => hg g' (by simp [h'])⟩

/-! ## uniform blocks as a map -/

/-- block starts of uniform blocks -/
def unifStarts : (bd : List Int) → (ns : List Nat) → List Int
  | b :: bs, n :: ns => ((List.range n).map fun i : Nat => (i : Int) * b + 1) ++ unifStarts bs ns
  | _, _ => []

/-- the distribution map of a block-cyclic array -/
def starts (A : BArray) : List Int :=
  if A.kind = .tiledIrreg then A.mapc else unifStarts A.bdims A.nblocks

theorem numBlk_spec {d b : Int} (hd : 1 ≤ d) (hb : 1 ≤ b) :
    1 ≤ numBlk d b ∧ ((numBlk d b : Int) - 1) * b < d ∧ d ≤ (numBlk d b : Int) * b := by
  have h1 := Int.emod_add_mul_ediv d b
  have h2 := Int.emod_nonneg d (by omega : b ≠ 0)
  have h3 := Int.emod_lt_of_pos d (by omega : 0 < b)
  have h0 : 0 ≤ d / b := Int.ediv_nonneg (by omega) (by omega)
  unfold numBlk
  split
  · rename_i hne
    have e : ((d / b + 1).toNat : Int) = d / b + 1 := Int.toNat_of_nonneg (by omega)
    refine ⟨by omega, ?_, ?_⟩
    · rw [e]
      have : 1 ≤ d % b := by omega
      nlinarith
    · rw [e]; nlinarith
  · rename_i he
    have he : d % b = 0 := by omega
    have e : ((d / b).toNat : Int) = d / b := Int.toNat_of_nonneg h0
    have hpos : 1 ≤ d / b := by
      by_contra hc
      have : d / b = 0 := by omega
      rw [this, he] at h1
      omega
    refine ⟨by omega, ?_, ?_⟩
    · rw [e]; nlinarith
    · rw [e]; nlinarith

theorem range_map_append_getD {n i : Nat} (f : Nat → Int) (r : List Int) (h : i < n) :
    ((List.range n).map f ++ r).getD i 0 = f i := by
  rw [List.getD_eq_getElem?_getD, List.getElem?_append_left (by simpa using h)]
  simp [h]

/-- dimensions and block dimensions are positive and the block counts fit -/
def UnifOK : (dims bd : List Int) → (ns : List Nat) → Prop
  | d :: ds, b :: bs, n :: ns => (1 ≤ d ∧ 1 ≤ b ∧ n = numBlk d b) ∧ UnifOK ds bs ns
  | [], [], [] => True
  | _, _, _ => False

theorem unifOK_of {dims bd : List Int} (hl : bd.length = dims.length) (hd : ∀ d ∈ dims, 1 ≤ d)
    (hb : ∀ b ∈ bd, 1 ≤ b) : UnifOK dims bd (numBlks dims bd) := by
  induction dims generalizing bd with
  | nil => cases bd <;> simp_all [UnifOK, numBlks]
  | cons d ds ih =>
    cases bd with
    | nil => simp at hl
    | cons b bs =>
      exact ⟨⟨hd d (by simp), hb b (by simp), rfl⟩, ih (by simpa using hl)
        (fun x h => hd x (by simp [h])) (fun x h => hb x (by simp [h]))⟩

theorem unif_mapOK {dims bd : List Int} {ns : List Nat} (h : UnifOK dims bd ns) :
    MapOK ns dims (unifStarts bd ns) := by
  induction dims generalizing bd ns with
  | nil => cases bd <;> cases ns <;> simp_all [UnifOK, MapOK]
  | cons d ds ih =>
    match bd, ns, h with
    | b :: bs, n :: ns, h =>
      obtain ⟨⟨h1, h2, h3⟩, h4⟩ := h
      obtain ⟨n1, n2, n3⟩ := numBlk_spec h1 h2
      rw [← h3] at n1 n2 n3
      have ht : (unifStarts (b :: bs) (n :: ns)).take n =
          (List.range n).map fun i : Nat => (i : Int) * b + 1 := by
        simp only [unifStarts]
        rw [List.take_append_of_le_length (by simp)]
        exact List.take_of_length_le (by simp)
      have hdr : (unifStarts (b :: bs) (n :: ns)).drop n = unifStarts bs ns := by
        simp only [unifStarts]
        rw [List.drop_append_of_le_length (by simp), List.drop_of_length_le (by simp)]
        simp
      refine ⟨⟨by omega, by simp [unifStarts], h1, ?_⟩, by rw [hdr]; exact ih h4⟩
      rw [ht]
      refine ⟨?_, ?_, ?_⟩
      · obtain ⟨k, rfl⟩ : ∃ k, n = k + 1 := ⟨n - 1, by omega⟩
        simp [List.range_succ_eq_map]
      · rw [List.pairwise_map]
        refine List.Pairwise.imp ?_ List.pairwise_lt_range
        intro i j hij
        have : (i : Int) ≤ j := by omega
        nlinarith
      · intro m hm
        obtain ⟨i, hi, rfl⟩ := List.mem_map.1 hm
        have : (i : Int) ≤ n - 1 := by have := List.mem_range.1 hi; omega
        nlinarith

theorem unifLo_eq {dims bd : List Int} {ns idx : List Nat} (h : UnifOK dims bd ns)
    (hi : CoordOK ns idx) : unifLo bd idx = coordLo ns (unifStarts bd ns) idx := by
  induction dims generalizing bd ns idx with
  | nil => cases bd <;> cases ns <;> cases idx <;> simp_all [UnifOK, CoordOK, unifLo, coordLo]
  | cons d ds ih =>
    match bd, ns, idx, h, hi with
    | b :: bs, n :: ns, i :: is, h, hi =>
      simp only [unifLo, coordLo, unifStarts]
      rw [range_map_append_getD _ _ hi.1, List.drop_append_of_le_length (by simp),
        List.drop_of_length_le (by simp), List.nil_append, ih h.2 hi.2]

theorem unifHi_eq {dims bd : List Int} {ns idx : List Nat} (h : UnifOK dims bd ns)
    (hi : CoordOK ns idx) : unifHi dims bd idx = coordHi ns dims (unifStarts bd ns) idx := by
  induction dims generalizing bd ns idx with
  | nil => cases bd <;> cases ns <;> cases idx <;> simp_all [UnifOK, CoordOK, unifHi, coordHi]
  | cons d ds ih =>
    match bd, ns, idx, h, hi with
    | b :: bs, n :: ns, i :: is, h, hi =>
      obtain ⟨⟨h1, h2, h3⟩, h4⟩ := h
      obtain ⟨n1, n2, n3⟩ := numBlk_spec h1 h2
      rw [← h3] at n1 n2 n3
      have hlt : i < n := hi.1
      simp only [unifHi, coordHi, unifStarts]
      rw [List.drop_append_of_le_length (by simp),
        List.drop_of_length_le (by simp), List.nil_append, ih h4 hi.2]
      congr 1
      by_cases hl : i = n - 1
      · have e : (i : Int) + 1 = n := by omega
        rw [if_pos hl, e]
        split <;> omega
      · rw [if_neg hl, range_map_append_getD _ _ (by omega)]
        have : (i : Int) + 1 ≤ n - 1 := by omega
        rw [if_neg (by nlinarith)]
        push_cast; ring

theorem irrLo_eq (ns : List Nat) (m : List Int) (idx : List Nat) :
    irrLo ns m idx = coordLo ns m idx := by
  induction ns generalizing m idx with
  | nil => cases idx <;> rfl
  | cons n ns ih =>
    cases idx with
    | nil => rfl
    | cons i is => simp only [irrLo, coordLo, ih]

theorem irrHi_eq {ns : List Nat} {ds m : List Int} {idx : List Nat} (h : CoordOK ns idx) :
    irrHi ns ds m idx = coordHi ns ds m idx := by
  induction ns generalizing ds m idx with
  | nil => cases idx <;> cases ds <;> rfl
  | cons n ns ih =>
    match ds, idx, h with
    | [], i :: is, h => rfl
    | d :: ds, i :: is, h =>
      have h1 : i < n := h.1
      simp only [irrHi, coordHi, ih h.2]
      congr 1
      by_cases hc : i = n - 1
      · rw [if_pos hc, if_neg (by omega)]
      · rw [if_neg hc, if_pos (by omega)]

theorem itIrrHi_eq (ns : List Nat) (ds m : List Int) (idx : List Nat) :
    itIrrHi ns ds m idx = coordHi ns ds m idx := by
  induction ns generalizing ds m idx with
  | nil => cases idx <;> cases ds <;> rfl
  | cons n ns ih =>
    cases ds <;> cases idx <;> simp only [itIrrHi, coordHi, ih]

/-- consistent block data -/
structure BOK (A : BArray) : Prop where
  ne : A.dims ≠ []
  unif : A.kind ≠ .tiledIrreg → UnifOK A.dims A.bdims A.nblocks
  map : MapOK A.nblocks A.dims (starts A)
  np : 0 < A.nproc
  grid : A.kind ≠ .cyclic → A.grid.length = A.dims.length ∧ (∀ g ∈ A.grid, 0 < g) ∧
    gridSize A.grid = A.nproc

theorem bOwns_eq {A : BArray} (h : BOK A) {b : Nat} (hb : b < bTotal A) :
    bOwns A b = (coordLo A.nblocks (starts A) (digits A.nblocks b),
      coordHi A.nblocks A.dims (starts A) (digits A.nblocks b)) := by
  unfold bOwns starts
  have hc := digits_ok hb
  rw [splitIdx_eq]
  by_cases hk : A.kind = .tiledIrreg
  · simp only [hk, if_true, irrLo_eq, irrHi_eq hc]
  · simp only [hk, if_false, unifLo_eq (h.unif hk) hc, unifHi_eq (h.unif hk) hc]

theorem itBounds_eq {A : BArray} (h : BOK A) {idx : List Nat} (hc : CoordOK A.nblocks idx) :
    itLo A idx = coordLo A.nblocks (starts A) idx ∧
      itHi A idx = coordHi A.nblocks A.dims (starts A) idx := by
  unfold itLo itHi starts
  by_cases hk : A.kind = .tiledIrreg
  · simp only [hk, if_true, irrLo_eq, itIrrHi_eq, and_self]
  · simp only [hk, if_false, unifLo_eq (h.unif hk) hc, unifHi_eq (h.unif hk) hc, and_self]

theorem unifFind_ok {dims bd : List Int} {ns : List Nat} {x : List Int} (h : UnifOK dims bd ns)
    (hx : InArray dims x) :
    CoordOK ns (unifFind bd x) ∧ InPatch (coordLo ns (unifStarts bd ns) (unifFind bd x))
      (coordHi ns dims (unifStarts bd ns) (unifFind bd x)) x := by
  suffices hs : CoordOK ns (unifFind bd x) ∧ InPatch (unifLo bd (unifFind bd x))
      (unifHi dims bd (unifFind bd x)) x by
    rw [← unifLo_eq h hs.1, ← unifHi_eq h hs.1]; exact hs
  induction dims generalizing bd ns x with
  | nil =>
    match bd, ns, x, h, hx with
    | [], [], [], _, _ => exact ⟨trivial, trivial⟩
  | cons d ds ih =>
    match bd, ns, x, h, hx with
    | b :: bs, n :: ns, x :: xs, h, hx =>
      obtain ⟨⟨h1, h2, h3⟩, h4⟩ := h
      obtain ⟨n1, n2, n3⟩ := numBlk_spec h1 h2
      rw [← h3] at n1 n2 n3
      have hx' : (1 ≤ x ∧ x ≤ d) ∧ InArray ds xs := hx
      obtain ⟨i1, i2⟩ := ih h4 hx'.2
      have e1 := Int.emod_add_mul_ediv (x - 1) b
      have e2 := Int.emod_nonneg (x - 1) (by omega : b ≠ 0)
      have e3 := Int.emod_lt_of_pos (x - 1) (by omega : 0 < b)
      have e0 : 0 ≤ (x - 1) / b := Int.ediv_nonneg (by omega) (by omega)
      have e : (((x - 1) / b).toNat : Int) = (x - 1) / b := Int.toNat_of_nonneg e0
      have hlt : (x - 1) / b < n := by
        by_contra hc
        have : (n : Int) ≤ (x - 1) / b := by omega
        nlinarith
      refine ⟨⟨by omega, i1⟩, ?_⟩
      refine ⟨?_, i2⟩
      rw [e]
      refine ⟨by nlinarith, ?_⟩
      split
      · exact hx'.1.2
      · nlinarith

theorem bLocate_ok {A : BArray} (h : BOK A) {cand : List Nat} (hc : CandOK A.nblocks cand)
    {x : List Int} (hx : InArray A.dims x) :
    ∃ c, CoordOK A.nblocks c ∧ bLocate A cand x = undigits A.nblocks c ∧
      InPatch (coordLo A.nblocks (starts A) c) (coordHi A.nblocks A.dims (starts A) c) x := by
  unfold bLocate starts
  by_cases hk : A.kind = .tiledIrreg
  · have hm := h.map
    simp only [starts, hk, if_true] at hm
    obtain ⟨a, b⟩ := findblocks_ok hm hc hx
    refine ⟨_, a, ?_, ?_⟩
    · simp only [hk, if_true, joinIdx_eq]
    · simp only [hk, if_true]; exact b
  · obtain ⟨a, b⟩ := unifFind_ok (h.unif hk) hx
    refine ⟨_, a, ?_, ?_⟩
    · simp only [hk, if_false, joinIdx_eq]
    · simp only [hk, if_false]; exact b

theorem bProc_lt {A : BArray} (h : BOK A) (b : Nat) : bProc A b < A.nproc := by
  unfold bProc
  have aux : A.kind ≠ .cyclic → procOfIdx A.grid (splitIdx A.nblocks b) < A.nproc := by
    intro hk
    obtain ⟨g1, g2, g3⟩ := h.grid hk
    rw [procOfIdx_eq, ← g3]
    apply undigits_lt
    apply modL_ok _ g2
    rw [splitIdx_eq]
    have hl : ∀ ns t, (digits ns t).length = ns.length := by
      intro ns
      induction ns with
      | nil => intro t; rfl
      | cons n ns ih => intro t; simp [digits, ih]
    have hm : ∀ (ns : List Nat) ds m, MapOK ns ds m → ns.length = ds.length := by
      intro ns
      induction ns with
      | nil => intro ds m h; cases ds <;> simp_all [MapOK]
      | cons n ns ih =>
        intro ds m h
        cases ds with
        | nil => simp [MapOK] at h
        | cons d ds => simp [ih _ _ h.2]
    rw [hl, hm _ _ _ h.map, g1]
  cases hk : A.kind with
  | cyclic => exact Nat.mod_lt _ h.np
  | scalapack => exact aux (by simp [hk])
  | tiled => exact aux (by simp [hk])
  | tiledIrreg => exact aux (by simp [hk])

end GA
