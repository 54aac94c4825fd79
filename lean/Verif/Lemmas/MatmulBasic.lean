import Verif.Lemmas.MatmulSum
import Verif.Lemmas.Matrix

/-!
Auxiliary lemmas for `pnga_matmul_basic`: the pieces of the inner dimension, in the rotated order in which a process takes them, and
the sum over all blocks.
-/

namespace GA.Matmul
open Spec Model

section
variable {V : Type}

/-- number of pieces of the inner dimension -/
theorem basic_num {k r : Int} (hk : 0 < k) (hr : 0 < r) :
    (if Int.tdiv k r * r < k then Int.tdiv k r + 1 else Int.tdiv k r) = (k - 1 + r) / r := by
  rw [Int.tdiv_eq_ediv_of_nonneg (by omega)]
  have e1 := Int.ediv_mul_le k (by omega : r ≠ 0)
  have e2 := Int.lt_ediv_add_one_mul_self k hr
  by_cases h : k / r * r < k
  · rw [if_pos h]
    symm
    apply Int.le_antisymm
    · exact Int.lt_add_one_iff.1 ((Int.ediv_lt_iff_lt_mul hr).2 (by nlinarith))
    · exact (Int.le_ediv_iff_mul_le hr).2 (by nlinarith)
  · rw [if_neg h]
    symm
    apply Int.le_antisymm
    · exact Int.lt_add_one_iff.1 ((Int.ediv_lt_iff_lt_mul hr).2 (by nlinarith))
    · exact (Int.le_ediv_iff_mul_le hr).2 (by nlinarith)

/-- starting anywhere and going round, every number below `N` comes exactly once -/
theorem rotate_perm (I N : Nat) : ((List.range N).map fun nb => (I + nb) % N).Perm (List.range N) := by
  rcases Nat.eq_zero_or_pos N with rfl | hN
  · simp
  have h1 : ((List.range N).map fun nb => (I + nb) % N).Nodup := by
    refine List.Nodup.map_on ?_ List.nodup_range
    intro a ha b hb h
    rw [List.mem_range] at ha hb
    have : I + a = N * ((I + a) / N) + (I + a) % N := (Nat.div_add_mod _ _).symm
    have h' : I + b = N * ((I + b) / N) + (I + b) % N := (Nat.div_add_mod _ _).symm
    rw [h] at this
    generalize (I + a) / N = u at *
    generalize (I + b) / N = v at *
    rcases Nat.lt_trichotomy u v with g | g | g
    · have := Nat.mul_le_mul_left N (show u + 1 ≤ v by omega); rw [Nat.mul_add] at this; omega
    · subst g; omega
    · have := Nat.mul_le_mul_left N (show v + 1 ≤ u by omega); rw [Nat.mul_add] at this; omega
  have h2 : ((List.range N).map fun nb => (I + nb) % N) ⊆ List.range N := by
    intro x hx
    obtain ⟨nb, _, rfl⟩ := List.mem_map.1 hx
    exact List.mem_range.2 (Nat.mod_lt _ hN)
  exact (List.subperm_of_subset h1 h2).perm_of_length_le (by simp)

variable [CommSemiring V]

/-- one piece -/
theorem basicStep_ok {c : Call V} {A B : Arr V} {d0 d1 k l0 h0 l1 h1 num I : Int} (old : Int → V) (nb : Nat)
    (hg : Good c A B d0 d1 d0 d1 k) (hk : k = c.ajhi - c.ajlo + 1) (hkb : k = c.bihi - c.bilo + 1)
    (ht : c.ta = false ∧ c.tb = false) (hc : c.ailo = 1 ∧ c.bjlo = 1 ∧ c.cilo = 1 ∧ c.cjlo = 1)
    (hl : (1 ≤ l0 ∧ l0 ≤ h0 ∧ h0 ≤ d0) ∧ 1 ≤ l1 ∧ l1 ≤ h1 ∧ h1 ≤ d1)
    (hfit : min (h0 - l0 + 1) k ≤ h1 - l1 + 1) (hin : 0 ≤ Int.tmod (I + nb) num * (h0 - l0 + 1)) :
    basicStep c A B d0 d1 l0 h0 l1 h1 num I old nb =
      some (taskActs c A B false (l0 - 1) (h0 - 1) (l1 - 1) (h1 - 1) (Int.tmod (I + nb) num * (h0 - l0 + 1))
        (chunkEnd (k - 1) (Int.tmod (I + nb) num * (h0 - l0 + 1)) (h0 - l0 + 1))) := by
  obtain ⟨t1, t2⟩ := ht
  obtain ⟨c1, c2, c3, c4⟩ := hc
  unfold basicStep
  dsimp only
  generalize Int.tmod (I + nb) num * (h0 - l0 + 1) = q at *
  have e1 : min c.ajhi (c.ajlo + q + (h0 - l0 + 1) - 1) = c.ajlo + chunkEnd (k - 1) q (h0 - l0 + 1) := by
    unfold chunkEnd; omega
  have e2 : min c.bihi (c.bilo + q + (h0 - l0 + 1) - 1) = c.bilo + chunkEnd (k - 1) q (h0 - l0 + 1) := by
    unfold chunkEnd; omega
  rw [e1, e2]
  have hq : chunkEnd (k - 1) q (h0 - l0 + 1) ≤ k - 1 ∧ chunkEnd (k - 1) q (h0 - l0 + 1) - q + 1 ≤ h0 - l0 + 1 := by
    unfold chunkEnd; omega
  generalize chunkEnd (k - 1) q (h0 - l0 + 1) = u at *
  have s1 : (h0 - l0 + 1) * (c.ajlo + u - (c.ajlo + q) + 1) ≤ (h0 - l0 + 1) * (h1 - l1 + 1) :=
    mul_le_mul_of_nonneg_left (by omega) (by omega)
  have s2 : (c.bilo + u - (c.bilo + q) + 1) * (h1 - l1 + 1) ≤ (h0 - l0 + 1) * (h1 - l1 + 1) :=
    mul_le_mul_of_nonneg_right (by omega) (by omega)
  rw [if_neg (by omega)]
  obtain ⟨a, la, ea, ha⟩ := getChunk_ok old (hg.a.sub (r0' := l0 - 1) (r1' := h0 - 1) (c0' := q) (c1' := u)
    (by omega) (by omega) (by omega) (by omega))
  obtain ⟨b, lb, eb, hb⟩ := getChunk_ok old (hg.b.sub (r0' := q) (r1' := u) (c0' := l1 - 1) (c1' := h1 - 1)
    (by omega) (by omega) (by omega) (by omega))
  rw [t1] at ea
  rw [t2] at eb
  simp only [getChunk, Bool.false_eq_true, if_false, c1, c2, Option.map_eq_some_iff, Prod.mk.injEq] at ea eb
  obtain ⟨a', ea, rfl, rfl⟩ := ea
  obtain ⟨b', eb, rfl, rfl⟩ := eb
  have x1 : (1 : Int) + (l0 - 1) = l0 := by omega
  have x2 : (1 : Int) + (h0 - 1) = h0 := by omega
  have x3 : h0 - 1 - (l0 - 1) + 1 = h0 - l0 + 1 := by omega
  have x4 : (1 : Int) + (l1 - 1) = l1 := by omega
  have x5 : (1 : Int) + (h1 - 1) = h1 := by omega
  have x6 : c.bilo + u - (c.bilo + q) + 1 = u - q + 1 := by omega
  have x7 : c.ajlo + u - (c.ajlo + q) + 1 = u - q + 1 := by omega
  rw [x1, x2, x3] at ea
  rw [x4, x5] at eb
  rw [x6, x7, ea, eb]
  dsimp only
  have := emit_ok (d0 := d0) (d1 := d1) false ha hb (by omega)
  rw [c3, c4, x1, x2, x3, x4, x5, t1, t2] at this
  exact this

/-- the work for one block -/
theorem basicBlock_ok {c : Call V} {A B : Arr V} {d0 d1 k : Int} (old : Int → V) (b : Int × Int × Int × Int)
    (hg : Good c A B d0 d1 d0 d1 k) (hk : k = c.ajhi - c.ajlo + 1) (hkb : k = c.bihi - c.bilo + 1) (hk1 : 0 < k)
    (ht : c.ta = false ∧ c.tb = false) (hc : c.ailo = 1 ∧ c.bjlo = 1 ∧ c.cilo = 1 ∧ c.cjlo = 1)
    (hl : b.1 ≤ b.2.1 → b.2.2.1 ≤ b.2.2.2 → (1 ≤ b.1 ∧ b.2.1 ≤ d0) ∧ 1 ≤ b.2.2.1 ∧ b.2.2.2 ≤ d1)
    (hfit : min (b.2.1 - b.1 + 1) k ≤ b.2.2.2 - b.2.2.1 + 1) :
    ∃ l, basicBlock c A B d0 d1 old b = some l ∧ (∀ a ∈ l, a.put = false) ∧ ∀ i j,
      (l.map (wAt (c.cilo + i) (c.cjlo + j))).sum =
        if (b.1 - 1 ≤ i ∧ i ≤ b.2.1 - 1) ∧ b.2.2.1 - 1 ≤ j ∧ j ≤ b.2.2.2 - 1 then taskVal c A B 0 (k - 1) i j else 0 := by
  obtain ⟨l0, h0, l1, h1⟩ := b
  dsimp only at *
  unfold basicBlock
  dsimp only
  by_cases he : h0 < l0 ∨ h1 < l1
  · rw [if_pos he]
    refine ⟨[], rfl, by simp, ?_⟩
    intro i j
    rw [if_neg (by omega)]
    rfl
  rw [if_neg he]
  have hb := hl (by omega) (by omega)
  rw [← hk, basic_num hk1 (by omega)]
  have hr : 0 < h0 - l0 + 1 := by omega
  have hst : starts 0 (k - 1) (h0 - l0 + 1) = (List.range ((k - 1 + (h0 - l0 + 1)) / (h0 - l0 + 1)).toNat).map
      fun t : Nat => (t : Int) * (h0 - l0 + 1) := by
    unfold starts
    rw [show k - 1 - 0 = k - 1 by omega]
    refine List.map_congr_left ?_
    intro t _
    omega
  have hN : 1 ≤ (k - 1 + (h0 - l0 + 1)) / (h0 - l0 + 1) := (Int.le_ediv_iff_mul_le hr).2 (by omega)
  have hI : 0 ≤ Int.tdiv (l0 - c.cilo) (h0 - l0 + 1) := Int.tdiv_nonneg (by omega) (by omega)
  generalize hNe : (k - 1 + (h0 - l0 + 1)) / (h0 - l0 + 1) = N at *
  generalize Int.tdiv (l0 - c.cilo) (h0 - l0 + 1) = I at *
  obtain ⟨N, rfl⟩ := Int.eq_ofNat_of_zero_le (show 0 ≤ N by omega)
  obtain ⟨I, rfl⟩ := Int.eq_ofNat_of_zero_le hI
  have hmod : ∀ nb : Nat, Int.tmod ((I : Int) + nb) N = ((I + nb) % N : Nat) := by
    intro nb
    rw [Int.tmod_eq_emod_of_nonneg (by omega)]
    push_cast
    rfl
  rw [mapOpt_map (g := fun nb : Nat => taskActs c A B false (l0 - 1) (h0 - 1) (l1 - 1) (h1 - 1)
    (((I + nb) % N : Nat) * (h0 - l0 + 1)) (chunkEnd (k - 1) (((I + nb) % N : Nat) * (h0 - l0 + 1)) (h0 - l0 + 1)))]
  · refine ⟨_, rfl, ?_, ?_⟩
    · intro a ha
      rw [List.mem_flatten] at ha
      obtain ⟨l, hl, ha⟩ := ha
      obtain ⟨nb, _, rfl⟩ := List.mem_map.1 hl
      unfold taskActs at ha
      obtain ⟨y, _, ha⟩ := List.mem_flatMap.1 ha
      obtain ⟨x, _, rfl⟩ := List.mem_map.1 ha
      rfl
    · intro i j
      rw [← List.flatMap_def, sum_flatMap]
      simp only [sum_filter_at, taskActs_at]
      by_cases hin : (l0 - 1 ≤ i ∧ i ≤ h0 - 1) ∧ l1 - 1 ≤ j ∧ j ≤ h1 - 1
      · simp only [if_pos hin, List.map_cons, List.map_nil, List.sum_cons, List.sum_nil, add_zero]
        rw [← sum_chunks hr, hst, List.map_map]
        have := ((rotate_perm I N).map fun t : Nat =>
          taskVal c A B (t * (h0 - l0 + 1)) (chunkEnd (k - 1) (t * (h0 - l0 + 1)) (h0 - l0 + 1)) i j).sum_eq
        rw [List.map_map] at this
        exact this
      · simp only [if_neg hin, List.map_nil, List.sum_nil]
        simp
  · intro nb _
    rw [basicStep_ok (k := k) old nb hg hk hkb ht hc (by omega) hfit, hmod]
    rw [hmod]
    exact mul_nonneg (by omega) (by omega)

/-- every element lies in exactly one block -/
theorem sum_cover {G : GArr} {items : Nat → List LItem} {cl : List Int → Addr} (v : View G items cl) (x : List Int)
    (T : V) : ((List.range G.nproc).map fun p => ((items p).map fun it => if x ∈ box it.lo it.hi then T else 0).sum).sum =
      if x ∈ box (onesL G.dims) G.dims then T else 0 := by
  have h := (v.cover.map fun z => if z = x then T else 0).sum_eq
  rw [sum_one (nodup_box _ _) _ x (fun b _ hb => if_neg hb), if_pos rfl] at h
  refine Eq.trans ?_ (h.trans (by congr))
  rw [sum_flatMap]
  congr 1
  refine List.map_congr_left ?_
  intro p _
  rw [sum_flatMap]
  congr 1
  refine List.map_congr_left ?_
  intro it _
  rw [sum_one (nodup_box _ _) _ x (fun b _ hb => if_neg hb), if_pos rfl]
  congr

end

end GA.Matmul
