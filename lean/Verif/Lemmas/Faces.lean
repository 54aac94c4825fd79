import Verif.Lemmas.PutGet
import Verif.Spec.Ops

/-! # When does splitting an oversized block succeed -/

namespace GA
open Spec Model

theorem scanMax_bound (ss : List Int) (i mi : Nat) (mx : Int) :
    mx ≤ (scanMax ss i mi mx).2 ∧ ∀ s ∈ ss, s ≤ (scanMax ss i mi mx).2 := by
  induction ss generalizing i mi mx with
  | nil => simp [scanMax]
  | cons s ss ih =>
    simp only [scanMax]
    split
    · obtain ⟨a, b⟩ := ih (i + 1) i s
      refine ⟨by omega, ?_⟩
      intro t ht
      rcases List.mem_cons.1 ht with rfl | ht
      · exact a
      · exact b t ht
    · obtain ⟨a, b⟩ := ih (i + 1) mi mx
      refine ⟨a, ?_⟩
      intro t ht
      rcases List.mem_cons.1 ht with rfl | ht
      · omega
      · exact b t ht

theorem scanMax_fix (ss : List Int) (i mi : Nat) (mx : Int) (h : ∀ s ∈ ss, s ≤ mx) :
    scanMax ss i mi mx = (mi, mx) := by
  induction ss generalizing i with
  | nil => rfl
  | cons s ss ih =>
    simp only [scanMax]
    rw [if_neg (by have := h s (by simp); omega)]
    exact ih _ fun t ht => h t (by simp [ht])

theorem set_getD_self {ss : List Int} {i : Nat} (v : Int) (h : i < ss.length) (hv : ss.getD i 0 = v) :
    ss.set i v = ss := by
  rw [← hv, List.getD_eq_getElem?_getD, List.getElem?_eq_getElem h]
  simp

theorem splitLoop_pos {es M : Int} (fuel : Nat) (ss : List Int) (mi : Nat) (mx : Int)
    (hpos : ∀ s ∈ ss, 0 < s) (hle : ∀ s ∈ ss, s ≤ mx) (hmi : mi < ss.length)
    (hface : es * prodI (ss.set mi 1) ≤ M) : ∀ s ∈ splitLoop es M fuel ss mi mx, 0 < s := by
  induction fuel generalizing ss with
  | zero => simpa [splitLoop] using hpos
  | succ f ih =>
    simp only [splitLoop]
    split
    · rename_i hbig
      rw [scanMax_fix ss 0 mi mx hle]
      simp only
      have hg : ss.getD mi 0 ∈ ss := by
        rw [List.getD_eq_getElem?_getD, List.getElem?_eq_getElem hmi]; simp
      have h2 : 2 ≤ ss.getD mi 0 := by
        have := hpos _ hg
        by_contra hlt
        have h1 : ss.getD mi 0 = 1 := by omega
        rw [set_getD_self 1 hmi h1] at hface
        omega
      apply ih
      · intro s hs
        rcases List.mem_or_eq_of_mem_set hs with h | rfl
        · exact hpos s h
        · omega
      · intro s hs
        rcases List.mem_or_eq_of_mem_set hs with h | rfl
        · exact hle s h
        · have := hle _ hg; omega
      · simpa using hmi
      · rw [List.set_set]; exact hface
    · exact hpos

theorem splitSizes_all_pos {es M : Int} (ss : List Int) (hne : ss ≠ []) (hpos : ∀ s ∈ ss, 0 < s)
    (hface : ∀ i, i < ss.length → es * prodI (ss.set i 1) ≤ M) :
    ∀ s ∈ splitSizes es M ss, 0 < s := by
  unfold splitSizes
  simp only [splitLoop]
  split
  · rename_i hbig
    have hlt := scanMax_lt ss 0 0 0 (List.length_pos_iff.2 hne) (by simp)
    obtain ⟨hb0, hb⟩ := scanMax_bound ss 0 0 0
    generalize hr : scanMax ss 0 0 0 = r at *
    have hg : ss.getD r.1 0 ∈ ss := by
      rw [List.getD_eq_getElem?_getD, List.getElem?_eq_getElem hlt]; simp
    have h2 : 2 ≤ ss.getD r.1 0 := by
      have := hpos _ hg
      by_contra hlt'
      have h1 : ss.getD r.1 0 = 1 := by omega
      have := hface r.1 hlt
      rw [set_getD_self 1 hlt h1] at this
      omega
    apply splitLoop_pos
    · intro s hs
      rcases List.mem_or_eq_of_mem_set hs with h | rfl
      · exact hpos s h
      · omega
    · intro s hs
      rcases List.mem_or_eq_of_mem_set hs with h | rfl
      · exact hb s h
      · have := hb _ hg; omega
    · simpa using hlt
    · rw [List.set_set]; exact hface _ hlt
  · exact hpos

theorem PosLe.length {a b : List Int} (h : PosLe a b) : a.length = b.length := by
  induction a generalizing b with
  | nil => cases b <;> simp_all [PosLe]
  | cons x a ih =>
    cases b with
    | nil => simp [PosLe] at h
    | cons y b => simp [ih h.2]

theorem PosLe.set {a b : List Int} (h : PosLe a b) (i : Nat) : PosLe (a.set i 1) (b.set i 1) := by
  induction a generalizing b i with
  | nil => cases b <;> simp_all [PosLe]
  | cons x a ih =>
    cases b with
    | nil => simp [PosLe] at h
    | cons y b =>
      cases i with
      | zero => exact ⟨by omega, h.2⟩
      | succ i => exact ⟨h.1, ih h.2 i⟩

theorem edges_eq (lo hi : List Int) : edges lo hi = edgeLens lo hi := by
  induction lo generalizing hi with
  | nil => rfl
  | cons l lo ih => cases hi <;> simp [edges, edgeLens, ih]

theorem prodI_eq (l : List Int) : prodI l = prodL l := by
  induction l with
  | nil => rfl
  | cons a l ih => simp [prodI, prodL, ih]

theorem prodI_edges (lo hi : List Int) : prodI (edges lo hi) = numElems lo hi := by
  induction lo generalizing hi with
  | nil => rfl
  | cons l lo ih => cases hi <;> simp [edges, prodI, numElems, ih]

/-- Every face (one edge replaced by 1) of the patch fits into one message. -/
def FitsFaces (E : Env) (lo hi : List Int) : Prop :=
  ∀ i, i < lo.length → E.elemsize * prodL ((edgeLens lo hi).set i 1) ≤ E.maxInt

theorem regPieces_faces {A : RegArray} {E : Env} (hA : ArrOK A) (hE : EnvOK E A) {lo hi : List Int}
    (hok : PatchOK A.dims lo hi) (hfit : FitsFaces E lo hi) :
    ∃ rs, regPieces E A lo hi = some rs := by
  apply regPieces_some hA hE hok
  intro p c hc hp
  have hl := owns_length hA hc
  have l1 := hok.1.length
  have l2 := hok.2.1.length
  unfold subPieces
  split
  · rename_i hpk
    split
    · simp only
      split
      · rename_i hany
        exfalso
        subst hp
        simp only at hpk hany
        have hple := posLe_clip (lo := lo) (hi := hi) (by omega) (by omega) (by omega) hpk
        have hel : (edges lo hi).length = lo.length := edges_length (by omega)
        have hpos := splitSizes_all_pos (es := E.elemsize) (M := E.maxInt) _ (by
          intro h0
          have := hple.length
          rw [h0] at this
          simp only [List.length_nil] at this
          have hne := hA.ne
          exact hne (List.length_eq_zero_iff.1 (by omega))) (edges_pos hpk) (by
          intro i hi'
          have h1 := (hple.set i).prod.2
          have h2 := Int.mul_le_mul_of_nonneg_left h1 hE.es
          have h3 := hfit i (by
            have := hple.length
            omega)
          rw [← edges_eq, ← prodI_eq] at h3
          omega)
        rw [List.any_eq_true] at hany
        obtain ⟨s, hs, h0⟩ := hany
        have := hpos s hs
        simp at h0
        omega
      · exact ⟨_, rfl⟩
    · exact ⟨_, rfl⟩
  · exact ⟨_, rfl⟩

theorem regPieces_none {A : RegArray} {E : Env} {lo hi : List Int}
    (h : ¬ PatchOK A.dims lo hi) : regPieces E A lo hi = none := by
  unfold regPieces locateRegion
  rw [if_neg (fun hr => h (regionOK_iff.1 hr))]

end GA
