import Verif.Model.DraChunk
import Verif.Lemmas.DraSpec

namespace GA.Dra
open GA.Spec GA.Model

/-! ## sorting -/

theorem sortIns_perm (b : Int × Nat) (l : List (Int × Nat)) : List.Perm (sortIns b l) (b :: l) := by
  induction l with
  | nil => exact List.Perm.refl _
  | cons x xs ih =>
    simp only [sortIns]
    split
    · exact (List.Perm.cons x ih).trans (List.Perm.swap b x xs)
    · exact List.Perm.refl _

theorem blockSort_perm (vals : List Int) : List.Perm (blockSort vals) (List.range vals.length) := by
  have : ∀ l : List (Int × Nat), List.Perm (l.foldr sortIns []) l := by
    intro l
    induction l with
    | nil => exact List.Perm.refl _
    | cons x xs ih => exact (sortIns_perm _ _).trans (List.Perm.cons x ih)
  unfold blockSort
  have h := (this vals.zipIdx).map (fun x : Int × Nat => x.2)
  rwa [List.zipIdx_map_snd, ← List.range_eq_range'] at h

/-! ## products -/

theorem prodI_set {l : List Int} {k : Nat} (hk : k < l.length) (v : Int) : prodI (l.set k v) * l.getD k 0 = prodI l * v := by
  induction l generalizing k with
  | nil => simp at hk
  | cons a l ih =>
    cases k with
    | zero => simp only [List.set_cons_zero, prodI, List.getD_cons_zero]; ring
    | succ k =>
      have := ih (k := k) (by simpa using hk)
      simp only [List.set_cons_succ, prodI, List.getD_cons_succ]
      linear_combination a * this

theorem getD_of_lt {l : List Int} {i : Nat} (h : i < l.length) : l.getD i 0 = l[i] := by
  rw [List.getD_eq_getElem?_getD, List.getElem?_eq_getElem h, Option.getD_some]

/-- pointwise bounds -/
def Bnd (P : Int → Int → Prop) (dims l : List Int) : Prop := l.length = dims.length ∧ ∀ k, k < dims.length → P (dims.getD k 0) (l.getD k 0)

theorem getD_set (l : List Int) (k i : Nat) (v : Int) : (l.set k v).getD i 0 = if k = i ∧ k < l.length then v else l.getD i 0 := by
  simp only [List.getD_eq_getElem?_getD, List.getElem?_set]
  by_cases h : k = i
  · subst h
    by_cases h2 : k < l.length <;> simp [h2]
  · simp [h]

theorem Bnd.set {P : Int → Int → Prop} {dims l : List Int} (h : Bnd P dims l) {k : Nat} {v : Int} (hv : k < dims.length → P (dims.getD k 0) v) :
    Bnd P dims (l.set k v) := by
  refine ⟨by rw [List.length_set]; exact h.1, fun i hi => ?_⟩
  rw [getD_set]
  split
  · rename_i he; obtain ⟨rfl, _⟩ := he; exact hv hi
  · exact h.2 i hi

theorem Bnd.map {P Q : Int → Int → Prop} {dims l : List Int} (h : Bnd P dims l) {f : Int → Int} (hf : ∀ d b, P d b → Q d (f b)) : Bnd Q dims (l.map f) := by
  refine ⟨by rw [List.length_map]; exact h.1, fun i hi => ?_⟩
  have := h.2 i hi
  have hl : i < l.length := by rw [h.1]; exact hi
  rw [getD_of_lt (l := l.map f) (by simpa using hl), List.getElem_map]
  rw [getD_of_lt hl] at this
  exact hf _ _ this

theorem Bnd.ones {dims l : List Int} (h : Bnd (fun d c => 1 ≤ c ∧ c ≤ d) dims l) : ∀ c ∈ l, 1 ≤ c := by
  intro c hc
  obtain ⟨i, hi, rfl⟩ := List.mem_iff_getElem.1 hc
  have := (h.2 i (by rw [← h.1]; exact hi)).1
  rwa [List.getD_eq_getElem?_getD, List.getElem?_eq_getElem hi, Option.getD_some] at this

/-! ## the steps -/

theorem adjBlock_le {near : Int → Int → Int} (hn : ∀ d b, 0 < b → b < d → 0 < near d b) {d : Int} (hd : 1 ≤ d) (b0 : Int) : adjBlock near d b0 ≤ d := by
  unfold adjBlock
  dsimp only
  generalize hb : (if d < b0 then d else b0) = b
  have hbd : b ≤ d := by rw [← hb]; split <;> omega
  split
  · rename_i h
    split
    · have := hn d b h.1 h.2.1
      exact Int.ediv_le_self _ (by omega)
    · exact hbd
  · exact hbd

/-- product of the specified block sizes -/
def prodPos (l : List Int) : Int := prodI (l.map fun b => if 0 < b then b else 1)

theorem prodPos_one (l : List Int) : 1 ≤ prodPos l := by
  apply prodI_ge_one
  intro e he
  obtain ⟨b, _, rfl⟩ := List.mem_map.1 he
  split <;> omega

theorem prodPos_set {l : List Int} {k : Nat} (hk : k < l.length) (h : l.getD k 0 ≤ 0) {v : Int} (hv : 1 ≤ v) : prodPos (l.set k v) = prodPos l * v := by
  unfold prodPos
  rw [List.map_set, if_pos (by omega : 0 < v)]
  have := prodI_set (l := l.map fun b => if 0 < b then b else 1) (k := k) (by simpa using hk) v
  have e : (l.map fun b => if 0 < b then b else 1).getD k 0 = 1 := by
    rw [List.getD_eq_getElem?_getD, List.getElem?_eq_getElem hk, Option.getD_some] at h
    rw [List.getD_eq_getElem?_getD, List.getElem?_map, List.getElem?_eq_getElem hk, Option.map_some, Option.getD_some, if_neg (by omega)]
  rwa [e, Int.mul_one] at this

/-- invariant of the loop that sets unspecified block sizes -/
def FillInv (elem : Int) (dims : List Int) (s : List Int × Int) : Prop :=
  Bnd (fun d b => b ≤ d) dims s.1 ∧ s.2 = prodPos s.1 ∧ s.2 * elem ≤ bufBytes

theorem fillStep_inv {elem : Int} (he : 1 ≤ elem) {dims : List Int} (hd : ∀ d ∈ dims, 1 ≤ d) {s : List Int × Int} (h : FillInv elem dims s) (k : Nat) :
    FillInv elem dims (fillStep elem dims s k) := by
  obtain ⟨h1, h2, h3⟩ := h
  unfold fillStep
  split
  · rename_i hneg
    have hk : k < s.1.length := by
      by_contra hc
      rw [List.getD_eq_default _ _ (by omega)] at hneg
      omega
    have hkd : k < dims.length := by rw [← h1.1]; exact hk
    have hdk : 1 ≤ dims.getD k 0 := by
      rw [List.getD_eq_getElem?_getD, List.getElem?_eq_getElem hkd, Option.getD_some]
      exact hd _ (List.getElem_mem hkd)
    have hp : 1 ≤ s.2 := by rw [h2]; exact prodPos_one _
    dsimp only
    split
    · rename_i hlt
      refine ⟨h1.set fun _ => le_refl _, ?_, by dsimp only; linarith⟩
      dsimp only
      rw [prodPos_set hk (by omega) hdk, h2]
    · rename_i hge
      have hpe : 0 < s.2 * elem := Int.mul_pos (by omega) (by omega)
      have hb1 : 1 ≤ bufBytes / (s.2 * elem) := (Int.le_ediv_iff_mul_le hpe).2 (by rw [Int.one_mul]; exact h3)
      refine ⟨h1.set fun _ => ?_, ?_, ?_⟩
      · apply Int.ediv_le_of_le_mul hpe
        have e : s.2 * dims.getD k 0 * elem = dims.getD k 0 * (s.2 * elem) := by ring
        rw [e] at hge
        omega
      · dsimp only
        rw [prodPos_set hk (by omega) hb1, h2]
      · dsimp only
        have := Int.ediv_mul_le bufBytes (by omega : s.2 * elem ≠ 0)
        have e : s.2 * (bufBytes / (s.2 * elem)) * elem = bufBytes / (s.2 * elem) * (s.2 * elem) := by ring
        rw [e]
        exact this
  · exact ⟨h1, h2, h3⟩

/-- invariant of the reduction -/
def NudgeInv (dims : List Int) (s : List Int × Int) : Prop := Bnd (fun d c => 1 ≤ c ∧ c ≤ d) dims s.1 ∧ s.2 = prodI s.1

theorem nudgeOne_spec {elem : Int} {dims : List Int} {k : Nat} (hk : k < dims.length) (fuel : Nat) (s : List Int × Int) (h : NudgeInv dims s)
    (hf : s.1.getD k 0 ≤ fuel) : NudgeInv dims (nudgeOne elem k fuel s) ∧
      (elem * (nudgeOne elem k fuel s).2 ≤ bufBytes ∨ (nudgeOne elem k fuel s).1.getD k 0 = 1) ∧
      (∀ i, s.1.getD i 0 = 1 → (nudgeOne elem k fuel s).1.getD i 0 = 1) ∧ (elem * s.2 ≤ bufBytes → nudgeOne elem k fuel s = s) := by
  induction fuel generalizing s with
  | zero =>
    have := (h.1.2 k hk).1
    omega
  | succ fuel ih =>
    have hc := h.1.2 k hk
    have hks : k < s.1.length := by rw [h.1.1]; exact hk
    simp only [nudgeOne]
    split
    · rename_i hgo
      have hinv : NudgeInv dims (s.1.set k (s.1.getD k 0 - 1), s.2 / s.1.getD k 0 * (s.1.getD k 0 - 1)) := by
        refine ⟨h.1.set fun _ => ⟨by omega, by omega⟩, ?_⟩
        dsimp only
        have e := prodI_set hks (s.1.getD k 0 - 1)
        have e2 := prodI_set hks 1
        rw [Int.mul_one, ← h.2] at e2
        have hdiv : s.2 / s.1.getD k 0 = prodI (s.1.set k 1) := by
          rw [← e2]
          exact Int.mul_ediv_cancel _ (by omega)
        rw [hdiv]
        have e3 : s.1.getD k 0 * (prodI (s.1.set k (s.1.getD k 0 - 1))) = s.1.getD k 0 * (prodI (s.1.set k 1) * (s.1.getD k 0 - 1)) := by
          rw [← h.2, ← e2] at e
          linear_combination e
        exact (Int.eq_of_mul_eq_mul_left (by omega) e3).symm
      have hgs : (s.1.set k (s.1.getD k 0 - 1)).getD k 0 = s.1.getD k 0 - 1 := by rw [getD_set, if_pos ⟨rfl, hks⟩]
      obtain ⟨a, b, c, _⟩ := ih _ hinv (by dsimp only; rw [hgs]; omega)
      refine ⟨a, b, fun i hi => c i ?_, fun hle => by omega⟩
      dsimp only
      rw [getD_set]
      split
      · rename_i hki; obtain ⟨rfl, _⟩ := hki; omega
      · exact hi
    · rename_i hgo
      exact ⟨h, by omega, fun i hi => hi, fun _ => rfl⟩

theorem nudge_spec {elem : Int} (hb : elem ≤ bufBytes) {dims : List Int} {s : List Int × Int} (h : NudgeInv dims s) :
    NudgeInv dims (nudge elem s) ∧ elem * (nudge elem s).2 ≤ bufBytes := by
  unfold nudge
  split
  · rename_i hover
    have hperm := blockSort_perm s.1
    have hmem : ∀ k ∈ blockSort s.1, k < dims.length := by
      intro k hk
      rw [← h.1.1]
      simpa using hperm.mem_iff.1 hk
    have key : ∀ (ks : List Nat) (s : List Int × Int), (∀ k ∈ ks, k < dims.length) → NudgeInv dims s →
        NudgeInv dims (ks.foldl (fun s k => nudgeOne elem k (s.1.getD k 0).toNat s) s) ∧
        (elem * (ks.foldl (fun s k => nudgeOne elem k (s.1.getD k 0).toNat s) s).2 ≤ bufBytes ∨
          ∀ k, (k ∈ ks ∨ s.1.getD k 0 = 1) → (ks.foldl (fun s k => nudgeOne elem k (s.1.getD k 0).toNat s) s).1.getD k 0 = 1) := by
      intro ks
      induction ks with
      | nil => intro s _ hs; exact ⟨hs, Or.inr fun k hk => by simpa using hk⟩
      | cons k ks ih =>
        intro s hk hs
        rw [List.foldl_cons]
        have hkd := hk k List.mem_cons_self
        have hc := hs.1.2 k hkd
        obtain ⟨a, b, c, d⟩ := nudgeOne_spec (elem := elem) hkd (s.1.getD k 0).toNat s hs (by omega)
        obtain ⟨e, f⟩ := ih (nudgeOne elem k (s.1.getD k 0).toNat s) (fun k hk' => hk k (List.mem_cons_of_mem _ hk')) a
        refine ⟨e, ?_⟩
        rcases f with f | f
        · exact Or.inl f
        · rcases b with b | b
          · left
            have stay : ∀ (ks : List Nat) (s : List Int × Int), (∀ k ∈ ks, k < dims.length) → NudgeInv dims s → elem * s.2 ≤ bufBytes →
                ks.foldl (fun s k => nudgeOne elem k (s.1.getD k 0).toNat s) s = s := by
              intro ks
              induction ks with
              | nil => intros; rfl
              | cons k ks ih2 =>
                intro s hk hs hle
                rw [List.foldl_cons]
                have hkd := hk k List.mem_cons_self
                have hc := hs.1.2 k hkd
                rw [(nudgeOne_spec (elem := elem) hkd (s.1.getD k 0).toNat s hs (by omega)).2.2.2 hle]
                exact ih2 s (fun k hk' => hk k (List.mem_cons_of_mem _ hk')) hs hle
            rw [stay ks _ (fun k hk' => hk k (List.mem_cons_of_mem _ hk')) a b]
            exact b
          · right
            intro i hi
            apply f
            rcases hi with hi | hi
            · rcases List.mem_cons.1 hi with rfl | hi
              · exact Or.inr b
              · exact Or.inl hi
            · exact Or.inr (c i hi)
    obtain ⟨a, b⟩ := key _ s hmem h
    refine ⟨a, ?_⟩
    rcases b with b | b
    · exact b
    · have hall : ∀ c ∈ ((blockSort s.1).foldl (fun s k => nudgeOne elem k (s.1.getD k 0).toNat s) s).1, c = 1 := by
        intro c hc
        obtain ⟨i, hi, rfl⟩ := List.mem_iff_getElem.1 hc
        have := b i (Or.inl (hperm.mem_iff.2 (by rw [List.mem_range, h.1.1, ← a.1.1]; exact hi)))
        rwa [List.getD_eq_getElem?_getD, List.getElem?_eq_getElem hi, Option.getD_some] at this
      have hone : ∀ l : List Int, (∀ c ∈ l, c = 1) → prodI l = 1 := by
        intro l
        induction l with
        | nil => intro _; rfl
        | cons c l ih =>
          intro hl
          rw [prodI, hl c List.mem_cons_self, ih fun c hc => hl c (List.mem_cons_of_mem _ hc)]
          rfl
      rw [a.2, hone _ hall, Int.mul_one]
      exact hb
  · rename_i hle
    exact ⟨h, by omega⟩

theorem chunking_spec {near : Int → Int → Int} (hn : ∀ d b, 0 < b → b < d → 0 < near d b) {scale : Int → Int} (hsc : ∀ c, scale c ≤ c) {elem : Int}
    (he : 1 ≤ elem) (hb : elem ≤ bufBytes) {dims req : List Int} (hd : ∀ d ∈ dims, 1 ≤ d) (hl : req.length = dims.length) :
    Bnd (fun d c => 1 ≤ c ∧ c ≤ d) dims (chunking near scale elem dims req) ∧ elem * prodI (chunking near scale elem dims req) ≤ bufBytes := by
  unfold chunking
  dsimp only
  generalize hblk : List.zipWith (adjBlock near) dims req = block
  have hblkB : Bnd (fun d b => b ≤ d) dims block := by
    subst hblk
    refine ⟨by simp [hl], fun k hk => ?_⟩
    have hk2 : k < req.length := by omega
    have hkz : k < (List.zipWith (adjBlock near) dims req).length := by simp; omega
    rw [getD_of_lt hkz, List.getElem_zipWith, getD_of_lt hk]
    exact adjBlock_le hn (hd _ (List.getElem_mem hk)) _
  have hpos : Bnd (fun d _ => 1 ≤ d) dims block := ⟨hblkB.1, fun k hk => by
    rw [List.getD_eq_getElem?_getD, List.getElem?_eq_getElem hk, Option.getD_some]
    exact hd _ (List.getElem_mem hk)⟩
  have hpatch : prodI (block.map fun b => if 0 < b then b else 1) = prodPos block := rfl
  rw [hpatch]
  generalize hs : (if (!decide (bufBytes < prodPos block * elem) && block.any fun b => decide (b ≤ 0)) = true then
      (blockSort dims).reverse.foldl (fillStep elem dims) (block, prodPos block) else (block, prodPos block)) = s
  have hsinv : Bnd (fun d b => b ≤ d) dims s.1 ∧ s.2 = prodPos s.1 := by
    rw [← hs]
    split
    · rename_i hc
      simp only [Bool.and_eq_true, Bool.not_eq_true', decide_eq_false_iff_not] at hc
      have : ∀ (ks : List Nat) (s : List Int × Int), FillInv elem dims s → FillInv elem dims (ks.foldl (fillStep elem dims) s) := by
        intro ks
        induction ks with
        | nil => intro s h; exact h
        | cons k ks ih => intro s h; exact ih _ (fillStep_inv he hd h k)
      have h := this (blockSort dims).reverse (block, prodPos block) ⟨hblkB, rfl, by dsimp only; omega⟩
      exact ⟨h.1, h.2.1⟩
    · exact ⟨hblkB, rfl⟩
  have hch : Bnd (fun d c => 1 ≤ c ∧ c ≤ d) dims (s.1.map fun b => if 0 < b then b else 1) := by
    have h2 : Bnd (fun d b => b ≤ d ∧ 1 ≤ d) dims s.1 := ⟨hsinv.1.1, fun k hk => ⟨hsinv.1.2 k hk, hpos.2 k hk⟩⟩
    exact h2.map fun d b h => by split <;> omega
  have hno : ∀ l : List Int, (∀ c ∈ l, 1 ≤ c) → l.map (fun c => if c = 0 then 1 else c) = l := by
    intro l hl
    conv_rhs => rw [← List.map_id l]
    apply List.map_congr_left
    intro c hc
    have := hl c hc
    rw [if_neg (by omega)]
    rfl
  have fin : ∀ (s : List Int × Int), NudgeInv dims s → Bnd (fun d c => 1 ≤ c ∧ c ≤ d) dims (nudge elem s).1 ∧ elem * prodI (nudge elem s).1 ≤ bufBytes := by
    intro s h
    obtain ⟨a, b⟩ := nudge_spec hb h
    exact ⟨a.1, by rw [← a.2]; exact b⟩
  by_cases hov : bufBytes < prodPos block * elem
  · simp only [hov, decide_true, if_true]
    have hch2 := hch.map (Q := fun d c => 1 ≤ c ∧ c ≤ d) (f := fun c => if scale c < 1 then 1 else scale c) fun d c h => by
      have := hsc c
      split <;> omega
    rw [hno _ hch2.ones]
    exact fin _ ⟨hch2, rfl⟩
  · simp only [hov, decide_false, Bool.false_eq_true, if_false]
    rw [hno _ hch.ones]
    exact fin _ ⟨hch, hsinv.2⟩

/-- a chunk is not larger than a block -/
theorem chunk_le {sh : List (Int × Int)} (hs : ShapeOK sh) {lo hi : List Int} (h : ChunkOK sh lo hi) : prodI (edges lo hi) ≤ prodI (sh.map (·.2)) := by
  have key : ∀ (sh : List (Int × Int)) (lo hi : List Int), ShapeOK sh → ChunkOK sh lo hi → 0 ≤ prodI (edges lo hi) ∧ prodI (edges lo hi) ≤ prodI (sh.map (·.2)) := by
    intro sh
    induction sh with
    | nil => intro lo hi _ h; cases lo <;> simp [ChunkOK] at h
    | cons s sh ih =>
      intro lo hi hs h
      obtain ⟨d, c⟩ := s
      have hs1 : 1 ≤ c ∧ c ≤ d := hs _ List.mem_cons_self
      have hs2 : ShapeOK sh := fun s hm => hs s (List.mem_cons_of_mem _ hm)
      have step : ∀ (l h : Int) (r q : Int), 0 ≤ r → r ≤ q → 0 ≤ h - l + 1 → h - l + 1 ≤ c → 0 ≤ (h - l + 1) * r ∧ (h - l + 1) * r ≤ c * q := by
        intro l h r q h1 h2 h3 h4
        exact ⟨Int.mul_nonneg h3 h1, Int.mul_le_mul h4 h2 h1 (by omega)⟩
      match sh, lo, hi, h with
      | [], [l], [h'], h =>
        simp only [ChunkOK] at h
        simp only [edges, List.map_cons, List.map_nil, prodI]
        have e := (div_char (x := h') (b := (l - 1) / c) hs1.1).1 h.1.symm
        have e2 := (div_char (x := l) (b := (l - 1) / c) hs1.1).1 rfl
        exact step l h' 1 1 (by omega) (by omega) (by omega) (by omega)
      | s2 :: sh, l :: ls, h' :: hs', h =>
        simp only [ChunkOK] at h
        obtain ⟨a, b⟩ := ih ls hs' hs2 h.2
        simp only [edges, List.map_cons, prodI] at a b ⊢
        exact step l h' _ _ a b (by omega) (by omega)
      | [], [], _, h => simp [ChunkOK] at h
      | [], _ :: _ :: _, hi, h => cases hi <;> simp [ChunkOK] at h
      | [], [_], [], h => simp [ChunkOK] at h
      | [], [_], _ :: _ :: _, h => simp [ChunkOK] at h
      | _ :: _, [], _, h => simp [ChunkOK] at h
      | _ :: _, _ :: _, [], h => simp [ChunkOK] at h
  exact (key sh lo hi hs h).2

end GA.Dra
