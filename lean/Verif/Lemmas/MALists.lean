import Verif.Lemmas.MABalloc
import Mathlib.Data.List.Perm.Basic

namespace GA.MA

theorem DisjBlk.symm {a b : Blk} (h : DisjBlk a b) : DisjBlk b a := Or.symm h

/-- The pairwise disjoint lists of blocks. -/
abbrev D (l : List Blk) : Prop := l.Pairwise DisjBlk

theorem D_perm {l l' : List Blk} (h : l.Perm l') : D l ↔ D l' :=
  h.pairwise_iff (fun h => h.symm)

theorem D_cons {b : Blk} {l : List Blk} : D (b :: l) ↔ (∀ x ∈ l, DisjBlk b x) ∧ D l :=
  List.pairwise_cons

theorem bytes_perm {l l' : List Blk} (h : l.Perm l') : bytes l = bytes l' := by
  unfold bytes
  induction h with
  | nil => rfl
  | cons x _ ih => simp [ih]
  | swap x y l => simp; omega
  | trans _ _ h1 h2 => exact h1.trans h2

@[simp] theorem bytes_nil : bytes [] = 0 := rfl
@[simp] theorem bytes_cons (b : Blk) (l : List Blk) : bytes (b :: l) = b.nbytes + bytes l := by
  simp [bytes]
@[simp] theorem bytes_append (l l' : List Blk) : bytes (l ++ l') = bytes l + bytes l' := by
  simp [bytes]

theorem bytes_filter (p : Blk → Bool) (l : List Blk) :
    bytes l = bytes (l.filter p) + bytes (l.filter (fun x => !p x)) := by
  induction l with
  | nil => rfl
  | cons a t ih =>
    by_cases h : p a
    · simp [h, ih]; omega
    · simp [h, ih]; omega

/-! ### The list functions -/

theorem insOrd_perm (b : Blk) (l : List Blk) : (insOrd b l).Perm (b :: l) := by
  induction l with
  | nil => exact List.Perm.refl _
  | cons x t ih =>
    unfold insOrd
    split
    · exact List.Perm.refl _
    · exact (ih.cons x).trans (List.Perm.swap _ _ _)

theorem delAddr_insOrd {a : Int} {b : Blk} (h : b.addr ≠ a) (l : List Blk) :
    (delAddr a (insOrd b l)).Perm (b :: delAddr a l) := by
  induction l with
  | nil => simp [insOrd, delAddr, h]
  | cons x t ih =>
    unfold insOrd
    split
    · simp [delAddr, h]
    · by_cases hx : x.addr = a
      · simp only [delAddr, hx, if_true]; exact insOrd_perm b t
      · simp only [delAddr, if_neg hx]
        exact (ih.cons x).trans (List.Perm.swap _ _ _)

theorem findAddr_addr {a : Int} {b : Blk} {l : List Blk} (h : findAddr a l = some b) : b.addr = a := by
  induction l with
  | nil => simp [findAddr] at h
  | cons x t ih =>
    unfold findAddr at h
    split at h
    · cases h; assumption
    · exact ih h

theorem findAddr_mem {a : Int} {b : Blk} {l : List Blk} (h : findAddr a l = some b) : b ∈ l := by
  induction l with
  | nil => simp [findAddr] at h
  | cons x t ih =>
    unfold findAddr at h
    split at h
    · cases h; exact List.mem_cons_self
    · exact List.mem_cons_of_mem _ (ih h)

theorem findAddr_none {a : Int} {l : List Blk} (h : findAddr a l = none) : ∀ b ∈ l, b.addr ≠ a := by
  induction l with
  | nil => simp
  | cons x t ih =>
    unfold findAddr at h
    split at h
    · cases h
    · intro b hb
      rcases List.mem_cons.mp hb with rfl | hb
      · assumption
      · exact ih h b hb

theorem delAddr_perm {a : Int} {b : Blk} {l : List Blk} (h : findAddr a l = some b) :
    l.Perm (b :: delAddr a l) := by
  induction l with
  | nil => simp [findAddr] at h
  | cons x t ih =>
    unfold findAddr at h
    unfold delAddr
    split at h
    · rename_i hx; cases h; simp only [if_pos hx]; exact List.Perm.refl _
    · rename_i hx; simp only [if_neg hx]
      exact ((ih h).cons x).trans (List.Perm.swap _ _ _)

theorem setAddr_perm {a : Int} {b b' : Blk} {l : List Blk} (h : findAddr a l = some b) :
    (setAddr a b' l).Perm (b' :: delAddr a l) := by
  induction l with
  | nil => simp [findAddr] at h
  | cons x t ih =>
    unfold findAddr at h
    unfold delAddr setAddr
    split at h
    · rename_i hx; simp only [if_pos hx]; exact List.Perm.refl _
    · rename_i hx; simp only [if_neg hx]
      exact ((ih h).cons x).trans (List.Perm.swap _ _ _)

/-- Blocks in a disjoint list are determined by their address. -/
theorem findAddr_self {l : List Blk} (hd : D l) (hp : ∀ x ∈ l, 0 < x.nbytes) {x : Blk} (hx : x ∈ l) :
    findAddr x.addr l = some x := by
  induction l with
  | nil => simp at hx
  | cons y t ih =>
    rw [D_cons] at hd
    unfold findAddr
    rcases List.mem_cons.mp hx with rfl | hx'
    · simp
    · have h1 := hd.1 x hx'
      have h2 := hp x hx
      have h3 := hp y List.mem_cons_self
      have hne : y.addr ≠ x.addr := by
        intro h; unfold DisjBlk at h1; omega
      simp only [if_neg hne]
      exact ih hd.2 (fun z hz => hp z (List.mem_cons_of_mem _ hz)) hx'

theorem rightmost_none {l : List Blk} (h : rightmost l = none) : l = [] := by
  cases l with
  | nil => rfl
  | cons x t =>
    unfold rightmost at h
    split at h
    · cases h
    · split at h <;> cases h

theorem rightmost_some {l : List Blk} {m : Blk} (h : rightmost l = some m) :
    m ∈ l ∧ ∀ x ∈ l, x.addr ≤ m.addr := by
  induction l generalizing m with
  | nil => simp [rightmost] at h
  | cons x t ih =>
    unfold rightmost at h
    split at h
    · rename_i hr
      have := rightmost_none hr
      subst this
      cases h
      simp
    · rename_i m' hr
      obtain ⟨h1, h2⟩ := ih hr
      split at h
      · cases h
        refine ⟨List.mem_cons_self, ?_⟩
        intro y hy
        rcases List.mem_cons.mp hy with rfl | hy
        · exact le_refl _
        · have := h2 y hy; omega
      · cases h
        refine ⟨List.mem_cons_of_mem _ h1, ?_⟩
        intro y hy
        rcases List.mem_cons.mp hy with rfl | hy
        · omega
        · exact h2 y hy

theorem firstFit_mem {e : Env} {al dt : Nat} {n : Int} {l : List Blk} {x : Blk}
    (h : firstFit e al dt n l = some x) :
    x ∈ l ∧ (ballocAfter e al x.addr dt n).2 ≤ x.nbytes := by
  induction l with
  | nil => simp [firstFit] at h
  | cons y t ih =>
    unfold firstFit at h
    split at h
    · cases h; exact ⟨List.mem_cons_self, by assumption⟩
    · exact ⟨List.mem_cons_of_mem _ (ih h).1, (ih h).2⟩

theorem firstFit_none {e : Env} {al dt : Nat} {n : Int} {l : List Blk}
    (h : firstFit e al dt n l = none) :
    ∀ x ∈ l, ¬ (ballocAfter e al x.addr dt n).2 ≤ x.nbytes := by
  induction l with
  | nil => simp
  | cons y t ih =>
    unfold firstFit at h
    split at h
    · cases h
    · intro x hx
      rcases List.mem_cons.mp hx with rfl | hx
      · assumption
      · exact ih h x hx

/-! ### Extents -/

/-- A block which covers no more than another one has. -/
theorem D_shrink {x x' : Blk} {l : List Blk} (h : D (x :: l)) (h1 : x.addr ≤ x'.addr)
    (h2 : x'.addr + x'.nbytes ≤ x.addr + x.nbytes) : D (x' :: l) := by
  rw [D_cons] at h ⊢
  refine ⟨fun y hy => ?_, h.2⟩
  have := h.1 y hy
  unfold DisjBlk at this ⊢
  omega

theorem D_split {x x1 x2 : Blk} {l : List Blk} (h : D (x :: l)) (h1 : x1.addr = x.addr)
    (h2 : x2.addr = x1.addr + x1.nbytes) (h3 : x2.addr + x2.nbytes = x.addr + x.nbytes)
    (h4 : 0 ≤ x1.nbytes) (h5 : 0 ≤ x2.nbytes) : D (x1 :: x2 :: l) := by
  rw [D_cons, D_cons]
  rw [D_cons] at h
  refine ⟨fun y hy => ?_, fun y hy => ?_, h.2⟩
  · rcases List.mem_cons.mp hy with rfl | hy
    · left; omega
    · have := h.1 y hy; unfold DisjBlk at this ⊢; omega
  · have := h.1 y hy; unfold DisjBlk at this ⊢; omega

theorem D_merge {a b m : Blk} {l : List Blk} (h : D (a :: b :: l)) (h1 : a.addr + a.nbytes = b.addr)
    (h2 : m.addr = a.addr) (h3 : m.nbytes = a.nbytes + b.nbytes) (h4 : ∀ x ∈ l, 0 < x.nbytes) :
    D (m :: l) := by
  rw [D_cons, D_cons] at h
  rw [D_cons]
  refine ⟨fun y hy => ?_, h.2.2⟩
  have e1 := h.1 y (List.mem_cons_of_mem _ hy)
  have e2 := h.2.1 y hy
  have e3 := h4 y hy
  unfold DisjBlk at e1 e2 ⊢
  omega

theorem coalFrom_D {a : Blk} {t L : List Blk} (h : D (L ++ a :: t))
    (hp : ∀ x ∈ L ++ a :: t, 0 < x.nbytes) : D (L ++ coalFrom a t) := by
  induction t generalizing a L with
  | nil => simpa [coalFrom] using h
  | cons b t ih =>
    unfold coalFrom
    split
    · rename_i hab
      apply ih
      · have h1 : D (a :: b :: (L ++ t)) := by
          refine (D_perm ?_).mp h
          exact (List.perm_middle).trans ((List.perm_middle).cons a)
        have h2 := D_merge (m := { a with nbytes := a.nbytes + b.nbytes }) h1 hab rfl rfl
          (fun x hx => hp x (by
            rcases List.mem_append.mp hx with hx | hx
            · exact List.mem_append_left _ hx
            · exact List.mem_append_right _ (List.mem_cons_of_mem _ (List.mem_cons_of_mem _ hx))))
        exact (D_perm (List.perm_middle)).mpr h2
      · intro x hx
        rcases List.mem_append.mp hx with hx | hx
        · exact hp x (List.mem_append_left _ hx)
        · rcases List.mem_cons.mp hx with rfl | hx
          · have h1 := hp a (by simp)
            have h2 := hp b (by simp)
            simp only; omega
          · exact hp x (List.mem_append_right _ (List.mem_cons_of_mem _ (List.mem_cons_of_mem _ hx)))
    · have h1 : D ((L ++ [a]) ++ b :: t) := by simpa using h
      have h2 := ih (a := b) (L := L ++ [a]) h1 (by simpa using hp)
      simpa using h2

theorem coalesce_D {F L : List Blk} (h : D (L ++ F)) (hp : ∀ x ∈ L ++ F, 0 < x.nbytes) :
    D (L ++ coalesce F) := by
  cases F with
  | nil => exact h
  | cons a t => exact coalFrom_D h hp

theorem coalFrom_bytes (a : Blk) (t : List Blk) : bytes (coalFrom a t) = a.nbytes + bytes t := by
  induction t generalizing a with
  | nil => simp [coalFrom]
  | cons b t ih =>
    unfold coalFrom
    split
    · rw [ih]; simp; omega
    · simp [ih]

theorem coalesce_bytes (F : List Blk) : bytes (coalesce F) = bytes F := by
  cases F with
  | nil => rfl
  | cons a t => simp [coalesce, coalFrom_bytes]

theorem coalFrom_all {Q : Blk → Prop}
    (hQ : ∀ a b, Q a → Q b → a.addr + a.nbytes = b.addr → Q { a with nbytes := a.nbytes + b.nbytes })
    {a : Blk} {t : List Blk} (h : ∀ x ∈ a :: t, Q x) : ∀ x ∈ coalFrom a t, Q x := by
  induction t generalizing a with
  | nil => simpa [coalFrom] using h
  | cons b t ih =>
    unfold coalFrom
    split
    · rename_i hab
      apply ih
      intro x hx
      rcases List.mem_cons.mp hx with rfl | hx
      · exact hQ a b (h a (by simp)) (h b (by simp)) hab
      · exact h x (by simp [hx])
    · intro x hx
      rcases List.mem_cons.mp hx with rfl | hx
      · exact h _ (by simp)
      · exact ih (fun y hy => h y (List.mem_cons_of_mem _ hy)) x hx

theorem coalesce_all {Q : Blk → Prop}
    (hQ : ∀ a b, Q a → Q b → a.addr + a.nbytes = b.addr → Q { a with nbytes := a.nbytes + b.nbytes })
    {F : List Blk} (h : ∀ x ∈ F, Q x) : ∀ x ∈ coalesce F, Q x := by
  cases F with
  | nil => simpa [coalesce] using h
  | cons a t => exact coalFrom_all hQ h

/-- Disjoint blocks of a region do not hold more bytes than the region. -/
theorem bytes_le (k : Nat) : ∀ (l : List Blk) (lo hi : Int), l.length ≤ k → lo ≤ hi → D l →
    (∀ x ∈ l, 0 < x.nbytes ∧ lo ≤ x.addr ∧ x.addr + x.nbytes ≤ hi) → bytes l ≤ hi - lo := by
  induction k with
  | zero =>
    intro l lo hi hl hlo _ _
    have : l = [] := List.length_eq_zero_iff.mp (by omega)
    subst this; simp; omega
  | succ k ih =>
    intro l lo hi hl hlo hd hx
    cases l with
    | nil => simp; omega
    | cons b t =>
      rw [D_cons] at hd
      have hb := hx b List.mem_cons_self
      have hlen : t.length ≤ k := by simpa using hl
      have e := bytes_filter (fun x => decide (x.addr < b.addr)) t
      have h1 := ih (t.filter (fun x => decide (x.addr < b.addr))) lo b.addr
        (le_trans (List.length_filter_le _ _) hlen) (by omega)
        (hd.2.sublist List.filter_sublist) (by
          intro x hx'
          rw [List.mem_filter] at hx'
          have a1 := hx x (List.mem_cons_of_mem _ hx'.1)
          have a2 := hd.1 x hx'.1
          have a3 := of_decide_eq_true hx'.2
          unfold DisjBlk at a2
          omega)
      have h2 := ih (t.filter (fun x => !decide (x.addr < b.addr))) (b.addr + b.nbytes) hi
        (le_trans (List.length_filter_le _ _) hlen) (by omega)
        (hd.2.sublist List.filter_sublist) (by
          intro x hx'
          rw [List.mem_filter] at hx'
          have a1 := hx x (List.mem_cons_of_mem _ hx'.1)
          have a2 := hd.1 x hx'.1
          have a3 : ¬ x.addr < b.addr := by
            have := hx'.2
            simpa using this
          unfold DisjBlk at a2
          omega)
      rw [bytes_cons]
      omega

end GA.MA
