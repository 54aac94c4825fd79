import Verif.Model.Mirror
import Verif.Props.C35
import Verif.Lemmas.AddDot
import Mathlib.Algebra.BigOperators.Group.List.Basic
import Mathlib.Algebra.Ring.Defs

/-! # Lemmas about mirrored arrays -/

namespace GA.Mirror
open Spec Model

/-! ## Ranks -/

theorem nodeStart_succ (s : Nat) (ss : List Nat) (k : Nat) :
    nodeStart (s :: ss) (k + 1) = s + nodeStart ss k := by simp [nodeStart]

theorem nodeSize_succ (s : Nat) (ss : List Nat) (k : Nat) :
    nodeSize (s :: ss) (k + 1) = nodeSize ss k := by simp [nodeSize]

theorem rank_node {sizes : List Nat} {k l : Nat} (h : l < nodeSize sizes k) :
    nodeOf sizes (nodeStart sizes k + l) = k ∧ nodeStart sizes k + l < total sizes ∧ k < sizes.length := by
  induction sizes generalizing k with
  | nil => simp [nodeSize] at h
  | cons s ss ih =>
    cases k with
    | zero =>
      simp only [nodeSize, List.getD_cons_zero] at h
      simp only [nodeStart, List.take_zero, List.sum_nil, Nat.zero_add, nodeOf, total, List.sum_cons,
        List.length_cons]
      rw [if_pos h]
      exact ⟨rfl, by omega, by omega⟩
    | succ k =>
      rw [nodeSize_succ] at h
      obtain ⟨h1, h2, h3⟩ := ih h
      rw [nodeStart_succ, nodeOf, if_neg (by omega), show s + nodeStart ss k + l - s = nodeStart ss k + l by omega, h1]
      simp only [total, List.sum_cons, List.length_cons] at h2 ⊢
      exact ⟨trivial, by omega, by omega⟩

theorem rank_local {sizes : List Nat} {k l : Nat} (h : l < nodeSize sizes k) :
    localRank sizes (nodeStart sizes k + l) = l := by
  unfold localRank
  rw [(rank_node h).1]
  omega

theorem rank_split {sizes : List Nat} {r : Nat} (h : r < total sizes) :
    localRank sizes r < nodeSize sizes (nodeOf sizes r) ∧
    r = nodeStart sizes (nodeOf sizes r) + localRank sizes r ∧ nodeOf sizes r < sizes.length := by
  suffices ∃ k l, l < nodeSize sizes k ∧ r = nodeStart sizes k + l by
    obtain ⟨k, l, h1, rfl⟩ := this
    rw [rank_local h1, (rank_node h1).1]
    exact ⟨h1, rfl, (rank_node h1).2.2⟩
  induction sizes generalizing r with
  | nil => simp [total] at h
  | cons s ss ih =>
    by_cases hs : r < s
    · exact ⟨0, r, by simpa [nodeSize] using hs, by simp [nodeStart]⟩
    · simp only [total, List.sum_cons] at h
      obtain ⟨k, l, h1, h2⟩ := ih (r := r - s) (by simp only [total]; omega)
      exact ⟨k + 1, l, by rw [nodeSize_succ]; exact h1, by rw [nodeStart_succ]; omega⟩

/-- a sum over all processes, node by node -/
theorem sum_nodes {V : Type} [AddCommMonoid V] (sizes : List Nat) (F : Nat → V) :
    ((List.range (total sizes)).map F).sum =
      ((List.range sizes.length).map fun k =>
        ((List.range (nodeSize sizes k)).map fun l => F (nodeStart sizes k + l)).sum).sum := by
  induction sizes generalizing F with
  | nil => simp [total]
  | cons s ss ih =>
    have : total (s :: ss) = s + total ss := by simp [total]
    rw [this, List.range_add, List.map_append, List.sum_append, List.map_map, ih (F ∘ (s + ·)),
      List.length_cons, List.range_succ_eq_map, List.map_cons, List.sum_cons, List.map_map]
    congr 1
    · simp [nodeSize, nodeStart]
    · congr 1
      apply List.map_congr_left
      intro k _
      simp only [Function.comp_apply, nodeSize_succ, nodeStart_succ, Nat.add_assoc]

/-! ## Shifted memory -/

section
variable {V : Type}

/-- the memory of the processes of a node, seen with the ranks inside of the node -/
def nodeMem (sizes : List Nat) (k : Nat) (m : Addr → V) : Addr → V := fun a => m (shiftA (nodeStart sizes k) a)

theorem shiftA_inj {s : Nat} {a b : Addr} (h : shiftA s a = shiftA s b) : a = b := by
  simp only [shiftA, Prod.mk.injEq] at h
  exact Prod.ext (by omega) h.2

/-- transfers to shifted addresses, seen from the node -/
theorem foldl_shift (s : Nat) (ts : List Xfer) (g : V → Int → V) (m : Addr → V) (b : Addr) :
    (ts.map fun t : Xfer => (⟨t.buf, shiftA s t.addr⟩ : Xfer)).foldl (fun m t => upd m t.addr (g (m t.addr) t.buf)) m b =
      ts.foldl (fun m t => upd m t.addr (g (m t.addr) t.buf)) (fun a => m (shiftA s a)) (b.1 - s, b.2) := by
  induction ts generalizing m with
  | nil => simp [shiftA]
  | cons t ts ih =>
    rw [List.map_cons, List.foldl_cons, List.foldl_cons, ih]
    refine congrFun (congrArg (fun M => ts.foldl (fun m t => upd m t.addr (g (m t.addr) t.buf)) M) ?_) _
    funext a
    unfold upd
    by_cases h : a = t.addr
    · rw [if_pos (by rw [h]), if_pos h]
    · rw [if_neg fun h' => h (shiftA_inj h'), if_neg h]

theorem mirPut_eq (sizes : List Nat) (A : Nat → RegArray) (k : Nat) (E : Env) (lo hi : List Int)
    (buf : Int → V) (ld : List Int) (m : Addr → V) :
    mirPut sizes A k E lo hi buf ld m =
      (ngaPut E (A k) lo hi buf ld (nodeMem sizes k m)).map fun m' b => m' (b.1 - nodeStart sizes k, b.2) := by
  unfold mirPut ngaPut
  rw [Option.map_map]
  congr 1
  funext ps
  funext b
  exact foldl_shift (nodeStart sizes k) _ (fun _ i => buf i) m b

theorem mirAcc_eq [Add V] [Mul V] (sizes : List Nat) (A : Nat → RegArray) (k : Nat) (E : Env) (lo hi : List Int)
    (buf : Int → V) (ld : List Int) (alpha : V) (m : Addr → V) :
    mirAcc sizes A k E lo hi buf ld alpha m =
      (ngaAcc E (A k) lo hi buf ld alpha (nodeMem sizes k m)).map fun m' b => m' (b.1 - nodeStart sizes k, b.2) := by
  unfold mirAcc ngaAcc
  rw [Option.map_map]
  congr 1
  funext ps
  funext b
  exact foldl_shift (nodeStart sizes k) _ (fun v i => v + alpha * buf i) m b

theorem mirGet_eq (sizes : List Nat) (A : Nat → RegArray) (k : Nat) (E : Env) (lo hi : List Int)
    (buf : Int → V) (ld : List Int) (m : Addr → V) :
    mirGet sizes A k E lo hi buf ld m = ngaGet E (A k) lo hi buf ld (nodeMem sizes k m) := by
  unfold mirGet ngaGet
  congr 1
  funext ps
  generalize xfers E.isLocal lo ld ps = ts
  induction ts generalizing buf with
  | nil => rfl
  | cons t ts ih =>
    simp only [applyGet, List.map_cons, List.foldl_cons] at ih ⊢
    exact ih _

theorem unshift_nodeMem (sizes : List Nat) (k : Nat) (m' : Addr → V) :
    nodeMem sizes k (fun b => m' (b.1 - nodeStart sizes k, b.2)) = m' := by
  funext a
  simp [nodeMem, shiftA]

/-- arrays of a cluster: a well-formed array of the same dimensions on every node -/
structure MirOK (sizes : List Nat) (A : Nat → RegArray) (dims : List Int) : Prop where
  dims : ∀ k, k < sizes.length → (A k).dims = dims
  ok : ∀ k, k < sizes.length → ArrOK (A k) ∧ gridSize (A k).nblock ≤ nodeSize sizes k

/-- content of the copy on node `k` in terms of cells -/
def CopyRepr (sizes : List Nat) (A : Nat → RegArray) (k : Nat) (m : Addr → V) (f : List Int → V) : Prop :=
  ∀ x, InArray (A k).dims x → m (shiftA (nodeStart sizes k) (cell (A k) x)) = f x

/-- the cells of the copies of different nodes are different -/
theorem cell_node {sizes : List Nat} {A : RegArray} {k : Nat} (hA : ArrOK A) (hn : gridSize A.nblock ≤ nodeSize sizes k)
    {x : List Int} (hx : InArray A.dims x) :
    ∃ l : Nat, l < nodeSize sizes k ∧ (cell A x).1 = l ∧ InPatch (owns A l).1 (owns A l).2 x ∧
      l < gridSize A.nblock ∧ (shiftA (nodeStart sizes k) (cell A x)).1 = ((nodeStart sizes k + l : Nat) : Int) := by
  obtain ⟨l, h1, h2, h3, h4, _⟩ := reg_bounds hA hn hx
  exact ⟨l, h2, h1, h4, h3, by simp only [shiftA, h1]; omega⟩

/-- a put on one node: the copy there changes like a plain array, other copies do not change -/
theorem mirPut_repr {sizes : List Nat} {A : Nat → RegArray} {dims : List Int} (hA : MirOK sizes A dims)
    {k : Nat} (hk : k < sizes.length) {E : Env} (hE : EnvOK E (A k)) {lo hi ld : List Int} (hld : LdOK lo hi ld)
    {buf : Int → V} {m m' : Addr → V} (h : mirPut sizes A k E lo hi buf ld m = some m') :
    (∀ f, CopyRepr sizes A k m f → CopyRepr sizes A k m' fun x => if InPatch lo hi x then buf (bufPos lo ld x) else f x) ∧
    (∀ j, j < sizes.length → j ≠ k → ∀ f, CopyRepr sizes A j m f → CopyRepr sizes A j m' f) := by
  rw [mirPut_eq, Option.map_eq_some_iff] at h
  obtain ⟨m1, h1, rfl⟩ := h
  obtain ⟨rs, hrs, rfl⟩ := Option.map_eq_some_iff.1 h1
  obtain ⟨hok, himp⟩ := implements_of_pieces (hA.ok k hk).1 hE hrs hld
  constructor
  · intro f hf x hx
    have := congrFun (unshift_nodeMem sizes k (applyPut (xfers E.isLocal lo ld rs) buf (nodeMem sizes k m))) (cell (A k) x)
    refine Eq.trans this ?_
    dsimp only
    split
    · rename_i hp
      exact put_hit himp (fun x y hx hy => cell_inj (hA.ok k hk).1 (hok.inArray hx) (hok.inArray hy)) buf _ hp
    · rename_i hp
      rw [put_miss himp]
      · exact hf x hx
      · intro y hy e
        exact hp (cell_inj (hA.ok k hk).1 (hok.inArray hy) hx e ▸ hy)
  · intro j hj hne f hf x hx
    obtain ⟨l, l1, l2, l3, l4, l5⟩ := cell_node (sizes := sizes) (hA.ok j hj).1 (hA.ok j hj).2 hx
    dsimp only
    rw [put_miss himp]
    · rw [← hf x hx]
      simp [nodeMem, shiftA]
    · intro y hy e
      obtain ⟨l', b1, b2, b3, b4, b5⟩ := cell_node (sizes := sizes) (hA.ok k hk).1 (hA.ok k hk).2 (hok.inArray hy)
      have e1 := congrArg Prod.fst e
      simp only at e1
      rw [b2, l5] at e1
      have : nodeStart sizes k + l' = nodeStart sizes j + l := by omega
      have k1 := (rank_node b1).1
      have k2 := (rank_node l1).1
      rw [this, k2] at k1
      exact hne k1

/-- the same for accumulate -/
theorem mirAcc_repr [Add V] [Mul V] {sizes : List Nat} {A : Nat → RegArray} {dims : List Int} (hA : MirOK sizes A dims)
    {k : Nat} (hk : k < sizes.length) {E : Env} (hE : EnvOK E (A k)) {lo hi ld : List Int} (hld : LdOK lo hi ld)
    {buf : Int → V} {alpha : V} {m m' : Addr → V} (h : mirAcc sizes A k E lo hi buf ld alpha m = some m') :
    (∀ f, CopyRepr sizes A k m f → CopyRepr sizes A k m' fun x => if InPatch lo hi x then f x + alpha * buf (bufPos lo ld x) else f x) ∧
    (∀ j, j < sizes.length → j ≠ k → ∀ f, CopyRepr sizes A j m f → CopyRepr sizes A j m' f) := by
  rw [mirAcc_eq, Option.map_eq_some_iff] at h
  obtain ⟨m1, h1, rfl⟩ := h
  obtain ⟨rs, hrs, rfl⟩ := Option.map_eq_some_iff.1 h1
  obtain ⟨hok, himp⟩ := implements_of_pieces (hA.ok k hk).1 hE hrs hld
  constructor
  · intro f hf x hx
    have := congrFun (unshift_nodeMem sizes k (applyAcc (xfers E.isLocal lo ld rs) alpha buf (nodeMem sizes k m))) (cell (A k) x)
    refine Eq.trans this ?_
    dsimp only
    split
    · rename_i hp
      rw [acc_hit himp (fun x y hx hy => cell_inj (hA.ok k hk).1 (hok.inArray hx) (hok.inArray hy)) alpha buf _ hp]
      exact congrArg (· + alpha * buf (bufPos lo ld x)) (hf x hx)
    · rename_i hp
      rw [acc_miss himp]
      · exact hf x hx
      · intro y hy e
        exact hp (cell_inj (hA.ok k hk).1 (hok.inArray hy) hx e ▸ hy)
  · intro j hj hne f hf x hx
    obtain ⟨l, l1, l2, l3, l4, l5⟩ := cell_node (sizes := sizes) (hA.ok j hj).1 (hA.ok j hj).2 hx
    dsimp only
    rw [acc_miss himp]
    · rw [← hf x hx]
      simp [nodeMem, shiftA]
    · intro y hy e
      obtain ⟨l', b1, b2, b3, b4, b5⟩ := cell_node (sizes := sizes) (hA.ok k hk).1 (hA.ok k hk).2 (hok.inArray hy)
      have e1 := congrArg Prod.fst e
      simp only at e1
      rw [b2, l5] at e1
      have : nodeStart sizes k + l' = nodeStart sizes j + l := by omega
      have k1 := (rank_node b1).1
      have k2 := (rank_node l1).1
      rw [this, k2] at k1
      exact hne k1

end

end GA.Mirror
