import Verif.Props.C07
import Mathlib.Algebra.BigOperators.Group.List.Basic

/-!
# C10: concurrent accumulates are order independent

Every accumulate request is a list of atomic element updates `mem[a] += v` (the handlers of the
communication layer apply a whole message under a lock, which is a special case). Concurrent
requests execute any interleaving of all their updates.
-/

namespace GA
open Spec Model

/-- An accumulate request of some process, with its environment. -/
structure AccReq (V : Type) where
  env : Env
  lo : List Int
  hi : List Int
  ld : List Int
  alpha : V
  buf : Int → V

variable {V : Type}

/-- The atomic updates of one request (onesided.c 1334-1455). -/
def accUpdates [Mul V] (A : RegArray) (r : AccReq V) : Option (List (Addr × V)) :=
  (regPieces r.env A r.lo r.hi).map fun ps =>
    (xfers r.env.isLocal r.lo r.ld ps).map fun t => (t.addr, r.alpha * r.buf t.buf)

/-- execute atomic updates -/
def applyAdds [Add V] (us : List (Addr × V)) (m : Addr → V) : Addr → V :=
  us.foldl (fun m u => upd m u.1 (m u.1 + u.2)) m

/-- What the request contributes to element `x`. -/
def contribution [Mul V] [Zero V] (r : AccReq V) (x : List Int) : V :=
  if InPatch r.lo r.hi x then r.alpha * r.buf (bufPos r.lo r.ld x) else 0

theorem applyAdds_eq [AddCommMonoid V] (us : List (Addr × V)) (m : Addr → V) (a : Addr) :
    applyAdds us m a = m a + (us.map fun u => if u.1 = a then u.2 else 0).sum := by
  induction us generalizing m with
  | nil => simp [applyAdds]
  | cons u us ih =>
    have : applyAdds (u :: us) m = applyAdds us (upd m u.1 (m u.1 + u.2)) := rfl
    rw [this, ih]
    simp only [List.map_cons, List.sum_cons, upd]
    by_cases h : a = u.1
    · subst h; simp [add_assoc]
    · rw [if_neg h, if_neg (fun e => h e.symm), zero_add]

theorem sum_updates [AddCommMonoid V] [Mul V] {A : RegArray} (hA : ArrOK A) {r : AccReq V}
    (hE : EnvOK r.env A) (hld : LdOK r.lo r.hi r.ld) {us : List (Addr × V)}
    (h : accUpdates A r = some us) {x : List Int} (hx : InArray A.dims x) :
    (us.map fun u => if u.1 = cell A x then u.2 else 0).sum = contribution r x := by
  unfold accUpdates at h
  rw [Option.map_eq_some_iff] at h
  obtain ⟨ps, hps, rfl⟩ := h
  obtain ⟨hok, himp⟩ := implements_of_pieces hA hE hps hld
  rw [List.map_map]
  unfold Implements at himp
  rw [(himp.map _).sum_eq, List.map_map]
  have hcongr : ∀ y ∈ box r.lo r.hi,
      ((fun (t : Xfer) => if (t.addr, r.alpha * r.buf t.buf).1 = cell A x then
        (t.addr, r.alpha * r.buf t.buf).2 else (0 : V)) ∘
        fun y => (⟨bufPos r.lo r.ld y, cell A y⟩ : Xfer)) y =
      if y = x then r.alpha * r.buf (bufPos r.lo r.ld x) else 0 := by
    intro y hy
    simp only [Function.comp]
    by_cases e : y = x
    · subst e; simp
    · rw [if_neg e, if_neg]
      intro e'
      exact e (cell_inj hA (hok.inArray (mem_box.1 hy)) hx e')
  have : (box r.lo r.hi).map ((fun (t : Xfer) => if (t.addr, r.alpha * r.buf t.buf).1 = cell A x then
        (t.addr, r.alpha * r.buf t.buf).2 else (0 : V)) ∘
        fun y => (⟨bufPos r.lo r.ld y, cell A y⟩ : Xfer)) =
      (box r.lo r.hi).map fun y => if y = x then r.alpha * r.buf (bufPos r.lo r.ld x) else 0 :=
    List.map_congr_left hcongr
  refine Eq.trans (congrArg List.sum this) ?_
  unfold contribution
  have hnd := nodup_box r.lo r.hi
  have hmem := mem_box (lo := r.lo) (hi := r.hi) (x := x)
  clear this hcongr
  generalize box r.lo r.hi = l at *
  generalize r.alpha * r.buf (bufPos r.lo r.ld x) = v
  by_cases hin : x ∈ l
  · rw [if_pos (hmem.1 hin)]
    clear hmem himp hps
    induction l with
    | nil => simp at hin
    | cons y l ih =>
      rw [List.nodup_cons] at hnd
      rcases List.mem_cons.1 hin with rfl | hin
      · simp only [List.map_cons, if_true, List.sum_cons]
        have : (l.map fun y => if y = x then v else 0) = l.map fun _ => (0 : V) := by
          apply List.map_congr_left
          intro y hy
          rw [if_neg]
          rintro rfl
          exact hnd.1 hy
        rw [this]
        simp
      · simp only [List.map_cons, List.sum_cons]
        rw [ih hnd.2 hin, if_neg, zero_add]
        rintro rfl
        exact hnd.1 hin
  · rw [if_neg (fun h => hin (hmem.2 h))]
    have : (l.map fun y => if y = x then v else 0) = l.map fun _ => (0 : V) := by
      apply List.map_congr_left
      intro y hy
      rw [if_neg]
      rintro rfl
      exact hin hy
    rw [this]
    simp

/-- **C10.** For every set of concurrent accumulate requests (each with its own caller
environment) and every interleaving of their atomic updates, a get issued afterwards returns, for
each element, the initial value plus the sum of the contributions of all requests. -/
theorem C10_acc_order_independent [AddCommMonoid V] [Mul V] (A : RegArray) (hA : ArrOK A)
    (m0 : Addr → V) :
    ∃ f0 : List Int → V, ∀ (rs : List (AccReq V)) (uss : List (List (Addr × V))),
      (∀ r ∈ rs, EnvOK r.env A ∧ LdOK r.lo r.hi r.ld) →
      List.Forall₂ (fun r us => accUpdates A r = some us) rs uss →
      ∀ interleaving, interleaving.Perm uss.flatten →
      ∀ (E : Env) (lo hi ld : List Int) (buf buf' : Int → V), EnvOK E A → LdOK lo hi ld →
        ngaGet E A lo hi buf ld (applyAdds interleaving m0) = some buf' →
        GetResult lo hi ld (fun x => f0 x + (rs.map fun r => contribution r x).sum) buf buf' := by
  refine ⟨fun x => m0 (cell A x), ?_⟩
  intro rs uss hrs huss il hil E lo hi ld buf buf' hE hld hg
  refine get_repr hA hE hld ?_ hg
  intro x hx
  rw [applyAdds_eq, (hil.map _).sum_eq]
  congr 1
  clear hil hg
  induction huss with
  | nil => simp
  | @cons r us rs uss h1 h2 ih =>
    obtain ⟨a, b⟩ := hrs r (by simp)
    simp only [List.flatten_cons, List.map_append, List.sum_append, List.map_cons, List.sum_cons]
    rw [ih fun r' h' => hrs r' (by simp [h']), sum_updates hA a b h1 hx]

/-- the atomic updates are those of `NGA_Acc` -/
theorem accUpdates_ngaAcc [Add V] [Mul V] (A : RegArray) (r : AccReq V) (m : Addr → V) :
    ngaAcc r.env A r.lo r.hi r.buf r.ld r.alpha m = (accUpdates A r).map fun us => applyAdds us m := by
  unfold ngaAcc accUpdates
  rw [Option.map_map]
  congr 1
  funext ps
  simp [applyAcc, applyAdds, Function.comp, List.foldl_map]

/-- two overlapping requests on the example array, with 12 updates altogether -/
example : ((accUpdates exG ⟨exE, [3, 2], [4, 4], [2], (2 : Int), fun i => i⟩).map List.length,
    (accUpdates exG ⟨exE2, [4, 3], [6, 4], [4], (3 : Int), fun i => i⟩).map List.length) =
    (some 6, some 6) := by decide

end GA
