import Verif.Lemmas.NbOps

/-!
# C21: non-blocking handles

`K` is the size of the two pools of Global Arrays (1 to 256), `N` that of the pool of the
communication layer. Histories are arbitrary: any number of operations with any number of pieces, waits
and tests with any handle (also stale or invalid ones), other traffic, any answers of MPI.
-/

namespace GA.Nb

/-- No history makes an assertion fail or a loop run for ever. -/
theorem C21_no_error {K N : Nat} (hK : 0 < K) (hK2 : K ≤ 256) (hN : 0 < N) (os : List Op)
    (hos : ∀ o ∈ os, OpOK N o) : (run K N (init K) os).err = false ∧ (run K N (init K) os).cx.err = false := by
  obtain ⟨L, h, _⟩ := run_ok hK hK2 os hos (Inv.init hN)
  exact ⟨h.err, h.cx.noErr⟩

/-- An operation issues the messages of all its pieces. -/
theorem C21_issues {K N : Nat} (hK : 0 < K) (hK2 : K ≤ 256) (hN : 0 < N) (os : List Op)
    (hos : ∀ o ∈ os, OpOK N o) (kss : List (List Bool)) :
    (nbop K N (run K N (init K) os) kss).1.cx.fresh = (run K N (init K) os).cx.fresh + total kss := by
  obtain ⟨L, h, _⟩ := run_ok hK hK2 os hos (Inv.init hN)
  obtain ⟨_, _, a, _⟩ := nbop_ok hK hK2 h kss
  exact a

/-- After `NGA_NbWait` on the handle of an operation, every message of the operation is complete,
whatever happened between. -/
theorem C21_wait {K N : Nat} (hK : 0 < K) (hK2 : K ≤ 256) (hN : 0 < N) (os os' : List Op)
    (hos : ∀ o ∈ os ++ os', OpOK N o) (kss : List (List Bool)) (m : Nat) :
    let s := run K N (init K) os
    let r := nbop K N s kss
    s.cx.fresh ≤ m → m < r.1.cx.fresh → m ∈ (nbwait K N (run K N r.1 os') r.2).cx.log := by
  intro s r h1 h2
  obtain ⟨L, h, _⟩ := run_ok hK hK2 os (fun o ho => hos o (by simp [ho])) (Inv.init hN)
  obtain ⟨L1, a1, a2, _, a4⟩ := nbop_ok hK hK2 h kss
  obtain ⟨L2, b1, b2⟩ := run_ok hK hK2 os' (fun o ho => hos o (by simp [ho])) a1
  obtain ⟨L3, _, _, c, _⟩ := b1.waitH r.2
  exact c m (b2 m _ _ (a4 m h1 (by rw [← a2]; exact h2)))

/-- When `NGA_NbTest` reports completion for the handle of an operation, every message of the
operation is complete. -/
theorem C21_test {K N : Nat} (hK : 0 < K) (hK2 : K ≤ 256) (hN : 0 < N) (os os' : List Op)
    (hos : ∀ o ∈ os ++ os', OpOK N o) (kss : List (List Bool)) (fl : Nat → Bool) (m : Nat) :
    let s := run K N (init K) os
    let r := nbop K N s kss
    let t := nbtest K N (run K N r.1 os') r.2 fl
    s.cx.fresh ≤ m → m < r.1.cx.fresh → t.2 = 1 → m ∈ t.1.cx.log := by
  intro s r t h1 h2 ht
  obtain ⟨L, h, _⟩ := run_ok hK hK2 os (fun o ho => hos o (by simp [ho])) (Inv.init hN)
  obtain ⟨L1, a1, a2, _, a4⟩ := nbop_ok hK hK2 h kss
  obtain ⟨L2, b1, b2⟩ := run_ok hK hK2 os' (fun o ho => hos o (by simp [ho])) a1
  obtain ⟨L3, _, _, c, _⟩ := b1.testH r.2 fl
  have hz : (testH K N (run K N r.1 os') r.2 fl).2 = 0 := by
    by_contra hne
    have : t.2 = 0 := if_neg hne
    omega
  exact c hz m (b2 m _ _ (a4 m h1 (by rw [← a2]; exact h2)))

/-- Complete messages stay complete. -/
theorem C21_complete_stays {K N : Nat} (hK : 0 < K) (hK2 : K ≤ 256) (hN : 0 < N) (os os' : List Op)
    (hos : ∀ o ∈ os ++ os', OpOK N o) (m : Nat) (hm : m ∈ (run K N (init K) os).cx.log) :
    m ∈ (run K N (run K N (init K) os) os').cx.log := by
  obtain ⟨L, h, _⟩ := run_ok hK hK2 os (fun o ho => hos o (by simp [ho])) (Inv.init hN)
  obtain ⟨L2, b1, b2⟩ := run_ok hK hK2 os' (fun o ho => hos o (by simp [ho])) h
  rcases b2 m K 0 (Or.inl hm) with h1 | ⟨_, a, ha, _⟩
  · exact h1
  · rw [b1.range K (le_refl K)] at ha; simp at ha

/-- When MPI reports everything as complete, so does `NGA_NbTest`: a test loop ends. -/
theorem C21_test_progress {K N : Nat} (hK : 0 < K) (hK2 : K ≤ 256) (hN : 0 < N) (os : List Op)
    (hos : ∀ o ∈ os, OpOK N o) (h : Hdl) (fl : Nat → Bool) (hfl : ∀ m, fl m = true) :
    (nbtest K N (run K N (init K) os) h fl).2 = 1 := by
  obtain ⟨L, hI, _⟩ := run_ok hK hK2 os hos (Inv.init hN)
  obtain ⟨_, _, _, _, c⟩ := hI.testH h fl
  exact if_pos (c hfl)

/-! ### The statements are not vacuous -/

/-- pools of two handles; the second operation needs three internal handles and so takes the one of
the first operation -/
def exOps : List Op :=
  [.nb [[false]], .test ⟨0, 0⟩ (fun _ => false), .nb [[true], [false], [true, false]]]

example : ∀ o ∈ exOps, OpOK 3 o := by simp [exOps, OpOK]
example : (nbop 2 3 (init 2) [[false]]).2 = ⟨0, 0⟩ := by decide +kernel
/-- the message of the first operation was completed when its handle was recycled; two messages of
the second operation (2 and 3, 4) are still pending -/
example : (run 2 3 (init 2) exOps).cx.log = [0, 1] ∧ (run 2 3 (init 2) exOps).cx.fresh = 5 := by
  decide +kernel
example : (nbtest 2 3 (run 2 3 (init 2) exOps) ⟨1, 1⟩ (fun m => m == 2)).2 = 0 := by decide +kernel
example : (nbwait 2 3 (run 2 3 (init 2) exOps) ⟨1, 1⟩).cx.log = [0, 1, 4, 3, 2] := by decide +kernel
example : (nbtest 2 3 (run 2 3 (init 2) exOps) ⟨0, 0⟩ (fun _ => false)).2 = 1 := by decide +kernel

end GA.Nb
