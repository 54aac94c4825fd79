import Verif.Props.C43

/-!
# C44: restricted arrays translate process numbers consistently

A restricted array is a regular array `A` together with `R = setRestricted ganproc nproc list`:
`ganproc` processes in all, `nproc` in the group of the array (`nproc = ganproc` for the world
group), whose ranks are the process numbers used by `NGA_Locate` (`Model.rLocate`) and
`NGA_Distribution` (`Model.rOwns`).
-/

namespace GA
open Spec Model

/-- Subscript `x` lies in the block that `NGA_Distribution` reports for process `p`. -/
def ROwnedBy (A : RegArray) (R : Restriction) (p : Int) (x : List Int) : Prop :=
  ∃ b, rOwns A R p = some b ∧ InPatch b.1 b.2 x

private theorem rankLoop_spec {nproc : Nat} {list : List Int} {i : Int} {rank r : List Int}
    (hr : nproc ≤ rank.length) (h : rankLoop nproc list i rank = some r) :
    (∀ p ∈ list, 0 ≤ p ∧ p < nproc) ∧ r.length = rank.length ∧
    (∀ k : Nat, (k : Int) ∉ list → r[k]? = rank[k]?) ∧
    (list.Nodup → ∀ (j : Nat) (p : Int), list[j]? = some p → r[p.toNat]? = some (i + (j : Int))) := by
  induction list generalizing i rank with
  | nil => simp only [rankLoop, Option.some.injEq] at h; subst h; simp
  | cons q ps ih =>
    simp only [rankLoop] at h
    split at h
    · simp at h
    rename_i hq
    obtain ⟨a, b, c, d⟩ := ih (by simpa using hr) h
    refine ⟨?_, by simpa using b, ?_, ?_⟩
    · intro p hp
      rcases List.mem_cons.1 hp with rfl | hp
      · omega
      · exact a p hp
    · intro k hk
      simp only [List.mem_cons, not_or] at hk
      rw [c k hk.2, List.getElem?_set_ne]
      omega
    · intro hnd j p hj
      obtain ⟨n1, n2⟩ := List.nodup_cons.1 hnd
      cases j with
      | zero =>
        simp only [List.getElem?_cons_zero, Option.some.injEq] at hj
        subst hj
        rw [c q.toNat (by rw [Int.toNat_of_nonneg (by omega)]; exact n1),
          List.getElem?_set_self (by omega)]
        simp
      | succ j =>
        rw [d n2 j p (by simpa using hj)]
        congr 1
        push_cast
        ring

private theorem hasDataLoop_spec {me : Int} {list : List Int} {i id : Int} {has : Bool} :
    (hasDataLoop me list i has id).1 = (has || decide (me ∈ list)) := by
  induction list generalizing i has id with
  | nil => simp [hasDataLoop]
  | cons p ps ih =>
    simp only [hasDataLoop]
    split
    · rename_i h; rw [ih]; simp [h]
    · rename_i h; rw [ih]; simp [h]

/-- **C44.** Let an array with a well-formed map be restricted to a list of distinct processes that
is as long as there are blocks. Every element has exactly one owner in terms of the user-visible
process numbers: the owner is in the list, `NGA_Locate` returns it, and `NGA_Distribution` reports a
block with the element for it and for no other process. Processes that are not in the list own
nothing and allocate nothing. -/
theorem C44_restricted (A : RegArray) (hne : A.dims ≠ []) (hm : MapOK A.nblock A.dims A.mapc)
    (ganproc nproc : Nat) (hg : nproc ≤ ganproc) (list : List Int) (hnd : list.Nodup)
    (hl : list ≠ []) (hgrid : A.nblock.prod ≤ list.length) (R : Restriction)
    (hR : setRestricted ganproc nproc list = some R) :
    (∀ x, InArray A.dims x → ∃ p, p ∈ list ∧ (0 ≤ p ∧ p < (nproc : Int)) ∧ ROwnedBy A R p x ∧
      (∀ cand, CandOK A.nblock cand → rLocate A R cand x = some (some p)) ∧
      ∀ q, ROwnedBy A R q x → q = p) ∧
    (∀ x, ¬ InArray A.dims x → x.length = A.dims.length → (∀ p, ¬ ROwnedBy A R p x) ∧
      ∀ cand, CandOK A.nblock cand → rLocate A R cand x = none) ∧
    (∀ p : Int, 0 ≤ p → p < nproc → p ∉ list → (∀ x, ¬ ROwnedBy A R p x) ∧ rAlloc A R p = some 0) := by
  unfold setRestricted at hR
  obtain ⟨r, hr, rfl⟩ := Option.map_eq_some_iff.1 hR
  obtain ⟨r1, r2, r3, r4⟩ := rankLoop_spec (by simpa using hg) hr
  rw [List.length_replicate] at r2
  have r4 := r4 hnd
  have hlen : 0 < list.length := List.length_pos_iff.2 hl
  -- the block of a listed process
  have hown : ∀ (j : Nat) (p : Int), list[j]? = some p → rOwns A ⟨list, r⟩ p = some (owns A j) := by
    intro j p hj
    have hp := r1 p (List.mem_of_getElem? hj)
    have hj' : j < list.length := (List.getElem?_eq_some_iff.1 hj).1
    unfold rOwns
    rw [if_pos hlen, if_pos hp.1, r4 j p hj]
    simp only [Option.map_some, zero_add, rOwnsBlock]
    rw [if_neg (by omega), if_pos (by exact_mod_cast hj')]
  -- an unlisted process owns nothing
  have hnot : ∀ p : Int, 0 ≤ p → p ∉ list → ∀ b, rOwns A ⟨list, r⟩ p = some b → b = owns A (-1) := by
    intro p h0 hp b hb
    have e := r3 p.toNat (by rw [Int.toNat_of_nonneg h0]; exact hp)
    unfold rOwns at hb
    rw [if_pos hlen, if_pos h0, e] at hb
    rw [List.getElem?_replicate] at hb
    split at hb
    · simp only [Option.map_some, Option.some.injEq, rOwnsBlock] at hb
      rw [if_neg (by omega), if_pos (by omega)] at hb
      exact hb.symm
    · simp at hb
  have hempty : ∀ x, ¬ InPatch (owns A (-1)).1 (owns A (-1)).2 x := by
    intro x hx
    have := (ownedBy_iff hne hm (p := -1)).1 hx
    omega
  have hcand : CandOK A.nblock (A.nblock.map fun _ => 0) := by
    clear * -
    induction A.nblock with
    | nil => simp [CandOK]
    | cons a l ih => exact ⟨Nat.zero_le _, ih⟩
  have hlisted : ∀ q x, ROwnedBy A ⟨list, r⟩ q x → ∃ j : Nat, list[j]? = some q ∧ OwnedBy A j x := by
    rintro q x ⟨b, hb, hxb⟩
    have h0 : 0 ≤ q := by
      by_contra hc
      unfold rOwns at hb
      rw [if_pos hlen, if_neg hc] at hb
      simp at hb
    by_cases hq : q ∈ list
    · obtain ⟨j, hj, rfl⟩ := List.getElem_of_mem hq
      have hj' := List.getElem?_eq_getElem hj
      rw [hown j _ hj'] at hb
      simp only [Option.some.injEq] at hb
      subst hb
      exact ⟨j, hj', hxb⟩
    · rw [hnot q h0 hq b hb] at hxb
      exact absurd hxb (hempty x)
  refine ⟨?_, ?_, ?_⟩
  · intro x hx
    obtain ⟨b, e1, e2, e3, e4, e5⟩ := (C01_unique_owner A hne hm _ hcand x hx.length).1 hx
    rw [gridSize_eq_prod] at e3
    have hb : b.toNat < list.length := by omega
    have hb' : list[b.toNat]? = some list[b.toNat] := List.getElem?_eq_getElem hb
    have hbn : ((b.toNat : Nat) : Int) = b := Int.toNat_of_nonneg e2
    refine ⟨list[b.toNat], List.getElem_mem hb, r1 _ (List.getElem_mem hb), ?_, ?_, ?_⟩
    · exact ⟨_, hown _ _ hb', by rw [hbn]; exact e4⟩
    · intro cand hc
      obtain ⟨b', f1, _, _, f4, _⟩ := (C01_unique_owner A hne hm cand hc x hx.length).1 hx
      unfold rLocate
      rw [f1, e5 b' f4]
      simp only [Option.map_some]
      rw [if_pos hlen, if_pos e2, hb']
    · intro q hq
      obtain ⟨j, j1, j2⟩ := hlisted q x hq
      have : b.toNat = j := by have := e5 _ j2; omega
      rw [← this, hb'] at j1
      exact (Option.some.inj j1).symm
  · intro x hx hxl
    constructor
    · intro p hp
      obtain ⟨j, _, j2⟩ := hlisted p x hp
      exact ((C01_unique_owner A hne hm _ hcand x hxl).2 hx).2 _ j2
    · intro cand hc
      unfold rLocate
      rw [((C01_unique_owner A hne hm cand hc x hxl).2 hx).1]
      rfl
  · intro p h0 h1 hp
    constructor
    · rintro x ⟨b, hb, hxb⟩
      rw [hnot p h0 hp b hb] at hxb
      exact hempty x hxb
    · have hex : ∃ b, rOwns A ⟨list, r⟩ p = some b := by
        unfold rOwns
        rw [if_pos hlen, if_pos h0, r3 p.toNat (by rw [Int.toNat_of_nonneg h0]; exact hp),
          List.getElem?_replicate, if_pos (by omega)]
        exact ⟨_, rfl⟩
      obtain ⟨b, hb⟩ := hex
      unfold rAlloc
      rw [hb]
      simp only [Option.map_some]
      rw [if_neg]
      rw [hasDataLoop_spec]
      simp [hp, hl]

/-- Number of elements of a block with ghost cells of the given widths on both sides. -/
def ghostVolume : (lo hi : List Int) → (width : List Nat) → Int
  | l :: lo, h :: hi, w :: ws => (h - l + 1 + 2 * w) * ghostVolume lo hi ws
  | _, _, _ => 1

/-- **C44 (memory).** A process in the list allocates its block with the ghost cells. -/
theorem C44_listed_allocates (A : RegArray) (ganproc nproc : Nat) (list : List Int) (R : Restriction)
    (hR : setRestricted ganproc nproc list = some R) (p : Int) (hp : p ∈ list) (b : List Int × List Int)
    (hb : rOwns A R p = some b) : rAlloc A R p = some (ghostVolume b.1 b.2 A.width) := by
  unfold setRestricted at hR
  obtain ⟨r, hr, rfl⟩ := Option.map_eq_some_iff.1 hR
  have key : ∀ (lo hi : List Int) (ws : List Nat) (n : Int),
      ((lo.zip hi).zip ws).foldl (fun (n : Int) e => n * (e.1.2 - e.1.1 + 1 + 2 * (e.2 : Int))) n =
        n * ghostVolume lo hi ws := by
    intro lo
    induction lo with
    | nil => intro hi ws n; simp [ghostVolume]
    | cons l lo ih =>
      intro hi ws n
      match hi, ws with
      | [], ws => simp [ghostVolume]
      | h :: hi, [] => simp [ghostVolume]
      | h :: hi, w :: ws =>
        simp only [List.zip_cons_cons, List.foldl_cons, ghostVolume]
        rw [ih]
        ring
  unfold rAlloc
  rw [hb, Option.map_some, if_pos, key, one_mul]
  right
  rw [hasDataLoop_spec]
  simp [hp]

/-- **C44 (default distribution).** An array created with the default distribution and restricted to
a list of distinct processes meets the requirement of `C44_restricted`: there are not more blocks
than processes in the list. -/
theorem C44_default_fits (less : Waste → Waste → Bool) (dims chunk list : List Int)
    (width : List Nat) (hd : dims ≠ []) (hp : ∀ d ∈ dims, 1 ≤ d)
    (hc : chunk.length = dims.length) (hl : list ≠ []) :
    ∃ A, defaultArray less list.length dims chunk width = some A ∧
      MapOK A.nblock A.dims A.mapc ∧ A.nblock.prod ≤ list.length := by
  have hn : 0 < list.length := List.length_pos_iff.2 hl
  obtain ⟨blk, b1, b2, b3⟩ := defaultArray_spec (less := less) (width := width) hn hd hp hc
  obtain ⟨hm, hg⟩ := axes_mapOK b2
  rw [(procGrid_spec hn hd (startBlk_length hc)).1, gridSize_eq_prod] at hg
  exact ⟨_, b3, hm, hg⟩

/-- **C44 (validation).** `GA_Set_restricted` accepts exactly the lists of processes of the group,
`GA_Set_restricted_range` exactly the ranges inside the group (an empty range is accepted). -/
theorem C44_accepts (ganproc nproc : Nat) :
    (∀ list, (∃ R, setRestricted ganproc nproc list = some R) ↔ ∀ p ∈ list, 0 ≤ p ∧ p < (nproc : Int)) ∧
    (∀ lo hi : Int, lo ≤ hi → ((∃ R, setRestrictedRange ganproc nproc lo hi = some R) ↔
      0 ≤ lo ∧ hi < (nproc : Int))) := by
  have h1 : ∀ list, (∃ R, setRestricted ganproc nproc list = some R) ↔
      ∀ p ∈ list, 0 ≤ p ∧ p < (nproc : Int) := by
    intro list
    unfold setRestricted
    suffices h : ∀ i rank, (∃ r, rankLoop nproc list i rank = some r) ↔
        ∀ p ∈ list, 0 ≤ p ∧ p < (nproc : Int) by
      rw [← h 0 (List.replicate ganproc (-1))]
      cases rankLoop nproc list 0 (List.replicate ganproc (-1)) <;> simp
    intro i rank
    induction list generalizing i rank with
    | nil => simp [rankLoop]
    | cons p ps ih =>
      simp only [rankLoop, List.forall_mem_cons]
      split
      · simp; omega
      · rw [ih]
        constructor
        · intro h; exact ⟨by omega, h⟩
        · exact fun h => h.2
  refine ⟨h1, ?_⟩
  intro lo hi hle
  unfold setRestrictedRange
  rw [h1]
  constructor
  · intro h
    have a := h lo (List.mem_map.2 ⟨0, by simp; omega, by simp⟩)
    have b := h hi (List.mem_map.2 ⟨(hi - lo).toNat, by simp; omega, by omega⟩)
    omega
  · rintro ⟨h2, h3⟩ p hp
    obtain ⟨i, hi', rfl⟩ := List.mem_map.1 hp
    have := List.mem_range.1 hi'
    omega

/-- a range of processes is a list of distinct processes, so `C44_restricted` applies to it -/
theorem C44_range_nodup (lo hi : Int) :
    ((List.range (hi - lo + 1).toNat).map fun i : Nat => lo + (i : Int)).Nodup :=
  List.nodup_range.map fun a b (h : lo + (a : Int) = lo + (b : Int)) => by omega

/-! ## Negative results -/

/-- **C44, negative result.** A process that occurs twice in the list is accepted, and the first of
its blocks is lost: `NGA_Locate` says that process 0 has element 1, but `NGA_Distribution` reports
only elements 4..6 for it, and no process has element 1. -/
theorem C44_duplicate_process :
    ∃ R, setRestricted 2 2 [0, 0] = some R ∧
      rLocate ⟨[6], [2], [1, 4], [0]⟩ R [0] [1] = some (some 0) ∧
      rOwns ⟨[6], [2], [1, 4], [0]⟩ R 0 = some ([4], [6]) ∧
      rOwns ⟨[6], [2], [1, 4], [0]⟩ R 1 = some ([0], [-1]) :=
  ⟨⟨[0, 0], [1, -1]⟩, by decide, by decide, by decide, by decide⟩

/-- **C44, negative result.** The list may be shorter than the number of blocks of an irregular
array: locating an element of the second block reads behind the end of the list. -/
theorem C44_list_too_short :
    ∃ R, setRestricted 2 2 [1] = some R ∧
      setIrreg [6] [1, 4] [2] [0] = some ⟨[6], [2], [1, 4], [0]⟩ ∧
      rLocate ⟨[6], [2], [1, 4], [0]⟩ R [0] [5] = some none :=
  ⟨⟨[1], [-1, 0]⟩, by decide, by decide, by decide⟩

/-! ## Non-vacuity -/

example : ∃ R, setRestricted 8 8 [5, 0, 7, 3, 2, 6] = some R ∧
    rLocate exA R [0, 0] [10, 4] = some (some 6) ∧ rOwns exA R 6 = some ([5, 4], [10, 7]) ∧
    rOwns exA R 1 = some ([0, 0], [-1, -1]) ∧ rAlloc exA R 6 = some 24 :=
  ⟨⟨[5, 0, 7, 3, 2, 6], [1, -1, 4, 3, -1, 0, 5, 2]⟩, by decide, by decide, by decide, by decide,
    by decide⟩
example : [5, 0, 7, 3, 2, 6].Nodup ∧ exA.nblock.prod ≤ [5, 0, 7, 3, 2, 6].length := by decide

end GA
