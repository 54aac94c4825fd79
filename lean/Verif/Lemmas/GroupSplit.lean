import Verif.Lemmas.Groups

/-! # Lemmas on splitting groups -/

namespace GA.Groups

/-- ranks `a, ..., a + m - 1` -/
def ranks (a m : Nat) : List Int := (List.range' a m).map Int.ofNat

theorem ranks_length (a m : Nat) : (ranks a m).length = m := by simp [ranks]

theorem ranks_asc (a m : Nat) : (ranks a m).Pairwise (· < ·) := by
  unfold ranks
  rw [List.pairwise_map]
  exact (List.pairwise_lt_range' (s := a) (n := m)).imp (fun h => Int.ofNat_lt.mpr h)

theorem insSort_asc (l : List Int) (h : l.Pairwise (· < ·)) : insSort l = l :=
  (insSort_perm l).eq_of_pairwise (fun a b _ _ h1 h2 => absurd h1 (by omega))
    (insSort_strict l (h.imp (fun h => by omega))) h

theorem ranks_valid (n a m : Nat) (h : a + m ≤ n) : ValidList n (ranks a m) := by
  refine ⟨(ranks_asc a m).imp (fun h => by omega), fun x hx => ?_⟩
  unfold ranks at hx
  rw [List.mem_map] at hx
  obtain ⟨y, hy, rfl⟩ := hx
  rw [List.mem_range'_1] at hy
  constructor
  · exact Int.natCast_nonneg y
  · exact Int.ofNat_lt.mpr (by omega)

theorem chosen_ranks (P : List Nat) (a m : Nat) (h : a + m ≤ P.length) :
    chosen P (ranks a m) = (P.drop a).take m := by
  unfold chosen
  rw [insSort_asc _ (ranks_asc a m)]
  unfold ranks
  rw [List.map_map]
  apply List.ext_getElem
  · simp; omega
  · intro i h1 h2
    simp only [List.length_map, List.length_range'] at h1
    simp only [List.getElem_map, List.getElem_range', List.getElem_take, List.getElem_drop, Function.comp,
      List.getD_eq_getElem?_getD]
    have : a + 1 * i < P.length := by omega
    have e : (Int.ofNat (a + 1 * i)).toNat = a + i := by
      show a + 1 * i = a + i
      omega
    rw [e, List.getElem?_eq_getElem (by omega)]
    rfl

theorem ranks_snoc (a m : Nat) : ranks a m ++ [((a + m : Nat) : Int)] = ranks a (m + 1) := by
  unfold ranks
  rw [List.range'_concat]
  simp

/-- what was made of the first `b` parts -/
structure SplitOK (np max : Nat) (t1 : St) (P : List Nat) (sz b : Nat) (hs : List Int) (s : GSt) : Prop where
  rel : Rel np max s { t1 with tbl := addGroups t1.tbl hs ((List.range b).map (fun b => (P.drop (b * sz)).take sz)) }
  len : hs.length = b
  free : FreeHandles max t1.tbl hs

theorem addGroups_snoc (t : Int → Option (List Nat)) (hs : List Int) (gs : List (List Nat)) (h : Int) (g : List Nat)
    (hl : hs.length = gs.length) : addGroups t (hs ++ [h]) (gs ++ [g]) = upd (addGroups t hs gs) h (some g) := by
  unfold addGroups
  rw [List.zip_append hl, List.foldl_append]
  rfl

theorem addGroups_taken (t : Int → Option (List Nat)) (hs : List Int) (gs : List (List Nat))
    (hl : hs.length = gs.length) (h : Int) (hh : h ∉ hs) : addGroups t hs gs h = t h := by
  induction hs generalizing gs t with
  | nil => rfl
  | cons x hs ih =>
    cases gs with
    | nil => simp at hl
    | cons g gs =>
      have := ih (upd t x (some g)) gs (by simpa using hl) (fun hm => hh (List.mem_cons_of_mem _ hm))
      unfold addGroups at this ⊢
      simp only [List.zip_cons_cons, List.foldl_cons]
      rw [this]
      unfold upd
      rw [if_neg]
      intro e; exact hh (e ▸ List.mem_cons_self)

theorem addGroups_live (t : Int → Option (List Nat)) (hs : List Int) (gs : List (List Nat)) (h : Int)
    (hh : t h ≠ none) : addGroups t hs gs h ≠ none := by
  induction hs generalizing gs t with
  | nil => exact hh
  | cons x hs ih =>
    cases gs with
    | nil => exact hh
    | cons g gs =>
      have := ih (upd t x (some g)) gs (by unfold upd; split <;> simp_all)
      unfold addGroups at this ⊢
      simpa only [List.zip_cons_cons, List.foldl_cons] using this

/-- one more group -/
theorem SplitOK.next {np max me : Nat} {t1 : St} {P sz b hs s} (h : SplitOK np max t1 P sz b hs s) (hnp : np ≤ 2 ^ 30)
    (hP : t1.procs np s.dflt = some P) (hfree : ∀ k ∈ hs, k ≠ s.dflt) {m : Nat} (hm : b * sz + m ≤ P.length)
    (hm2 : (P.drop (b * sz)).take m = (P.drop (b * sz)).take sz) :
    (∃ h' : Int, ∃ s', create np me s (ranks (b * sz) m) = .ok (h', s') ∧ SplitOK np max t1 P sz (b + 1) (hs ++ [h']) s' ∧
      s'.dflt = s.dflt) ∨
    (create np me s (ranks (b * sz) m) = .abort ∧ ∀ hs', FreeHandles max t1.tbl hs' → hs'.length ≤ b) := by
  obtain ⟨hr, hlen, hfr⟩ := h
  have hlen' : hs.length = ((List.range b).map (fun b => (P.drop (b * sz)).take sz)).length := by simp [hlen]
  have hP' : St.procs np { t1 with tbl := addGroups t1.tbl hs ((List.range b).map (fun b => (P.drop (b * sz)).take sz)) }
      s.dflt = some P := by
    unfold St.procs at hP ⊢
    simp only []
    rw [addGroups_taken _ _ _ hlen' _ (fun hm => hfree _ hm rfl)]
    exact hP
  cases hf : freeHandle s.list s.list.length 0 with
  | none =>
    right
    refine ⟨by unfold create; rw [hf], fun hs' hh => ?_⟩
    have hall := freeHandle_none hr hf
    have hsub : hs' ⊆ hs := by
      intro k hk
      obtain ⟨h0, h1, h2⟩ := hh.2 k hk
      by_contra hc
      exact hall k h0 h1 (by
        show addGroups _ _ _ k = none
        rw [addGroups_taken _ _ _ hlen' _ hc]; exact h2)
    have := (List.subperm_of_subset hh.1 hsub).length_le
    omega
  | some k =>
    left
    obtain ⟨g, e, hg, ha⟩ := create_ok (me := me) hr hnp hP' (ranks_valid _ _ _ hm) hf
    obtain ⟨hk1, hk2⟩ := freeHandle_some hr hf
    have hk2 : addGroups t1.tbl hs ((List.range b).map (fun b => (P.drop (b * sz)).take sz)) k = none := hk2
    have hnot : (k : Int) ∉ hs := by
      intro hmem
      have : ∀ (hs : List Int) (gs : List (List Nat)) (t : Int → Option (List Nat)), hs.length = gs.length →
          (k : Int) ∈ hs → addGroups t hs gs k ≠ none := by
        intro hs
        induction hs with
        | nil => intro gs t _ hm; cases hm
        | cons x hs ih =>
          intro gs t hl hm
          cases gs with
          | nil => simp at hl
          | cons g gs =>
            have e : addGroups t (x :: hs) (g :: gs) = addGroups (upd t x (some g)) hs gs := rfl
            rw [e]
            rcases List.mem_cons.mp hm with hx | hm
            · apply addGroups_live
              unfold upd; rw [if_pos hx]; simp
            · exact ih gs _ (by simpa using hl) hm
      exact this hs _ _ hlen' hmem hk2
    refine ⟨k, _, e, ⟨?_, by simp [hlen], ?_, ?_⟩, rfl⟩
    · have := hr.add hk1 hk2 hg ha
      rw [List.range_succ, List.map_append, List.map_cons, List.map_nil, addGroups_snoc _ _ _ _ _ hlen']
      rw [chosen_ranks _ _ _ hm, hm2] at this
      exact this
    · exact List.nodup_append.mpr ⟨hfr.1, by simp, fun a ha b hb => by
        simp at hb; subst hb; exact fun e => hnot (e ▸ ha)⟩
    · intro x hx
      rcases List.mem_append.mp hx with hx | hx
      · exact hfr.2 x hx
      · simp at hx; subst hx
        refine ⟨by omega, by omega, ?_⟩
        rw [addGroups_taken _ _ _ hlen' _ hnot] at hk2
        exact hk2

/-- the loop of `pnga_pgroup_split` -/
theorem splitLoop_ok {np max me : Nat} {t1 : St} {P : List Nat} {sz m : Nat} (hnp : np ≤ 2 ^ 30) (hsz : 0 < sz) (d : Int)
    (hP : t1.procs np d = some P) (hd : d = -1 ∨ t1.tbl d ≠ none) (endv : Int)
    (hend : endv = min (((m : Int) + 1) * sz - 1) ((P.length : Int) - 1))
    (hm : m * sz < P.length) :
    ∀ (rem i b : Nat) (hs : List Int) (s : GSt) (ret : Int), i + rem = P.length → s.dflt = d →
      SplitOK np max t1 P sz b hs s → b * sz ≤ i → i ≤ (b + 1) * sz → (0 < i → b * sz < i) →
      ret = (if m < b then hs.getD m (-1) else -1) →
      (∃ b' hs' s', splitLoop np me sz endv rem i (ranks (b * sz) (i - b * sz)) ret s =
          .ok (ranks (b' * sz) (P.length - b' * sz), (if m < b' then hs'.getD m (-1) else -1), s') ∧
        SplitOK np max t1 P sz b' hs' s' ∧ s'.dflt = d ∧ b' * sz ≤ P.length ∧ P.length ≤ (b' + 1) * sz ∧
        (0 < P.length → b' * sz < P.length)) ∨
      (splitLoop np me sz endv rem i (ranks (b * sz) (i - b * sz)) ret s = .abort ∧
        ∃ b', b' * sz < P.length ∧ ∀ hs', FreeHandles max t1.tbl hs' → hs'.length ≤ b') := by
  intro rem
  induction rem with
  | zero =>
    intro i b hs s ret h1 h2 h3 h4 h5 h6 h7
    have hi : i = P.length := by omega
    subst hi
    left
    exact ⟨b, hs, s, by unfold splitLoop; rw [h7], h3, h2, h4, h5, h6⟩
  | succ rem ih =>
    intro i b hs s ret h1 h2 h3 h4 h5 h6 h7
    have hfree : ∀ k ∈ hs, k ≠ s.dflt := by
      intro k hk e
      obtain ⟨a1, a2, a3⟩ := h3.free.2 k hk
      rcases hd with e1 | e1
      · omega
      · rw [e, h2] at a3; exact e1 a3
    unfold splitLoop
    rw [ranks_length]
    have e5 : (b + 1) * sz = b * sz + sz := by rw [Nat.add_mul]; omega
    have e6 : (b + 1 + 1) * sz = b * sz + sz + sz := by rw [Nat.add_mul, e5]; omega
    by_cases hc : ((i - b * sz : Nat) : Int) % (sz : Int) = 0 ∧ i > 0
    · rw [if_pos hc]
      have hpos := h6 hc.2
      have hfull : i - b * sz = sz := by
        have hmod : (i - b * sz) % sz = 0 := by
          have := hc.1; rw [← Int.natCast_emod] at this; exact Int.ofNat.inj this
        have hle : i - b * sz ≤ sz := by omega
        obtain ⟨c, hc⟩ := Nat.dvd_of_mod_eq_zero hmod
        rcases c with _ | _ | c
        · omega
        · omega
        · have : sz * (c + 1 + 1) = sz * c + sz + sz := by rw [Nat.mul_add, Nat.mul_add]; omega
          omega
      have hi : i = (b + 1) * sz := by omega
      rw [hfull]
      rcases h3.next (me := me) hnp (by rw [h2]; exact hP) hfree (m := sz) (by omega) rfl with ⟨h', s', g1, g2, g3⟩ | ⟨g1, g2⟩
      · rw [g1]
        simp only []
        have hr1 : [(i : Int)] = ranks ((b + 1) * sz) (i + 1 - (b + 1) * sz) := by
          have : i + 1 - (b + 1) * sz = 1 := by omega
          rw [this, ← hi]; simp [ranks]
        rw [hr1]
        apply ih (i + 1) (b + 1) (hs ++ [h']) s' _ (by omega) (by rw [g3]; exact h2) g2 (by omega) (by omega)
          (fun _ => by omega)
        have hbl := h3.len
        have hiff : ((i : Int) = endv + 1) ↔ m = b := by
          rw [hend, hi]
          have e7 : ((m : Int) + 1) * sz = ((m + 1) * sz : Nat) := by push_cast; rfl
          rw [e7]
          constructor
          · intro he
            have hle : (m + 1) * sz ≤ P.length ∧ (b + 1) * sz = (m + 1) * sz ∨ ((b + 1) * sz = P.length) := by omega
            rcases hle with ⟨_, hh⟩ | hh
            · have := Nat.eq_of_mul_eq_mul_right hsz hh; omega
            · omega
          · intro he
            subst he
            omega
        by_cases hmb : m = b
        · rw [if_pos (hiff.mpr hmb), if_pos (by omega)]
          subst hmb
          simp [List.getD_eq_getElem?_getD, hbl]
        · rw [if_neg (fun he => hmb (hiff.mp he)), h7]
          by_cases hlt : m < b
          · rw [if_pos hlt, if_pos (by omega)]
            simp only [List.getD_eq_getElem?_getD]
            rw [List.getElem?_append_left (by omega)]
          · rw [if_neg hlt, if_neg (by omega)]
      · right
        rw [g1]
        exact ⟨rfl, b, by omega, g2⟩
    · rw [if_neg hc]
      have hlt : i - b * sz < sz := by
        by_contra hge
        have : i - b * sz = sz := by omega
        apply hc
        rw [this]
        exact ⟨by simp, by omega⟩
      have hr1 : ranks (b * sz) (i - b * sz) ++ [(i : Int)] = ranks (b * sz) (i + 1 - b * sz) := by
        have e1 : i + 1 - b * sz = (i - b * sz) + 1 := by omega
        have e2 : i = b * sz + (i - b * sz) := by omega
        rw [e1, ← ranks_snoc]
        congr 3
      rw [hr1]
      exact ih (i + 1) b hs s ret (by omega) h2 h3 (by omega) (by omega) (fun _ => by omega) h7

theorem parts_length (sz : Nat) (P : List Nat) : (parts sz P).length = (P.length + sz - 1) / sz := by simp [parts]

theorem div_of_bounds {n sz b : Nat} (h1 : b * sz < n) (h2 : n ≤ (b + 1) * sz) : (n + sz - 1) / sz = b + 1 := by
  have e5 : (b + 1) * sz = b * sz + sz := by rw [Nat.add_mul]; omega
  have hsz : 0 < sz := by
    rcases Nat.eq_zero_or_pos sz with e | e
    · subst e; omega
    · exact e
  apply Nat.div_eq_of_lt_le
  · omega
  · show n + sz - 1 < (b + 1 + 1) * sz
    have : (b + 1 + 1) * sz = (b + 1) * sz + sz := by rw [Nat.add_mul (b+1)]; omega
    omega

theorem partSize_eq (n num : Nat) (hnum : 0 < num) :
    (if n > n / num * num then n / num + 1 else n / num) = partSize n num := by
  unfold partSize
  have hd := Nat.div_add_mod n num
  have hlt := Nat.mod_lt n hnum
  have hc : num * (n / num) = n / num * num := Nat.mul_comm _ _
  generalize hq : n / num = q at *
  generalize n % num = r at *
  split
  · symm
    apply div_of_bounds
    · omega
    · rw [Nat.add_mul]; omega
  · have : n = q * num := by omega
    subst this
    symm
    apply Nat.div_eq_of_lt_le
    · omega
    · rw [Nat.add_mul]; omega

theorem idxOf_rank {P : List Nat} {me : Nat} (h : me ∈ P) : rankIn P me = (P.idxOf me : Int) := by
  unfold rankIn; rw [if_pos h]

private theorem dflt_cases {np max s t} (hr : Rel np max s t) {g : Int} {P} (h0 : g ≠ 0) (hP : t.procs np g = some P) :
    g = -1 ∨ (0 < g ∧ t.tbl g ≠ none) := by
  unfold St.procs at hP
  split at hP
  · rename_i e; exact .inl e
  · have := (hr.range hP).1
    exact .inr ⟨by omega, by rw [hP]; simp⟩

private theorem myNnodes_eq {np max s t} (hr : Rel np max s t) {P} (hP : t.procs np s.dflt = some P) :
    myNnodes np s = P.length := by
  unfold myNnodes
  unfold St.procs at hP
  rcases hr.dfltOK with e | ⟨e, _⟩
  · rw [if_pos e] at hP; rw [if_neg (by omega), ← Option.some.inj hP, List.length_range]
  · rw [if_neg (by omega)] at hP; rw [if_pos e, (hr.live _ _ hP).1.nproc]

private theorem rankIn_range' (np me : Nat) (h : me < np) : rankIn (List.range np) me = me := by
  unfold rankIn
  rw [if_pos (List.mem_range.mpr h)]
  have := List.Nodup.idxOf_getElem (List.nodup_range (n := np)) me (by simpa using h)
  rw [List.getElem_range] at this
  rw [this]

private theorem myNodeid_eq {np max me s t} (hme : me < np) (hr : Rel np max s t) {P} (hP : t.procs np s.dflt = some P) :
    myNodeid me s = rankIn P me := by
  unfold myNodeid
  unfold St.procs at hP
  rcases hr.dfltOK with e | ⟨e, _⟩
  · rw [if_pos e] at hP; rw [if_neg (by omega), ← Option.some.inj hP, rankIn_range' np me hme]
  · rw [if_neg (by omega)] at hP; rw [if_pos e, (hr.live _ _ hP).1.map me hme]

/-- `pnga_pgroup_split` -/
theorem split_ok {np max me : Nat} (hme : me < np) (hnp : np ≤ 2 ^ 30) {s t} (hr : Rel np max s t) {g : Int} {P}
    (h0 : g ≠ 0) (hP : t.procs np g = some P) (hmem : me ∈ P) {num : Nat} (hnum : 0 < num) :
    (∃ hs h s', split np me s g num = .ok (h, s') ∧ FreeHandles max t.tbl hs ∧
      hs.length = (parts (partSize P.length num) P).length ∧ hs[P.idxOf me / partSize P.length num]? = some h ∧
      Rel np max s' { t with tbl := addGroups t.tbl hs (parts (partSize P.length num) P) }) ∨
    (split np me s g num = .abort ∧
      ∀ hs, FreeHandles max t.tbl hs → hs.length < (parts (partSize P.length num) P).length) := by
  have hgok := dflt_cases hr h0 hP
  have hr1 := hr.setDflt g hgok
  have hd1 : (setDefault np s g).dflt = g := rfl
  have hP1 : St.procs np { t with dflt := g } g = some P := hP
  have hn := myNnodes_eq hr1 (P := P) hP1
  have hrk := myNodeid_eq hme hr1 (P := P) hP1
  rw [idxOf_rank hmem] at hrk
  have hidx : P.idxOf me < P.length := List.idxOf_lt_length_of_mem hmem
  have hsz : 0 < partSize P.length num := by
    unfold partSize
    exact Nat.div_pos (by omega) hnum
  have hq : ((P.length : Int)).tdiv (num : Int) = ((P.length / num : Nat) : Int) := by
    rw [← Int.ofNat_tdiv]
  have hgs : (if (P.length : Int) > ((P.length / num : Nat) : Int) * (num : Int) then ((P.length / num : Nat) : Int) + 1
      else ((P.length / num : Nat) : Int)) = ((partSize P.length num : Nat) : Int) := by
    rw [← partSize_eq _ _ hnum]
    by_cases hc : P.length > P.length / num * num
    · rw [if_pos hc, if_pos (by rw [← Int.natCast_mul]; omega)]; push_cast; rfl
    · rw [if_neg hc, if_neg (by rw [← Int.natCast_mul]; omega)]
  generalize hszv : partSize P.length num = sz at *
  have hrat : ((P.idxOf me : Int)).tdiv (sz : Int) = ((P.idxOf me / sz : Nat) : Int) := by rw [← Int.ofNat_tdiv]
  generalize hmv : P.idxOf me / sz = m at *
  have hm : m * sz < P.length := by
    have := Nat.div_mul_le_self (P.idxOf me) sz
    rw [hmv] at this; omega
  have hm2 : P.idxOf me < (m + 1) * sz := by
    have := Nat.lt_mul_div_succ (P.idxOf me) hsz
    rw [hmv, Nat.mul_comm] at this; exact this
  unfold split
  rw [if_neg (by omega), if_neg (by omega)]
  simp only []
  rw [hn, hrk, hq, hgs, hrat]
  have hmz : (m : Int) * (sz : Int) = ((m * sz : Nat) : Int) := by push_cast; rfl
  have hmz1 : ((m : Int) + 1) * (sz : Int) = (((m + 1) * sz : Nat) : Int) := by push_cast; rfl
  have e5 : (m + 1) * sz = m * sz + sz := by rw [Nat.add_mul]; omega
  rw [if_neg (by rw [hmz, hmz1]; omega)]
  have hstart : SplitOK np max { t with dflt := g } P sz 0 [] (setDefault np s g) := by
    refine ⟨?_, rfl, .nil, fun h hh => by cases hh⟩
    exact hr1
  have hdd : g = -1 ∨ St.tbl { t with dflt := g } g ≠ none := by
    rcases hgok with e | e
    · exact .inl e
    · exact .inr e.2
  have hloop := splitLoop_ok (me := me) (max := max) (t1 := { t with dflt := g }) (P := P) (sz := sz) (m := m) hnp hsz g hP1 hdd
    (min (((m : Int) + 1) * sz - 1) ((P.length : Int) - 1)) rfl hm P.length 0 0 [] (setDefault np s g) (-1)
    (by omega) rfl hstart (by omega) (by omega) (fun h => by omega) (by simp)
  have hr0 : ranks (0 * sz) (0 - 0 * sz) = [] := by simp [ranks]
  rw [hr0] at hloop
  have htn : ((P.length : Int)).toNat = P.length := by omega
  rw [htn]
  rcases hloop with ⟨b', hs', s', g1, g2, g3, g4, g5, g6⟩ | ⟨g1, b', g2, g3⟩
  · rw [g1]
    simp only []
    have g6 := g6 (by omega)
    have e6 : (b' + 1) * sz = b' * sz + sz := by rw [Nat.add_mul]; omega
    have hfree : ∀ k ∈ hs', k ≠ s'.dflt := by
      intro k hk e
      obtain ⟨a1, a2, a3⟩ := g2.free.2 k hk
      rcases hdd with e1 | e1
      · omega
      · rw [e, g3] at a3; exact e1 a3
    have htake : (P.drop (b' * sz)).take (P.length - b' * sz) = (P.drop (b' * sz)).take sz := by
      rw [List.take_of_length_le (by rw [List.length_drop]), List.take_of_length_le (by rw [List.length_drop]; omega)]
    have hplen : (parts sz P).length = b' + 1 := by rw [parts_length]; exact div_of_bounds g6 g5
    rcases g2.next (me := me) hnp (by rw [g3]; exact hP1) hfree (m := P.length - b' * sz) (by omega) htake with
      ⟨h', s'', k1, k2, k3⟩ | ⟨k1, k2⟩
    · left
      rw [k1]
      simp only []
      have hl := g2.len
      have hmlt : m ≤ b' := by
        have : m * sz < (b' + 1) * sz := by omega
        have := Nat.lt_of_mul_lt_mul_right this
        omega
      have hret : (if min (((m : Int) + 1) * sz - 1) ((P.length : Int) - 1) = (P.length : Int) - 1 then h'
          else if m < b' then hs'.getD m (-1) else -1) = (hs' ++ [h']).getD m (-1) := by
        rw [hmz1]
        by_cases hmb : m = b'
        · subst hmb
          rw [if_pos (by omega)]
          simp [List.getD_eq_getElem?_getD, hl]
        · have : m < b' := by omega
          have hle2 : (m + 1) * sz ≤ b' * sz := Nat.mul_le_mul_right _ this
          rw [if_neg (by omega), if_pos this]
          simp only [List.getD_eq_getElem?_getD]
          rw [List.getElem?_append_left (by omega)]
      rw [hret]
      have hget : (hs' ++ [h'])[m]? = some ((hs' ++ [h']).getD m (-1)) := by
        have hlt : m < (hs' ++ [h']).length := by simp; omega
        rw [List.getD_eq_getElem?_getD, List.getElem?_eq_getElem hlt]; rfl
      have hpos := k2.free.2 _ (List.mem_of_getElem? hget)
      rw [if_neg (by omega)]
      refine ⟨hs' ++ [h'], _, _, rfl, k2.free, by rw [k2.len, hplen], hget, ?_⟩
      have hd2 : s.dflt = -1 ∨ (0 < s.dflt ∧ 
          addGroups t.tbl (hs' ++ [h']) ((List.range (b' + 1)).map (fun b => (P.drop (b * sz)).take sz)) s.dflt ≠ none) := by
        rcases hr.dfltOK with e | ⟨e, e2⟩
        · exact .inl e
        · exact .inr ⟨e, addGroups_live _ _ _ _ e2⟩
      have hfin := k2.rel.setDflt s.dflt hd2
      have hparts : parts sz P = (List.range (b' + 1)).map (fun b => (P.drop (b * sz)).take sz) := by
        unfold parts
        rw [div_of_bounds g6 g5]
      rw [hparts]
      have := hr.dflt
      rw [← this] at hfin ⊢
      exact hfin
    · right
      rw [k1]
      refine ⟨rfl, fun hs hh => ?_⟩
      have := k2 hs hh
      omega
  · right
    rw [g1]
    refine ⟨rfl, fun hs hh => ?_⟩
    have := g3 hs hh
    rw [parts_length]
    have : b' + 1 ≤ (P.length + sz - 1) / sz := by
      rw [Nat.le_div_iff_mul_le hsz, Nat.add_mul]; omega
    omega

/-- `pnga_pgroup_split_irreg` -/
theorem splitIrreg_ok {np max me : Nat} (hnp : np ≤ 2 ^ 30) {s t} (hr : Rel np max s t) {g : Int} {P}
    (h0 : g ≠ 0) (hP : t.procs np g = some P) {colors : List Int}
    (hlen : colors.length = P.length) {c : Int} (hc : 0 ≤ c) :
    (∃ h ms s', splitIrreg np me s g c colors = .ok (h, s') ∧ 0 ≤ h ∧ h < max ∧ t.tbl h = none ∧
      Lists ms (fun p => p ∈ P ∧ colors[P.idxOf p]? = some c) ∧
      Rel np max s' { t with tbl := upd t.tbl h (some ms) }) ∨
    (splitIrreg np me s g c colors = .abort ∧ ∀ h : Int, 0 ≤ h → h < max → t.tbl h ≠ none) := by
  have hgok := dflt_cases hr h0 hP
  have hr1 := hr.setDflt g hgok
  have hP1 : St.procs np { t with dflt := g } (setDefault np s g).dflt = some P := hP
  have hn := myNnodes_eq hr1 (P := P) hP1
  unfold splitIrreg
  rw [if_neg (by omega)]
  simp only []
  rw [hn]
  have htn : ((P.length : Int)).toNat = P.length := by omega
  rw [htn]
  generalize hnd : ((List.range P.length).filter (fun i => colors.getD i 0 = c)).map Int.ofNat = nodes
  have hv : ValidList P.length nodes := by
    rw [← hnd]
    refine ⟨?_, ?_⟩
    · refine List.Nodup.map (fun a b h => Int.ofNat.inj h) ?_
      exact List.Nodup.filter _ List.nodup_range
    · intro x hx
      rw [List.mem_map] at hx
      obtain ⟨y, hy, rfl⟩ := hx
      rw [List.mem_filter, List.mem_range] at hy
      exact ⟨Int.natCast_nonneg y, Int.ofNat_lt.mpr hy.1⟩
  cases hf : freeHandle (setDefault np s g).list (setDefault np s g).list.length 0 with
  | none =>
    right
    have : create np me (setDefault np s g) nodes = .abort := by unfold create; rw [hf]
    rw [this]
    have := freeHandle_none hr1 hf
    exact ⟨rfl, this⟩
  | some h =>
    left
    obtain ⟨gr, e, hg, ha⟩ := create_ok (me := me) hr1 hnp hP1 hv hf
    obtain ⟨h1, h2⟩ := freeHandle_some hr1 hf
    rw [e]
    refine ⟨h, chosen P nodes, _, rfl, by omega, by omega, h2, ⟨chosen_asc (hr.procsAsc hP).1 hv, fun p => ?_⟩, ?_⟩
    · rw [mem_chosen hv]
      have hPn : P.Nodup := (hr.procsAsc hP).1.imp (fun h => Nat.ne_of_lt h)
      constructor
      · rintro ⟨x, hx, hp⟩
        rw [← hnd, List.mem_map] at hx
        obtain ⟨y, hy, rfl⟩ := hx
        rw [List.mem_filter, List.mem_range] at hy
        have hp : P[y]? = some p := hp
        obtain ⟨hy2, ep⟩ := List.getElem?_eq_some_iff.mp hp
        have hidx := List.Nodup.idxOf_getElem hPn y hy2
        rw [ep] at hidx
        refine ⟨List.mem_of_getElem? hp, ?_⟩
        rw [hidx]
        have := hy.2
        rw [decide_eq_true_iff, List.getD_eq_getElem?_getD] at this
        rw [List.getElem?_eq_getElem (by omega)] at this ⊢
        exact congrArg some this
      · rintro ⟨hp, hcol⟩
        have hi := List.idxOf_lt_length_of_mem hp
        refine ⟨Int.ofNat (P.idxOf p), ?_, ?_⟩
        · rw [← hnd, List.mem_map]
          refine ⟨P.idxOf p, ?_, rfl⟩
          rw [List.mem_filter, List.mem_range, decide_eq_true_iff, List.getD_eq_getElem?_getD, hcol]
          exact ⟨hi, rfl⟩
        · show P[P.idxOf p]? = some p
          rw [List.getElem?_eq_getElem hi, List.getElem_idxOf]
    · have hadd := hr1.add h1 h2 hg ha
      have hd2 : s.dflt = -1 ∨ (0 < s.dflt ∧ upd t.tbl h (some (chosen P nodes)) s.dflt ≠ none) := by
        rcases hr.dfltOK with e | ⟨e, e2⟩
        · exact .inl e
        · refine .inr ⟨e, ?_⟩
          unfold upd; split
          · simp
          · exact e2
      have hfin := hadd.setDflt s.dflt hd2
      have := hr.dflt
      rw [← this] at hfin ⊢
      exact hfin

end GA.Groups
