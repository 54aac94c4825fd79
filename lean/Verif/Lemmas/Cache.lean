import Verif.Model.Cache
import Verif.Lemmas.Pieces
import Verif.Lemmas.Strided

/-! # Lemmas: copies between buffers, read cache -/

namespace GA
open Spec Model

/-- the subscript with offsets `c` from the corner `lo` -/
def offSub : (lo : List Int) → (c : List Nat) → List Int
  | l :: lo, c :: cs => (l + c) :: offSub lo cs
  | _, _ => []

theorem offSub_mem {lo hi : List Int} (h : InPatch lo hi lo) (x : List Int) :
    InPatch lo hi x ↔ ∃ c, CoordOK ((edges lo hi).map Int.toNat) c ∧ offSub lo c = x := by
  induction lo generalizing hi x with
  | nil =>
    cases hi with
    | nil =>
      cases x with
      | nil => simp [InPatch, edges, offSub]; exact ⟨[], trivial⟩
      | cons => simp [InPatch, offSub]
    | cons => simp [InPatch] at h
  | cons l lo ih =>
    cases hi with
    | nil => simp [InPatch] at h
    | cons hh hi =>
      simp only [InPatch] at h
      constructor
      · intro hx
        match x, hx with
        | x :: xs, hx =>
          obtain ⟨c, h1, h2⟩ := (ih h.2 xs).1 hx.2
          have := hx.1
          refine ⟨(x - l).toNat :: c, ⟨by omega, h1⟩, ?_⟩
          simp only [offSub, h2, List.cons.injEq, and_true]
          omega
      · rintro ⟨c, hc, rfl⟩
        match c, hc with
        | c :: cs, hc =>
          have := hc.1
          exact ⟨by omega, (ih h.2 _).2 ⟨cs, hc.2, rfl⟩⟩

theorem offSub_inj {lo : List Int} {ns c d : List Nat} (hn : ns.length = lo.length) (hc : CoordOK ns c)
    (hd : CoordOK ns d) (h : offSub lo c = offSub lo d) : c = d := by
  induction lo generalizing ns c d with
  | nil =>
    match ns, c, d, hn, hc, hd with
    | [], [], [], _, _, _ => rfl
  | cons l lo ih =>
    match ns, c, d, hn, hc, hd with
    | n :: ns, c :: cs, d :: ds, hn, hc, hd =>
      simp only [offSub, List.cons.injEq] at h
      rw [ih (by simpa using hn) hc.2 hd.2 h.2]
      simp only [List.cons.injEq, and_true]
      omega

/-- all offset vectors, segment by segment -/
def segCoords (c0 : Nat) (cs : List Nat) : List (List Nat) :=
  (List.range (prodNat cs)).flatMap fun k => (List.range c0).map fun b => b :: digits cs k

theorem mem_segCoords {c0 : Nat} {cs c : List Nat} : c ∈ segCoords c0 cs ↔ CoordOK (c0 :: cs) c := by
  simp only [segCoords, List.mem_flatMap, List.mem_range, List.mem_map]
  constructor
  · rintro ⟨k, hk, b, hb, rfl⟩
    rw [← gridSize_eq] at hk
    exact ⟨hb, digits_ok hk⟩
  · intro h
    match c, h with
    | b :: cs', h =>
      refine ⟨undigits cs cs', ?_, b, h.1, ?_⟩
      · rw [← gridSize_eq]; exact undigits_lt h.2
      · rw [digits_undigits h.2]

theorem nodup_segCoords (c0 : Nat) (cs : List Nat) : (segCoords c0 cs).Nodup := by
  unfold segCoords
  rw [List.nodup_flatMap]
  constructor
  · intro k _
    exact List.Nodup.map_on (fun a _ b _ e => by simpa using e) List.nodup_range
  · refine List.Pairwise.imp_of_mem ?_ List.nodup_range
    intro a b ha hb hne
    simp only [Function.onFun]
    intro x hx hy
    simp only [List.mem_map, List.mem_range] at hx hy ha hb
    obtain ⟨i, _, rfl⟩ := hx
    obtain ⟨j, _, e⟩ := hy
    simp only [List.cons.injEq] at e
    rw [← gridSize_eq] at ha hb
    apply hne
    rw [← undigits_digits ha, ← undigits_digits hb, e.2]

theorem segCoords_perm {l h : Int} {lo hi : List Int} (hp : InPatch (l :: lo) (h :: hi) (l :: lo)) :
    ((segCoords (h - l + 1).toNat ((edges lo hi).map Int.toNat)).map (offSub (l :: lo))).Perm
      (box (l :: lo) (h :: hi)) := by
  rw [List.perm_ext_iff_of_nodup]
  · intro x
    rw [mem_box, offSub_mem hp]
    simp only [List.mem_map, mem_segCoords, edges, List.map_cons]
  · refine List.Nodup.map_on ?_ (nodup_segCoords _ _)
    intro a ha b hb e
    rw [mem_segCoords] at ha hb
    refine offSub_inj ?_ ha hb e
    have := hp.length.2
    simp only [List.length_cons] at this ⊢
    rw [List.length_map, edges_length (by omega)]
  · exact nodup_box _ _

theorem memStrides_sum {lo ld : List Int} {c : List Nat} {d acc : Int} (hl : ld.length + 1 = lo.length)
    (hc : c.length = lo.length) :
    strideSum (memStrides acc (d :: ld)) c = acc * d * bufPos lo ld (offSub lo c) := by
  induction lo generalizing ld c d acc with
  | nil => simp at hl
  | cons l lo ih =>
    match ld, c, hl, hc with
    | [], c :: cs, hl, hc =>
      simp only [memStrides, strideSum, offSub, bufPos]
      ring
    | e :: ld, c :: cs, hl, hc =>
      have := ih (ld := ld) (c := cs) (d := e) (acc := acc * d) (by simpa using hl) (by simpa using hc)
      rw [memStrides, strideSum, this]
      simp only [offSub, bufPos]
      ring

/-- position of an element relative to its corner -/
theorem seg_pos {l : Int} {lo ld : List Int} {b : Nat} {c : List Nat} (hl : ld.length = lo.length)
    (hc : c.length = lo.length) :
    strideSum (memStrides 1 ld) c + b = bufPos (l :: lo) ld (offSub (l :: lo) (b :: c)) := by
  cases ld with
  | nil =>
    have : lo = [] := List.length_eq_zero_iff.1 hl.symm
    subst this
    have : c = [] := List.length_eq_zero_iff.1 hc
    subst this
    simp [memStrides, strideSum, offSub, bufPos]
  | cons d ld =>
    rw [memStrides_sum (lo := lo) (by simpa using hl) hc]
    simp only [offSub, bufPos]
    ring

theorem memStrides_length (acc : Int) (ld : List Int) : (memStrides acc ld).length = ld.length := by
  induction ld generalizing acc with
  | nil => rfl
  | cons d ld ih => simp [memStrides, ih]

theorem foldl_congr_mem {α β : Type} {f g : β → α → β} {l : List α} (h : ∀ b, ∀ a ∈ l, f b a = g b a) (b : β) :
    l.foldl f b = l.foldl g b := by
  induction l generalizing b with
  | nil => rfl
  | cons a l ih =>
    rw [List.foldl_cons, List.foldl_cons, h b a (by simp), ih fun b' a' h' => h b' a' (by simp [h'])]

theorem writeSeg_eq {V} (mem : Int → V) (a : Int) (seg : Nat → V) (n : Nat) :
    writeSeg mem a seg n = (List.range n).foldl (fun m b => upd m (a + (b : Nat)) (seg b)) mem := by
  induction n with
  | zero => rfl
  | succ n ih => simp [writeSeg, ih, List.range_succ, List.foldl_append]

theorem memOff_zero {lo ld : List Int} (o f : Int) : memOff (lo.map fun _ => 0) ld o f = o := by
  induction lo generalizing ld o f with
  | nil => simp [memOff]
  | cons l lo ih =>
    cases ld with
    | nil => simp [memOff]
    | cons d ld => simp only [List.map_cons, memOff, Int.zero_mul, Int.add_zero, ih]

theorem memOff_sub {lo tlo ld : List Int} (o f : Int) (h1 : lo.length = tlo.length)
    (h2 : ld.length + 1 = lo.length) : memOff (subStart lo tlo) ld o f = o + f * bufPos tlo ld lo := by
  induction lo generalizing tlo ld o f with
  | nil => simp at h2
  | cons l lo ih =>
    match tlo, ld, h1, h2 with
    | t :: tlo, [], h1, h2 => simp only [subStart, memOff, bufPos]; ring
    | t :: tlo, d :: ld, h1, h2 =>
      simp only [subStart, memOff, bufPos]
      rw [ih _ _ (by simpa using h1) (by simpa using h2)]
      ring

/-- `gai_mem_copy` moves exactly the elements of a patch. -/
theorem memCopy_moves {V : Type} {lo hi sld dld start : List Int} (hp : InPatch lo hi lo)
    (h1 : sld.length + 1 = lo.length) (h2 : dld.length + 1 = lo.length) (src dst : Int → V) :
    ∃ ts, memCopy (edges lo hi) start sld (lo.map fun _ => 0) dld src dst =
        some (applyGet ts (fun a => src a.2) dst) ∧
      Moves (fun x => (0, memOff start sld 0 1 + bufPos lo sld x)) (bufPos lo dld) (box lo hi) ts := by
  match lo, hi, hp with
  | [], _, _ => simp at h1
  | l :: lo, h :: hi, hp =>
    have hl := hp.length.2
    simp only [List.length_cons] at hl h1 h2
    have hel : ((edges lo hi).map Int.toNat).length = lo.length := by
      rw [List.length_map, edges_length (by omega)]
    refine ⟨(segCoords (h - l + 1).toNat ((edges lo hi).map Int.toNat)).map fun c =>
      ⟨bufPos (l :: lo) dld (offSub (l :: lo) c),
        (0, memOff start sld 0 1 + bufPos (l :: lo) sld (offSub (l :: lo) c))⟩, ?_, ?_⟩
    · simp only [memCopy, edges]
      rw [if_neg]
      · simp only [Option.some.injEq]
        rw [blockOffs_eq _ _ (by rw [memStrides_length, hel]; omega),
          blockOffs_eq _ _ (by rw [memStrides_length, hel]; omega), List.zip_map', applyGet, memOff_zero]
        simp only [segCoords, List.map_flatMap, List.map_map, List.foldl_flatMap, List.foldl_map]
        apply foldl_congr_mem
        intro d k hk
        rw [writeSeg_eq]
        apply foldl_congr_mem
        intro d' b _
        have hcl : (digits ((edges lo hi).map Int.toNat) k).length = lo.length := by
          rw [digits_length, hel]
        have e1 := seg_pos (l := l) (b := b) (ld := dld) (lo := lo) (by omega) hcl
        have e2 := seg_pos (l := l) (b := b) (ld := sld) (lo := lo) (by omega) hcl
        simp only [Function.comp]
        rw [← e1, ← e2, Int.zero_add, Int.add_assoc]
      · rw [List.any_eq_true]
        rintro ⟨c, hc, hlt⟩
        have := edges_pos ((pieceOK_iff hp.length.2).2 hp) c (by simpa [edges] using hc)
        simp at hlt
        omega
    · unfold Moves
      have := (segCoords_perm hp).map fun x =>
        (⟨bufPos (l :: lo) dld x, (0, memOff start sld 0 1 + bufPos (l :: lo) sld x)⟩ : Xfer)
      rw [List.map_map] at this
      exact this

end GA
