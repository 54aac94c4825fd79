import Verif.Lemmas.Strided

/-!
# C15: strided messages survive packing

The statement uses only `Spec.Strided`: elements of a strided region are named by index vectors,
`strAddr` is their address, `packPos` their position in the message.
-/

namespace GA
open Spec Model

variable {V : Type}

theorem edges_len {lo hi : List Int} (h : hi.length = lo.length) :
    (edges lo hi).length = lo.length := by
  induction lo generalizing hi with
  | nil => cases hi <;> simp_all [edges]
  | cons l lo ih =>
    cases hi with
    | nil => simp at h
    | cons a b => simp [edges, ih (by simpa using h : b.length = lo.length)]

/-- C15, sender side: the message has as many elements as the region (which is also the size that
`_packed_size` announces) and contains each element at its position. -/
theorem C15_pack (src : Int → V) (base : Int) (strides : List Int) (c0 : Nat) (counts : List Nat)
    (hl : strides.length = counts.length) :
    (pack src base strides c0 counts).length = prodNat (c0 :: counts) ∧
    packedSize c0 counts = prodNat (c0 :: counts) ∧
    ∀ idx, IdxOK (c0 :: counts) idx →
      (pack src base strides c0 counts)[packPos (c0 :: counts) idx]? =
        some (src (base + strAddr strides idx)) := by
  obtain ⟨h1, h2⟩ := pack_spec src base c0 hl
  exact ⟨h1, by simp [packedSize, n1dim_eq, prodNat, Nat.mul_comm], h2⟩

/-- C15: a message packed at one place and unpacked at another, each with its own strides,
delivers every element to its place and changes nothing else. -/
theorem C15_pack_unpack [Inhabited V] (src dst : Int → V) (sbase dbase : Int)
    (sstr dstr : List Int) (c0 : Nat) (counts : List Nat)
    (hs : sstr.length = counts.length) (hfit : StrideFit c0 dstr counts) :
    let msg := pack src sbase sstr c0 counts
    let dst' := unpack (fun i => msg.getD i default) dst dbase dstr c0 counts
    (∀ idx, IdxOK (c0 :: counts) idx →
      dst' (dbase + strAddr dstr idx) = src (sbase + strAddr sstr idx)) ∧
    (∀ x, (∀ idx, IdxOK (c0 :: counts) idx → dbase + strAddr dstr idx ≠ x) → dst' x = dst x) := by
  have hl : dstr.length = counts.length := by
    clear * - hfit
    generalize (c0 : Int) = w at hfit
    induction counts generalizing w dstr with
    | nil => cases dstr <;> simp_all [StrideFit]
    | cons c cs ih =>
      cases dstr with
      | nil => simp [StrideFit] at hfit
      | cons s ss => simp [ih _ _ hfit.2]
  intro msg dst'
  obtain ⟨h1, h2⟩ := unpack_spec (fun i => msg.getD i default) dst dbase c0 hl hfit
  refine ⟨?_, h2⟩
  intro idx hidx
  refine (h1 idx hidx).trans ?_
  have := (pack_spec src sbase c0 hs).2 idx hidx
  simp only [List.getD_eq_getElem?_getD]
  rw [show msg[packPos (c0 :: counts) idx]? = _ from this]
  rfl

/-- Non-trivial instance: three stride levels, source and destination strides differ. -/
example : StrideFit (4 : Nat) [5, 20, 81] [3, 4, 2] ∧ [4, 13, 60].length = [3, 4, 2].length ∧
    IdxOK [4, 3, 4, 2] [3, 2, 3, 1] ∧ strAddr [5, 20, 81] [3, 2, 3, 1] = 154 ∧
    (pack (fun i => i) 100 [4, 13, 60] 4 [3, 4, 2])[packPos [4, 3, 4, 2] [3, 2, 3, 1]]? =
      some 210 := by decide

/-- The strided transfer of one piece of a put (`Model.xferPiece`), carried out by packing the
user buffer, sending the message and unpacking it in the memory of the target process, has exactly
the effect that the put model assigns to it. -/
theorem C15_piece_put [Inhabited V] (lo ld : List Int) (p : RPiece) (buf : Int → V)
    (mem : Addr → V) (hp : InPatch p.plo p.phi p.plo) (hld : ld.length + 1 = p.plo.length)
    (hrem : LdOK p.plo p.phi p.ldrem) (c0 : Nat) (cs : List Nat)
    (hc : natEdges p.plo p.phi = c0 :: cs) :
    let msg := pack buf (patchIndex lo p.plo ld) (setstride 1 ld) c0 cs
    (fun a : Addr => if a.1 = p.proc then
        unpack (fun i => msg.getD i default) (fun o => mem (p.proc, o)) p.prem
          (setstride 1 p.ldrem) c0 cs a.2 else mem a) =
      applyPut (xferPiece lo ld p) buf mem := by
  intro msg
  have hsl : (setstride 1 ld).length = cs.length := by
    have h1 : ∀ (a : Int) (l : List Int), (setstride a l).length = l.length := by
      intro a l
      induction l generalizing a with
      | nil => rfl
      | cons x l ih => simp [setstride, ih]
    have h2 : (natEdges p.plo p.phi).length = p.plo.length := by
      simp only [natEdges, List.length_map]
      exact edges_len hp.length.2
    rw [hc] at h2
    simp at h2
    rw [h1]; omega
  have hfit := strideFit_setstride hrem hp hc 1 (by omega)
  rw [Int.one_mul] at hfit
  obtain ⟨hh, hm⟩ := C15_pack_unpack buf (fun o => mem (p.proc, o)) (patchIndex lo p.plo ld) p.prem
    (setstride 1 ld) (setstride 1 p.ldrem) c0 cs hsl hfit
  have hrl := hrem.length
  have hnd : ((xferPiece lo ld p).map Xfer.addr).Nodup := by
    unfold xferPiece
    rw [List.map_map]
    rw [List.nodup_map_iff_inj_on]
    · intro i hi j hj e
      rw [mem_loopAll_zero hp] at hi hj
      simp only [Function.comp, Prod.mk.injEq, true_and] at e
      have hi' := nonneg_lift hi
      have hj' := nonneg_lift hj
      have hil := hi.length.1
      have hjl := hj.length.1
      simp only [List.length_map] at hil hjl
      rw [strideOff_eq (by omega), strideOff_eq (by omega)] at e
      have hb : ∀ z, InPatch (p.plo.map fun _ => 0) ((edges p.plo p.phi).map (· - 1)) z →
          HB z (p.ldrem ++ [0]) := by
        intro z hz
        have hbox := (mem_loopAll_zero hp).2 hz
        have hz1 : InPatch p.plo p.phi (addL p.plo z) := by
          rw [← mem_box, ← loopAll_zero hp]
          exact List.mem_map.2 ⟨z, hbox, rfl⟩
        have := ldok_hb hrem hz1
        rwa [subL_addL (by have := hz.length.1; simpa using this)] at this
      exact horner_inj (hb i hi) (hb j hj) (by omega)
    · rw [loopAll_eq_box]
      · exact nodup_box _ _
      · obtain ⟨i, hi⟩ : ∃ i, i ∈ loopAll (p.plo.map fun _ => 0) ((edges p.plo p.phi).map (· - 1)) := by
          have : p.plo ∈ box p.plo p.phi := mem_box.2 hp
          rw [← loopAll_zero hp, List.mem_map] at this
          obtain ⟨i, hi, _⟩ := this
          exact ⟨i, hi⟩
        exact ⟨i, (mem_loopAll_zero hp).1 hi⟩
  funext a
  by_cases hit : ∃ t ∈ xferPiece lo ld p, t.addr = a
  · obtain ⟨t, ht, rfl⟩ := hit
    have hput : applyPut (xferPiece lo ld p) buf mem t.addr = buf t.buf :=
      foldl_upd_hit _ Xfer.addr (fun _ t => buf t.buf) mem t ht hnd (fun _ _ _ => rfl)
    rw [hput]
    unfold xferPiece at ht
    rw [List.mem_map] at ht
    obtain ⟨i, hi, rfl⟩ := ht
    rw [mem_loopAll_zero hp] at hi
    have hi' := nonneg_lift hi
    have hok : IdxOK (c0 :: cs) (i.map Int.toNat) := by
      rw [← hc, idxOK_natEdges hp, hi']; exact hi
    have := hh _ hok
    simp only [strAddr_strideOff, hi'] at this
    simp only [if_true]
    exact this
  · have hput : applyPut (xferPiece lo ld p) buf mem a = mem a :=
      foldl_upd_miss _ Xfer.addr (fun _ t => buf t.buf) mem a (fun t ht e => hit ⟨t, ht, e⟩)
    rw [hput]
    by_cases ha : a.1 = p.proc
    · rw [if_pos ha]
      have := hm a.2 (by
        intro idx hidx e
        apply hit
        rw [← hc, idxOK_natEdges hp] at hidx
        refine ⟨_, List.mem_map.2 ⟨_, (mem_loopAll_zero hp).2 hidx, rfl⟩, ?_⟩
        simp only
        rw [← strAddr_strideOff, e, ← ha])
      rw [this, ← ha]
    · rw [if_neg ha]

/-- Non-trivial instance: a 3 x 2 x 2 piece of a larger patch. -/
example : let p : RPiece := ⟨3, [2, 4, 1], [4, 5, 2], 7, [5, 6]⟩
    InPatch p.plo p.phi p.plo ∧ [4, 3].length + 1 = p.plo.length ∧ LdOK p.plo p.phi p.ldrem ∧
      natEdges p.plo p.phi = [3, 2, 2] := by decide

end GA
