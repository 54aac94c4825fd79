import Verif.Model.Chunk
import Verif.Props.C15

/-!
# C42: large transfers are split without loss

`bytesOf` lists the byte positions that the pieces of a transfer carry, in transfer order.
-/

namespace GA
open Spec Model

variable {V : Type}

/-- byte positions carried by the pieces, in order -/
def bytesOf (cs : List (Nat × Nat)) : List Nat := cs.flatMap fun c => (List.range c.2).map (c.1 + ·)

theorem fwdChunks_spec {max : Nat} (hm : 0 < max) (f off rem : Nat) (hr : 0 < rem) (hf : rem ≤ f) :
    ∃ cs, fwdChunks max f off rem = some cs ∧
      bytesOf cs = (List.range rem).map (off + ·) ∧ ∀ c ∈ cs, 0 < c.2 ∧ c.2 ≤ max := by
  induction f generalizing off rem with
  | zero => omega
  | succ f ih =>
    simp only [fwdChunks]
    by_cases h : rem > max
    · simp only [h, if_true]
      rw [if_pos (by omega)]
      obtain ⟨cs, h1, h2, h3⟩ := ih (off + max) (rem - max) (by omega) (by omega)
      refine ⟨(off, max) :: cs, by rw [h1]; rfl, ?_, ?_⟩
      · simp only [bytesOf, List.flatMap_cons]
        rw [show cs.flatMap (fun c => (List.range c.2).map (c.1 + ·)) = bytesOf cs from rfl, h2]
        have e : rem = max + (rem - max) := by omega
        conv_rhs => rw [e, List.range_add, List.map_append, List.map_map]
        congr 1
        apply List.map_congr_left
        intro k _
        simp; omega
      · intro c hc
        rcases List.mem_cons.1 hc with rfl | hc
        · exact ⟨hm, Nat.le_refl _⟩
        · exact h3 c hc
    · simp only [if_neg h]
      rw [if_neg (by omega)]
      refine ⟨_, rfl, by simp [bytesOf], ?_⟩
      intro c hc
      simp only [List.mem_singleton] at hc
      subst hc
      exact ⟨hr, by simp; omega⟩

theorem bwdChunks_spec {max : Nat} (hm : 0 < max) (f rem : Nat) (hr : 0 < rem) (hf : rem ≤ f) :
    ∃ cs, bwdChunks max f rem rem = some cs ∧
      bytesOf cs.reverse = List.range rem ∧ ∀ c ∈ cs, 0 < c.2 ∧ c.2 ≤ max := by
  induction f generalizing rem with
  | zero => omega
  | succ f ih =>
    simp only [bwdChunks]
    by_cases h : rem > max
    · simp only [h, if_true]
      rw [if_pos (by omega)]
      obtain ⟨cs, h1, h2, h3⟩ := ih (rem - max) (by omega) (by omega)
      refine ⟨(rem - max, max) :: cs, by rw [h1]; rfl, ?_, ?_⟩
      · unfold bytesOf at h2 ⊢
        rw [List.reverse_cons, List.flatMap_append, h2]
        simp only [List.flatMap_cons, List.flatMap_nil, List.append_nil]
        rw [← List.range_add]
        congr 1; omega
      · intro c hc
        rcases List.mem_cons.1 hc with rfl | hc
        · exact ⟨hm, Nat.le_refl _⟩
        · exact h3 c hc
    · simp only [if_neg h]
      rw [if_neg (by omega)]
      refine ⟨_, rfl, by simp [bytesOf], ?_⟩
      intro c hc
      simp only [List.mem_singleton] at hc
      subst hc
      exact ⟨hr, by simp; omega⟩

/-- C42: the forward loop ends and produces consecutive non-empty pieces of at most the maximum
size that cover the buffer exactly once, in order. -/
theorem C42_forward_pieces (max len : Nat) (hm : 0 < max) (hl : 0 < len) :
    ∃ cs, fwdChunks max len 0 len = some cs ∧ bytesOf cs = List.range len ∧
      ∀ c ∈ cs, 0 < c.2 ∧ c.2 ≤ max := by
  obtain ⟨cs, h1, h2, h3⟩ := fwdChunks_spec hm len 0 len hl (Nat.le_refl _)
  exact ⟨cs, h1, by simpa using h2, h3⟩

/-- C42: the backward loop covers the buffer exactly once as well, starting with the last piece. -/
theorem C42_backward_pieces (max len : Nat) (hm : 0 < max) (hl : 0 < len) :
    ∃ cs, bwdChunks max len len len = some cs ∧ bytesOf cs.reverse = List.range len ∧
      ∀ c ∈ cs, 0 < c.2 ∧ c.2 ≤ max :=
  bwdChunks_spec hm len len hl (Nat.le_refl _)

theorem recvMsgs_send [Inhabited V] (src : Int → V) (sbase dbase : Int) (cs : List (Nat × Nat))
    (dst : Int → V) (hnd : (bytesOf cs).Nodup) :
    ∃ dst', recvMsgs dbase cs (sendMsgs src sbase cs) dst = some dst' ∧
      (∀ i ∈ bytesOf cs, dst' (dbase + i) = src (sbase + i)) ∧
      (∀ x, (∀ i ∈ bytesOf cs, dbase + (i : Nat) ≠ x) → dst' x = dst x) := by
  induction cs generalizing dst with
  | nil => exact ⟨dst, rfl, by simp [bytesOf], fun x _ => rfl⟩
  | cons c cs ih =>
    have hb : bytesOf (c :: cs) = (List.range c.2).map (c.1 + ·) ++ bytesOf cs := rfl
    rw [hb] at hnd ⊢
    obtain ⟨hnd1, hnd2, hnd3⟩ := List.nodup_append.1 hnd
    simp only [sendMsgs, List.map_cons, recvMsgs, readSeg, List.length_map, List.length_range,
      if_true]
    obtain ⟨dst', h1, h2, h3⟩ := ih _ hnd2
    refine ⟨dst', h1, ?_, ?_⟩
    · intro i hi
      rcases List.mem_append.1 hi with hi | hi
      · obtain ⟨b, hb, rfl⟩ := List.mem_map.1 hi
        rw [List.mem_range] at hb
        rw [h3]
        · have e : dbase + ((c.1 + b : Nat) : Int) = dbase + c.1 + b := by push_cast; omega
          rw [e, writeSeg_hit _ _ _ _ _ hb]
          simp only [List.getD_eq_getElem?_getD, List.getElem?_map, List.getElem?_range hb,
            Option.map_some, Option.getD_some]
          congr 1; push_cast; omega
        · intro j hj e
          exact hnd3 _ (List.mem_map.2 ⟨b, List.mem_range.2 hb, rfl⟩) j hj (by omega)
      · exact h2 i hi
    · intro x hx
      rw [h3 x fun i hi => hx i (List.mem_append.2 (Or.inr hi)), writeSeg_miss]
      by_contra hc
      have h0 : dbase + c.1 ≤ x ∧ x < dbase + c.1 + c.2 := by omega
      apply hx (c.1 + (x - (dbase + c.1)).toNat)
      · exact List.mem_append.2 (Or.inl (List.mem_map.2
          ⟨_, List.mem_range.2 (by omega), rfl⟩))
      · push_cast; omega

/-- C42: a forward transfer delivers every byte to its place and touches nothing else. -/
theorem C42_forward_delivery [Inhabited V] (max len : Nat) (hm : 0 < max) (hl : 0 < len)
    (src dst : Int → V) (sbase dbase : Int) :
    ∃ dst', xferFwd max len src dst sbase dbase = some dst' ∧
      (∀ i : Nat, i < len → dst' (dbase + i) = src (sbase + i)) ∧
      (∀ x, x < dbase ∨ dbase + len ≤ x → dst' x = dst x) := by
  obtain ⟨cs, h1, h2, -⟩ := C42_forward_pieces max len hm hl
  obtain ⟨dst', g1, g2, g3⟩ := recvMsgs_send src sbase dbase cs dst (by
    rw [h2]; exact List.nodup_range)
  refine ⟨dst', by simp [xferFwd, h1, g1], ?_, ?_⟩
  · intro i hi
    exact g2 i (by rw [h2]; exact List.mem_range.2 hi)
  · intro x hx
    apply g3
    intro i hi
    rw [h2, List.mem_range] at hi
    omega

theorem bytesOf_reverse (cs : List (Nat × Nat)) : (bytesOf cs.reverse).Perm (bytesOf cs) :=
  List.Perm.flatMap_right _ (List.reverse_perm cs)

/-- C42: the backward variant delivers the same bytes. -/
theorem C42_backward_delivery [Inhabited V] (max len : Nat) (hm : 0 < max) (hl : 0 < len)
    (src dst : Int → V) (sbase dbase : Int) :
    ∃ dst', xferBwd max len src dst sbase dbase = some dst' ∧
      (∀ i : Nat, i < len → dst' (dbase + i) = src (sbase + i)) ∧
      (∀ x, x < dbase ∨ dbase + len ≤ x → dst' x = dst x) := by
  obtain ⟨cs, h1, h2, -⟩ := C42_backward_pieces max len hm hl
  have hp := bytesOf_reverse cs
  rw [h2] at hp
  obtain ⟨dst', g1, g2, g3⟩ := recvMsgs_send src sbase dbase cs dst
    (hp.nodup_iff.1 List.nodup_range)
  refine ⟨dst', by simp [xferBwd, h1, g1], ?_, ?_⟩
  · intro i hi
    exact g2 i (hp.mem_iff.1 (List.mem_range.2 hi))
  · intro x hx
    apply g3
    intro i hi
    have := hp.mem_iff.2 hi
    rw [List.mem_range] at this
    omega

/-- C42 and C15 together: a packed strided put that is too long for one message has the effect of
copying the strided region, for every maximum message size. -/
theorem C42_packed_put [Inhabited V] (max : Nat) (hm : 0 < max) (src dst : Int → V)
    (sbase dbase : Int) (sstr dstr : List Int) (c0 : Nat) (counts : List Nat) (hc0 : 0 < c0)
    (hpos : ∀ c ∈ counts, 0 < c) (hs : sstr.length = counts.length)
    (hfit : StrideFit c0 dstr counts) :
    ∃ dst', putPacked max src dst sbase dbase sstr dstr c0 counts = some dst' ∧
      (∀ idx, IdxOK (c0 :: counts) idx →
        dst' (dbase + strAddr dstr idx) = src (sbase + strAddr sstr idx)) ∧
      (∀ x, (∀ idx, IdxOK (c0 :: counts) idx → dbase + strAddr dstr idx ≠ x) → dst' x = dst x) := by
  have hlen := (C15_pack src sbase sstr c0 counts hs).1
  have hp : 0 < prodNat (c0 :: counts) := by
    have : ∀ l : List Nat, (∀ c ∈ l, 0 < c) → 0 < prodNat l := by
      intro l hl
      induction l with
      | nil => simp [prodNat]
      | cons a l ih => exact Nat.mul_pos (hl a (by simp)) (ih fun c hc => hl c (by simp [hc]))
    exact this _ (by intro c hc; rcases List.mem_cons.1 hc with rfl | h; exact hc0; exact hpos c h)
  obtain ⟨buf, h1, h2, -⟩ := C42_backward_delivery max (pack src sbase sstr c0 counts).length hm
    (by omega) (fun i => (pack src sbase sstr c0 counts).getD i.toNat default)
    (fun _ => (default : V)) 0 0
  refine ⟨unpack (fun i => buf i) dst dbase dstr c0 counts, by
    unfold putPacked; simp only; rw [h1]; rfl, ?_⟩
  have hl : dstr.length = counts.length := by
    clear * - hfit
    generalize (c0 : Int) = w at hfit
    induction counts generalizing w dstr with
    | nil => cases dstr <;> simp_all [StrideFit]
    | cons c cs ih =>
      cases dstr with
      | nil => simp [StrideFit] at hfit
      | cons s ss => simp [ih _ _ hfit.2]
  obtain ⟨u1, u2⟩ := unpack_spec (fun i => buf i) dst dbase c0 hl hfit
  refine ⟨?_, u2⟩
  intro idx hidx
  rw [u1 idx hidx]
  have hget := (C15_pack src sbase sstr c0 counts hs).2.2 idx hidx
  obtain ⟨hlt, hv⟩ := List.getElem?_eq_some_iff.1 hget
  have := h2 _ hlt
  simp only [Int.zero_add, Int.toNat_natCast] at this
  rw [this, List.getD_eq_getElem?_getD, hget]
  rfl

/-- Non-trivial instances: 10 bytes in pieces of at most 4. -/
example : fwdChunks 4 10 0 10 = some [(0, 4), (4, 4), (8, 2)] ∧
    bwdChunks 4 10 10 10 = some [(6, 4), (2, 4), (0, 2)] := by decide

example : StrideFit (4 : Nat) [5, 20] [3, 2] ∧ [6, 21].length = [3, 2].length ∧
    (putPacked 5 (fun i => i) (fun _ => 0) 0 100 [6, 21] [5, 20] 4 [3, 2]).map (· 131) =
      some 34 := by decide

end GA
