import Verif.Lemmas.DraChunking
import Verif.Props.C69

/-!
# C70: the blocks of a disk resident array
-/

namespace GA
open Spec Model Spec.Dra
open GA.Dra

/-- what the two floating point computations of the code are assumed to do: a quotient of two numbers `0 < b < d`, rounded, is positive, and
multiplication with a number smaller than one does not make a number larger -/
structure C70_Float (near : Int → Int → Int) (scale : Int → Int) : Prop where
  near : ∀ d b, 0 < b → b < d → 0 < near d b
  scale : ∀ c, scale c ≤ c

/-- **C70, blocks.** Whatever a program says about its typical requests - sizes that are too large, negative, zero - every array gets blocks that are not
empty, not larger than the array in any dimension, and fit into the buffer for disk transfers of 1 MiB. -/
theorem C70_blocks {near : Int → Int → Int} {scale : Int → Int} (hf : C70_Float near scale) (elem : Int) (he : 1 ≤ elem) (hb : elem ≤ 1048576)
    (dims reqdims : List Int) (hd : ∀ d ∈ dims, 1 ≤ d) (hl : reqdims.length = dims.length) :
    (chunking near scale elem dims reqdims).length = dims.length ∧
    (∀ i, i < dims.length → 1 ≤ (chunking near scale elem dims reqdims).getD i 0 ∧ (chunking near scale elem dims reqdims).getD i 0 ≤ dims.getD i 0) ∧
    elem * (chunking near scale elem dims reqdims).prod ≤ 1048576 := by
  obtain ⟨h1, h2⟩ := chunking_spec hf.near hf.scale he (by unfold bufBytes; omega) hd hl
  refine ⟨h1.1, h1.2, ?_⟩
  have hp : ∀ l : List Int, prodI l = l.prod := by
    intro l
    induction l with
    | nil => simp [prodI]
    | cons a l ih => simp [prodI, ih]
  rw [← hp]
  exact h2

/-- **C70, requested blocks.** A typical request whose sizes divide those of the array and that fits into the buffer is the block size. -/
theorem C70_requested {near : Int → Int → Int} {scale : Int → Int} (elem : Int) (dims reqdims : List Int) (hl : reqdims.length = dims.length)
    (hr : ∀ i, i < dims.length → 1 ≤ reqdims.getD i 0 ∧ reqdims.getD i 0 ≤ dims.getD i 0 ∧ reqdims.getD i 0 ∣ dims.getD i 0)
    (hb : elem * reqdims.prod ≤ 1048576) : chunking near scale elem dims reqdims = reqdims := by
  have hp : ∀ l : List Int, prodI l = l.prod := by
    intro l
    induction l with
    | nil => simp [prodI]
    | cons a l ih => simp [prodI, ih]
  have hpos : ∀ b ∈ reqdims, 1 ≤ b := by
    intro b h
    obtain ⟨i, hi, rfl⟩ := List.mem_iff_getElem.1 h
    have := (hr i (by omega)).1
    rwa [getD_of_lt hi] at this
  have hblk : List.zipWith (adjBlock near) dims reqdims = reqdims := by
    apply List.ext_getElem
    · simp [hl]
    · intro i h1 h2
      have h := hr i (by omega)
      rw [getD_of_lt h2, getD_of_lt (by omega : i < dims.length)] at h
      rw [List.getElem_zipWith]
      unfold adjBlock
      dsimp only
      have hb : (if dims[i] < reqdims[i] then dims[i] else reqdims[i]) = reqdims[i] := if_neg (by omega)
      rw [hb, if_neg]
      rintro ⟨_, _, h3⟩
      exact h3 (Int.emod_eq_zero_of_dvd h.2.2)
  have hmap : reqdims.map (fun b => if 0 < b then b else 1) = reqdims := by
    conv_rhs => rw [← List.map_id reqdims]
    apply List.map_congr_left
    intro b h
    have := hpos b h
    rw [if_pos (by omega)]; rfl
  have hmap0 : reqdims.map (fun b => if b = 0 then 1 else b) = reqdims := by
    conv_rhs => rw [← List.map_id reqdims]
    apply List.map_congr_left
    intro b h
    have := hpos b h
    rw [if_neg (by omega)]; rfl
  have hany : (reqdims.any fun b => decide (b ≤ 0)) = false := by
    rw [List.any_eq_false]
    intro b h
    have := hpos b h
    simp; omega
  have hov : ¬ bufBytes < prodI reqdims * elem := by rw [hp, Int.mul_comm]; unfold bufBytes; omega
  have hov2 : ¬ bufBytes < elem * prodI reqdims := by rw [hp]; unfold bufBytes; omega
  unfold chunking
  dsimp only
  rw [hblk, hmap, hany]
  simp only [hov, decide_false, Bool.not_false, Bool.and_false, Bool.false_eq_true, if_false, hmap, hmap0]
  unfold nudge
  rw [if_neg hov2]

/-- **C70, transfers.** Every disk transfer of every process for a valid request fits into the buffer. -/
theorem C70_fits {near : Int → Int → Int} {scale : Int → Int} (hf : C70_Float near scale) {elem : Int} (he : 1 ≤ elem) (hb : elem ≤ 1048576)
    {dims reqdims : List Int} (hne : dims ≠ []) (hd : ∀ d ∈ dims, 1 ≤ d) (hl : reqdims.length = dims.length) (multi : Bool) {ioprocs : Int}
    (hio : 0 < ioprocs) {stale : Nat → Int} (hst : ∀ i, stale i ≤ 0) {dlo dhi : List Int} (hp : PatchOK dims dlo dhi) (k : Int) :
    ∃ L, items ⟨dims.zip (chunking near scale elem dims reqdims), multi, ioprocs⟩ stale k dlo dhi = some L ∧
      ∀ t ∈ L, elem * (List.zipWith (fun h l => h - l + 1) t.hi t.lo).prod ≤ 1048576 := by
  obtain ⟨h1, h2⟩ := chunking_spec hf.near hf.scale he (by unfold bufBytes; omega) hd hl
  generalize chunking near scale elem dims reqdims = ch at h1 h2
  have hs : ShapeOK (dims.zip ch) := by
    intro s hm
    obtain ⟨i, hi, rfl⟩ := List.mem_iff_getElem.1 hm
    rw [List.length_zip] at hi
    have := h1.2 i (by omega)
    rw [getD_of_lt (by omega : i < dims.length), getD_of_lt (by omega : i < ch.length)] at this
    rw [List.getElem_zip]
    exact this
  have hm1 : (dims.zip ch).map (·.1) = dims := List.map_fst_zip (by rw [h1.1])
  have hm2 : (dims.zip ch).map (·.2) = ch := List.map_snd_zip (by rw [h1.1])
  have hzne : dims.zip ch ≠ [] := by
    intro h
    have := congrArg List.length h
    rw [List.length_zip, h1.1] at this
    simp at this
    exact hne this
  obtain ⟨L, hL, hg⟩ := items_ok (A := ⟨dims.zip ch, multi, ioprocs⟩) hs hio hzne hst (dlo := dlo) (dhi := dhi) (by rw [hm1]; exact hp) k
  refine ⟨L, hL, fun t ht => ?_⟩
  have hc := (hg.ok t ht).chunk
  have hle := chunk_le hs hc
  rw [hm2] at hle
  have he2 : prodI (edges t.lo t.hi) = (List.zipWith (fun h l => h - l + 1) t.hi t.lo).prod := by
    have : ∀ lo hi : List Int, prodI (edges lo hi) = (List.zipWith (fun h l => h - l + 1) hi lo).prod := by
      intro lo
      induction lo with
      | nil => intro hi; cases hi <;> simp [edges, prodI]
      | cons l lo ih => intro hi; cases hi <;> simp [edges, prodI, ih]
    exact this _ _
  rw [← he2]
  have := Int.mul_le_mul_of_nonneg_left hle (by omega : 0 ≤ elem)
  unfold bufBytes at h2
  omega

/-- **C70, created arrays.** An array created on nodes with the same number of processes with any request for blocks, files and I/O processes has the
geometry and the I/O processes C69 asks for. -/
theorem C70_created {near : Int → Int → Int} {scale : Int → Int} (hf : C70_Float near scale) (N m : Nat) (hN : 0 < N) (hm : 0 < m) {elem : Int} (he : 1 ≤ elem)
    (hb : elem ≤ 1048576) {dims reqdims : List Int} (hne : dims ≠ []) (hd : ∀ d ∈ dims, 1 ≤ d) (hl : reqdims.length = dims.length) (numfiles numioprocs : Int) :
    let A := create false (List.replicate N m) dims (chunking near scale elem dims reqdims) numfiles numioprocs
    A.shape.map (·.1) = dims ∧ C69_Geometry A ∧ C69_OneEach (createId false (List.replicate N m) numfiles numioprocs) (N * m) A.ioprocs := by
  intro A
  obtain ⟨h1, h2⟩ := chunking_spec hf.near hf.scale he (by unfold bufBytes; omega) hd hl
  have hio := C69_io_uniform N m hN hm dims (chunking near scale elem dims reqdims) numfiles numioprocs
  refine ⟨List.map_fst_zip (by rw [h1.1]), ⟨?_, ?_, hio.2⟩, hio.1⟩
  · intro h
    have h' : dims.zip (chunking near scale elem dims reqdims) = [] := h
    have := congrArg List.length h'
    rw [List.length_zip, h1.1] at this
    simp at this
    exact hne this
  · intro s hm
    have hm' : s ∈ dims.zip (chunking near scale elem dims reqdims) := hm
    obtain ⟨i, hi, rfl⟩ := List.mem_iff_getElem.1 hm'
    rw [List.length_zip] at hi
    have := h1.2 i (by omega)
    rw [getD_of_lt (by omega : i < dims.length), getD_of_lt (by omega : i < (chunking near scale elem dims reqdims).length)] at this
    rw [List.getElem_zip]
    exact this

/-- integer versions of the two computations meet the assumptions -/
example : C70_Float (fun d b => (2 * d + b) / (2 * b)) (fun c => if 0 < c then c * 3 / 4 else c) := by
  constructor
  · intro d b h1 h2
    exact Int.lt_of_lt_of_le (by omega) ((Int.le_ediv_iff_mul_le (by omega)).2 (by omega : 1 * (2 * b) ≤ 2 * d + b))
  · intro c
    split <;> omega

/-- a request that is too large, one that is a little off a divisor, one without any wish, and one that is used as it is -/
example : chunking (fun d b => (2 * d + b) / (2 * b)) (fun c => if 0 < c then c * 3 / 4 else c) 8 [1000, 1000] [500, 500] = [349, 375] ∧
    chunking (fun d b => (2 * d + b) / (2 * b)) (fun c => c * 3 / 4) 8 [100, 100] [34, 26] = [34, 25] ∧
    chunking (fun d b => (2 * d + b) / (2 * b)) (fun c => c * 3 / 4) 8 [1000, 500, 3] [-1, -1, -1] = [87, 500, 3] ∧
    chunking (fun d b => (2 * d + b) / (2 * b)) (fun c => c * 3 / 4) 8 [1000, 500, 3] [100, 250, 3] = [100, 250, 3] := by decide +kernel

end GA
