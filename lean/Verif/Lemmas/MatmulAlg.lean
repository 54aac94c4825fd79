import Verif.Lemmas.Matmul

/-! # Lemmas: the algorithms for matrix multiplication

Each process issues the stores or accumulates of its tasks (`taskActs`), in order. -/

namespace GA.Matmul
open GA.Model GA.Spec

/-! ## sequences of steps -/

theorem seqRun_inv {σ τ α : Type} {step : σ → τ → Option (List α × σ)} {Inv : σ → Prop} {g : τ → List α} :
    ∀ (l : List τ) (st : σ), Inv st → (∀ t ∈ l, ∀ st, Inv st → ∃ st', step st t = some (g t, st') ∧ Inv st') →
      ∃ st', seqRun step st l = some (l.flatMap g, st') ∧ Inv st'
  | [], st, h, _ => ⟨st, rfl, h⟩
  | t :: l, st, h, hs => by
    obtain ⟨st1, e1, i1⟩ := hs t (List.mem_cons_self ..) st h
    obtain ⟨st2, e2, i2⟩ := seqRun_inv l st1 i1 fun t ht => hs t (List.mem_cons_of_mem _ ht)
    refine ⟨st2, ?_, i2⟩
    simp only [seqRun, e1, e2, Option.map_some, List.flatMap_cons]

/-- the results of the tasks that process `me` of `nproc` takes, if the first task has number `n` -/
def own {τ α : Type} (nproc me : Nat) (g : τ → List α) : Nat → List τ → List α
  | _, [] => []
  | n, t :: ts => (if n % nproc = me then g t else []) ++ own nproc me g (n + 1) ts

theorem own_append {τ α : Type} {nproc me : Nat} {g : τ → List α} : ∀ (l1 l2 : List τ) (n : Nat),
    own nproc me g n (l1 ++ l2) = own nproc me g n l1 ++ own nproc me g (n + l1.length) l2
  | [], l2, n => by simp [own]
  | t :: l1, l2, n => by
    simp only [List.cons_append, own, own_append l1 l2 (n + 1), List.append_assoc, List.length_cons]
    congr 3
    omega

/-- steps that take a part of the tasks each, with results delayed: `q` are the results still to come -/
theorem seqRun_own {σ τ θ α : Type} {nproc me : Nat} {g : θ → List α} {sub : τ → List θ}
    {step : σ → τ → Option (List α × σ)} {Inv : Nat → List α → σ → Prop} :
    ∀ (l : List τ) (n : Nat) (q : List α) (st : σ), Inv n q st →
      (∀ t ∈ l, ∀ n q st, Inv n q st → ∃ out st' q', step st t = some (out, st') ∧ Inv (n + (sub t).length) q' st' ∧
        q ++ own nproc me g n (sub t) = out ++ q') →
      ∃ out st' q', seqRun step st l = some (out, st') ∧ Inv (n + (l.flatMap sub).length) q' st' ∧
        q ++ own nproc me g n (l.flatMap sub) = out ++ q'
  | [], n, q, st, h, _ => ⟨[], st, q, rfl, h, by simp [own]⟩
  | t :: l, n, q, st, h, hs => by
    obtain ⟨o1, st1, q1, e1, i1, a1⟩ := hs t (List.mem_cons_self ..) n q st h
    obtain ⟨o2, st2, q2, e2, i2, a2⟩ := seqRun_own l _ q1 st1 i1 fun t ht => hs t (List.mem_cons_of_mem _ ht)
    refine ⟨o1 ++ o2, st2, q2, ?_, ?_, ?_⟩
    · simp only [seqRun, e1, e2, Option.map_some]
    · rw [List.flatMap_cons, List.length_append, ← Nat.add_assoc]; exact i2
    · rw [List.flatMap_cons, own_append, ← List.append_assoc, a1, List.append_assoc, a2, List.append_assoc]

section
variable {V : Type} [Semiring V]

/-! ## legal calls -/

/-- the three patches lie inside the arrays -/
structure Good (c : Call V) (A B : Arr V) (d0 d1 m n k : Int) : Prop where
  a : Inside A c.ta c.ailo c.ajlo 0 (m - 1) 0 (k - 1)
  b : Inside B c.tb c.bilo c.bjlo 0 (k - 1) 0 (n - 1)
  c : 1 ≤ c.cilo ∧ c.cilo + (m - 1) ≤ d0 ∧ 1 ≤ c.cjlo ∧ c.cjlo + (n - 1) ≤ d1

theorem Inside.sub {A : Arr V} {tr : Bool} {xi xj r0 r1 c0 c1 r0' r1' c0' c1' : Int} (h : Inside A tr xi xj r0 r1 c0 c1)
    (h1 : r0 ≤ r0') (h2 : r1' ≤ r1) (h3 : c0 ≤ c0') (h4 : c1' ≤ c1) : Inside A tr xi xj r0' r1' c0' c1' := by
  obtain ⟨a1, a2, a3⟩ := h
  refine ⟨by omega, by omega, ?_⟩
  cases tr <;> simp only [Bool.false_eq_true, if_false, if_true] at a3 ⊢ <;> omega

theorem Good.emit {c : Call V} {A B : Arr V} {d0 d1 m n k : Int} (h : Good c A B d0 d1 m n k) {i0 i1 j0 j1 : Int}
    (h1 : 0 ≤ i0) (h2 : i1 ≤ m - 1) (h3 : 0 ≤ j0) (h4 : j1 ≤ n - 1) :
    1 ≤ c.cilo + i0 ∧ c.cilo + i1 ≤ d0 ∧ 1 ≤ c.cjlo + j0 ∧ c.cjlo + j1 ≤ d1 := by
  have := h.c
  omega

/-- positive chunk sizes -/
def Chunks.Pos (ch : Chunks) : Prop := 0 < ch.i ∧ 0 < ch.j ∧ 0 < ch.k

/-! ## the tasks of a process that works on its own block -/

/-- the tasks of one pair of chunks -/
def pairActs (c : Call V) (A B : Arr V) (scaled : Bool) (istart iend jend kend : Int) (ch : Chunks) (s : TState) :
    List (CAct V) :=
  (starts istart iend ch.i).flatMap fun i =>
    taskActs c A B (!scaled && s.put) i (chunkEnd iend i ch.i) s.jlo (chunkEnd jend s.jlo ch.j) s.klo (chunkEnd kend s.klo ch.k)

/-- all tasks of the process -/
def ownActs (c : Call V) (A B : Arr V) (scaled : Bool) (istart iend jstart jend kend : Int) (ch : Chunks) : List (CAct V) :=
  ((starts jstart jend ch.j).flatMap fun j => pairsK j true (starts 0 kend ch.k)).flatMap
    (pairActs c A B scaled istart iend jend kend ch)

/-- the block `istart..iend x jstart..jend` of the result, if it is not empty, lies inside the patch -/
def Block (m n istart iend jstart jend : Int) : Prop :=
  istart ≤ iend → jstart ≤ jend → 0 ≤ istart ∧ iend ≤ m - 1 ∧ 0 ≤ jstart ∧ jend ≤ n - 1

theorem shmemI_ok {c : Call V} {A B : Arr V} {d0 d1 m n k : Int} (hg : Good c A B d0 d1 m n k) {iend jhi khi jlo klo ilo : Int}
    {ch : Chunks} (h1 : 0 ≤ ilo) (h2 : chunkEnd iend ilo ch.i ≤ m - 1) (h3 : 0 ≤ jlo) (h4 : jhi ≤ n - 1) (h5 : 0 ≤ klo)
    (h6 : khi ≤ k - 1) {st : ShSt V} (hb : st.newB = false → IsChunk B c.tb c.bilo c.bjlo klo khi jlo jhi st.b st.bdim) :
    ∃ st', shmemI c A B d0 d1 iend jhi khi ch jlo klo st ilo =
        some (taskActs c A B st.doPut ilo (chunkEnd iend ilo ch.i) jlo jhi klo khi, st') ∧
      st'.doPut = st.doPut ∧ IsChunk B c.tb c.bilo c.bjlo klo khi jlo jhi st'.b st'.bdim := by
  obtain ⟨a, ad, ea, ia⟩ := getChunk_ok st.a (hg.a.sub h1 h2 h5 h6)
  have hB : ∃ b bd, (if st.newB then getChunk B c.tb c.bilo c.bjlo klo khi jlo jhi st.b else some (st.b, st.bdim)) = some (b, bd) ∧
      IsChunk B c.tb c.bilo c.bjlo klo khi jlo jhi b bd := by
    by_cases hn : st.newB = true
    · rw [if_pos hn]
      exact getChunk_ok st.b (hg.b.sub h5 h6 h3 h4)
    · rw [if_neg hn]
      exact ⟨_, _, rfl, hb (by simpa using hn)⟩
  obtain ⟨b, bd, eb, ib⟩ := hB
  have he := emit_ok (d0 := d0) (d1 := d1) st.doPut ia ib (hg.emit h1 h2 h3 h4)
  unfold shmemI
  simp only [ea, eb, he, Option.map_some]
  exact ⟨_, rfl, rfl, ib⟩

theorem shmemK_ok {c : Call V} {A B : Arr V} {d0 d1 m n k : Int} (hg : Good c A B d0 d1 m n k)
    {istart iend jstart jend jlo klo : Int} {ch : Chunks} (hp : ch.Pos) (hbl : Block m n istart iend jstart jend)
    (hj : jlo ∈ starts jstart jend ch.j) (hk : klo ∈ starts 0 (k - 1) ch.k) (put scaled : Bool) (st : ShSt V)
    (hd : st.doPut = (!scaled && put)) :
    ∃ st', shmemK c A B d0 d1 istart iend (chunkEnd jend jlo ch.j) (k - 1) ch jlo st klo =
        some (pairActs c A B scaled istart iend jend (k - 1) ch ⟨jlo, klo, put⟩, st') ∧ st'.doPut = false := by
  obtain ⟨p1, p2, p3⟩ := hp
  have bj := chunk_bounds p2 hj
  have bk := chunk_bounds p3 hk
  obtain ⟨st', e, i⟩ := seqRun_inv (g := fun i => taskActs c A B (!scaled && put) i (chunkEnd iend i ch.i) jlo
      (chunkEnd jend jlo ch.j) klo (chunkEnd (k - 1) klo ch.k))
    (step := shmemI c A B d0 d1 iend (chunkEnd jend jlo ch.j) (chunkEnd (k - 1) klo ch.k) ch jlo klo)
    (Inv := fun s : ShSt V => s.doPut = (!scaled && put) ∧ (s.newB = false →
      IsChunk B c.tb c.bilo c.bjlo klo (chunkEnd (k - 1) klo ch.k) jlo (chunkEnd jend jlo ch.j) s.b s.bdim))
    (starts istart iend ch.i) { st with newB := true } ⟨hd, by simp⟩ (by
      intro i hi s ⟨s1, s2⟩
      have bi := chunk_bounds p1 hi
      have := hbl (by omega) (by omega)
      obtain ⟨s', e, q1, q2⟩ := shmemI_ok hg (iend := iend) (jhi := chunkEnd jend jlo ch.j) (khi := chunkEnd (k - 1) klo ch.k)
        (ilo := i) (jlo := jlo) (klo := klo) (ch := ch) (by omega) (by omega) (by omega) (by omega) (by omega) (by omega) s2
      rw [s1] at e q1
      exact ⟨s', e, q1, fun _ => q2⟩)
  unfold shmemK
  rw [e]
  exact ⟨_, rfl, rfl⟩

theorem shmemJ_ok {c : Call V} {A B : Arr V} {d0 d1 m n k : Int} (hg : Good c A B d0 d1 m n k)
    {istart iend jstart jend jlo : Int} {ch : Chunks} (hp : ch.Pos) (hbl : Block m n istart iend jstart jend)
    (hj : jlo ∈ starts jstart jend ch.j) (hk0 : 1 ≤ k) (scaled : Bool) (st : ShSt V) (hd : scaled = true → st.doPut = false) :
    ∃ st', shmemJ c A B d0 d1 istart iend jend (k - 1) ch scaled st jlo =
        some ((pairsK jlo true (starts 0 (k - 1) ch.k)).flatMap (pairActs c A B scaled istart iend jend (k - 1) ch), st') ∧
      st'.doPut = false := by
  unfold shmemJ
  cases hks : starts 0 (k - 1) ch.k with
  | nil =>
    exfalso
    have : (0 : Int) ∈ starts 0 (k - 1) ch.k := (mem_starts hp.2.2).2 ⟨0, by simp, by omega⟩
    rw [hks] at this
    simp at this
  | cons k0 ks =>
    have hmem : ∀ x ∈ k0 :: ks, x ∈ starts 0 (k - 1) ch.k := fun x hx => by rw [hks]; exact hx
    obtain ⟨st1, e1, i1⟩ := shmemK_ok hg hp hbl hj (hmem k0 (List.mem_cons_self ..)) true scaled
      { st with doPut := if scaled then st.doPut else true } (by cases scaled <;> simp_all)
    obtain ⟨st2, e2, i2⟩ := seqRun_inv (Inv := fun s : ShSt V => s.doPut = false)
      (g := fun kl => pairActs c A B scaled istart iend jend (k - 1) ch ⟨jlo, kl, false⟩)
      (step := shmemK c A B d0 d1 istart iend (chunkEnd jend jlo ch.j) (k - 1) ch jlo) ks st1 i1 (by
        intro kl hkl s hs
        exact shmemK_ok hg hp hbl hj (hmem kl (List.mem_cons_of_mem _ hkl)) false scaled s (by simp [hs]))
    refine ⟨st2, ?_, i2⟩
    simp only [seqRun, e1, e2, Option.map_some, pairsK, List.flatMap_cons, List.flatMap_map]

theorem shmem_ok {c : Call V} {A B : Arr V} {d0 d1 m n k : Int} (hg : Good c A B d0 d1 m n k) {l0 h0 l1 h1 : Int}
    {ch : Chunks} (hp : ch.Pos) (hbl : Block m n (l0 - 1) (h0 - 1) (l1 - 1) (h1 - 1)) (hk0 : 1 ≤ k)
    (hk : k = c.ajhi - c.ajlo + 1) (scaled : Bool) (old : Int → V) :
    shmem c A B d0 d1 l0 h0 l1 h1 ch scaled old =
      some (ownActs c A B scaled (l0 - 1) (h0 - 1) (l1 - 1) (h1 - 1) (k - 1) ch) := by
  have e : c.ajhi - c.ajlo = k - 1 := by omega
  unfold shmem
  rw [e]
  obtain ⟨st', e, _⟩ := seqRun_inv (Inv := fun s : ShSt V => scaled = true → s.doPut = false)
    (g := fun j => (pairsK j true (starts 0 (k - 1) ch.k)).flatMap (pairActs c A B scaled (l0 - 1) (h0 - 1) (h1 - 1) (k - 1) ch))
    (step := shmemJ c A B d0 d1 (l0 - 1) (h0 - 1) (h1 - 1) (k - 1) ch scaled) (starts (l1 - 1) (h1 - 1) ch.j)
    ⟨old, old, 0, true, false⟩ (fun _ => rfl) (by
      intro j hj s hs
      obtain ⟨s', e, q⟩ := shmemJ_ok hg hp hbl hj hk0 scaled s hs
      exact ⟨s', e, fun _ => q⟩)
  rw [e, Option.map_some]
  unfold ownActs
  rw [List.flatMap_assoc]

/-! ## tasks that are dealt out in turn -/

/-- a task: the chunks of columns, inner subscripts and rows -/
abbrev T3 := Int × Int × Int

/-- all tasks, in the order of the loops -/
def allTasks (m n k : Int) (ch : Chunks) : List T3 :=
  (starts 0 (n - 1) ch.j).flatMap fun j => (starts 0 (k - 1) ch.k).flatMap fun kl => (starts 0 (m - 1) ch.i).flatMap fun i =>
    [(j, kl, i)]

/-- the accumulates of a task -/
def accActs (c : Call V) (A B : Arr V) (m n k : Int) (ch : Chunks) (t : T3) : List (CAct V) :=
  taskActs c A B false t.2.2 (chunkEnd (m - 1) t.2.2 ch.i) t.1 (chunkEnd (n - 1) t.1 ch.j) t.2.1 (chunkEnd (k - 1) t.2.1 ch.k)

/-! ### `gai_matmul_patch` -/

theorem paI_ok {c : Call V} {A B : Arr V} {d0 d1 m n k : Int} (hg : Good c A B d0 d1 m n k) {ch : Chunks} (hp : ch.Pos)
    {nproc me : Nat} {jlo klo ilo : Int} (hj : jlo ∈ starts 0 (n - 1) ch.j) (hk : klo ∈ starts 0 (k - 1) ch.k)
    (hi : ilo ∈ starts 0 (m - 1) ch.i) (n0 : Nat) (q : List (CAct V)) (st : PaSt V)
    (h : st.ijk = n0 ∧ q = [] ∧ (st.newB = false → IsChunk B c.tb c.bilo c.bjlo klo (chunkEnd (k - 1) klo ch.k) jlo
      (chunkEnd (n - 1) jlo ch.j) st.b st.bdim)) :
    ∃ out st' q', paI c A B d0 d1 m (chunkEnd (n - 1) jlo ch.j) (chunkEnd (k - 1) klo ch.k) ch nproc me jlo klo st ilo =
        some (out, st') ∧ (st'.ijk = n0 + 1 ∧ q' = [] ∧ (st'.newB = false → IsChunk B c.tb c.bilo c.bjlo klo
          (chunkEnd (k - 1) klo ch.k) jlo (chunkEnd (n - 1) jlo ch.j) st'.b st'.bdim)) ∧
      q ++ own nproc me (accActs c A B m n k ch) n0 [(jlo, klo, ilo)] = out ++ q' := by
  obtain ⟨p1, p2, p3⟩ := hp
  have bj := chunk_bounds p2 hj
  have bk := chunk_bounds p3 hk
  have bi := chunk_bounds p1 hi
  obtain ⟨g1, rfl, g3⟩ := h
  unfold paI
  by_cases hm : st.ijk % nproc = me
  · rw [if_pos hm]
    obtain ⟨a, ad, ea, ia⟩ := getChunk_ok st.a (hg.a.sub bi.1 bi.2.2 bk.1 bk.2.2)
    have hB : ∃ b bd, (if st.newB then getChunk B c.tb c.bilo c.bjlo klo (chunkEnd (k - 1) klo ch.k) jlo (chunkEnd (n - 1) jlo ch.j)
        st.b else some (st.b, st.bdim)) = some (b, bd) ∧
        IsChunk B c.tb c.bilo c.bjlo klo (chunkEnd (k - 1) klo ch.k) jlo (chunkEnd (n - 1) jlo ch.j) b bd := by
      by_cases hn : st.newB = true
      · rw [if_pos hn]
        exact getChunk_ok st.b (hg.b.sub bk.1 bk.2.2 bj.1 bj.2.2)
      · rw [if_neg hn]
        exact ⟨_, _, rfl, g3 (by simpa using hn)⟩
    obtain ⟨b, bd, eb, ib⟩ := hB
    have he := emit_ok (d0 := d0) (d1 := d1) false ia ib (hg.emit bi.1 bi.2.2 bj.1 bj.2.2)
    simp only [ea, eb, he, Option.map_some]
    refine ⟨_, _, [], rfl, ⟨by dsimp only; omega, rfl, fun _ => ib⟩, ?_⟩
    simp only [own, ← g1, if_pos hm, List.nil_append, List.append_nil, accActs]
  · rw [if_neg hm]
    refine ⟨[], _, [], rfl, ⟨by dsimp only; omega, rfl, g3⟩, ?_⟩
    simp only [own, ← g1, if_neg hm, List.append_nil]

theorem paK_ok {c : Call V} {A B : Arr V} {d0 d1 m n k : Int} (hg : Good c A B d0 d1 m n k) {ch : Chunks} (hp : ch.Pos)
    {nproc me : Nat} {jlo klo : Int} (hj : jlo ∈ starts 0 (n - 1) ch.j) (hk : klo ∈ starts 0 (k - 1) ch.k)
    (n0 : Nat) (q : List (CAct V)) (st : PaSt V) (h : st.ijk = n0 ∧ q = []) :
    ∃ out st' q', paK c A B d0 d1 m (chunkEnd (n - 1) jlo ch.j) k ch nproc me jlo st klo = some (out, st') ∧
        (st'.ijk = n0 + ((starts 0 (m - 1) ch.i).flatMap fun i => [((jlo, klo, i) : T3)]).length ∧ q' = []) ∧
      q ++ own nproc me (accActs c A B m n k ch) n0 ((starts 0 (m - 1) ch.i).flatMap fun i => [(jlo, klo, i)]) = out ++ q' := by
  unfold paK
  obtain ⟨out, st', q', e, i, a⟩ := seqRun_own (nproc := nproc) (me := me) (g := accActs c A B m n k ch) (sub := fun i => [(jlo, klo, i)])
    (step := paI c A B d0 d1 m (chunkEnd (n - 1) jlo ch.j) (chunkEnd (k - 1) klo ch.k) ch nproc me jlo klo)
    (Inv := fun n0 q (st : PaSt V) => st.ijk = n0 ∧ q = [] ∧ (st.newB = false → IsChunk B c.tb c.bilo c.bjlo klo
      (chunkEnd (k - 1) klo ch.k) jlo (chunkEnd (n - 1) jlo ch.j) st.b st.bdim))
    (starts 0 (m - 1) ch.i) n0 q { st with newB := true } ⟨h.1, h.2, by simp⟩
    (fun i hi n0 q st h => paI_ok hg hp hj hk hi n0 q st h)
  exact ⟨out, st', q', e, ⟨i.1, i.2.1⟩, a⟩

theorem matmulPatch_acts {c : Call V} {A B : Arr V} {d0 d1 m n k : Int} (hg : Good c A B d0 d1 m n k) {ch : Chunks} (hp : ch.Pos)
    {nproc me : Nat} (old : Int → V) :
    (seqRun (paJ c A B d0 d1 m n k ch nproc me) ⟨0, true, old, old, 0⟩ (starts 0 (n - 1) ch.j)).map (·.1) =
      some (own nproc me (accActs c A B m n k ch) 0 (allTasks m n k ch)) := by
  obtain ⟨out, st', q', e, i, a⟩ := seqRun_own (nproc := nproc) (me := me) (g := accActs c A B m n k ch)
    (sub := fun j => (starts 0 (k - 1) ch.k).flatMap fun kl => (starts 0 (m - 1) ch.i).flatMap fun i => [(j, kl, i)])
    (step := paJ c A B d0 d1 m n k ch nproc me) (Inv := fun n0 q (st : PaSt V) => st.ijk = n0 ∧ q = [])
    (starts 0 (n - 1) ch.j) 0 [] ⟨0, true, old, old, 0⟩ ⟨rfl, rfl⟩ (by
      intro j hj n0 q st h
      exact seqRun_own (nproc := nproc) (me := me) (g := accActs c A B m n k ch)
        (sub := fun kl => (starts 0 (m - 1) ch.i).flatMap fun i => [(j, kl, i)])
        (step := paK c A B d0 d1 m (chunkEnd (n - 1) j ch.j) k ch nproc me j)
        (Inv := fun n0 q (st : PaSt V) => st.ijk = n0 ∧ q = []) (starts 0 (k - 1) ch.k) n0 q st h
        (fun kl hk n0 q st h => paK_ok hg hp hj hk n0 q st h))
  rw [e, Option.map_some]
  rw [i.2, List.append_nil, List.nil_append] at a
  rw [← a]
  rfl

/-! ### `gai_matmul_irreg` -/

/-- state between two steps: `q` is the result of the started task -/
def IrInv (c : Call V) (A B : Arr V) (d0 d1 : Int) (n0 : Nat) (q : List (CAct V)) (st : IrSt V) : Prop :=
  st.ijk = n0 ∧ (st.bufA st.shA).pending = false ∧ (st.bufB st.shB).pending = false ∧
  match st.prev with
  | none => q = [] ∧ (st.bufA (!st.shA)).pending = false ∧ (st.bufB (!st.shB)).pending = false ∧ st.newB = true
  | some t => ∃ klo khi, t.kdim = khi - klo + 1 ∧ t.cdim = t.ihi - t.ilo + 1 ∧
      IsChunk A c.ta c.ailo c.ajlo t.ilo t.ihi klo khi (st.bufA (!st.shA)).val t.adim ∧
      IsChunk B c.tb c.bilo c.bjlo klo khi t.jlo t.jhi (st.bufB (!st.shB)).val t.bdim ∧
      (t.chunkB = false → st.b = (!st.shB) ∧ (st.bufB st.b).pending = false) ∧
      (1 ≤ c.cilo + t.ilo ∧ c.cilo + t.ihi ≤ d0 ∧ 1 ≤ c.cjlo + t.jlo ∧ c.cjlo + t.jhi ≤ d1) ∧
      q = taskActs c A B false t.ilo t.ihi t.jlo t.jhi klo khi

/-- the chunk of `B` is still in the buffer -/
def IrCur (c : Call V) (B : Arr V) (jlo jhi klo khi : Int) (st : IrSt V) : Prop :=
  st.newB = false → IsChunk B c.tb c.bilo c.bjlo klo khi jlo jhi (st.bufB (!st.shB)).val st.bdim

theorem irFlush_ok {c : Call V} {A B : Arr V} {d0 d1 : Int} {n0 : Nat} {q : List (CAct V)} {st : IrSt V}
    {fa fb : Bool → Buf V} (h : IrInv c A B d0 d1 n0 q st) (ha : fa (!st.shA) = st.bufA (!st.shA))
    (hb : fb (!st.shB) = st.bufB (!st.shB)) :
    ∃ st', irFlush c d0 d1 { st with bufA := fa, bufB := fb } = some (q, st') ∧
      st'.ijk = st.ijk ∧ st'.newB = st.newB ∧ st'.shA = st.shA ∧ st'.shB = st.shB ∧
      st'.bufA st.shA = fa st.shA ∧ (st'.bufA (!st.shA)).pending = false ∧
      st'.bufB st.shB = fb st.shB ∧ (st'.bufB (!st.shB)).pending = false ∧ (st'.bufB (!st.shB)).val = (st.bufB (!st.shB)).val ∧
      (st.newB = false → st'.b = (!st.shB)) := by
  obtain ⟨_, _, _, h4⟩ := h
  unfold irFlush
  cases hp : st.prev with
  | none =>
    rw [hp] at h4
    obtain ⟨rfl, g1, g2, g3⟩ := h4
    refine ⟨_, rfl, rfl, rfl, rfl, rfl, rfl, ?_, rfl, ?_, ?_, ?_⟩
    · dsimp only; rw [ha]; exact g1
    · dsimp only; rw [hb]; exact g2
    · dsimp only; rw [hb]
    · simp [g3]
  | some t =>
    rw [hp] at h4
    obtain ⟨klo, khi, e1, e2, ia, ib, g1, g2, rfl⟩ := h4
    have ne1 : (st.shA = !st.shA) = False := by cases st.shA <;> simp
    have ne2 : (st.shB = !st.shB) = False := by cases st.shB <;> simp
    have he := emit_ok (d0 := d0) (d1 := d1) false ia ib g2
    rw [← e1, ← e2] at he
    cases hc : t.chunkB with
    | true =>
      simp only [hc, if_true, nbWait, ha, hb, he, Option.map_some, Bool.false_eq_true, if_false]
      refine ⟨_, rfl, rfl, rfl, rfl, rfl, ?_⟩
      simp [set2, ne1, ne2]
    | false =>
      obtain ⟨q1, q2⟩ := g1 hc
      rw [q1] at q2
      simp only [hc, Bool.false_eq_true, if_false, nbWait, ha, hb, q1, q2, he, Option.map_some]
      refine ⟨_, rfl, rfl, rfl, rfl, rfl, ?_⟩
      simp [set2, ne1, ne2, q2]

theorem irI_ok {c : Call V} {A B : Arr V} {d0 d1 m n k : Int} (hg : Good c A B d0 d1 m n k) {ch : Chunks} (hp : ch.Pos)
    {nproc me : Nat} {jlo klo ilo : Int} (hj : jlo ∈ starts 0 (n - 1) ch.j) (hk : klo ∈ starts 0 (k - 1) ch.k)
    (hi : ilo ∈ starts 0 (m - 1) ch.i) (n0 : Nat) (q : List (CAct V)) (st : IrSt V)
    (h : IrInv c A B d0 d1 n0 q st ∧ IrCur c B jlo (chunkEnd (n - 1) jlo ch.j) klo (chunkEnd (k - 1) klo ch.k) st) :
    ∃ out st' q', irI c A B d0 d1 m (chunkEnd (n - 1) jlo ch.j) (chunkEnd (k - 1) klo ch.k) ch nproc me jlo klo st ilo =
        some (out, st') ∧ (IrInv c A B d0 d1 (n0 + 1) q' st' ∧
          IrCur c B jlo (chunkEnd (n - 1) jlo ch.j) klo (chunkEnd (k - 1) klo ch.k) st') ∧
      q ++ own nproc me (accActs c A B m n k ch) n0 [(jlo, klo, ilo)] = out ++ q' := by
  obtain ⟨p1, p2, p3⟩ := hp
  have bj := chunk_bounds p2 hj
  have bk := chunk_bounds p3 hk
  have bi := chunk_bounds p1 hi
  obtain ⟨hI, hC⟩ := h
  have hI' := hI
  obtain ⟨g1, g2, g3, g4⟩ := hI
  have ne1 : ((!st.shA) = st.shA) = False := by cases st.shA <;> simp
  have ne2 : ((!st.shB) = st.shB) = False := by cases st.shB <;> simp
  unfold irI
  by_cases hm : st.ijk % nproc = me
  · rw [if_pos hm]
    obtain ⟨a, ad, ea, ia⟩ := getChunk_ok (st.bufA st.shA).val (hg.a.sub bi.1 bi.2.2 bk.1 bk.2.2)
    have ea' : nbGet (st.bufA st.shA) (getChunk A c.ta c.ailo c.ajlo ilo (chunkEnd (m - 1) ilo ch.i) klo (chunkEnd (k - 1) klo ch.k)) =
        some (⟨a, true⟩, ad) := by
      unfold nbGet
      rw [g2]
      simp [ea]
    simp only [ea']
    by_cases hn : st.newB = true
    · obtain ⟨b, bd, eb, ib⟩ := getChunk_ok (st.bufB st.shB).val (hg.b.sub bk.1 bk.2.2 bj.1 bj.2.2)
      have eb' : nbGet (st.bufB st.shB) (getChunk B c.tb c.bilo c.bjlo klo (chunkEnd (k - 1) klo ch.k) jlo (chunkEnd (n - 1) jlo ch.j)) =
          some (⟨b, true⟩, bd) := by
        unfold nbGet
        rw [g3]
        simp [eb]
      obtain ⟨s1, f0, f1, f2, f3, f4, f5, f6, f7, f8, f9, f10⟩ := irFlush_ok (fa := set2 st.bufA st.shA ⟨a, true⟩)
        (fb := set2 st.bufB st.shB ⟨b, true⟩) hI' (by simp [set2, ne1]) (by simp [set2, ne2])
      simp only [if_pos hn, eb', f0]
      refine ⟨_, _, taskActs c A B false ilo (chunkEnd (m - 1) ilo ch.i) jlo (chunkEnd (n - 1) jlo ch.j) klo
        (chunkEnd (k - 1) klo ch.k), rfl, ⟨⟨?_, ?_, ?_, ?_⟩, ?_⟩, ?_⟩
      · dsimp only; omega
      · dsimp only; rw [f3]; exact f6
      · dsimp only; rw [f2, hn, if_pos rfl, f4]; exact f8
      · refine ⟨klo, chunkEnd (k - 1) klo ch.k, rfl, rfl, ?_, ?_, ?_, hg.emit bi.1 bi.2.2 bj.1 bj.2.2, rfl⟩
        · dsimp only; rw [f3, Bool.not_not, f5]; simpa [set2] using ia
        · dsimp only; rw [f2, hn, if_pos rfl, f4, Bool.not_not, f7]; simpa [set2] using ib
        · dsimp only; rw [f2, hn]; simp
      · intro _
        dsimp only; rw [f2, hn, if_pos rfl, f4, Bool.not_not, f7]; simpa [set2] using ib
      · simp only [own, ← g1, if_pos hm, List.append_nil, accActs]
    · have hn' : st.newB = false := by simpa using hn
      obtain ⟨s1, f0, f1, f2, f3, f4, f5, f6, f7, f8, f9, f10⟩ := irFlush_ok (fa := set2 st.bufA st.shA ⟨a, true⟩)
        (fb := set2 st.bufB st.shB (st.bufB st.shB)) hI' (by simp [set2, ne1]) (by simp [set2, ne2])
      have hC' := hC hn'
      simp only [if_neg hn, f0]
      refine ⟨_, _, taskActs c A B false ilo (chunkEnd (m - 1) ilo ch.i) jlo (chunkEnd (n - 1) jlo ch.j) klo
        (chunkEnd (k - 1) klo ch.k), rfl, ⟨⟨?_, ?_, ?_, ?_⟩, ?_⟩, ?_⟩
      · dsimp only; omega
      · dsimp only; rw [f3]; exact f6
      · dsimp only; rw [f2, hn']
        simp only [Bool.false_eq_true, if_false]
        rw [f4, f7]; simpa [set2] using g3
      · refine ⟨klo, chunkEnd (k - 1) klo ch.k, rfl, rfl, ?_, ?_, ?_, hg.emit bi.1 bi.2.2 bj.1 bj.2.2, rfl⟩
        · dsimp only; rw [f3, Bool.not_not, f5]; simpa [set2] using ia
        · dsimp only; rw [f2, hn']
          simp only [Bool.false_eq_true, if_false]
          rw [f4, f9]; exact hC'
        · intro _
          dsimp only; rw [f2, hn']
          simp only [Bool.false_eq_true, if_false]
          rw [f4, f10 hn']; exact ⟨rfl, f8⟩
      · intro _
        dsimp only; rw [f2, hn']
        simp only [Bool.false_eq_true, if_false]
        rw [f4, f9]; exact hC'
      · simp only [own, ← g1, if_pos hm, List.append_nil, accActs]
  · rw [if_neg hm]
    refine ⟨[], _, q, rfl, ⟨⟨by dsimp only; omega, g2, g3, g4⟩, hC⟩, ?_⟩
    simp only [own, ← g1, if_neg hm, List.append_nil, List.nil_append]

theorem irK_ok {c : Call V} {A B : Arr V} {d0 d1 m n k : Int} (hg : Good c A B d0 d1 m n k) {ch : Chunks} (hp : ch.Pos)
    {nproc me : Nat} {jlo klo : Int} (hj : jlo ∈ starts 0 (n - 1) ch.j) (hk : klo ∈ starts 0 (k - 1) ch.k)
    (n0 : Nat) (q : List (CAct V)) (st : IrSt V) (h : IrInv c A B d0 d1 n0 q st) :
    ∃ out st' q', irK c A B d0 d1 m (chunkEnd (n - 1) jlo ch.j) k ch nproc me jlo st klo = some (out, st') ∧
        IrInv c A B d0 d1 (n0 + ((starts 0 (m - 1) ch.i).flatMap fun i => [((jlo, klo, i) : T3)]).length) q' st' ∧
      q ++ own nproc me (accActs c A B m n k ch) n0 ((starts 0 (m - 1) ch.i).flatMap fun i => [(jlo, klo, i)]) = out ++ q' := by
  unfold irK
  have h0 : IrInv c A B d0 d1 n0 q { st with newB := true } := by
    obtain ⟨g1, g2, g3, g4⟩ := h
    refine ⟨g1, g2, g3, ?_⟩
    dsimp only
    cases hpv : st.prev with
    | none => rw [hpv] at g4; exact ⟨g4.1, g4.2.1, g4.2.2.1, rfl⟩
    | some t => rw [hpv] at g4; exact g4
  obtain ⟨out, st', q', e, i, a⟩ := seqRun_own (nproc := nproc) (me := me) (g := accActs c A B m n k ch) (sub := fun i => [(jlo, klo, i)])
    (step := irI c A B d0 d1 m (chunkEnd (n - 1) jlo ch.j) (chunkEnd (k - 1) klo ch.k) ch nproc me jlo klo)
    (Inv := fun n0 q (st : IrSt V) => IrInv c A B d0 d1 n0 q st ∧
      IrCur c B jlo (chunkEnd (n - 1) jlo ch.j) klo (chunkEnd (k - 1) klo ch.k) st)
    (starts 0 (m - 1) ch.i) n0 q { st with newB := true } ⟨h0, by simp [IrCur]⟩
    (fun i hi n0 q st h => irI_ok hg hp hj hk hi n0 q st h)
  exact ⟨out, st', q', e, i.1, a⟩

theorem irreg_ok {c : Call V} {A B : Arr V} {d0 d1 m n k : Int} (hg : Good c A B d0 d1 m n k) {ch : Chunks} (hp : ch.Pos)
    (hm : m = c.aihi - c.ailo + 1) (hn : n = c.bjhi - c.bjlo + 1) (hk : k = c.ajhi - c.ajlo + 1)
    {nproc me : Nat} (old : Int → V) :
    irreg c A B d0 d1 ch nproc me old = some (own nproc me (accActs c A B m n k ch) 0 (allTasks m n k ch)) := by
  unfold irreg
  simp only [← hm, ← hn, ← hk]
  obtain ⟨out, st', q', e, i, a⟩ := seqRun_own (nproc := nproc) (me := me) (g := accActs c A B m n k ch)
    (sub := fun j => (starts 0 (k - 1) ch.k).flatMap fun kl => (starts 0 (m - 1) ch.i).flatMap fun i => [(j, kl, i)])
    (step := irJ c A B d0 d1 m n k ch nproc me) (Inv := IrInv c A B d0 d1)
    (starts 0 (n - 1) ch.j) 0 []
    ⟨0, true, 0, false, false, fun _ => ⟨old, false⟩, fun _ => ⟨old, false⟩, false, none⟩ ⟨rfl, rfl, rfl, rfl, rfl, rfl, rfl⟩ (by
      intro j hj n0 q st h
      exact seqRun_own (nproc := nproc) (me := me) (g := accActs c A B m n k ch)
        (sub := fun kl => (starts 0 (m - 1) ch.i).flatMap fun i => [(j, kl, i)])
        (step := irK c A B d0 d1 m (chunkEnd (n - 1) j ch.j) k ch nproc me j)
        (Inv := IrInv c A B d0 d1) (starts 0 (k - 1) ch.k) n0 q st h
        (fun kl hk n0 q st h => irK_ok hg hp hj hk n0 q st h))
  rw [e]
  obtain ⟨s1, f0, _⟩ := irFlush_ok (fa := st'.bufA) (fb := st'.bufB) i rfl rfl
  dsimp only
  rw [f0, Option.map_some]
  rw [List.nil_append] at a
  rw [← a]
  rfl

end

end GA.Matmul
