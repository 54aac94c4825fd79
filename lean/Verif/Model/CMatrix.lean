import Verif.Model.Matmul
import Verif.Model.Matrix

/-!
# Model: matrix operations of the C interface (global/src/capi.c)

`Matmul.Call` is used for the arguments of the C calls too: `ailo` is `alo[0]`, `ajlo` is `alo[1]`, and so on, with subscripts from 0.
-/

namespace GA.Matmul
open GA.Model

variable {V : Type}

/-- the arguments that `NGA_Matmul_patch` (capi.c 3690-3727) passes on: `COPYINDEX_C2F` reverses the two subscripts of each corner and adds one; the flags
and the patches of the two factors are exchanged -/
def swapCall (c : Call V) : Call V :=
  ⟨c.tb, c.ta, c.alpha, c.beta,
    c.bjlo + 1, c.bjhi + 1, c.bilo + 1, c.bihi + 1,
    c.ajlo + 1, c.ajhi + 1, c.ailo + 1, c.aihi + 1,
    c.cjlo + 1, c.cjhi + 1, c.cilo + 1, c.cihi + 1⟩

/-- `NGA_Matmul_patch` (capi.c 3690-3727) for arrays with two dimensions. `A`, `B`, `d0`, `d1`, `f`: the arrays as the library sees them. -/
def cMatmulPatch [DecidableEq V] [Semiring V] (nproc : Nat) (ch : Chunks) (c : Call V) (A B : Arr V) (d0 d1 : Int) (old : Nat → Int → V)
    (f f' : Mat V) : Prop :=
  matmulPatch nproc ch (swapCall c) B A d0 d1 old f f'

/-- `GA_Dgemm_c` (capi.c 3279-3305): the whole patches, from 1 -/
def dgemmC [DecidableEq V] [Semiring V] (e : MEnv) (ta tb : Bool) (m n k : Int) (alpha beta : V) (A B : Arr V) (C : RegArray)
    (old : Nat → Int → V) (f f' : Mat V) : Prop :=
  matmul e ⟨ta, tb, alpha, beta, 1, m, 1, k, 1, k, 1, n, 1, m, 1, n⟩ A B C old f f'

/-- `GA_Dgemm` (capi.c 3518-3522), and `GA_Sgemm`, `GA_Zgemm`, `GA_Cgemm`: flags, factors and `m`, `n` are exchanged -/
def cDgemm [DecidableEq V] [Semiring V] (e : MEnv) (ta tb : Bool) (m n k : Int) (alpha beta : V) (A B : Arr V) (C : RegArray)
    (old : Nat → Int → V) (f f' : Mat V) : Prop :=
  dgemmC e tb ta n m k alpha beta B A C old f f'

/-- the arguments that `GA_Matmul_patch` (capi.c 3614-3650) passes on: one is added to the subscripts, nothing is exchanged -/
def incCall (c : Call V) : Call V :=
  ⟨c.ta, c.tb, c.alpha, c.beta,
    c.ailo + 1, c.aihi + 1, c.ajlo + 1, c.ajhi + 1,
    c.bilo + 1, c.bihi + 1, c.bjlo + 1, c.bjhi + 1,
    c.cilo + 1, c.cihi + 1, c.cjlo + 1, c.cjhi + 1⟩

/-- `GA_Matmul_patch` (capi.c 3614-3650) for arrays that are not mirrored -/
def cMatmulPatch2 [DecidableEq V] [Semiring V] (e : MEnv) (c : Call V) (A B : Arr V) (C : RegArray) (old : Nat → Int → V) (f f' : Mat V) : Prop :=
  matmul { e with irreg := true } (incCall c) A B C old f f'

end GA.Matmul

namespace GA.Model

/-- `GA_Scale_rows` (capi.c 4967-4971) calls `wnga_scale_cols`; `GA_Scale_cols` (4973-4977) calls `wnga_scale_rows` -/
def cScaleRCActs (row : Bool) (E : Nat → List Int → Env) (a : Nat) (A : GArr) (v : Nat) (Vc : GArr) :=
  scaleRCActs (!row) E a A v Vc

end GA.Model
