import Mathlib.Data.Matrix.Mul
import Mathlib.Algebra.Order.Field.Basic
import Mathlib.Algebra.Order.AbsoluteValue.Basic

/-!
# Model of the conjugate-gradient and limited-memory directions of the ACSE
(`hqca/acse/_conjugate_acse.py`, `hqca/acse/_bfgs_acse.py`)

Floating-point numbers are elements of an ordered field; the one-column matrices of the code are functions on `Fin n`.
Division by zero (`nan`/`inf` in numpy) is zero here and the theorems exclude it.  Printing is dropped.
-/

namespace HQCA
namespace CG
open Matrix
variable {F : Type} [Field F] [LinearOrder F] [IsStrictOrderedRing F] {n : ℕ}

/-- The values of the keyword `cg_update` that the driver accepts (`acse.py:193-205`); any other raises. -/
inductive Update
  | FR | HS | PR | PRplus | HZ
  deriving DecidableEq

/-- `beta` (`_conjugate_acse.py:121-139`).  `yk = G1 - G0`.  The branch `HZ` reads the names `y_k` and `pk`, which
do not exist; the exception is caught and `beta` becomes zero. -/
def beta (u : Update) (g0 g1 p : Fin n → F) : F :=
  let yk := g1 - g0
  match u with
  | .FR => (g1 ⬝ᵥ g1) / (g0 ⬝ᵥ g0)
  | .HS => (g1 ⬝ᵥ yk) / (p ⬝ᵥ yk)
  | .PR => (g1 ⬝ᵥ yk) / (g0 ⬝ᵥ g0)
  | .PRplus => max ((g1 ⬝ᵥ yk) / (g0 ⬝ᵥ g0)) 0
  | .HZ => 0

/-- The next search direction (`_conjugate_acse.py:117-147`): `beta` is reset when consecutive gradients overlap. -/
def next (u : Update) (g0 g1 p : Fin n → F) : Fin n → F :=
  let num := |g1 ⬝ᵥ g0|
  let den := g1 ⬝ᵥ g1
  let b := if num / den > 1 / 2 then 0 else beta u g0 g1 p
  b • p - g1

end CG

namespace LBFGS
open Matrix
variable {F : Type} [Field F] [LinearOrder F] [IsStrictOrderedRing F] {n : ℕ}

/-- A stored triple `s, y, rho`: an entry of `_lbfgs_sk`, `_lbfgs_yk`, `_lbfgs_rk`, which always have the same length
(`_bfgs_acse.py:189-195`). -/
structure Pair (F : Type) (n : ℕ) where
  s : Fin n → F
  y : Fin n → F
  rho : F

/-- The first loop (`_bfgs_acse.py:173-179`), from the newest triple back; `yl` is `_lbfgs_yk[-1]`, which is read in every
pass.  Returns `q` and the numbers `alp_i` with the oldest first. -/
def down (yl : Fin n → F) : List (Pair F n) → (Fin n → F) → (Fin n → F) × List F
  | [], q => (q, [])
  | t :: ts, q =>
    let a := t.rho * (t.s ⬝ᵥ q)
    let r := down yl ts (q - a • yl)
    (r.1, r.2 ++ [a])

/-- The second loop (`_bfgs_acse.py:184-187`), from the oldest triple on. -/
def up : List (Pair F n) → List F → (Fin n → F) → (Fin n → F)
  | t :: ts, a :: as, r => up ts as (r + (a - t.rho * (t.y ⬝ᵥ r)) • t.s)
  | _, _, r => r

/-- `_lbfgs_r` (`_bfgs_acse.py:173-188`) from the triples stored before this step (oldest first), the new gradient and
the scaling `gamma`. -/
def twoLoop (ts : List (Pair F n)) (gamma : F) (g : Fin n → F) : Fin n → F :=
  let yl := (ts.getLast?.map Pair.y).getD 0
  let d := down yl ts.reverse g
  up ts d.2 (gamma • d.1)

/-- The limited-memory state: the stored triples and `_lbfgs_r`. -/
structure St (F : Type) (n : ℕ) where
  ts : List (Pair F n)
  r : Fin n → F

/-- The search direction (`_bfgs_acse.py:31-35`). -/
def direction (st : St F n) (g : Fin n → F) : Fin n → F :=
  if st.ts = [] then -g else -st.r

/-- The update after a step (`_bfgs_acse.py:139-150`, `172-195`): `s_k = alp*p_k`, `y_k = G_k1 - G_k0`, the direction is
computed and only then the new triple is stored; at most `limited` of them are kept.  (`x[-0:]` keeps everything, so
`limited = 0` keeps all.) -/
def step (limited : ℕ) (st : St F n) (g0 g1 p : Fin n → F) (alp : F) : St F n :=
  let s := alp • p
  let y := g1 - g0
  let rho := 1 / (y ⬝ᵥ s)
  let gamma := 1 / (1 / (s ⬝ᵥ y) * (y ⬝ᵥ y))
  let ts := st.ts ++ [⟨s, y, rho⟩]
  ⟨if limited = 0 then ts else ts.drop (ts.length - limited), twoLoop st.ts gamma g1⟩

end LBFGS
end HQCA
