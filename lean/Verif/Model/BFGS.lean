import Mathlib.Data.Matrix.Mul
import Mathlib.Data.Matrix.Basic
import Mathlib.Algebra.Order.Field.Basic
import Mathlib.Algebra.Order.AbsoluteValue.Basic

/-!
# Model of the quasi-Newton updates of `hqca/opts/gradient/bfgs.py` and `hqca/acse/_bfgs_acse.py`

Floating-point numbers are elements of an ordered field.  `s`, `y` are the vectors the code keeps as one-row (or
one-column) matrices.
-/

namespace HQCA
namespace BFGS
open Matrix
variable {F : Type} [Field F] [LinearOrder F] [IsStrictOrderedRing F] {n : ℕ}

/-- Replacing a denominator close to zero (`bfgs.py:50-54`, `67-71`, `126-130`, `144-148`):
`abs(x)<1e-30` becomes `±1e-30`. -/
def clamp (x : F) : F := if |x| < 1 / 10 ^ 30 then (if x < 0 then -(1 / 10 ^ 30) else 1 / 10 ^ 30) else x

/-- The same with `abs(x)<=1e-30` (`bfgs.py:134-138`). -/
def clampLe (x : F) : F := if |x| ≤ 1 / 10 ^ 30 then (if x < 0 then -(1 / 10 ^ 30) else 1 / 10 ^ 30) else x

/-- `self.B1` (`bfgs.py:48-64`, `124-140`); `d` is the guarded `s B s^T`. -/
def hessWith (d : F) (B : Matrix (Fin n) (Fin n) F) (s y : Fin n → F) : Matrix (Fin n) (Fin n) F :=
  B + (1 / clamp (y ⬝ᵥ s)) • vecMulVec y y - (1 / d) • (B * vecMulVec s s * Bᵀ)

/-- The Hessian update of `initialize` (`bfgs.py:48-64`). -/
def hessInit (B : Matrix (Fin n) (Fin n) F) (s y : Fin n → F) : Matrix (Fin n) (Fin n) F :=
  hessWith (clamp (s ⬝ᵥ (B *ᵥ s))) B s y

/-- The Hessian update of `next_step` (`bfgs.py:124-140`). -/
def hess (B : Matrix (Fin n) (Fin n) F) (s y : Fin n → F) : Matrix (Fin n) (Fin n) F :=
  hessWith (clampLe (s ⬝ᵥ (B *ᵥ s))) B s y

/-- The inverse update for a given denominator `c` (`bfgs.py:65-76`, `141-152`; `_bfgs_acse.py:146-163`):
`(1 - s y^T/c) H (1 - y s^T/c) + s s^T/c`. -/
def invWith (c : F) (H : Matrix (Fin n) (Fin n) F) (s y : Fin n → F) : Matrix (Fin n) (Fin n) F :=
  (1 - (1 / c) • vecMulVec s y) * H * (1 - (1 / c) • vecMulVec y s) + (1 / c) • vecMulVec s s

/-- The inverse update of the optimizer (`bfgs.py:65-76`, `141-152`). -/
def inv (H : Matrix (Fin n) (Fin n) F) (s y : Fin n → F) : Matrix (Fin n) (Fin n) F :=
  invWith (clamp (y ⬝ᵥ s)) H s y

/-- The inverse update of the ACSE (`_bfgs_acse.py:138-163`, not limited): on the first iteration the previous
matrix is first replaced by `(y.s/y.y) 1`.  Numpy gives `inf`/`nan` for a zero denominator; here division by zero
is zero and the theorems exclude it. -/
def acseInv (first : Bool) (H : Matrix (Fin n) (Fin n) F) (s y : Fin n → F) : Matrix (Fin n) (Fin n) F :=
  invWith (y ⬝ᵥ s) (if first then ((y ⬝ᵥ s) / (y ⬝ᵥ y)) • 1 else H) s y

end BFGS
end HQCA
