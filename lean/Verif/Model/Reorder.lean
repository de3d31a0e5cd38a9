import Mathlib.Algebra.Order.Field.Basic
import Mathlib.Data.List.Range

/-!
# Model of `reorder` (`hqca/tools/_chemistry.py:9-26`)

Matrices are functions of two indices of which the first `n` matter; the numbers are of an arbitrary ordered field, rounding is left out.
-/

namespace HQCA
namespace Reorder
variable {F : Type} [Field F] [LinearOrder F]

/-- `np.dot` of `n` by `n` matrices. -/
def mul (n : ℕ) (A B : ℕ → ℕ → F) : ℕ → ℕ → F := fun a b => ((List.range n).map fun k => A a k * B k b).sum

/-- The pairs of the two loops (`_chemistry.py:15-16`), in order. -/
def pairs (n : ℕ) : List (ℕ × ℕ) := (List.range n).flatMap fun i => (List.range' (i + 1) (n - (i + 1))).map fun j => (i, j)

/-- `temp` (`_chemistry.py:20-24`). -/
def temp (i j : ℕ) : ℕ → ℕ → F := fun a b =>
  if a = i ∧ b = i then 0 else if a = j ∧ b = j then 0 else if a = i ∧ b = j then -1 else if a = j ∧ b = i then 1 else if a = b then 1 else 0

/-- One pass of the inner loop (`_chemistry.py:17-25`); the comparison is with the matrix given, which is not reordered on the way. -/
def step (rdm1 : ℕ → ℕ → F) (n : ℕ) (T : ℕ → ℕ → F) (p : ℕ × ℕ) : ℕ → ℕ → F :=
  if rdm1 p.1 p.1 ≥ rdm1 p.2 p.2 then T else mul n (temp p.1 p.2) T

/-- `reorder(rdm1, orbit)` (`_chemistry.py:9-26`). -/
def reorder (rdm1 : ℕ → ℕ → F) (n : ℕ) : ℕ → ℕ → F := (pairs n).foldl (step rdm1 n) fun a b => if a = b then 1 else 0

/-- `reduce(np.dot, (T.T, D, T))`, the matrix in the new order (`_chemistry.py:82-83`). -/
def reordered (rdm1 : ℕ → ℕ → F) (n : ℕ) : ℕ → ℕ → F :=
  let T := reorder rdm1 n
  mul n (mul n (fun a b => T b a) rdm1) T

end Reorder
end HQCA
