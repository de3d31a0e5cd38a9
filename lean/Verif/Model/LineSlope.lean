import Verif.Model.ClassResid

/-!
# Model of the gradient and slope of the line search of the ACSE with the classical solver

`LineSearchACSE.run` and `dphi` (`acse/_line_search_acse.py:43-45`, `106-128`, `169-171`) with `acse_update='c'`.
-/

namespace HQCA
namespace LineSlope
noncomputable section
open Resid

/-- `solvecACSE(..., matrix=True)` (`_class_A_acse.py:36-109`): the compact vector, in an array of real numbers, so with the imaginary parts discarded. -/
def gradient (p : ℕ) (im : Bool) (no na nb : ℕ) (col : List PStr → ℕ → ℕ) (h1 : Fin (2 * no) → Fin (2 * no) → ℂ)
    (V : Fin (2 * no) → Fin (2 * no) → Fin (2 * no) → Fin (2 * no) → ℂ) (keys : List (Fin (2 * no) × Fin (2 * no) × Fin (2 * no) × Fin (2 * no)))
    (L : List (OpD FStr ℂ)) : Option (List ℝ) :=
  (ClassResid.tensor p im no na nb col h1 V L).map fun A => (compact A keys).map Complex.re

/-- `self.symm_factor*g.dot(self.p)[0,0]` with `symm_factor = 4` (`_line_search_acse.py:35`, `45`, `171`). -/
def slope (g v : List ℝ) : ℝ := 4 * (List.zipWith (fun y x => y * x) g v).sum

end
end LineSlope
end HQCA
