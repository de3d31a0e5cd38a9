import Verif.Model.Residual
import Mathlib.Analysis.SpecialFunctions.Pow.Real
import Mathlib.Analysis.Complex.Norm

/-!
# Model of how the ACSE solvers turn a residual into a generator and its norm

The operator branch (`matrix=False`) of `solvecACSE` (`hqca/acse/_class_A_acse.py:109-125`), `solveqACSE`
(`hqca/acse/_quant_A_acse.py:50-70`) and `solvepACSE` (`hqca/acse/_qubit_A.py:53-74`).
-/

namespace HQCA
namespace Collect
noncomputable section
open Resid

variable {r : ℕ}

/-- The test `abs(term)>=S_min`. -/
def above (S : ℝ) (x : ℂ) : Bool := open Classical in decide (S ≤ ‖x‖)

/-- The variable `norm` after the loop: `norm += np.real(np.conj(term)*term)` for the kept terms (`_quant_A_acse.py:67`). -/
def keptSq (S : ℝ) (A : Fin r → Fin r → Fin r → Fin r → ℂ) : ℝ :=
  ((resTerms (above S) A).map fun t => (conj t.1 * t.1).re).sum

/-- `np.linalg.norm` of a four-dimensional array: with `ord=None` the array is flattened; any order raises `ValueError`
(library behaviour, `numpy.linalg.norm`: improper number of dimensions). -/
def fullNorm (A : Fin r → Fin r → Fin r → Fin r → ℂ) : ℝ := Real.sqrt (∑ i, ∑ k, ∑ j, ∑ l, ‖A i k j l‖ ^ 2)

/-- The values of `norm` accepted by the driver (`acse.py:100`) and the default of the solvers. -/
inductive Ord | none | two | inf | fro

def npNorm (o : Ord) (A : Fin r → Fin r → Fin r → Fin r → ℂ) : Option ℝ :=
  match o with
  | .none => some (fullNorm A)
  | _ => Option.none

/-- Classical solver (`_class_A_acse.py:109-125`); `none`: `AssertionError`. -/
def classical (S : ℝ) (A : Fin r → Fin r → Fin r → Fin r → ℂ) : Option (OpD FStr ℂ × ℝ) :=
  (resOp (above S) A).bind fun B =>
    open Classical in if Real.sqrt (keptSq S A) - fullNorm A < 1e-8 then some (B, 0.5 * fullNorm A) else Option.none

/-- Quantum solver (`_quant_A_acse.py:50-70`); `none`: `AssertionError`. -/
def quantum (S : ℝ) (A : Fin r → Fin r → Fin r → Fin r → ℂ) : Option (OpD FStr ℂ × ℝ) :=
  (resOp (above S) A).bind fun B =>
    open Classical in if |Real.sqrt (keptSq S A) - fullNorm A| < 1e-8 then some (B, 0.5 * Real.sqrt (keptSq S A)) else Option.none

/-- Solver for sign-free particles (`_qubit_A.py:53-74`): the same terms as `QubitString`s; `none`: `ValueError`. -/
def particle (S : ℝ) (o : Ord) (A : Fin r → Fin r → Fin r → Fin r → ℂ) : Option (OpD FStr ℂ × ℝ) :=
  ((resTerms (above S) A).mapM (fun t => Qubit.generate t.1 t.2 r)).bind fun L =>
    (npNorm o A).map fun n => (L.foldl OpD.addStr [], 0.5 * n)

/-- `np.imag(circ.rdm.rdm) * hss` (`_quant_A_acse.py:103-107`), for the density matrix `D` of the propagated state. -/
def measured (d : ℝ) (D : Fin r → Fin r → Fin r → Fin r → ℂ) : Fin r → Fin r → Fin r → Fin r → ℂ :=
  fun i k j l => (((D i k j l).im * (1 / d) : ℝ) : ℂ)

/-- The residual for a list of Hamiltonians (`_quant_A_acse.py:44-47`). -/
def measuredAll (d : ℝ) (Ds : List (Fin r → Fin r → Fin r → Fin r → ℂ)) : Fin r → Fin r → Fin r → Fin r → ℂ :=
  fun i k j l => (Ds.map fun D => measured d D i k j l).sum

end
end Collect
end HQCA
