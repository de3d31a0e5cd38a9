import Verif.Model.Operator
import Verif.Model.Pauli
import Verif.Model.Fermi
import Mathlib.Analysis.SpecialFunctions.Sqrt

/-!
# Size, scaling and comparison of operators and strings (`operators/_operator.py`, `operators/quantum_strings/*`)
-/

namespace HQCA
namespace OpX

/-- `norm` (`_operator.py:33-40`): `c*conj(c)` summed, square root of the real part. -/
noncomputable def norm {α : Type} (A : OpD α ℂ) : ℝ := Real.sqrt ((A.map fun t => (t.2 * (starRingEnd ℂ) t.2).re).sum)

/-- A python number handed to `*`: a `float` or `int`, or another kind of number such as `complex`. -/
inductive Num (K : Type) where
  | real (c : K)
  | other (c : K)

/-- The value of the number. -/
def Num.val {K : Type} : Num K → K
  | .real c => c
  | .other c => c

/-- `PauliString * number` (`_pauli_string.py:76-82`): only `float` and `int` are recognised, for any other number the
attribute `l` is missing. -/
def pauliTimes {K : Type} [Coef K] (t : Term PStr K) : Num K → Option (Term PStr K)
  | .real c => some (t.1, t.2 * c)
  | .other _ => none

/-- `FermiString * number` (`_fermi_string.py:204-214`). -/
def fermiTimes {K : Type} [Coef K] (t : Term FStr K) (c : Num K) : Option (Term FStr K) := some (t.1, t.2 * c.val)

/-- `QubitString * number` (`_qubit_string.py:56-69`): the attribute `s` is missing. -/
def qubitTimes {K : Type} [Coef K] (_ : Term FStr K) (_ : Num K) : Option (Term FStr K) := none

/-- `Operator * number` (`_operator.py:113-121`) for the product `tm` of a string with the number; an exception ends the
program. -/
def scale {α K : Type} [DecidableEq α] [Coef K] (tm : Term α K → Num K → Option (Term α K)) (A : OpD α K) (c : Num K) :
    Option (OpD α K) :=
  (A.mapM fun t => tm t c).map fun r => OpD.clean (r.foldl OpD.addStr [])

/-- `number * Operator` (`_operator.py:93-100`): the strings themselves are used as keys, which raises (`AttributeError`
from the comparison of Pauli strings, `TypeError` for the others). -/
def rscale {α K : Type} (A : OpD α K) (_ : Num K) : Option (OpD α K) := if A = [] then some [] else none

/-- `truncate` (`_operator.py:189-192`): positions are used as keys, which raises `KeyError`. -/
def truncate {α K : Type} (A : OpD α K) : Option (OpD α K) := if A = [] then some [] else none

/-- `==` and `!=` of Pauli and fermionic strings (`_pauli_string.py:54-59`, `_fermi_string.py:93-97`). -/
def eqStr {α K : Type} [DecidableEq α] (s t : Term α K) : Bool := s.1 = t.1
def neStr {α K : Type} [DecidableEq α] [DecidableEq K] (s t : Term α K) : Bool := eqStr s t && s.2 = t.2

end OpX
end HQCA
