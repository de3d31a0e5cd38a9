import Verif.Model.Pauli
import Verif.Model.Primitives

/-!
# Model of the Clifford basis changes

`Operator.clifford` (`hqca/operators/_operator.py:202-240`), reached through the transform wrapper
`transforms/_functions.py:69-75`, and the circuit `apply_clifford_operation`
(`hqca/core/primitives/_pauli_strings.py:8-24`).  Numeric coefficients only; the strings of the operator are Pauli strings (other
classes raise `OperatorError`).
-/

namespace HQCA
namespace Cliff

/-- Letters of the specification `U`; anything else raises `KeyError` in both functions. -/
inductive CL | I | H | S | V
deriving DecidableEq, Repr

/-- The table `cliff` (`_operator.py:207-226`); it has no row for `I`.  The Boolean is "sign -1". -/
def table : CL → PL → Option (PL × Bool)
  | .I, _ => none
  | .H, .X => some (.Z, false)
  | .H, .Y => some (.Y, true)
  | .H, .Z => some (.X, false)
  | .H, .I => some (.I, false)
  | .S, .X => some (.Y, true)
  | .S, .Y => some (.X, true)
  | .S, .Z => some (.Z, false)
  | .S, .I => some (.I, false)
  | .V, .X => some (.X, true)
  | .V, .Y => some (.Z, true)
  | .V, .Z => some (.Y, true)
  | .V, .I => some (.I, false)

/-- The loop over `zip(op.s,U)` (`_operator.py:232-236`): letters so far and coefficient. -/
def letters {K : Type} [Neg K] : List (PL × CL) → K → Option (PStr × K)
  | [], c => some ([], c)
  | (s, u) :: l, c =>
    (table u s).bind fun r => (letters l (if r.2 then -c else c)).map fun q => (r.1 :: q.1, q.2)

/-- `Operator.clifford` (`_operator.py:202-240`). -/
def clifford {K : Type} [Coef K] (U : List CL) (A : POp K) : Option (POp K) :=
  (A.mapM (fun t => letters (t.1.zip U) t.2)).map (fun r => r.foldl OpD.addStr [])

noncomputable section

/-- The gates of one letter (`_pauli_strings.py:9-24`). -/
def gatesOne (n : ℕ) : CL → List QG
  | .I => []
  | .H => [.h n]
  | .S => [.s n]
  | .V => [.s n, .h n, .sdg n]

/-- `apply_clifford_operation` (`_pauli_strings.py:8-24`), from qubit `k` on. -/
def gatesFrom (k : ℕ) : List CL → List QG
  | [] => []
  | u :: U => gatesOne k u ++ gatesFrom (k + 1) U

end
end Cliff
end HQCA
