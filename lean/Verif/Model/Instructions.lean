import Verif.Model.Primitives
import Verif.Model.Operator

/-!
# Model of the instruction set `PauliSet` (`hqca/instructions/_instruct_pauli.py`)

A gate is a pair (angle, string); every gate calls `generic_Pauli_term`, i.e. `pauli_gadget`
(`core/primitives/_pauli_strings.py:72-73`, `core/_circuit.py:32-33`).  Symbolic coefficients are not modelled.
-/

namespace HQCA
namespace Instr
noncomputable section
open Prim

/-- The value bound to `c` for a coefficient `z`, given its previous value (`_instruct_pauli.py:75-78`): real part if the
imaginary part is small, imaginary part if the real part is small, otherwise unchanged (`none`: unbound). -/
def angleOf (prev : Option ℝ) (z : ℂ) : Option ℝ :=
  if |z.im| < 1e-14 then some z.re else if |z.re| < 1e-14 then some z.im else prev

/-- `_applyOp` (`_instruct_pauli.py:48-96`) on the terms of an operator; `none` is the `sys.exit` after the exception of
the unbound local variable. -/
def applyOp (depth : ℝ) : Option ℝ → List (PStr × ℂ) → Option (List (ℝ × PStr))
  | _, [] => some []
  | prev, t :: rest =>
    match angleOf prev t.2 with
    | none => none
    | some v =>
      if |v| > 1e-14 then (applyOp depth (some v) rest).map ((v / depth, t.1) :: ·) else applyOp depth (some v) rest

/-- `_applyH` (`_instruct_pauli.py:98-111`). -/
def applyH (trotter : ℕ) (scaleH : ℝ) (H : List (PStr × ℂ)) : List (ℝ × PStr) :=
  (List.range trotter).flatMap fun _ => H.map fun t => (1 / trotter * scaleH * t.2.re, t.1)

/-- The gates of a circuit to which the instructions are applied (`core/_circuit.py:28-33`). -/
def gatesOf (gs : List (ℝ × PStr)) : List QG := gs.flatMap fun g => gadget g.1 g.2

/-- `PauliSet(operator, propagate='real', HamiltonianOperator=H, scaleH=..)` (`_instruct_pauli.py:17-29`): the generators,
then the Hamiltonian step. -/
def pauliSet (op H : List (PStr × ℂ)) (trotter : ℕ) (scaleH : ℝ) : Option (List QG) :=
  (applyOp 1 none op).map fun gs => gatesOf (gs ++ applyH trotter scaleH H)

end
end Instr
end HQCA
