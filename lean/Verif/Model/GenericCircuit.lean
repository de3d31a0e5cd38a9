import Verif.Spec.QCirc

/-!
# Model of `hqca/core/_circuit.py`

The circuit is the list of gates appended to `self.qc`; construction is modelled as python's binding of keyword arguments to
parameters.
-/

namespace HQCA
namespace GCirc

/-- Binding keyword arguments to a signature without `*args`/`**kwargs`: every keyword must be a parameter, none given twice, and every
parameter without default must be given; otherwise `TypeError`. `required` and `optional` are the parameters without and with
default. -/
def binds (required optional : List String) (kw : List String) : Bool :=
  kw.all (fun k => k ∈ required ∨ k ∈ optional) && required.all (fun r => r ∈ kw) && decide kw.Nodup

/-- `Circuit.__init__` (`_circuit.py:10-14`), `self` aside; `GenericCircuit.__init__` (`_circuit.py:45-46`) passes its keywords on. -/
def construct (kw : List String) : Bool := binds ["quantstore"] ["Nq", "_name"] kw

/-- The keywords used by all three callers (`tomography/_tomography.py:155-158`, `tomography/_qubit_tomography.py:106-109`,
`processes/_simulate_iterative_unitary.py:32-35`). -/
def callerKw : List String := ["QuantStore", "_name"]

/-- The loop of `StandardTomography.set` (`_tomography.py:150-205`) and `QubitTomography.set`: for every circuit of the list an object is
made (for the state-vector backend only for the first), then the rest of the body `body` runs. `none` is an exception. -/
def setLoop {C R : Type} (sv : Bool) (body : C → Option R) : ℕ → List C → Option (List R)
  | _, [] => some []
  | i, c :: l =>
    if sv && decide (i > 0) then setLoop sv body i l
    else if construct callerKw then (body c).bind fun r => (setLoop sv body (i + 1) l).map (r :: ·) else none

noncomputable section
open Real

/-- The methods of `GenericCircuit` that append gates (`_circuit.py:54-96`) and `Sw` (`:100-104`), which appends none. -/
inductive Call
  | h (q : ℕ) | s (q : ℕ) | sx (q : ℕ) | si (q : ℕ) | Cx (q p : ℕ) | Cz (q p : ℕ) | Rx (q : ℕ) (v : ℝ) | Ry (q : ℕ) (v : ℝ)
  | Rz (q : ℕ) (v : ℝ) | x (q : ℕ) | y (q : ℕ) | z (q : ℕ) | Sw (q p : ℕ)

/-- The gates appended (`_circuit.py:54-104`; barriers, which do nothing, and `U3` are left out). -/
def gates : Call → List QG
  | .h q => [.s q, .sx q, .s q]
  | .s q => [.rz (π / 2) q]
  | .sx q => [.sx q]
  | .si q => [.rz (-π / 2) q]
  | .Cx q p => [.cx q p]
  | .Cz q p => [.cz q p]
  | .Rx q v => [.rx v q]
  | .Ry q v => [.ry v q]
  | .Rz q v => [.rz v q]
  | .x q => [.x q]
  | .y q => [.rz (-π / 2) q, .x q, .rz (π / 2) q]
  | .z q => [.rz π q]
  | .Sw _ _ => []

end
end GCirc
end HQCA
