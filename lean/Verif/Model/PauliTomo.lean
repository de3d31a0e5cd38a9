import Verif.Model.StateTomo

/-!
# Model of `QubitTomography` with `tomo_type='pauli'` (`hqca/tomography/_qubit_tomography.py:156-214, 303-333`)

Measuring a given list of Pauli strings with a state-vector backend; the circuits are simulated by the inherited `simulate` (`Model/StateTomo`).  The number of qubits of the
register (`Nq_tot`) is `Nq`.
-/

namespace HQCA
namespace PauliTomo
noncomputable section
open StateTomo

/-- `_generate_pauli_set` (`_qubit_tomography.py:313-333`) with the relation `qwc`, or with `simplify=False`, where every string is its own basis. -/
def plan (simplify : Bool) (col : List PStr → ℕ → ℕ) (paulis : List PStr) : Option (List PStr × List (PStr × PStr)) :=
  if simplify then Grouping.simplify .qwc (col paulis) paulis else some (paulis, paulis.map fun p => (p, p))

/-- One number of `_build_generic_pauli` (`_qubit_tomography.py:187-196`, `201-211`): `(1j**self.imag)*processor.process(...)`. -/
def entry (imag : Bool) (Nq : ℕ) (mapping : List (PStr × PStr)) (counts : List (PStr × (ℕ → ℂ))) (op : PStr) : Option ℂ :=
  (dget mapping op).bind fun get => (dget counts get).map fun c => (if imag then Complex.I else 1) * (Process.statevector Nq op c : ℂ)

/-- `_build_generic_pauli(vector=True)` (`_qubit_tomography.py:186-197`). -/
def vector (imag : Bool) (Nq : ℕ) (mapping : List (PStr × PStr)) (counts : List (PStr × (ℕ → ℂ))) (paulis : List PStr) : Option (List ℂ) :=
  paulis.mapM (entry imag Nq mapping counts)

/-- `_build_generic_pauli(vector=False)` (`_qubit_tomography.py:198-214`): the strings are added to an operator one by one. -/
def operator (imag : Bool) (Nq : ℕ) (mapping : List (PStr × PStr)) (counts : List (PStr × (ℕ → ℂ))) (paulis : List PStr) : Option (POp ℂ) :=
  (paulis.mapM fun op => (entry imag Nq mapping counts op).map fun v => (op, v)).map fun l => l.foldl OpD.addStr []

/-- `generate`, `set`, `simulate`, up to the plan and the amplitudes. -/
def measured (simplify : Bool) (Nq : ℕ) (col : List PStr → ℕ → ℕ) (paulis : List PStr) (prep : Cfg → ℂ) :
    Option (List (PStr × PStr) × List (PStr × (ℕ → ℂ))) :=
  (plan simplify col paulis).bind fun m => (simulate Nq m.1 prep).map fun sim => (m.2, sim.1)

/-- The whole of `generate`, `set`, `simulate`, `construct(vector=True)`. -/
def runVector (simplify imag : Bool) (Nq : ℕ) (col : List PStr → ℕ → ℕ) (paulis : List PStr) (prep : Cfg → ℂ) : Option (List ℂ) :=
  (measured simplify Nq col paulis prep).bind fun m => vector imag Nq m.1 m.2 paulis

/-- The whole of `generate`, `set`, `simulate`, `construct()`. -/
def runOperator (simplify imag : Bool) (Nq : ℕ) (col : List PStr → ℕ → ℕ) (paulis : List PStr) (prep : Cfg → ℂ) : Option (POp ℂ) :=
  (measured simplify Nq col paulis prep).bind fun m => operator imag Nq m.1 m.2 paulis

end
end PauliTomo
end HQCA
