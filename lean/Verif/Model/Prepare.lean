import Verif.Model.Transform
import Verif.Model.Primitives

/-!
# Model of the reference-state preparation

`hqca/storage/_quantum_storage.py:56-86` (which orbitals are occupied) and `hqca/tomography/_tomography.py:158-191`,
`hqca/processes/_simulate_iterative_unitary.py:45-76` (the circuit).  The optional Clifford operation
(`initial_clifford`) is not modelled; the transform (`initial_transform` when set, else `transform`) is the argument `T`.
-/

namespace HQCA
namespace Prepare

/-- `QuantumStorage.initial` (`_quantum_storage.py:76-80`): the first `na` entries of `alp`, then the first `nb` entries of
`bet`; `none` is the `IndexError`. -/
def initial (alp bet : List ℕ) (na nb : ℕ) : Option (List ℕ) :=
  ((List.range na).mapM (fun i => alp[i]?)).bind fun a => ((List.range nb).mapM (fun i => bet[i]?)).map fun b => a ++ b

/-- `alp`, `bet` of the mapping `'default'` (`_quantum_storage.py:59-61`). -/
def defaultOrbs (no : ℕ) : List ℕ × List ℕ := (List.range no, (List.range no).map (· + no))

/-- `alp`, `bet` of the mapping `'alternating'` (`_quantum_storage.py:62-64`). -/
def alternatingOrbs (no : ℕ) : List ℕ × List ℕ := ((List.range no).map (2 * ·), (List.range no).map (2 * · + 1))

noncomputable section

/-- One orbital (`_tomography.py:162-178`): the transform of `a† - a`, as an operator. -/
def excite (T : Term FStr ℂ → Option (POp ℂ)) (N k : ℕ) : Option (POp ℂ) :=
  (Fermi.generate true (1 : ℂ) [(k, .cr)] N).bind fun op1 =>
    (Fermi.generate true (-1 : ℂ) [(k, .an)] N).bind fun op2 =>
      OpD.transform T (OpD.addStr (OpD.addStr [] op1) op2)

/-- `init` (`_tomography.py:159-181`): `init *= new` over the orbitals, starting from the identity. -/
def initOp (T : Term FStr ℂ → Option (POp ℂ)) (Nq N : ℕ) (l : List ℕ) : Option (POp ℂ) :=
  l.foldlM (fun init k => (excite T N k).bind fun new => OpD.mul Pauli.mul init new)
    (OpD.addStr [] (List.replicate Nq .I, 1))

/-- The gates appended by `for s in init: apply_pauli_string(Q,s)` (`_tomography.py:190-191`). -/
def gates (init : POp ℂ) : Option (List QG) := (init.mapM (fun t => Prim.applyPauli t.2 t.1)).map List.flatten

/-- The whole preparation. -/
def prepare (T : Term FStr ℂ → Option (POp ℂ)) (Nq N : ℕ) (l : List ℕ) : Option (List QG) :=
  (initOp T Nq N l).bind gates

end
end Prepare
end HQCA
