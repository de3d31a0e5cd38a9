import Verif.Model.ACSEEnergy

/-!
# Model of the assignment of spin orbitals to qubits (`hqca/storage/_quantum_storage.py:45-93`)

`set_algorithm(Storage, rdm_to_qubit=...)` for a fermionic model, and the energy of the reference state computed with the chosen assignment.
-/

namespace HQCA
namespace QOrder
noncomputable section
open Prepare

/-- The values of `rdm_to_qubit` (`_quantum_storage.py:59-67`). -/
inductive Choice
  | default
  | alternating
  | custom (alp bet : List ℕ)

/-- `self.groups` (`_quantum_storage.py:59-75`): the qubits of the alpha and of the beta spin orbitals, `no = Storage.No_as`. -/
def groups (no : ℕ) : Choice → List ℕ × List ℕ
  | .default => defaultOrbs no
  | .alternating => alternatingOrbs no
  | .custom alp bet => (alp, bet)

/-- The reference state before the basis gates (`_quantum_storage.py:76-80`, `_tomography.py:158-192`) with no ansatz: the orbitals
`initial` are excited one after another, on `2 no` qubits. -/
def state (no na nb : ℕ) (ch : Choice) : Option (Cfg → ℂ) :=
  (initial (groups no ch).1 (groups no ch).2 na nb).bind fun l =>
    (prepare Transform.jordanWigner (2 * no) (2 * no) l).map fun pg =>
      circOp pg (open Classical in fun b => if b = (fun _ => false) then 1 else 0)

/-- The energy of the reference: tomography of order 2 with the chosen groups (`_tomography.py:344-449, 248-322`) and
`Store.evaluate` (`_store_vqe.py:47-50`, `_store_acse.py:68-71`).  The reduced Hamiltonian is `H.matrix`, which is indexed by spin orbitals (alpha,
then beta) whatever `rdm_to_qubit` is; the tensor is indexed by qubits, and `contract` only reshapes it. -/
def energy (no na nb : ℕ) (ch : Choice) (col : List PStr → ℕ → ℕ) (h1 : Fin (2 * no) → Fin (2 * no) → ℂ)
    (V : Fin (2 * no) → Fin (2 * no) → Fin (2 * no) → Fin (2 * no) → ℂ) (enc : ℝ) : Option ℝ :=
  (state no na nb ch).bind fun prep =>
    (StateTomo.run 2 ⟨true, false⟩ (groups no ch).1 (groups no ch).2 col prep).map
      (VQEObj.evaluate (Ham.k2 h1 V ((na + nb : ℕ) : ℂ)) enc)

end
end QOrder
end HQCA
