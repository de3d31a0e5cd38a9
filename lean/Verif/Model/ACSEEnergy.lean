import Verif.Model.Ansatz
import Verif.Model.VQEObjective

/-!
# Model of the energy of an ACSE ansatz (`hqca/acse/acse.py:258-316`, `hqca/acse/_store_acse.py:68-71`)

`_generate_circuit` with a state-vector backend (the `else` branch) and `Store.evaluate` of the density matrix.  The orbitals are in the
default order (alpha, then beta), the transform is Jordan–Wigner, `PauliSet` makes the instructions with its default depth 1.
-/

namespace HQCA
namespace ACSEEn
noncomputable section
open Prepare Instr

/-- `Ansatz.transform` (`_ansatz_S.py:54-55`): the terms of the transformed layers, first layer first. -/
def strings (L : List (OpD FStr ℂ)) : Option (List (Term PStr ℂ)) :=
  (L.mapM (OpD.transform Transform.jordanWigner)).map List.flatten

/-- The state before the basis gates (`acse.py:304-312`, `_tomography.py:158-192`): reference preparation, then the instructions of the
transformed ansatz, from the all-zero register. -/
def state (no na nb : ℕ) (L : List (OpD FStr ℂ)) : Option (Cfg → ℂ) :=
  (initial (defaultOrbs no).1 (defaultOrbs no).2 na nb).bind fun l =>
    (strings L).bind fun psi =>
      (applyOp 1 none psi).bind fun gs =>
        (prepare Transform.jordanWigner (2 * no) (2 * no) l).map fun pg =>
          circOp (pg ++ gatesOf gs) (open Classical in fun b => if b = (fun _ => false) then 1 else 0)

/-- `np.real(store.evaluate(_generate_circuit(psi).rdm))` (e.g. `acse.py:336`, `_euler_acse.py:9-14`); `none` for an exception or exit.
The tensor is the one built by `construct`. -/
def energy (no na nb : ℕ) (col : List PStr → ℕ → ℕ) (h1 : Fin (2 * no) → Fin (2 * no) → ℂ)
    (V : Fin (2 * no) → Fin (2 * no) → Fin (2 * no) → Fin (2 * no) → ℂ) (enc : ℝ) (L : List (OpD FStr ℂ)) : Option ℝ :=
  (state no na nb L).bind fun prep =>
    (StateTomo.run 2 ⟨true, false⟩ (defaultOrbs no).1 (defaultOrbs no).2 col prep).map
      (VQEObj.evaluate (Ham.k2 h1 V ((na + nb : ℕ) : ℂ)) enc)

end
end ACSEEn
end HQCA
