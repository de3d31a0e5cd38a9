import Verif.Model.UCC
import Verif.Model.Instructions
import Verif.Model.Prepare
import Verif.Model.StateTomo
import Verif.Model.Hamiltonian

/-!
# Model of the VQE objective (`hqca/vqe/vqe.py:99-126`, `hqca/vqe/_store_vqe.py:47-50`)

One evaluation of `__test_vqe_function`: assign the parameters, make the instructions, append them to the reference
circuit, do the tomography with a state-vector backend, contract with the reduced Hamiltonian.  The orbitals are in the
default order (alpha, then beta), the transform is Jordan–Wigner, `Store.H.real` is `True` (`molecular.py:38`,
`fermionic.py:37`).
-/

namespace HQCA
namespace VQEObj
noncomputable section
open Prepare UCC Instr

/-- `Store.evaluate` (`_store_vqe.py:47-50`) and `np.real` (`vqe.py:120`): the tensor is read with pair indices. -/
def evaluate {r : ℕ} (H : Fin r → Fin r → Fin r → Fin r → ℂ) (enc : ℝ) (D : List ℕ → ℂ) : ℝ :=
  (Ham.observable H (fun a b c d => D [a.val, b.val, c.val, d.val]) + (enc : ℂ)).re

/-- The test `abs(p)<1e-10` of `assign` (`_ansatz.py:19`). -/
def tiny (p : ℂ) : Bool := open Classical in decide (‖p‖ < 1e-10)

/-- The state before the basis gates (`_tomography.py:158-192`): reference preparation, then the instructions of the
ansatz `getUCCAnsatz(QuantStore)` (`vqe.py:71`) with parameters `ps` at depth `d` (`vqe.py:100-105`), from the all-zero register. -/
def state (d : ℝ) (no na nb : ℕ) (ps : List ℂ) : Option (Cfg → ℂ) :=
  (initial (defaultOrbs no).1 (defaultOrbs no).2 na nb).bind fun l =>
    (getUCC (defaultOrbs no).1 (defaultOrbs no).2 l true true false false).bind fun ts =>
      (assign tiny Transform.jordanWigner (2 * no) ts ps).bind fun psi =>
        (applyOp d none psi).bind fun gs =>
          (prepare Transform.jordanWigner (2 * no) (2 * no) l).map fun pg =>
            circOp (pg ++ gatesOf gs) (open Classical in fun b => if b = (fun _ => false) then 1 else 0)

/-- `__test_vqe_function` (`vqe.py:99-126`); `none` for an exception or exit. -/
def objective (d : ℝ) (no na nb : ℕ) (col : List PStr → ℕ → ℕ) (h1 : Fin (2 * no) → Fin (2 * no) → ℂ)
    (V : Fin (2 * no) → Fin (2 * no) → Fin (2 * no) → Fin (2 * no) → ℂ) (enc : ℝ) (ps : List ℂ) : Option ℝ :=
  (state d no na nb ps).bind fun prep =>
    (StateTomo.run 2 ⟨true, false⟩ (defaultOrbs no).1 (defaultOrbs no).2 col prep).map
      (evaluate (Ham.k2 h1 V ((na + nb : ℕ) : ℂ)) enc)

end
end VQEObj
end HQCA
