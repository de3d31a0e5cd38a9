import Verif.Model.VQEObjective

/-!
# Model of the energy with another transform (`hqca/acse/_store_acse.py:68-71`, `hqca/vqe/_store_vqe.py:47-50`, `hqca/tomography/_tomography.py:151-322`)

`transform=` may be any fermion-to-qubit transform; the reference is prepared and the tomography generated with it, and the density matrix is
contracted with the reduced Hamiltonian.
-/

namespace HQCA
namespace EncEn
noncomputable section
open Prepare UCC Instr

/-- Tomography of order 2 with transform `T` of the prepared register, with `Store.H.real`, and `Store.evaluate`. -/
def energy (T : Term FStr ℂ → Option (POp ℂ)) (no na nb : ℕ) (col : List PStr → ℕ → ℕ) (h1 : Fin (2 * no) → Fin (2 * no) → ℂ)
    (V : Fin (2 * no) → Fin (2 * no) → Fin (2 * no) → Fin (2 * no) → ℂ) (enc : ℝ) (prep : Cfg → ℂ) : Option ℝ :=
  (StateTomo.runT T 2 ⟨true, false⟩ (defaultOrbs no).1 (defaultOrbs no).2 col prep).map
    (VQEObj.evaluate (Ham.k2 h1 V ((na + nb : ℕ) : ℂ)) enc)

/-- The energy of the reference: `QuantStore.initial`, its preparation with `T` (`_tomography.py:158-192`) from the all-zero register, and `energy`. -/
def reference (T : Term FStr ℂ → Option (POp ℂ)) (no na nb : ℕ) (col : List PStr → ℕ → ℕ) (h1 : Fin (2 * no) → Fin (2 * no) → ℂ)
    (V : Fin (2 * no) → Fin (2 * no) → Fin (2 * no) → Fin (2 * no) → ℂ) (enc : ℝ) : Option ℝ :=
  (initial (defaultOrbs no).1 (defaultOrbs no).2 na nb).bind fun l =>
    (prepare T (2 * no) (2 * no) l).bind fun pg =>
      energy T no na nb col h1 V enc (circOp pg (open Classical in fun b => if b = (fun _ => false) then 1 else 0))

/-- The state of a VQE evaluation (`vqe.py:99-106`, `_tomography.py:158-192`) with transform `T`: as `VQEObj.state`. -/
def vqeState (T : Term FStr ℂ → Option (POp ℂ)) (d : ℝ) (no na nb : ℕ) (ps : List ℂ) : Option (Cfg → ℂ) :=
  (initial (defaultOrbs no).1 (defaultOrbs no).2 na nb).bind fun l =>
    (getUCC (defaultOrbs no).1 (defaultOrbs no).2 l true true false false).bind fun ts =>
      (assign VQEObj.tiny T (2 * no) ts ps).bind fun psi =>
        (applyOp d none psi).bind fun gs =>
          (prepare T (2 * no) (2 * no) l).map fun pg =>
            circOp (pg ++ gatesOf gs) (open Classical in fun b => if b = (fun _ => false) then 1 else 0)

/-- `__test_vqe_function` (`vqe.py:99-126`) with transform `T`. -/
def objective (T : Term FStr ℂ → Option (POp ℂ)) (d : ℝ) (no na nb : ℕ) (col : List PStr → ℕ → ℕ) (h1 : Fin (2 * no) → Fin (2 * no) → ℂ)
    (V : Fin (2 * no) → Fin (2 * no) → Fin (2 * no) → Fin (2 * no) → ℂ) (enc : ℝ) (ps : List ℂ) : Option ℝ :=
  (vqeState T d no na nb ps).bind (energy T no na nb col h1 V enc)

end
end EncEn
end HQCA
