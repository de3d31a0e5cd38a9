import Verif.Model.ACSEEnergy
import Verif.Model.Collect
import Verif.Model.ShotTomo

/-!
# Model of the measurement of the residual (`hqca/acse/_quant_A_acse.py:72-108`, `hqca/acse/acse.py:258-316`)

`_runexpiH`: the circuit of the ansatz followed by a Hamiltonian step (`propagate='real'`), tomography of the imaginary parts, division by the step.  Orbitals in the
default order, Jordan–Wigner transform, `PauliSet` with its default depth 1.
-/

namespace HQCA
namespace MeasResid
noncomputable section
open Prepare Instr

/-- The state before the basis gates: reference preparation, ansatz, Hamiltonian step (`acse.py:304-312`, `_instruct_pauli.py:17-29`). -/
def state (no na nb : ℕ) (L : List (OpD FStr ℂ)) (H : List (PStr × ℂ)) (trotter : ℕ) (d : ℝ) : Option (Cfg → ℂ) :=
  (initial (defaultOrbs no).1 (defaultOrbs no).2 na nb).bind fun l =>
    (ACSEEn.strings L).bind fun psi =>
      (pauliSet psi H trotter d).bind fun gs =>
        (prepare Transform.jordanWigner (2 * no) (2 * no) l).map fun pg =>
          circOp (pg ++ gs) (open Classical in fun b => if b = (fun _ => false) then 1 else 0)

/-- `_runexpiH` with the state-vector backend; `none` for an exception or exit. -/
def statevector (no na nb : ℕ) (col : List PStr → ℕ → ℕ) (L : List (OpD FStr ℂ)) (H : List (PStr × ℂ)) (trotter : ℕ) (d : ℝ) :
    Option (Fin (2 * no) → Fin (2 * no) → Fin (2 * no) → Fin (2 * no) → ℂ) :=
  (state no na nb L H trotter d).bind fun prep =>
    (StateTomo.run 2 ⟨false, true⟩ (defaultOrbs no).1 (defaultOrbs no).2 col prep).map fun D =>
      Collect.measured d fun i k j l => D [i.val, k.val, j.val, l.val]

/-- `_runexpiH` with a backend that returns counts. -/
def counts (no na nb : ℕ) (col : List PStr → ℕ → ℕ) (L : List (OpD FStr ℂ)) (H : List (PStr × ℂ)) (trotter : ℕ) (d : ℝ) (shots : PStr → List ℕ) :
    Option (Fin (2 * no) → Fin (2 * no) → Fin (2 * no) → Fin (2 * no) → ℂ) :=
  (state no na nb L H trotter d).bind fun _ =>
    (ShotTomo.runT Transform.jordanWigner 2 ⟨false, true⟩ (defaultOrbs no).1 (defaultOrbs no).2 col shots).map fun D =>
      Collect.measured d fun i k j l => D [i.val, k.val, j.val, l.val]

/-- The energy of an ansatz with a backend that returns counts (`acse.py:258-316`, `_store_acse.py:68-71`), as `ACSEEn.energy`. -/
def energyCounts (no na nb : ℕ) (col : List PStr → ℕ → ℕ) (h1 : Fin (2 * no) → Fin (2 * no) → ℂ)
    (V : Fin (2 * no) → Fin (2 * no) → Fin (2 * no) → Fin (2 * no) → ℂ) (enc : ℝ) (L : List (OpD FStr ℂ)) (shots : PStr → List ℕ) : Option ℝ :=
  (ACSEEn.state no na nb L).bind fun _ =>
    (ShotTomo.runT Transform.jordanWigner 2 ⟨true, false⟩ (defaultOrbs no).1 (defaultOrbs no).2 col shots).map
      (VQEObj.evaluate (Ham.k2 h1 V ((na + nb : ℕ) : ℂ)) enc)

end
end MeasResid
end HQCA
