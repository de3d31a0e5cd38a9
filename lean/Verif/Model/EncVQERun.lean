import Verif.Model.VQERun
import Verif.Model.EncEnergy

/-!
# Model of a whole VQE calculation with another transform (`hqca/vqe/vqe.py:62-200`)

As `Verif.Model.VQERun`, with the objective of `EncEn.objective`.
-/

namespace HQCA
namespace EncVQERun
noncomputable section
open VQERun

variable (T : Term FStr ℂ → Option (POp ℂ)) (d : ℝ) (no na nb : ℕ) (col : List PStr → ℕ → ℕ) (h1 : Fin (2 * no) → Fin (2 * no) → ℂ)
  (V : Fin (2 * no) → Fin (2 * no) → Fin (2 * no) → Fin (2 * no) → ℂ) (enc : ℝ)

/-- `__test_vqe_function` of a vector of parameters (`vqe.py:100-126`); the default `0` for an evaluation that raises is never taken (C150). -/
def energy (x : Fin (nPar no na nb) → ℝ) : ℝ := (EncEn.objective T d no na nb col h1 V enc (List.ofFn fun i => (x i : ℂ))).getD 0

/-- The function and the gradient handed to the optimizer (`vqe.py:80-88, 128-157`). -/
def problem : BFGSRun.Prob (nPar no na nb) := ⟨energy T d no na nb col h1 V enc, VQE.grad (energy T d no na nb col h1 V enc) true (1 / 10 ^ 7)⟩

/-- Creating the storage, `build` and `run`, starting from zero parameters (`vqe.py:72-76`).  The storage does not use the transform. -/
def whole (D : VQE.Par ℝ) (m : ℕ) (ms : List ℕ) : Option (BFGSRun.Run (nPar no na nb)) :=
  (HFStore.vqeE0 0 no no na nb h1 V enc).bind fun _ => BFGSRun.whole (problem T d no na nb col h1 V enc) D (fun _ => 0) m ms

end
end EncVQERun
end HQCA
