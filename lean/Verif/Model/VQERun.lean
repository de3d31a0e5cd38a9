import Verif.Model.BFGSRun
import Verif.Model.VQEObjective
import Verif.Model.HFStorage

/-!
# Model of a whole VQE calculation (`hqca/vqe/vqe.py:62-200`) with the quasi-Newton optimizer

`RunVQE(..., gradient=True)` with `Optimizer('bfgs')`, the only optimizer with which `build` returns (C70): the objective of `Verif.Model.VQEObjective`, its
finite-difference gradient, the optimizer and the driver of `Verif.Model.BFGSRun`, the storage of `Verif.Model.HFStorage`.
-/

namespace HQCA
namespace VQERun
noncomputable section
open Prepare UCC VQEObj

/-- `len(self.T.T)` (`vqe.py:71-77`): the number of parameters. -/
def nPar (no na nb : ℕ) : ℕ :=
  (((initial (defaultOrbs no).1 (defaultOrbs no).2 na nb).bind fun l =>
    getUCC (defaultOrbs no).1 (defaultOrbs no).2 l true true false false).map List.length).getD 0

variable (d : ℝ) (no na nb : ℕ) (col : List PStr → ℕ → ℕ) (h1 : Fin (2 * no) → Fin (2 * no) → ℂ)
  (V : Fin (2 * no) → Fin (2 * no) → Fin (2 * no) → Fin (2 * no) → ℂ) (enc : ℝ)

/-- `__test_vqe_function` of a vector of parameters (`vqe.py:100-126`); the default `0` for an evaluation that raises is never taken (C125). -/
def energy (x : Fin (nPar no na nb) → ℝ) : ℝ := (objective d no na nb col h1 V enc (List.ofFn fun i => (x i : ℂ))).getD 0

/-- The function and the gradient handed to the optimizer (`vqe.py:80-88, 128-157`): forward differences with step `1e-7`. -/
def problem : BFGSRun.Prob (nPar no na nb) := ⟨energy d no na nb col h1 V enc, VQE.grad (energy d no na nb col h1 V enc) true (1 / 10 ^ 7)⟩

/-- Creating the storage, `build` and `run`, starting from zero parameters (`vqe.py:72-76`); `m` and `ms` are the numbers of passes of the line searches. -/
def whole (D : VQE.Par ℝ) (m : ℕ) (ms : List ℕ) : Option (BFGSRun.Run (nPar no na nb)) :=
  (HFStore.vqeE0 0 no no na nb h1 V enc).bind fun _ => BFGSRun.whole (problem d no na nb col h1 V enc) D (fun _ => 0) m ms

end
end VQERun
end HQCA
