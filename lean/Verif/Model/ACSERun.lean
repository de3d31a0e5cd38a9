import Verif.Model.ACSE
import Verif.Model.ACSEEnergy
import Verif.Model.HFStorage

/-!
# Model of a whole run of the ACSE driver (`hqca/acse/acse.py:318-403`, `658-767`)

`build` takes the initial energy from the storage (`acse.py:358`), then `run` repeats `_run_acse`, which leaves the density matrix of the new ansatz in the
storage, and `_check`, which evaluates it.  How an iteration chooses its layers is left open: an iteration is given by the ansatz it ends with and by the other
quantities `_check` reads.  State-vector backend, Jordan–Wigner transform, default orbital order, as in `Verif.Model.ACSEEnergy`.
-/

namespace HQCA
namespace ACSERun
noncomputable section
open ACSE

/-- One iteration as `_check` sees it (`acse.py:681-684`): the energy is that of the ansatz the iteration ends with, the rest is given. -/
def observe (no na nb : ℕ) (col : List PStr → ℕ → ℕ) (h1 : Fin (2 * no) → Fin (2 * no) → ℂ)
    (V : Fin (2 * no) → Fin (2 * no) → Fin (2 * no) → Fin (2 * no) → ℂ) (enc : ℝ) (x : List (OpD FStr ℂ) × Obs ℝ) : Option (Obs ℝ) :=
  (ACSEEn.energy no na nb col h1 V enc x.1).map fun e => { x.2 with en := e }

/-- `build` from the storage and `run` (`acse.py:358`, `375-403`, `658-667`); `none` for an exception.  `old` is the counter left by an earlier run of the same
object. -/
def whole (P : Par ℝ) (old : ℕ) (no na nb : ℕ) (col : List PStr → ℕ → ℕ) (h1 : Fin (2 * no) → Fin (2 * no) → ℂ)
    (V : Fin (2 * no) → Fin (2 * no) → Fin (2 * no) → Fin (2 * no) → ℂ) (enc : ℝ) (xs : List (List (OpD FStr ℂ) × Obs ℝ)) : Option (St ℝ) :=
  (HFStore.acseE0 no na nb h1 V enc).bind fun e =>
    (xs.mapM (observe no na nb col h1 V enc)).bind fun os => run P os (build e old)

end
end ACSERun
end HQCA
