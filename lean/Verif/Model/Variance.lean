import Verif.Model.RhoTomo
import Verif.Model.Euler

/-!
# Model of `RunACSE.check_variance` (`hqca/acse/acse.py:810-818`)
-/

namespace HQCA
namespace Variance
noncomputable section
open Circ

/-- `.trace()` of an `N` by `N` matrix. -/
def tr (N : ℕ) (A : Mat ℂ) : ℂ := ((List.range N).map fun i => A i i).sum

/-- `check_variance` (`acse.py:815-818`) for the matrix `self.rho`.  The attribute exists from `__init__` on (`acse.py:127`), so the `return None` of line
814 is not reached; `rho` is `None` unless the backend is of type `'rho'`, and `np.dot(None, H)` raises or has no meaning: `none`. -/
def checkVariance (N : ℕ) (rho : Option (Mat ℂ)) (H : Mat ℂ) : Option ℝ :=
  rho.map fun rho =>
    let E := tr N (dot N rho H)
    let v1 := tr N (dot N rho (dot N H H))
    (v1 - E ^ 2).re

end
end Variance
end HQCA
