import Mathlib.Analysis.SpecialFunctions.Pow.Real
import Mathlib.Data.Complex.Basic

/-!
# Model of `hqca/tools/rdm/_gpc.py`
-/

namespace HQCA
namespace Gpc
noncomputable section

/-- `np.cross` of two vectors with three components. -/
def cross (u v : Fin 3 → ℝ) : Fin 3 → ℝ := ![u 1 * v 2 - u 2 * v 1, u 2 * v 0 - u 0 * v 2, u 0 * v 1 - u 1 * v 0]

/-- `np.dot`. -/
def dot (u v : Fin 3 → ℝ) : ℝ := u 0 * v 0 + u 1 * v 1 + u 2 * v 2

/-- `project_to_plane` (`_gpc.py:20-31`). -/
def projectToPlane (vec : Fin 3 → ℝ) : Fin 3 → ℝ :=
  let v1 : Fin 3 → ℝ := ![1, 1, 1]
  let v2 : Fin 3 → ℝ := ![0.5, 0.5, 0.5]
  let v3 : Fin 3 → ℝ := ![1, 0.5, 0.5]
  let nv1 := v1 - v2
  let nv2 := v2 - v3
  let c := cross nv1 nv2
  let n : Fin 3 → ℝ := fun i => c i / Real.sqrt (dot c c)
  let w := vec - ![1, 1, 1]
  let orthog := dot n w
  fun i => vec i - orthog * n i

/-- `project_gpc` (`_gpc.py:3-18`): its first line uses the name `LA`, which the module does not define (`NameError`). -/
def projectGpc (_rdm : Fin 6 → Fin 6 → ℂ) (_s1 _s2 _s3 : ℂ) : Option (ℂ × ℂ × ℂ × ℝ) := none

/-- `wf_BD` (`_gpc.py:33-39`): the dictionary of strings of occupations and amplitudes. -/
def wfBD (α β γ : ℂ) : List (List Bool × ℂ) :=
  [([true, true, true, false, false, false], α), ([true, false, false, true, true, false], β), ([false, true, false, true, false, true], γ)]

end
end Gpc
end HQCA
