import Verif.Model.NelderMead
import Verif.Model.Optim
import Mathlib.Analysis.SpecialFunctions.Pow.Real

/-!
# Model of the stopping criterion of the simplex optimizer, and of its runs under the driver

`check_criteria` (`hqca/opts/simplex/neldermead.py:205-218`), the default initial simplex (`neldermead.py:39-43`), and `NelderMead` as seen by the driver `Optimizer`
(`hqca/opts/opt.py:105-186`, model `Optim.dRun`).  Real numbers, exact.
-/

namespace HQCA
namespace NM
noncomputable section
open Optim
variable {n : ℕ}

/-- `np.std` (`neldermead.py:206`, `210`): the root of the mean square deviation from the mean. -/
def std {m : ℕ} (v : Fin m → ℝ) : ℝ := Real.sqrt ((∑ i, (v i - (∑ j, v j) / m) ^ 2) / m)

/-- `temp` (`neldermead.py:207-209`): the norms of the points. -/
def norms (s : Simplex ℝ n) : Fin (n + 2) → ℝ := fun i => Real.sqrt (∑ k, s.x i k ^ 2)

/-- `crit` (`neldermead.py:205-216`): with `conv_criteria='energy'` the deviation of the values, with any other setting that of the norms. -/
def crit (energy : Bool) (s : Simplex ℝ n) : ℝ := if energy then std s.f else std (norms s)

/-- The simplex of `initial_conditions='old'`, the default (`neldermead.py:39-43`). -/
def oldSimplex (start shift : Fin (n + 1) → ℝ) (unity : ℝ) : Fin (n + 2) → Fin (n + 1) → ℝ :=
  fun i => if h : i = 0 then start + shift else Function.update (start + shift) (i.pred h) ((start + shift) (i.pred h) + 99 / 100 * unity)

/-- The optimizer as the driver sees it, with the number of steps taken: `crit` is first set by the first step (`clean_up`, `neldermead.py:186-190`), `best_f` is the value
of the best point (`neldermead.py:192-194`).  `ρ k` is the random number of step `k`. -/
def inst (P : Par ℝ) (f : (Fin (n + 1) → ℝ) → ℝ) (energy : Bool) (thresh : ℝ) (ρ : ℕ → ℝ) : Inst (St ℝ n × ℕ) ℝ :=
  ⟨fun t => ((step P f t.1 (ρ t.2), t.2 + 1), .ok), fun t => if t.2 = 0 then none else some (crit energy t.1.s), fun t => some (bestF t.1.s), thresh⟩

end
end NM
end HQCA
