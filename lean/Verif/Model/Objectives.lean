import Mathlib.Analysis.SpecialFunctions.Trigonometric.Basic
import Mathlib.Analysis.SpecialFunctions.Exp
import Mathlib.Analysis.SpecialFunctions.Pow.NNReal
import Mathlib.Algebra.BigOperators.Fin

/-!
# Model of the test objectives and their gradients (`hqca/opts/functions/_functions.py`)

Floats are real numbers.  Decimal literals are the rational numbers they write.
-/

namespace HQCA
namespace Objective
open Real

/-- `beale2p` (`_functions.py:4-12`). -/
noncomputable def beale2p (p : Fin 2 → ℝ) : ℝ :=
  let x := p 0
  let y := p 1
  (1.5 - x + x * y) ^ 2 + (2.25 - x + x * y ^ 2) ^ 2 + (2.625 - x + x * y ^ 3) ^ 2

/-- `grad_beale2p` (`_functions.py:14-20`). -/
noncomputable def gradBeale2p (p : Fin 2 → ℝ) : Fin 2 → ℝ :=
  let x := p 0
  let y := p 1
  ![(2 * x) * (y ^ 6 + y ^ 4 - 2 * y ^ 3 - y ^ 2 - 2 * y + 3) + (5.25 * y ^ 3 + 4.5 * y ^ 2 + 3 * y - 12.75),
    6 * x * x * (y ^ 5 + (2 / 3) * y ^ 3 - y ^ 2 - (1 / 3) * y - (1 / 3)) + 6 * x * (2.625 * y ^ 2 + 1.5 * y + 0.5)]

/-- `rosenbrock` for at least two parameters (`_functions.py:29-37`). -/
noncomputable def rosenbrock {m : ℕ} (p : Fin (m + 2) → ℝ) : ℝ :=
  ∑ i : Fin (m + 1), (100 * (p i.succ - p i.castSucc ^ 2) ^ 2 + (1 - p i.castSucc) ^ 2)

/-- `grad_rosenbrock` for at least two parameters (`_functions.py:39-50`; with one parameter `p[1]` raises): the entry of
the first, of the last and of the other indices `v`, with `p[v-1]` and `p[v+1]` read through bounded indices. -/
noncomputable def gradRosenbrock {m : ℕ} (p : Fin (m + 2) → ℝ) (v : Fin (m + 2)) : ℝ :=
  if v = 0 then 2 * (200 * p 0 ^ 3 - 200 * p 0 * p 1 + p 0 - 1)
  else
    let prev : ℝ := p ⟨v - 1, by omega⟩
    if h : v = Fin.last (m + 1) then 200 * (p v - prev ^ 2)
    else 2 * (200 * p v ^ 3 - 200 * p v * p ⟨v + 1, by
        have : v.val ≠ m + 1 := fun h' => h (Fin.ext h')
        omega⟩ + p v - 1) + 200 * (p v - prev ^ 2)

/-- `rastrigin` (`_functions.py:52-57`). -/
noncomputable def rastrigin {d : ℕ} (p : Fin d → ℝ) : ℝ := 10 * d + ∑ i, (p i ^ 2 - 10 * cos (2 * π * p i))

/-- `grad_rastrigin` (`_functions.py:59-64`). -/
noncomputable def gradRastrigin {d : ℕ} (p : Fin d → ℝ) (i : Fin d) : ℝ := 2 * p i + 20 * π * sin (2 * π * p i)

/-- `ackley` with the default constants and two parameters (`_functions.py:67-72`). -/
noncomputable def ackley (p : Fin 2 → ℝ) : ℝ :=
  -20 * exp (-0.2 * √((1 / 2) * ∑ i, p i ^ 2)) + -exp ((1 / 2) * ∑ i, cos (2 * π * p i)) + (20 + exp 1)

/-- `grad_ackley` (`_functions.py:74-86`).  At the origin the division by `ps = 0` is an invalid number in numpy and 0
here; no theorem is about that point. -/
noncomputable def gradAckley (p : Fin 2 → ℝ) (i : Fin 2) : ℝ :=
  let ps := √(∑ k, p k ^ 2)
  let l := 0.2 * √(1 / 2)
  (2.82843 * exp (l * ps) * p i) / ps + π * exp (0.5 * ∑ k, cos (2 * π * p k)) * sin (2 * π * p i)

end Objective
end HQCA
