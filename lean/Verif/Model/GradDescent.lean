import Verif.Model.Optim
import Verif.Model.NelderMead
import Mathlib.Data.Matrix.Mul
import Mathlib.Analysis.SpecialFunctions.Sqrt

/-!
# Model of gradient descent (`hqca/opts/gradient/gd.py`) and of the Lagarias simplex (`hqca/opts/simplex/lagarias.py`)

Gradient descent is over the real numbers, the simplex over any ordered field.  Objective and gradient are pure functions.
Printing, counters and the unused attributes `s`, `y`, `best_y` are dropped.
-/

namespace HQCA
namespace GD
open Optim

/-- `function`, `gradient`, `gamma` (`_optimizers.py:35-58`, `65-72`), and whether the function returns numpy numbers,
which have the method `copy`. -/
structure Prob (n : ℕ) where
  f : (Fin n → ℝ) → ℝ
  g : (Fin n → ℝ) → Fin n → ℝ
  gamma : ℝ
  numpy : Bool

/-- The attributes `f0_x`, `f1_x`, `crit`, and the pair `best_f`, `best_x`, which is not set by `initialize`
(`gd.py:12-26`, `36-46`). -/
structure St (n : ℕ) where
  f0x : Fin n → ℝ
  f1x : Fin n → ℝ
  crit : ℝ
  best : Option (ℝ × (Fin n → ℝ))

/-- `initialize` (`gd.py:12-26`). -/
noncomputable def init {n : ℕ} (P : Prob n) (start shift : Fin n → ℝ) : St n :=
  let x := start + shift
  ⟨x, x - P.gamma • P.g x, 1, none⟩

/-- `next_step` and `reassign` (`gd.py:28-46`), with the default criterion.  `f1_f.copy()` raises `AttributeError` for a
plain float; `f0_x` and `f1_x` have been assigned by then. -/
noncomputable def step {n : ℕ} (P : Prob n) (s : St n) : St n × StepOut :=
  let g1 := P.g s.f1x
  let f2x := s.f1x - P.gamma • g1
  if P.numpy then (⟨s.f1x, f2x, Real.sqrt (∑ i, g1 i ^ 2), some (P.f f2x, f2x)⟩, .ok)
  else (⟨s.f1x, f2x, s.crit, s.best⟩, .other)

/-- The optimizer as the driver `Optimizer` sees it. -/
noncomputable def inst {n : ℕ} (P : Prob n) (thresh : ℝ) : Inst (St n) ℝ :=
  ⟨step P, fun s => some s.crit, fun s => s.best.map Prod.fst, thresh⟩

end GD

namespace NM
variable {F : Type} [Field F] [LinearOrder F] [IsStrictOrderedRing F] {n : ℕ}

/-- `NelderMeadLagarias.next_step` before `clean_up` (`lagarias.py:9-46`) for the reflected point `R`; `none` for the
`AttributeError` raised by `self.pr_o`, which no simplex optimizer sets (`lagarias.py:29`).  `_contract_inner` and
`_contract_outer` are `M + gamma (R - M)` and `M - gamma (R - M)`. -/
def moveL (P : Par F) (f : (Fin (n + 1) → F) → F) (s : Simplex F n) (R : Fin (n + 1) → F) : Option (Simplex F n) :=
  let M := centroid s
  if f R ≤ secondF s then
    if f R > bestF s then some (replaceLast s R (f R))
    else
      let E := R + P.beta • (R - M)
      if f E < bestF s then some (replaceLast s E (f E)) else none
  else if f R > worstF s then
    let C := M + P.gamma • (R - M)
    if f C < worstF s then some (replaceLast s C (f C)) else some (shrink P f s)
  else
    let C := M - P.gamma • (R - M)
    if f C < f R then some (replaceLast s C (f C)) else some (shrink P f s)

/-- `NelderMeadLagarias.next_step` (`lagarias.py:19-47`): the new state and whether it returned.  When it raises, the
simplex is as before and the memory of the stuck check has been updated. -/
def stepL (P : Par F) (f : (Fin (n + 1) → F) → F) (t : St F n) (ρ : F) : St F n × Bool :=
  let r := reflect P ρ t
  match moveL P f t.s r.1 with
  | some s => (⟨orderPoints s, r.2.1, r.2.2⟩, true)
  | none => (⟨t.s, r.2.1, r.2.2⟩, false)

/-- The optimizer after a sequence of steps with the random numbers drawn, whether or not steps raised. -/
def runL (P : Par F) (f : (Fin (n + 1) → F) → F) (x : Fin (n + 2) → Fin (n + 1) → F) (ρs : List F) : St F n :=
  ρs.foldl (fun t ρ => (stepL P f t ρ).1) (init f x)

end NM
end HQCA
