import Mathlib.Algebra.Order.Field.Basic
import Mathlib.Algebra.Order.AbsoluteValue.Basic
import Mathlib.Data.List.FinRange
import Mathlib.Logic.Function.Basic

/-!
# Model of the VQE driver (`hqca/vqe/vqe.py`) and of the refresh of the measurement filter (`hqca/storage/_quantum_storage.py`)

Energies are elements of an ordered field.  The optimizer is arbitrary: an iteration is described by the energies it asks
for, in order, and by the attributes the driver reads afterwards.  `Opt.check` (`opts/opt.py:145-186`) is modelled for an
optimizer whose attributes are set (see `Verif.Model.Optim` for the other cases).
-/

namespace HQCA
namespace VQE
variable {F : Type} [Field F] [LinearOrder F] [IsStrictOrderedRing F]

/-- Keywords: the requested `max_iter`, `opt_thresh`, and the threshold of the optimizer. -/
structure Par (F : Type) where
  requested : ℕ
  crit : F
  thresh : F

/-- `self.max_iter` (`vqe.py:49`): the requested value is not used. -/
def maxIter (_ : Par F) : ℕ := 50

/-- The driver: `total.iter`, `total.done`, `best`, the energy of the density matrix kept in the storage (`none`: the
initial one), `log_E` (latest first). -/
structure St (F : Type) where
  iter : ℕ
  done : Bool
  best : F
  stored : Option F
  logE : List F

/-- One optimizer call: the energies evaluated, and afterwards `best_f`, `crit` and whether the optimizer recorded an
error. -/
structure Obs (F : Type) where
  evals : List F
  bestF : F
  crit : F
  error : Bool

/-- `__test_vqe_function` (`vqe.py:102-122`): what one evaluation does to the driver. -/
def evalOne (s : St F) (en : F) : St F := if en < s.best then { s with stored := some en, best := en } else s

/-- `build` (`vqe.py:62-98`): `best = 0`, then the initialization of the optimizer evaluates energies, then `best_f` and
`crit` are read; `none` is the `AttributeError` when the optimizer has not set one of them. -/
def build (evals : List F) (bestF crit : Option F) : Option (St F) :=
  let s := evals.foldl evalOne ⟨0, false, 0, none, []⟩
  match bestF, crit with
  | some b, some _ => some { s with logE := [b] }
  | _, _ => none

/-- The deterministic optimizers that `Optimizer` offers for parameter searches (`opts/opt.py:50-63`), without the ones
that need a search direction. -/
inductive Kind where
  | nelderMead | gradientDescent | bfgs
  deriving DecidableEq

/-- Which of `best_f`, `crit` have values after `initialize` that evaluated the function at `e :: es` (first the start
point): Nelder-Mead has the property `best_f` but sets `crit` in `check_criteria` only, called by `next_step`
(`neldermead.py:58-67`, `186-190`); gradient descent sets `crit=1` but `best_f` in `reassign` only (`gd.py:12-26`,
`36-46`); the quasi-Newton optimizer sets both (`bfgs.py:85-87`), `c` being the norm of the gradient. -/
def afterInit (k : Kind) (e : F) (es : List F) (c : F) : Option F × Option F :=
  match k with
  | .nelderMead => (some (es.foldl min e), none)
  | .gradientDescent => (none, some 1)
  | .bfgs => (some e, some c)

/-- `_check` (`vqe.py:185-194`): `best` becomes the optimizer's; `Opt.check` sets `done`; then the driver's own limits. -/
def check (P : Par F) (s : St F) (o : Obs F) : St F :=
  let d := decide (|o.crit| ≤ |P.thresh|) || o.error
  { s with best := o.bestF
           done := if s.iter = maxIter P then true else if o.crit < P.crit then true else d }

/-- One pass of the loop (`vqe.py:171-194`): `_run_vqe` and `_check`. -/
def pass (P : Par F) (s : St F) (o : Obs F) : St F :=
  let t := o.evals.foldl evalOne s
  check P { t with logE := o.bestF :: t.logE } o

/-- `run` (`vqe.py:196-200`) for the observations that successive iterations would make. -/
def run (P : Par F) : List (Obs F) → St F → St F
  | [], s => s
  | o :: os, s => if s.done then s else run P os (pass P s o)

/-- The points at which `__test_vqe_gradient` evaluates the energy, in order (`vqe.py:124-156`). -/
def gradPoints {n : ℕ} (forward : Bool) (h : F) (x : Fin n → F) : List (Fin n → F) :=
  if forward then x :: (List.finRange n).map (fun i => Function.update x i (x i + h))
  else (List.finRange n).flatMap (fun i => [Function.update x i (x i - h), Function.update x i (x i + h)])

/-- The gradient returned by `__test_vqe_gradient` (`vqe.py:124-157`). -/
def grad {n : ℕ} (f : (Fin n → F) → F) (forward : Bool) (h : F) (x : Fin n → F) (i : Fin n) : F :=
  if forward then (f (Function.update x i (x i + h)) - f x) / h
  else (f (Function.update x i (x i + h)) - f (Function.update x i (x i - h))) / (2 * h)

end VQE

/-! ## The measurement filter -/
namespace Filter

/-- `self.n`, `self.freq`, and the number of calibrations so far (which stands for the filter currently held). -/
structure St where
  n : ℤ
  freq : ℤ
  cal : ℕ

/-- The calibration: a new filter and `n = freq - 1` (`_quantum_storage.py:337-395`). -/
def calibrate (s : St) : St := { s with n := s.freq - 1, cal := s.cal + 1 }

/-- `_get_measurement_filter(initial=True, frequency=f)` (`_quantum_storage.py:324-396`). -/
def setup (f : ℤ) : St := calibrate ⟨0, f, 0⟩

/-- Reading the property `meas_filter` (`_quantum_storage.py:400-403`): the new state and the filter returned. -/
def use (s : St) : St × ℕ :=
  let t := if s.n = 0 then calibrate s else { s with n := s.n - 1 }
  (t, t.cal)

/-- The state before the `k`-th use (counted from 0). -/
def after (f : ℤ) : ℕ → St
  | 0 => setup f
  | k + 1 => (use (after f k)).1

end Filter
end HQCA
