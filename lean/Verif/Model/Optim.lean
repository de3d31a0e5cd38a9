import Mathlib.Algebra.Order.Field.Basic
import Mathlib.Algebra.Order.AbsoluteValue.Basic

/-!
# Model of the optimizer line searches and of the optimizer driver

`hqca/opts/gradient/linesearch.py`, the line searches of `hqca/opts/gradient/bfgs.py`, and `hqca/opts/opt.py`.
Numbers are elements of an ordered field; the objective along the search direction is a function `phi` of the step.
Loops without a limit in the code are given as the state after a number of passes.
-/

namespace HQCA
namespace Optim
variable {F : Type} [Field F] [LinearOrder F] [IsStrictOrderedRing F]

/-! ## Backtracking -/

/-- `BacktrackingLineSearch` (`linesearch.py:8-69`): objective along the direction, `f0`, `y = g0.p`, `rho`, `c`. -/
structure BT (F : Type) where
  phi : F → F
  f0 : F
  y : F
  rho : F
  c : F

/-- The attributes `_alpha_bar`, `f1`, `crit` (`linesearch.py:28`, `51-56`). -/
structure BTSt (F : Type) where
  alpha : F
  f1 : F
  crit : F

/-- The test of `initialize` and of `next_step` at the current `_alpha_bar` (`linesearch.py:49-56`, `58-69`). -/
def btTest (B : BT F) (alpha : F) : BTSt F :=
  if B.phi alpha ≤ B.f0 + B.c * alpha * B.y then ⟨alpha, B.phi alpha, 0⟩ else ⟨alpha * B.rho, B.phi alpha, 1⟩

/-- `initialize` and then `n` calls of `next_step`; `_alpha_bar` starts at 1 whatever was asked for (`linesearch.py:28`). -/
def btRun (B : BT F) : ℕ → BTSt F
  | 0 => btTest B 1
  | n + 1 => btTest B (btRun B n).alpha

/-- `BFGS._line_search_backtracking` after `n` passes of its loop (`bfgs.py:251-276`): the step, its value, and whether
the loop has ended. -/
def btLoop (B : BT F) : ℕ → F × F × Bool
  | 0 => (1, B.phi 1, decide (B.phi 1 ≤ B.f0 + B.c * 1 * B.y))
  | n + 1 =>
    let s := btLoop B n
    if s.2.2 then s else
      let a := s.1 * B.rho
      (a, B.phi a, decide (B.phi a ≤ B.f0 + B.c * a * B.y))

/-! ## Bisection -/

/-- The attributes of `BisectingLineSearch`: bracket and values. -/
structure BS (F : Type) where
  al : F
  ar : F
  fl : F
  fr : F

/-- The bracketing loop of `BisectingLineSearch.initialize` after `n` passes (`linesearch.py:92-106`): `some` when the
bracket was found, else the current left end, its value and the next right end. -/
def bsInit (phi : F → F) (fl al ar : F) : ℕ → BS F ⊕ (F × F × F)
  | 0 => .inr (al, fl, ar)
  | n + 1 =>
    match bsInit phi fl al ar n with
    | .inl b => .inl b
    | .inr (al, fl, ar) => if phi ar < fl then .inr (ar, phi ar, ar * 2) else .inl ⟨al, ar, fl, phi ar⟩

/-- `BisectingLineSearch.next_step` (`linesearch.py:108-123`): the new bracket. -/
def bsStep (phi : F → F) (s : BS F) : BS F :=
  let a := 1 / 2 * (s.al + s.ar)
  if phi a < s.fl then { s with al := a, fl := phi a } else { s with ar := a, fr := phi a }

/-- `best_f`, `best_x`, `crit` after `next_step` (`linesearch.py:117-123`). -/
def bsBest (s : BS F) : F × F := if s.fl < s.fr then (s.fl, s.al) else (s.fr, s.ar)
def bsCrit (s : BS F) : F := |s.al - s.ar|

/-! ## The line search of BFGS -/

/-- `phi`, `dphi`, `f_zed`, `g_zed`, `c1`, `c2` of `_line_search` (`bfgs.py:165-196`). -/
structure WLS (F : Type) where
  phi : F → F
  dphi : F → F
  fz : F
  gz : F
  c1 : F
  c2 : F

/-- The loop of `zoom` (`bfgs.py:193-218`); the first argument is the number of passes left before
`OptimizerError`, which is also raised when the last pass finds a point.  The answer is `alp_star, f_j`. -/
def wZoom (W : WLS F) : ℕ → F → F → F → Option (F × F)
  | 0, _, _, _ => none
  | n + 1, al, ah, fl =>
    let aj := 1 / 2 * (al + ah)
    let fj := W.phi aj
    if fj > W.fz + W.c1 * aj * W.gz ∨ fj ≥ fl then wZoom W n al aj fl
    else
      let gj := W.dphi aj
      if |gj| ≤ -W.c2 * W.gz then (if n = 0 then none else some (aj, fj))
      else if gj * (ah - al) ≥ 0 then wZoom W n aj al fj
      else wZoom W n aj ah fj

/-- The state of the main loop (`bfgs.py:225-246`): still running with `alp_0, f0, alp_1`, or ended with `alp_star,
f_star` (`none` for the error raised by `zoom`). -/
inductive WSt (F : Type) where
  | running (a0 f0 a1 : F)
  | ended (r : Option (F × F))

/-- One pass.  `iters` stays 1, so the comparison with the previous value never takes part (`bfgs.py:233`). -/
def wPass (W : WLS F) : WSt F → WSt F
  | .ended r => .ended r
  | .running a0 f0 a1 =>
    let f1 := W.phi a1
    if f1 > W.fz + W.c1 * a1 * W.gz then .ended (wZoom W 21 a0 a1 f0)
    else
      let g1 := W.dphi a1
      if |g1| ≤ -W.c2 * W.gz then .ended (some (a1, f1))
      else if g1 ≥ 0 then .ended (wZoom W 21 a0 a1 f0)
      else .running a1 f1 (1 / 2 * (a1 + 5))

/-- `_line_search` after `n` passes (`bfgs.py:165-248`), from `alp_0 = 0`, `alp_1 = 1`. -/
def wRun (W : WLS F) : ℕ → WSt F
  | 0 => .running 0 W.fz 1
  | n + 1 => wPass W (wRun W n)

/-! ## The driver -/

/-- What one call of an optimizer's `next_step` does: it returns, or raises one of the exceptions the driver tells
apart. -/
inductive StepOut where
  | ok
  | timeout
  | called
  | other
  deriving DecidableEq

/-- An optimizer as the driver sees it: its states, `next_step`, and the attributes `crit` and `best_f`, which may not be
set, and `_conv_thresh`. -/
structure Inst (S F : Type) where
  step : S → S × StepOut
  crit : S → Option F
  bestF : S → Option F
  thresh : F

/-- The state of the driver and of the `Cache` of `run` (`opt.py:18-25`, `76-80`). -/
structure DSt (S : Type) where
  inst : S
  error : Bool
  iter : ℕ
  done : Bool
  err : Bool

/-- `Optimizer.next_step` (`opt.py:105-133`); with `verbose` the message reads `best_f` and `crit`, an exception when one
is not set. -/
def dNext {S : Type} (I : Inst S F) (verbose : Bool) (d : DSt S) : Option (DSt S) :=
  let r := I.step d.inst
  let d' := { d with inst := r.1, error := d.error || decide (r.2 ≠ .ok), iter := d.iter + 1 }
  if verbose && ((I.bestF r.1).isNone || (I.crit r.1).isNone) then none else some d'

/-- `Optimizer.check` with a cache (`opt.py:145-186`).  A missing attribute is an `AttributeError`; so is `self.pr_o`,
read after `done` was set on convergence, which then also reports an error recorded before. -/
def dCheck {S : Type} (I : Inst S F) (d : DSt S) : DSt S :=
  match I.crit d.inst, I.bestF d.inst with
  | some c, some _ =>
    if |c| ≤ |I.thresh| then { d with done := true, err := d.err || d.error }
    else if d.error then { d with done := true, err := true }
    else { d with done := false }
  | _, _ => if d.error then { d with done := true, err := true } else d

/-- `Optimizer.run` after at most `n` passes of its loop (`opt.py:135-143`); `none` for an exception. -/
def dRun {S : Type} (I : Inst S F) (verbose : Bool) (s : S) : ℕ → Option (DSt S)
  | 0 => some ⟨s, false, 0, false, false⟩
  | n + 1 => (dRun I verbose s n).bind fun d =>
      if d.done then some d else (dNext I verbose d).map (dCheck I)

end Optim
end HQCA
