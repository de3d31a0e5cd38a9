import Mathlib.Algebra.Order.Field.Basic
import Mathlib.Algebra.Order.AbsoluteValue.Basic

/-!
# Model of the Newton step of the ACSE (`hqca/acse/_newton_acse.py`)

Numbers are elements of an ordered field.  `E t` is the energy of the ansatz extended by `t` times the residual
operator; the step is described by the coefficient with which the operator is appended.  Printing is dropped.
-/

namespace HQCA
namespace Newton
variable {F : Type} [Field F] [LinearOrder F] [IsStrictOrderedRing F]

/-- The settings (`acse.py:227-254`): `epsilon`, `newton_step`, the two convergence criteria, the acceptance ratios, the
factors of the trust region, whether the trust region is used, and whether the backend is a noisy one (`nm`, `qc`). -/
structure Cfg (F : Type) where
  eps : F
  d : F
  tsCrit : F
  objCrit : F
  nv : F
  ns : F
  gi : F
  gd : F
  useTR : Bool
  noisy : Bool

/-- `d2D` before the guard (`_newton_acse.py:21-22`). -/
def second (C : Cfg F) (e0 e1 e2 : F) : F :=
  (2 * (e2 - e0) - 2 * C.d * (e1 - e0)) / (C.d * C.eps * C.eps * (C.d - 1))

/-- `d1D` before the guard (`_newton_acse.py:21-23`). -/
def first (C : Cfg F) (e0 e1 e2 : F) : F :=
  ((e1 - e0) * C.d ^ 2 - (e2 - e0)) / (C.d * C.eps * (C.d - 1))

/-- `acse.grad`, `acse.hess` (`_newton_acse.py:21-27`, `38-39`); an exception when a denominator vanishes. -/
def derivs (C : Cfg F) (e0 e1 e2 : F) : Option (F × F) :=
  if C.d * C.eps * C.eps * (C.d - 1) = 0 then none else
  let d2 := second C e0 e1 e2
  let d1 := first C e0 e1 e2
  if |d2| < 1 / 10 ^ 16 then some (d1, 1 / 10 ^ 16)
  else if |d1| < 1 / 10 ^ 16 then some (1 / 10 ^ 16, d2)
  else some (d1, d2)

/-- The variables of the trust-region loop after a pass: the coefficient, `tr_taylor`, `tr_object`, `tr_Del`, `trust`. -/
structure St (F : Type) where
  coeff : F
  taylor : F
  object : F
  del : F
  trust : Bool

/-- The coefficient inside or at the border of the trust region (`_newton_acse.py:63-76`). -/
def coeffOf (g h del : F) : F :=
  if |g / h| < del then -g / h else if -g / h < 0 then del * (-1) else del

/-- One pass of the loop (`_newton_acse.py:62-117`); an exception when `tr_taylor` is zero and neither criterion holds
(negative criteria only). -/
def pass (C : Cfg F) (E : F → F) (e0 g h del : F) : Option (St F) :=
  let c := coeffOf g h del
  let taylor := e0 - (e0 + c * g + 1 / 2 * c * h * c)
  let object := e0 - E c
  if |object| ≤ C.objCrit then some ⟨c, taylor, object, del, true⟩
  else if |taylor| ≤ C.tsCrit then some ⟨c, taylor, object, del, true⟩
  else if taylor = 0 then none
  else
    let rho := object / taylor
    if rho ≥ C.nv then some ⟨c, taylor, object, del * C.gi, true⟩
    else if rho ≥ C.ns then some ⟨c, taylor, object, del, true⟩
    else some ⟨c, taylor, object, del * C.gd, false⟩

/-- The loop (`_newton_acse.py:55-128`): a second pass at most, and none on noisy backends. -/
def loop (C : Cfg F) (E : F → F) (e0 g h del : F) : Option (St F) :=
  (pass C E e0 g h del).bind fun s =>
    if s.trust || C.noisy then some s else pass C E e0 g h s.del

/-- What the step does: append the operator with a coefficient, or reject it. -/
inductive Out (F : Type) where
  | accept (s : St F)
  | reject

/-- `_newton_step` (`_newton_acse.py:7-143`).  `coeff_best` is zero throughout, so noisy backends always reject
(`130-134`); with negative `hess` the loop is skipped and `ef` is unbound (`137`), an exception. -/
def step (C : Cfg F) (E : F → F) (e0 del : F) : Option (Out F) :=
  (derivs C e0 (E C.eps) (E (C.d * C.eps))).bind fun gh =>
    if C.useTR = false then none
    else if gh.2 < 0 then (if C.noisy then some .reject else none)
    else (loop C E e0 gh.1 gh.2 del).map fun s => if C.noisy then .reject else .accept s

end Newton
end HQCA
