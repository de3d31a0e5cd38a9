import Mathlib.Data.Option.Basic

/-!
# Model of the settings of `RunACSE` (`hqca/acse/acse.py`, `hqca/acse/_check_acse.py`)

Only what depends on the settings: the exceptions a setting leads to in the constructor, in `build` and in the first step.  The tomographies are given, `cg_update` is a known value and the quantum storage
has no `shift` method.
-/

namespace HQCA
namespace Settings

/-- `A_norm`: `2`, `'inf'`, `None` or anything else. -/
inductive Norm where
  | two | inf | none | other
deriving DecidableEq

/-- The keywords `update`, `method`, `A_norm`, `convergence_type`, `split_ansatz` (`acse.py:53-75`, `179-183`). -/
structure Opt where
  update : String
  method : String
  norm : Norm
  conv : String
  split : Bool

/-- `acse_update` (`acse.py:82-93`); `none`: `QuantumRunError`. -/
def letter (u : String) : Option String :=
  if u ∈ ["quantum", "Q", "q", "qso", "qfo"] then some "q"
  else if u ∈ ["class", "classical", "c", "C"] then some "c"
  else if u ∈ ["para", "p"] then some "p"
  else if u ∈ ["user", "u"] then some "u"
  else if u ∈ ["hybrid", "h"] then some "h"
  else none

/-- The constructor (`acse.py:82-101`); the letter it stores, `none`: `QuantumRunError`. -/
def construct (o : Opt) : Option String :=
  (letter o.update).bind fun l =>
    if o.method ∈ ["newton", "euler", "bfgs", "lbfgs", "cg"] then if o.norm = .other then none else some l else none

/-- `_A_as_matrix` (`acse.py:128`, `196`, `217`). -/
def asMatrix (o : Opt) : Bool := decide (o.method ∈ ["bfgs", "lbfgs", "cg"])

/-- `_get_A` (`acse.py:419-486`): an unknown letter raises (`:468-469`).  For the matrix form `np.linalg.norm(A_sq, ord='inf')` of a vector raises `ValueError`, since the order is a string (`:472`, library
behaviour).  Otherwise the solver of `p` takes the norm of a four-dimensional array, which raises for any order (`_qubit_A.py:72`, library behaviour), and `split_ansatz` raises (`:486-487`). -/
def getA (o : Opt) (l : String) : Option Unit :=
  if l ∈ ["q", "c", "p"] then
    if asMatrix o then (if o.norm = .inf then none else some ())
    else if l = "p" ∧ o.norm ≠ .none then none
    else if o.split then none else some ()
  else none

/-- `check_routine` (`_check_acse.py:5-19`): `AssertionError` for the trust criterion of a method other than `newton`. -/
def checkRoutine (o : Opt) : Option Unit := if o.method ∉ ["newton"] ∧ o.conv = "trust" then none else some ()

/-- `build` (`acse.py:400-411`). -/
def build (o : Opt) (l : String) : Option Unit := (getA o l).bind fun _ => checkRoutine o

/-- The choice of the step (`acse.py:596-612`), with the new `A`; `none`: `QuantumRunError`. -/
def step (o : Opt) (l : String) : Option Unit :=
  if o.method ∈ ["NR", "newton"] ∨ o.method ∈ ["default", "em", "EM", "euler"] ∨ o.method ∈ ["line", "opt"] then getA o l
  else if o.method ∈ ["bfgs"] ∨ o.method ∈ ["lbfgs"] ∨ o.method ∈ ["cg"] then some ()
  else none

/-- The choice of the criterion in `_check` (`acse.py:746-763`); `none`: `QuantumRunError`. -/
def criterion (o : Opt) : Option Unit :=
  if o.conv ∈ ["trust"] then some () else if o.conv ∈ ["S-norm", "norm"] then some () else none

/-- Constructor, `build`, and the first `next_step`. -/
def start (o : Opt) : Option Unit := (construct o).bind fun l => (build o l).bind fun _ => (step o l).bind fun _ => criterion o

end Settings
end HQCA
