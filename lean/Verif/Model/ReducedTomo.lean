import Verif.Model.StateTomo
import Verif.Model.QubitTomo
import Verif.Model.SymProj

/-!
# Model of `ReducedTomography` (`hqca/tomography/_constant_tomography.py`)

Tomography with symmetry-projected element operators.  Measurement plan, simulation and filling are those of
`StandardTomography` (the plan is a copy of the code: `_constant_tomography.py:116-157`).
-/

namespace HQCA
namespace ReducedTomo
noncomputable section
open Tomo StateTomo

/-- `generate_sp_rdme` with the Jordan–Wigner transform (`_constant_tomography.py:27-55`): the indices the element keeps
and its projected qubit operator. -/
def spRdme (num : SymProj.Num ℂ) (f : Flags) (alp : List ℕ) (skip : Bool) (ind : List ℕ) (N : ℕ) :
    Option (List ℕ × POp ℂ) :=
  (rdmeOp f ind N).bind (fun r => (SymProj.project num false Transform.jordanWigner alp skip r.2).map (fun q => (r.1, q)))

/-- `self.rdme` after `_generate_pauli_measurements` (`_constant_tomography.py:108-114`). -/
def elements (num : SymProj.Num ℂ) (p : ℕ) (f : Flags) (alp bet : List ℕ) (skip : Bool) : Option (List (List ℕ × POp ℂ)) :=
  (rdme p f alp bet).mapM (fun ind => spRdme num f alp skip ind (alp.length + bet.length))

/-- `set`, `simulate`, `construct` (inherited) with a state-vector backend, for elements already generated; as
`StateTomo.run`. -/
def measure (p : ℕ) (f : Flags) (Nq : ℕ) (col : List PStr → ℕ → ℕ) (prep : Cfg → ℂ) (els : List (List ℕ × POp ℂ)) :
    Option (List ℕ → ℂ) :=
  (measurements f.real Nq col (els.map (·.2))).bind (fun m =>
    (simulate Nq m.1 prep).bind (fun sim =>
      if els.isEmpty then none else
      (els.mapM (fun e => (valueSV Nq m.2 sim.1 e.2).map (fun v => (e.1, v)))).map (build p)))

/-- `generate_sp_qrdme` with the qubit transform (`_constant_tomography.py:58-86`): qubit strings, `local_tomography`. -/
def spQrdme (num : SymProj.Num ℂ) (f : Flags) (alp : List ℕ) (ind : List ℕ) (N : ℕ) : Option (List ℕ × POp ℂ) :=
  (qrdmeOp f ind N).bind (fun r => (SymProj.project num true Transform.qubit alp false r.2).map (fun q => (r.1, q)))

/-- `ReducedQubitTomography`: the values of the elements (`_constant_tomography.py:162-205`; generation and construction
are those of `QubitTomography`, grouping into circuits is abstracted into `meas`, as in `qelements`). -/
def qValues (num : SymProj.Num ℂ) (p : ℕ) (f : Flags) (alp bet : List ℕ) (meas : PStr → ℂ) : Option (List (List ℕ × ℂ)) :=
  if p = 1 ∨ p = 2 then
    (rdme p f alp bet).mapM (fun ind =>
      (spQrdme num f alp ind (alp.length + bet.length)).map (fun r => (r.1, value meas r.2)))
  else none

/-- `construct` (inherited), the full and the compact form. -/
def qRun (num : SymProj.Num ℂ) (p : ℕ) (f : Flags) (alp bet : List ℕ) (meas : PStr → ℂ) : Option (List ℕ → ℂ) :=
  (qValues num p f alp bet meas).map (buildQ p)

/-- The compact form. -/
def qRunCompact (num : SymProj.Num ℂ) (p : ℕ) (f : Flags) (alp bet : List ℕ) (meas : PStr → ℂ) : Option (List ℂ) :=
  (qValues num p f alp bet meas).map (fun rs => rs.map (·.2))

end
end ReducedTomo
end HQCA
