import Verif.Model.StateTomo
import Mathlib.Analysis.SpecialFunctions.Pow.Complex

/-!
# Model of `IterativeUnitarySimulator.simulate` (`hqca/processes/_simulate_iterative_unitary.py:82-131`)

The matrix of the prepared circuit, which the circuit library returns, is an argument; the matrices of the basis circuits are those of the gates of
`Spec/QCirc`.  An empty list of bases, which the circuit library would be asked to execute, is counted as an error.
-/

namespace HQCA
namespace RhoTomo
noncomputable section
open Prim Tomo Circ
open StateTomo (measurements valueSV)

open scoped Classical in
/-- The matrix of a circuit in the order of the circuit library (`data.unitary`, `_simulate_iterative_unitary.py:120`). -/
def unitary (gs : List QG) : Mat ℂ := fun l m => circOp gs (Pi.single (cfgOf m) 1) (cfgOf l)

/-- `np.conj(U.T)`. -/
def dagger (U : Mat ℂ) : Mat ℂ := fun i j => (starRingEnd ℂ) (U j i)

/-- `np.dot(U,np.dot(rho,np.conj(U.T)))` (`_simulate_iterative_unitary.py:100, 123`). -/
def evolve (Nq : ℕ) (U rho : Mat ℂ) : Mat ℂ := dot (2 ^ Nq) U (dot (2 ^ Nq) rho (dagger U))

/-- The gates of one basis (`_simulate_iterative_unitary.py:109-114`). -/
def basisFrom (k : ℕ) : PStr → List QG
  | [] => []
  | p :: s => (match p with | .X => [.h k] | .Y => [.sdg k, .h k] | _ => []) ++ basisFrom (k + 1) s

/-- `ndiag` (`_simulate_iterative_unitary.py:122-124`): `np.sqrt` of complex numbers is the principal root. -/
def ndiag (Nq : ℕ) (rho : Mat ℂ) (c : PStr) : ℕ → ℂ := fun l => (evolve Nq (unitary (basisFrom 0 c)) rho l l) ^ (1 / 2 : ℂ)

/-- `simulate` (`_simulate_iterative_unitary.py:82-131`) from the matrix `U` of the prepared circuit: `tomo.rho` and `tomo.counts`; `none` for no basis or a basis
longer than the register. -/
def simulate (Nq : ℕ) (bases : List PStr) (U rhoI : Mat ℂ) : Option (Mat ℂ × List (PStr × (ℕ → ℂ))) :=
  if bases.isEmpty || bases.any (fun c => Nq < c.length) then none else
  let rho := evolve Nq U rhoI
  some (rho, bases.zip (bases.map (ndiag Nq rho)))

/-- `_generate_circuit` with the density-matrix backend (`acse.py:268-315`): generate, simulate, construct, as in `StateTomo.runT`. -/
def runT (T : Term FStr ℂ → Option (POp ℂ)) (p : ℕ) (f : Flags) (alp bet : List ℕ) (col : List PStr → ℕ → ℕ)
    (U rhoI : Mat ℂ) : Option (List ℕ → ℂ) :=
  let Nq := alp.length + bet.length
  ((rdme p f alp bet).mapM (fun ind => rdmeQubT T f ind Nq)).bind (fun els =>
    (measurements f.real Nq col (els.map (·.2))).bind (fun m =>
      (simulate Nq m.1 U rhoI).bind (fun sim =>
        if els.isEmpty then none else
        (els.mapM (fun e => (valueSV Nq m.2 sim.2 e.2).map (fun v => (e.1, v)))).map (build p))))

end
end RhoTomo
end HQCA
