import Verif.Model.Ansatz

/-!
# Model of the Euler step of the ACSE (`hqca/acse/_euler_acse.py`) and of the density-matrix backend

The step is the default method of the driver (`acse.py:599-600`).  `copy` in `_euler_acse.py:1` is the shallow copy: the
copied operator has the same dictionary and the same strings, so scaling the copy scales `acse.A`.
-/

namespace HQCA
namespace Euler
variable {α K : Type} [DecidableEq α] [Coef K]

/-- `for s in testS: s.c*= -1*acse.epsilon` (`_euler_acse.py:14-15`). -/
def scaled (eps : K) (A : OpD α K) : OpD α K := A.map fun t => (t.1, t.2 * (-1 * eps))

/-- The driver: the layers of `acse.psi` and the residual operator `acse.A`. -/
structure St (α K : Type) where
  psi : List (OpD α K)
  A : OpD α K

/-- `_euler_step` (`_euler_acse.py:7-16`) up to the circuit.  `testS` shares its dictionary with `acse.A`, so `acse.A` is
scaled, and cleaned when the ansatz cleans the stored layer (`Ansatz.argAfter`). -/
def step (closed : ℤ) (eps : K) (s : St α K) : St α K :=
  { psi := Ansatz.add closed s.psi (scaled eps s.A)
    A := Ansatz.argAfter closed s.psi (scaled eps s.A) }

section Rho
variable {S : Type}

/-- The driver with the density-matrix backend (`qs.be_type=='rho'`): `acse.psi`, `acse.rho`, and the layers popped from
`psi` so far, which the code merges into `_psi_old` (`acse.py:624`; a ghost here). -/
structure Rho (α K S : Type) where
  psi : List (OpD α K)
  rho : S
  popped : List (OpD α K)

/-- The layers of the circuit generated for `psi` (`acse.py:284-288`): the last one when `psi.p` is 0 and there is one,
all of them otherwise. -/
def used (p : ℕ) (psi : List (OpD α K)) : List (OpD α K) :=
  if p = 0 then psi.drop (psi.length - 1) else psi

/-- The state simulated from `rho_i` (`acse.py:290-305`, `_simulate_iterative_unitary.py:69-92`); `U` is the action of the
circuit of one layer on density matrices. -/
def simulate (U : OpD α K → S → S) (layers : List (OpD α K)) (rho : S) : S := layers.foldl (fun r A => U A r) rho

/-- One iteration (`acse.py:599-626`, `_euler_acse.py:13-22`) for the operator `O` that the step adds: the state reported
by the step (from which the density matrices of the run are read) and the driver afterwards. -/
def rhoStep (closed : ℤ) (p : ℕ) (U : OpD α K → S → S) (s : Rho α K S) (O : OpD α K) : S × Rho α K S :=
  let psi := Ansatz.add closed s.psi O
  let out := simulate U (used p psi) s.rho
  if p = 0 then (out, ⟨psi, out, s.popped⟩)
  else if psi.length > p then
    (out, ⟨psi.tail, simulate U (psi.take 1) s.rho, s.popped ++ psi.take 1⟩)
  else (out, ⟨psi, s.rho, s.popped⟩)

/-- A run from an empty ansatz: the states reported, and the driver. -/
def rhoRun (closed : ℤ) (p : ℕ) (U : OpD α K → S → S) : List (OpD α K) → Rho α K S → List S × Rho α K S
  | [], s => ([], s)
  | O :: Os, s => ((rhoStep closed p U s O).1 :: (rhoRun closed p U Os (rhoStep closed p U s O).2).1,
      (rhoRun closed p U Os (rhoStep closed p U s O).2).2)

/-- `self.p` without the keyword `p_depth` (`_ansatz_S.py:26-32`); the assertion `closed <= 1` makes `-closed` positive. -/
def depth (closed : ℤ) : ℕ := if closed = 1 then 0 else if closed = 0 then 1000 else (-closed).toNat

end Rho
end Euler
end HQCA
