import Verif.Model.Hamiltonian

/-!
# Model of `QubitParticleHamiltonian` (`hqca/hamiltonian/qubit_particle.py`)

The same loops as in the molecular Hamiltonian, with qubit strings in place of fermionic ones and plus signs in the matrix.
The full orbital space (`r` spin orbitals); for a smaller active space the arrays have different shapes and the first
addition (`qubit_particle.py:151-152`) raises a `ValueError`; that case is not modelled.
-/

namespace HQCA
namespace QP
variable {K : Type} [Coef K] {r : ℕ}

/-- `K2` (`qubit_particle.py:151-160`). -/
def k2 (h1 : Fin r → Fin r → K) (V : Fin r → Fin r → Fin r → Fin r → K) (ne : K) (a b c d : Fin r) : K :=
  V a b c d * (1 / 2) + ∑ i, ∑ j, ∑ k,
    ((if (a, b, c, d) = (i, k, j, k) then h1 i j / (4 * (ne - 1)) else 0)
      + (if (a, b, c, d) = (k, i, k, j) then h1 i j / (4 * (ne - 1)) else 0)
      + (if (a, b, c, d) = (i, k, k, j) then h1 i j / (4 * (ne - 1)) else 0)
      + (if (a, b, c, d) = (k, i, j, k) then h1 i j / (4 * (ne - 1)) else 0))

/-- `ferOp` (`qubit_particle.py:236-309`): the same tests and order as in the molecular Hamiltonian, with
`QubitString`. -/
def qubitStrings (skip : K → Bool) (h1 : Fin r → Fin r → K) (V : Fin r → Fin r → Fin r → Fin r → K) : Option (OpD FStr K) :=
  ((Ham.oneTerms skip h1 ++ Ham.twoTerms skip V).mapM (fun t => Qubit.generate t.1 t.2 r)).map (fun l => l.foldl OpD.addStr [])

/-- `qubOp` (`qubit_particle.py:314-318`): transform and keep `abs(c) > int_thresh` (`above`). -/
def qubitOp (T : Term FStr K → Option (POp K)) (skip above : K → Bool) (h1 : Fin r → Fin r → K)
    (V : Fin r → Fin r → Fin r → Fin r → K) : Option (POp K) :=
  (qubitStrings skip h1 V).bind fun A => (OpD.transform T A).map fun n => (n.filter (fun t => above t.2)).foldl OpD.addStr []

end QP
end HQCA
