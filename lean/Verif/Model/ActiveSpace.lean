import Verif.Model.Hamiltonian
import Verif.Model.HFStorage

/-!
# Model of the active space of a molecular Hamiltonian

`MolecularHamiltonian` with `active_space=(Ne,No)` (`hqca/hamiltonian/molecular.py:55-66, 154-205, 245-257`).  `u` and `V` are `ints_1e` and `ints_2e`
over all `2*No_tot` spin orbitals.
-/

namespace HQCA
namespace ActSpace
open Ham

variable {K : Type} [Coef K]

/-- `No_core` (`molecular.py:62, 65`): the frozen electrons, halved with floor division. -/
def noCore (neTot neAs : ℕ) : ℕ := (neTot - neAs) / 2

/-- `alpha_mo['inactive']+beta_mo['inactive']` (`molecular.py:158, 196, 247, 253`). -/
def core (nc tot : ℕ) : List ℕ := List.range nc ++ (List.range nc).map (· + tot)

/-- `alpha_mo['active']+beta_mo['active']` (`molecular.py:157, 248, 254`). -/
def active (nc tot no : ℕ) : List ℕ := (HFStore.activeLabels nc tot no).1 ++ (HFStore.activeLabels nc tot no).2

/-- `active[i]` (`molecular.py:161`). -/
def act (nc tot no : ℕ) (i : Fin (2 * no)) : ℕ := (active nc tot no).getD i.val 0

/-- `K2` (`molecular.py:155-180`). -/
def K2 (neTot neAs tot no : ℕ) (u : ℕ → ℕ → K) (V : ℕ → ℕ → ℕ → ℕ → K) : Fin (2 * no) → Fin (2 * no) → Fin (2 * no) → Fin (2 * no) → K :=
  let a := act (noCore neTot neAs) tot no
  k2 (core1e u V a (core (noCore neTot neAs) tot)) (fun i j k l => V (a i) (a j) (a k) (a l)) (neAs : K)

/-- `_en_c` (`molecular.py:194-203`). -/
def enC (neTot neAs tot : ℕ) (u : ℕ → ℕ → K) (V : ℕ → ℕ → ℕ → ℕ → K) (nuc : K) : K := coreEnergy u V (core (noCore neTot neAs) tot) nuc

end ActSpace
end HQCA
