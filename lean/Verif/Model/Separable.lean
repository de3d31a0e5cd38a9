import Verif.Model.Collect
import Verif.Model.Operator

/-!
# Model of the Hamiltonian split into parts: `FermionicHamiltonian.build_separable_operator`, and its use by the quantum ACSE solver

`hqca/hamiltonian/fermionic.py:226-247`, `hqca/acse/_quant_A_acse.py:39-49`.  Pauli strings stand for the strings `op.s`.  `threshold` is not read by the code.
-/

namespace HQCA
namespace Separable
noncomputable section

/-- The operator of one group (`fermionic.py:240-245`): for each item of the group the first string of the Hamiltonian equal to it is copied and added;
an item that is not there adds nothing. -/
def part (H : OpD PStr ℂ) (group : List PStr) : OpD PStr ℂ :=
  group.foldl (fun new item =>
    match H.find? (fun op => op.1 = item) with
    | some op => OpD.addStr new op
    | none => new) []

/-- `build_separable_operator(ordering, threshold, specific_grouping)` (`fermionic.py:226-247`); the value left in `_qubOp_sep`. -/
def separate (H : OpD PStr ℂ) (ordering : String := "default") (grouping : List (List PStr) := []) : List (OpD PStr ℂ) :=
  if ordering ∈ ["given", "specified", "default"] then grouping.map (part H) else []

/-- `solveqACSE` with a list of Hamiltonians (`_quant_A_acse.py:43-47`), `run h` being the residual measured for one of them; `none`: the `IndexError` of `H[0]`. -/
def solve {r : ℕ} (run : OpD PStr ℂ → Fin r → Fin r → Fin r → Fin r → ℂ) (Hs : List (OpD PStr ℂ)) :
    Option (Fin r → Fin r → Fin r → Fin r → ℂ) :=
  match Hs with
  | [] => none
  | h :: t => some (t.foldl (fun rdm h i k j l => rdm i k j l + run h i k j l) (run h))

end
end Separable
end HQCA
