import Verif.Model.Transform

/-!
# Model of operators with strings of several kinds and of `MixedTransform` (`hqca/transforms/_mixed_transform.py`)
-/

namespace HQCA
namespace Mixed
open Transform

/-- A string of an `Operator`: a `FermiString`, a `QubitString` or a `PauliString` (`hqca/operators/quantum_strings`). -/
inductive MStr | fermi (s : FStr) | qubit (s : FStr) | pauli (s : PStr)
deriving DecidableEq

/-- The attribute `s` under which an `Operator` stores a string: for fermionic and qubit strings letters of the same alphabet
(`_fermi_string.py:39-46`, `_qubit_string.py:18-23`, `_pauli_string.py:21`).  The empty register is left aside. -/
def key : MStr → FStr ⊕ PStr
  | .fermi s => .inl s
  | .qubit s => .inl s
  | .pauli s => .inr s

/-- `Operator.__add__` with a string (`_operator.py:71-75`): the strings are compared by `s`; on a match the `__add__` of the string that is present adds the
coefficients (`_fermi_string.py:82-88`, `_qubit_string.py:36-42`), whatever the kind of the other. -/
def addStr {K : Type} [Add K] (A : List (MStr × K)) (t : MStr × K) : List (MStr × K) :=
  if A.any (fun u => key u.1 = key t.1) then A.map (fun u => if key u.1 = key t.1 then (u.1, u.2 + t.2) else u) else A ++ [t]

/-- An operator made by adding strings one after the other. -/
def build {K : Type} [Add K] (l : List (MStr × K)) : List (MStr × K) := l.foldl addStr []

/-- `MixedTransform` (`_mixed_transform.py:13-23`): the transform for the kind of the string.  `OrderedString` does not exist in the package. -/
def mixed {K : Type} (fermiT qubitT : Term FStr K → Option (POp K)) (pauliT : Term PStr K → Option (POp K)) : MStr × K → Option (POp K)
  | (.fermi s, c) => fermiT (s, c)
  | (.qubit s, c) => qubitT (s, c)
  | (.pauli s, c) => pauliT (s, c)

/-- `A.transform(get_mixed_transform(fermi_transform=JordanWigner, qubit_transform=Qubit, pauli_transform=lambda x: Operator()+x))`
(`_operator.py:129-146`). -/
def transform {K : Type} [Coef K] (A : List (MStr × K)) : Option (POp K) :=
  OpD.transform (mixed jordanWigner Transform.qubit fun t => some [t]) A

end Mixed
end HQCA
