import Verif.Model.Operator

/-!
# Model of `Operator.remove` (`hqca/operators/_operator.py:169-173`)
-/

namespace HQCA
namespace OpD
variable {α K : Type} [DecidableEq α]

/-- What `remove` is given: a key of the dictionary, or a string object as accepted by `in` (`_operator.py:64-65`). -/
inductive RemArg (α K : Type) where
  | key (s : α)
  | str (t : Term α K)

/-- `del self.op[key]` (`_operator.py:169-173`); every exception is ignored: `KeyError` for an absent key; for a string object `TypeError` since `FermiString` and `QubitString` define
`__eq__` without `__hash__` (`_fermi_string.py:93-94`, `_qubit_string.py:44-45`), and `AttributeError` for a `PauliString`, which has the hash of its key (`_pauli_string.py:51-52`) but reads `.s` of
the key in `__eq__` (`:54-56`). -/
def remove (A : OpD α K) : RemArg α K → OpD α K
  | .key s => A.eraseP (fun t => t.1 = s)
  | .str _ => A

end OpD
end HQCA
