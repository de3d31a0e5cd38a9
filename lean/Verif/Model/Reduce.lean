import Verif.Model.Pauli

/-! # Model of the Pauli relations in `hqca/tomography/_reduce_circuit.py` -/

namespace HQCA
namespace Reduce

/-- `qwc` (`_reduce_circuit.py:10-18`).  The loop runs over the positions of `A`; `none` is the
`IndexError` raised when `B` is shorter. -/
def qwc : PStr → PStr → Option Bool
  | [], _ => some true
  | _ :: _, [] => none
  | a :: as, b :: bs =>
    if a = .I ∨ b = .I then qwc as bs else if a = b then qwc as bs else some false

/-- The counter `k` of `commute` (`_reduce_circuit.py:21-28`). -/
def anticount : PStr → PStr → Option ℕ
  | [], _ => some 0
  | _ :: _, [] => none
  | a :: as, b :: bs =>
    if a = .I ∨ b = .I then anticount as bs
    else if a = b then anticount as bs else (anticount as bs).map (· + 1)

/-- `commute` (`_reduce_circuit.py:20-29`): `(k+1)%2`, used as a truth value. -/
def commute (A B : PStr) : Option Bool := (anticount A B).map (fun k => (k + 1) % 2 = 1)

end Reduce
end HQCA
