import Verif.Model.Instructions

/-!
# Model of the estimate of two-qubit gates (`hqca/tools/_resources.py`)
-/

namespace HQCA
namespace Resources

/-- `l` (`_resources.py:12-15`, `23-27`): the letters that are not `'I'`. -/
def weight (s : PStr) : ℕ := s.countP (fun p => decide (p ≠ .I))

/-- `upper` for an operator (`_resources.py:10-18`). -/
def countOp {K : Type} (A : OpD PStr K) : ℤ :=
  A.foldl (fun u t => if weight t.1 = 0 then u else u + 2 * ((weight t.1 : ℤ) - 1)) 0

/-- An item of another iterable: an operator, or anything else (a string), which is skipped (`_resources.py:21`). -/
inductive Item (K : Type) where
  | op (A : OpD PStr K)
  | other

/-- `upper` for another iterable (`_resources.py:20-28`); there is no test for `l==0`. -/
def countList {K : Type} (L : List (Item K)) : ℤ :=
  L.foldl (fun u i => match i with
    | .op A => A.foldl (fun u t => u + 2 * ((weight t.1 : ℤ) - 1)) u
    | .other => u) 0

/-- What `Ansatz.transform` returns (`acse/_ansatz_S.py:52-53`), as an argument: a list of strings, no operator among them. -/
def transformed {K : Type} (layers : List (OpD PStr K)) : List (Item K) := layers.flatten.map fun _ => .other

end Resources
end HQCA
