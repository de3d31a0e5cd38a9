import Verif.Model.Ansatz

/-!
# Model of the remaining methods of the ansatz class

`hqca/acse/_ansatz_S.py`: `__init__`, `truncate`, `get_lim`.  The additions are in `Model/Ansatz.lean`, `transform` in `Model/ACSEEnergy.lean`.  `__iter__`, `__len__` and `__getitem__` pass
through to the list of layers; `_store` is never filled.
-/

namespace HQCA
namespace AnsatzCut
variable {α K : Type}

/-- The Python slice `l[:d]`. -/
def slice {β : Type} (l : List β) (d : ℤ) : List β := if d < 0 then l.take (l.length - d.natAbs) else l.take d.natAbs

/-- `truncate(d)` (`_ansatz_S.py:41-50`); `none` is `'default'`. -/
def truncate (L : List (OpD α K)) : Option ℤ → List (OpD α K)
  | none => slice L L.length
  | some d => slice L d

/-- `__init__` (`_ansatz_S.py:8-37`): the depth `p`; `none` is an `AssertionError`. -/
def initP (closed : ℤ) (pDepth : Option ℤ) : Option ℤ :=
  let p := match pDepth with
    | none => if closed = 1 then 0 else if closed = 0 then 1000 else -closed
    | some q => q
  if closed ≤ 1 ∧ 0 ≤ p then some p else none

/-- `get_lim` (`_ansatz_S.py:94-100`). -/
def getLim (closed : ℤ) (L : List (OpD α K)) : ℤ :=
  if closed = 0 then -1 * L.length else if closed = 1 then 0 else max closed (-1 * L.length)

/-- `reversed(range(lim, 0))` as used to index the layers (`_ansatz_S.py:123`, `acse.py:506`): the position from the front of each index visited. -/
def visited (lim : ℤ) (n : ℕ) : List ℤ := ((List.range lim.natAbs).map fun (i : ℕ) => (n : ℤ) - 1 - i)

end AnsatzCut
end HQCA
