import Verif.Model.Operator

/-!
# Model of `hqca/acse/_ansatz_S.py` (value semantics)

An ansatz is the list `self.A` of its layers.  `copy(self)` is a deep copy (`_ansatz_S.py:103`), so the ansatz
that is added to is a value here.  The parameter `closed` is an integer (`True` is 1).
-/

namespace HQCA
namespace Ansatz
variable {α K : Type} [DecidableEq α] [Coef K]

/-- `clean` (`_ansatz_S.py:84-89`): clean every layer, then drop the empty ones. -/
def clean (L : List (OpD α K)) : List (OpD α K) := (L.map OpD.clean).filter (fun A => !A.isEmpty)

/-- Number of layers, counted from the last, that may be changed (`_ansatz_S.py:114-119`): `-lim`. -/
def reach (closed : ℤ) (n : ℕ) : ℕ :=
  if closed = 0 then n else (-(max closed (-(n : ℤ)))).toNat

/-- Search `for d in reversed(range(lim,0))` for a layer with the key (`_ansatz_S.py:123-127`), as an index
from the front: the last layer first, at most `m` of them. -/
def findLayer (L : List (OpD α K)) (s : α) : ℕ → ℕ → Option ℕ
  | 0, _ => none
  | _ + 1, 0 => none
  | m + 1, i + 1 => if ((L.getD i []).hasKey s) then some i else findLayer L s m i

/-- One term of `O` (`_ansatz_S.py:120-129`); `L` are the layers of `self`, the state the layers of `new` and
`newOp`. -/
def addTerm (m : ℕ) (L : List (OpD α K)) (st : List (OpD α K) × OpD α K) (t : Term α K) :
    List (OpD α K) × OpD α K :=
  match findLayer L t.1 m L.length with
  | some i => (st.1.modify i (fun A => OpD.addStr A t), st.2)
  | none => (st.1, OpD.addStr st.2 t)

/-- The layers before the final `clean` (`_ansatz_S.py:104-131`). -/
def layers (closed : ℤ) (L : List (OpD α K)) (O : OpD α K) : List (OpD α K) :=
  if L = [] then [O]
  else if closed = 1 then L ++ [O]
  else
    let r := O.foldl (addTerm (reach closed L.length) L) (L, [])
    if r.2 = [] then r.1 else r.1 ++ [r.2]

/-- `__add__` (`_ansatz_S.py:102-137`).  The first operator is stored without cleaning. -/
def add (closed : ℤ) (L : List (OpD α K)) (O : OpD α K) : List (OpD α K) :=
  if L = [] then [O] else clean (layers closed L O)

/-- What is left in the caller's operator after `ansatz + O`: a closed ansatz stores the object itself and
`clean` then works on it (`_ansatz_S.py:110-113`, `84-86`, `136`). -/
def argAfter (closed : ℤ) (L : List (OpD α K)) (O : OpD α K) : OpD α K :=
  if L = [] then O else if closed = 1 then OpD.clean O else O

/-- `__sub__` (`_ansatz_S.py:139-145`). -/
def sub (closed : ℤ) (L : List (OpD α K)) (O : OpD α K) : List (OpD α K) :=
  add closed L ((O.map (fun t => (t.1, t.2 * (-1)))).foldl OpD.addStr [])

/-- A run of additions, as the ACSE driver makes them. -/
def run (closed : ℤ) (L : List (OpD α K)) (Os : List (OpD α K)) : List (OpD α K) :=
  Os.foldl (add closed) L

end Ansatz
end HQCA
