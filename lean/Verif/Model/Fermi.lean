import Verif.Model.Operator

/-!
# Model of `hqca/operators/quantum_strings/_fermi_string.py` and `_qubit_string.py`

`ops` and `indices` are always given with equal length by the callers; they are modelled as one list of
pairs.  The mutation of the caller's index list (`inds.pop`, `_fermi_string.py:251`) is modelled in
`Verif.Model.Tomography` (`callerInds`).
-/

namespace HQCA

/-- Letters of a fermionic or qubit string: identity `i`, creation `+`, annihilation `-`, particle `p`,
hole `h`. -/
inductive FL | i | cr | an | p | h
deriving DecidableEq, Repr

/-- A string key: one letter per orbital. -/
abbrev FStr := List FL

namespace Fermi

/-- `sqop[i] in ['p','h']` (`_fermi_string.py:228-231`): no sign when moving such a letter. -/
def noSign : FL → Bool
  | .p => true
  | .h => true
  | _ => false

/-- One pass of the sorting loop (`_fermi_string.py:224-237`): find the first adjacent pair out of order,
swap it, report whether the sign flips; `none` if the pass finds nothing (`sort` stays `True`). -/
def sortStep (fermi : Bool) : List (ℕ × FL) → Option (Bool × List (ℕ × FL))
  | a :: b :: l =>
    if a.1 > b.1 then some (fermi && !noSign a.2 && !noSign b.2, b :: a :: l)
    else (sortStep fermi (b :: l)).map (fun r => (r.1, a :: r.2))
  | _ => none

/-- The `while not sort` loop (`_fermi_string.py:222-237`), with fuel. -/
def sortLoop {K : Type} [Neg K] (fermi : Bool) : ℕ → K → List (ℕ × FL) → K × List (ℕ × FL)
  | 0, c, l => (c, l)
  | n + 1, c, l =>
    match sortStep fermi l with
    | none => (c, l)
    | some (f, l') => sortLoop fermi n (if f then -c else c) l'

/-- The tables `zeros` and `simple` (`_fermi_string.py:242-245`).  `some none`: in `zeros`;
`some (some x)`: in `simple`; `none`: `KeyError`. -/
def contr : FL → FL → Option (Option FL)
  | .h, .cr => some none
  | .an, .h => some none
  | .p, .an => some none
  | .cr, .p => some none
  | .cr, .cr => some none
  | .an, .an => some none
  | .p, .h => some none
  | .h, .p => some none
  | .h, .an => some (some .an)
  | .cr, .h => some (some .cr)
  | .p, .cr => some (some .cr)
  | .an, .p => some (some .an)
  | .p, .p => some (some .p)
  | .h, .h => some (some .h)
  | .cr, .an => some (some .p)
  | .an, .cr => some (some .h)
  | _, _ => none

/-- Outcome of one pass of the contraction loop. -/
inductive CStep
  | done
  | zero
  | keyError
  | next (l : List (ℕ × FL))
deriving DecidableEq

/-- One pass of the contraction loop (`_fermi_string.py:247-260`): the first adjacent pair with equal
index is contracted. -/
def contractStep : List (ℕ × FL) → CStep
  | a :: b :: l =>
    if a.1 = b.1 then
      match contr a.2 b.2 with
      | some none => .zero
      | some (some x) => .next ((a.1, x) :: l)
      | none => .keyError
    else
      match contractStep (b :: l) with
      | .next l' => .next (a :: l')
      | r => r
  | _ => .done

/-- The `while not done` loop (`_fermi_string.py:246-260`), with fuel.  `none`: `KeyError`;
`some none`: the coefficient was set to zero. -/
def contractLoop : ℕ → List (ℕ × FL) → Option (Option (List (ℕ × FL)))
  | 0, l => some (some l)
  | n + 1, l =>
    match contractStep l with
    | .done => some (some l)
    | .zero => some none
    | .keyError => none
    | .next l' => contractLoop n l'

/-- Rest of the final string after orbital `a` (`_fermi_string.py:266-269`). -/
def buildRest (N : ℕ) : (ℕ × FL) → List (ℕ × FL) → FStr
  | a, [] => a.2 :: List.replicate (N - a.1 - 1) .i
  | a, b :: l => a.2 :: (List.replicate (b.1 - a.1 - 1) .i ++ buildRest N b l)

/-- The final string (`_fermi_string.py:264-269`); `'i'*k` is empty for negative `k`, as is truncated
subtraction.  `none`: `inds[0]` on an empty list. -/
def build (N : ℕ) : List (ℕ × FL) → Option FStr
  | [] => none
  | a :: l => some (List.replicate a.1 .i ++ buildRest N a l)

/-- Everything after the empty-list test (`_fermi_string.py:222-271`, `_qubit_string.py:73-115`). -/
def generateCore {K : Type} [Coef K] (fermi : Bool) (c : K) (l : List (ℕ × FL)) (N : ℕ) :
    Option (Term FStr K) :=
  let r := sortLoop fermi (l.length * l.length) c l
  let contracted : Option (Option (List (ℕ × FL))) :=
    if (r.2.map (·.1)).dedup.length = r.2.length then some (some r.2)
    else contractLoop r.2.length r.2
  match contracted with
  | none => none
  | some none => some (List.replicate N .i, 0)
  | some (some l2) =>
    if isZero r.1 then some (List.replicate N .i, r.1)
    else (build N l2).map (fun s => (s, r.1))

/-- `FermiString._generate_from_sq` (`_fermi_string.py:216-271`), `fermi = antisymmetric`. -/
def generate {K : Type} [Coef K] (fermi : Bool) (c : K) (l : List (ℕ × FL)) (N : ℕ) :
    Option (Term FStr K) :=
  if l.isEmpty then some (List.replicate N .i, c) else generateCore fermi c l N

/-- The non-identity letters of a string with their positions (`_fermi_string.py:193-197`, `99-103`). -/
def pairs (s : FStr) : List (ℕ × FL) :=
  (s.zipIdx.filter (fun x => x.1 ≠ .i)).map (fun x => (x.2, x.1))

/-- `FermiString.__mul__` by a `FermiString` (`_fermi_string.py:188-205`). -/
def mul {K : Type} [Coef K] (A B : Term FStr K) : Option (Term FStr K) :=
  generate true (A.2 * B.2) (pairs A.1 ++ pairs B.1) (max A.1.length B.1.length)

/-- `conj_transpose` on one letter (`_fermi_string.py:9-18`). -/
def conjLetter : FL → FL
  | .cr => .an
  | .an => .cr
  | x => x

/-- `FermiString.H` (`_fermi_string.py:50-59`). -/
def adj {K : Type} [Coef K] (A : Term FStr K) : Option (Term FStr K) :=
  generate true (conj A.2) ((pairs A.1).reverse.map (fun x => (x.1, conjLetter x.2))) A.1.length

end Fermi

namespace Qubit

/-- `QubitString._generate_from_sq` (`_qubit_string.py:71-115`): as for fermions without signs and
without the empty-list shortcut. -/
def generate {K : Type} [Coef K] (c : K) (l : List (ℕ × FL)) (N : ℕ) : Option (Term FStr K) :=
  Fermi.generateCore false c l N

/-- `QubitString.__mul__` (`_qubit_string.py:56-69`). -/
def mul {K : Type} [Coef K] (A B : Term FStr K) : Option (Term FStr K) :=
  generate (A.2 * B.2) (Fermi.pairs A.1 ++ Fermi.pairs B.1) (max A.1.length B.1.length)

end Qubit

end HQCA
