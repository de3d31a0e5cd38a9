import Verif.Coef

/-!
# Model of `hqca/operators/_operator.py` (value semantics)

An `Operator` wraps an `OrderedDict` from the string key `s` to a string object `(s, c)`
(`_operator.py:24`).  Here it is the list of its entries in insertion order.  Object identity
(aliasing between operators) is modelled separately in `Verif.Model.Heap`; symbolic (sympy)
coefficients are not modelled.
-/

namespace HQCA

/-- A term: string key and coefficient (`QuantumString.s`, `.c`;
`operators/quantum_strings/_quantum_string.py:5-8`). -/
abbrev Term (α K : Type) := α × K

/-- An operator: entries of the `OrderedDict` in insertion order (`_operator.py:21-31`). -/
abbrev OpD (α K : Type) := List (Term α K)

namespace OpD
variable {α K : Type} [DecidableEq α]

/-- `__contains__` (`_operator.py:64-65`): key membership. -/
def hasKey (A : OpD α K) (s : α) : Bool := A.any (fun t => t.1 = s)

/-- Adding one string (`_operator.py:71-75`): `self.op[A.s] += A` on an existing key (position kept,
coefficients added by the string's own `__add__`), otherwise a new last entry.  No cleaning. -/
def addStr [Add K] (A : OpD α K) (t : Term α K) : OpD α K :=
  if A.hasKey t.1 then A.map (fun u => if u.1 = t.1 then (u.1, u.2 + t.2) else u) else A ++ [t]

/-- `clean` (`_operator.py:157-167`), numeric branch: delete entries with `abs(c) <= 1e-12`. -/
def clean [Coef K] (A : OpD α K) : OpD α K := A.filter (fun t => !small t.2)

/-- Adding an operator (`_operator.py:76-82`): add its strings one by one, then clean. -/
def add [Coef K] (A B : OpD α K) : OpD α K := clean (B.foldl addStr A)

/-- The pairs visited by the double loop of `__mul__` (`_operator.py:110-112`):
`for a in A: for s in self: ... s*a`. -/
def mulPairs (A B : OpD α K) : List (Term α K × Term α K) :=
  B.flatMap (fun a => A.map (fun s => (s, a)))

/-- `__mul__` with an operator (`_operator.py:109-121`).  `sm` is the product of two strings; `none` is an
exception raised by it, which aborts the whole product. -/
def mul [Coef K] (sm : Term α K → Term α K → Option (Term α K)) (A B : OpD α K) :
    Option (OpD α K) :=
  ((mulPairs A B).mapM (fun p => sm p.1 p.2)).map (fun l => clean (l.foldl addStr []))

/-- `__mul__` with a single string (`_operator.py:103-108`): `new += i*A` for the strings `i` of `self`. -/
def mulStr [Coef K] (sm : Term α K → Term α K → Option (Term α K)) (A : OpD α K) (t : Term α K) :
    Option (OpD α K) :=
  (A.mapM (fun s => sm s t)).map (fun l => clean (l.foldl addStr []))

/-- `transform` (`_operator.py:129-146`): apply `T` to every string and add the resulting operators. -/
def transform [Coef K] {β : Type} [DecidableEq β] (T : Term α K → Option (OpD β K)) (A : OpD α K) :
    Option (OpD β K) :=
  (A.mapM T).map (fun rs => rs.foldl add [])

/-- `Operator(list)` (`_operator.py:29-31`): later duplicates overwrite earlier ones in place. -/
def ofList (l : List (Term α K)) : OpD α K :=
  l.foldl (fun A t => if A.hasKey t.1 then A.map (fun u => if u.1 = t.1 then t else u) else A ++ [t]) []

/-- `null` (`_operator.py:123-127`); `tiny c` stands for `abs(c) < 1e-10`. -/
def null (tiny : K → Bool) (A : OpD α K) : Bool := A.all (fun t => tiny t.2)

end OpD

end HQCA
