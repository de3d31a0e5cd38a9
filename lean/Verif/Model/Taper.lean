import Verif.Model.Pauli

/-!
# Model of `hqca/transforms/_functions.py` (tapering)
-/

namespace HQCA.Taper
variable {K : Type} [Coef K]

/-- The inner loop of `trim_operator` on one string (`_functions.py:25-32`): a list of
`(qubit, letter, eigenvalue)`.  `none`: `s[q]` out of range. -/
def trimStr (null : K) : List (ℕ × PL × K) → Term PStr K → Option (Term PStr K)
  | [], t => some t
  | (q, p, e) :: l, t =>
    match t.1[q]? with
    | none => none
    | some r =>
      trimStr null l (t.1.eraseIdx q, if r = p then t.2 * e else if r = .I then t.2 else t.2 * null)

/-- `qubits == sorted(qubits)[::-1]` (`_functions.py:19`). -/
def descending (l : List (ℕ × PL × K)) : Bool :=
  decide ((l.map (·.1)).Pairwise (· ≥ ·))

/-- `trim_operator` (`_functions.py:12-36`); `none` is `sys.exit` or an exception. -/
def trim (null : K) (l : List (ℕ × PL × K)) (A : POp K) : Option (POp K) :=
  if descending l then (A.mapM (trimStr null l)).map (fun r => r.foldl OpD.addStr []) else none

/-- `change_basis` (`_functions.py:38-44`): `(U*op)*Ut`. -/
def changeBasis (U Ut A : POp K) : Option (POp K) :=
  (OpD.mul Pauli.mul U A).bind (fun R => OpD.mul Pauli.mul R Ut)

/-- `'I'*n` with `'X'` put at `ind` (`_functions.py:85-87`); slicing past the end leaves the string
one longer, which is what Python does. -/
def xString (n ind : ℕ) : PStr :=
  (List.replicate n .I).take ind ++ .X :: (List.replicate n .I).drop (ind + 1)

/-- The unitary `(tau + X_q)/sqrt 2` of `get_transform_from_symmetries` (`_functions.py:84-91`), with the
coefficient `r = 1/np.sqrt(2)`. -/
def symU (r : K) (tau : PStr) (q : ℕ) : POp K :=
  OpD.ofList [(tau, r), (xString tau.length q, r)]

/-- `modify` after the fermionic transform (`_functions.py:55-67`) for one symmetry, as set up by
`get_transform_from_symmetries` (`_functions.py:92-99`). -/
def modifyOne (r null : K) (tau : PStr) (q : ℕ) (e : K) (T : POp K) : Option (POp K) :=
  (changeBasis (symU r tau q) (symU r tau q) T).bind (trim null [(q, .X, e)])

/-- The nested transforms built by the loop of `get_transform_from_symmetries` (`_functions.py:82-99`):
each step tapers the output of the previous one. -/
def modifyAll (r null : K) : List (PStr × ℕ × K) → POp K → Option (POp K)
  | [], T => some T
  | (tau, q, e) :: l, T => (modifyOne r null tau q e T).bind (modifyAll r null l)

end HQCA.Taper
