import Verif.Model.Transform

/-!
# Model of `hqca/transforms/_parity_qp.py`

Only `ParityQubitParticleTransform` (lines 5-36) and the string branch of `ParityQP` (lines 38-42).  The operator branch
(lines 43-47) calls the name `ParityTransform`, which the module neither defines nor imports: it raises `NameError` for
every non-empty operator.  `Operator.transform` (`_operator.py:129-146`) only uses the string branch.  The text after
line 48 is a string literal, not code.
-/

namespace HQCA
namespace Transform
variable {K : Type} [Coef K]

/-- Second coefficient: `((o=='-')+0.5)*1j` for `+`/`-` (`_parity_qp.py:18`, `:27`), `(o=='h')-0.5` for `p`/`h`
(`:22`, `:31`). -/
def qpC2 : FL → K
  | .an => (1 + 1/2) * I
  | .cr => (0 + 1/2) * I
  | .h => 1 - 1/2
  | _ => 0 - 1/2

/-- Strings `(s1, s2)` (`_parity_qp.py:15-31`). -/
def qpTab : Table := fun N q o =>
  if q = 0 then
    if o = .cr ∨ o = .an then
      ([.X] ++ List.replicate (N-q-1) .X, [.Y] ++ List.replicate (N-q-1) .X)
    else
      ([.I] ++ List.replicate (N-q-1) .I, [.Z] ++ List.replicate (N-q-1) .I)
  else
    if o = .cr ∨ o = .an then
      (List.replicate (q-1) .I ++ [.Z, .X] ++ List.replicate (N-q-1) .X,
       List.replicate (q-1) .I ++ [.I, .Y] ++ List.replicate (N-q-1) .X)
    else
      (List.replicate (q-1) .I ++ [.I, .I] ++ List.replicate (N-q-1) .I,
       List.replicate (q-1) .I ++ [.Z, .Z] ++ List.replicate (N-q-1) .I)

/-- `tem` (`_parity_qp.py:32-34`). -/
def qpTem (N q : ℕ) (o : FL) : POp K :=
  OpD.addStr (OpD.addStr [] ((qpTab N q o).1, 1/2)) ((qpTab N q o).2, qpC2 o)

/-- `ParityQubitParticleTransform` (`_parity_qp.py:5-36`): letters processed first to last, `new = tem*new`. -/
def parityQP (t : Term FStr K) : Option (POp K) := loop (qpTem t.1.length) (start t) (letters t.1)

end Transform
end HQCA
