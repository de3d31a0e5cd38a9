import Verif.Model.Fermi
import Verif.Model.Pauli

/-!
# Model of `hqca/transforms/_inverse_jordan_wigner.py`
-/

namespace HQCA.InverseJW
variable {K : Type} [Coef K]

/-- `'i'*q + x + (Nq-q-1)*'i'` (`_inverse_jordan_wigner.py:23-24,34-35,43-44`). -/
def one (N q : ℕ) (x : FL) : FStr := List.replicate q .i ++ x :: List.replicate (N - q - 1) .i

/-- Two strings added to a new operator (`_inverse_jordan_wigner.py:29-31,37-39,46-48`). -/
def two (N q : ℕ) (x y : FL) (c d : K) : OpD FStr K :=
  (OpD.addStr [] (one N q x, c)).addStr (one N q y, d)

/-- The loop `for qj in range(q)` with `r = Nq-qj-1-1` (`_inverse_jordan_wigner.py:32-40`). -/
def zLoop (N q : ℕ) (T : OpD FStr K) : Option (OpD FStr K) :=
  (List.range q).foldlM (fun T qj => OpD.mul Fermi.mul (two N (N - qj - 1 - 1) .h .p 1 (-1)) T) T

/-- `tem1` for one letter (`_inverse_jordan_wigner.py:21-48`). -/
def tem (N q : ℕ) : PL → Option (OpD FStr K)
  | .X => zLoop N q (two N q .cr .an 1 1)
  | .Y => zLoop N q (two N q .cr .an I (-I))
  | .Z => some (two N q .h .p 1 (-1))
  | .I => some []

/-- One iteration of the main loop (`_inverse_jordan_wigner.py:15-49`). -/
def step (N : ℕ) (new : OpD FStr K) (x : PL × ℕ) : Option (OpD FStr K) :=
  if x.1 = .I then some new else (tem N x.2 x.1).bind (fun T => OpD.mul Fermi.mul T new)

/-- `InverseJordanWignerTransform` (`_inverse_jordan_wigner.py:5-50`): letters from the last qubit to the
first. -/
def inverseJW (P : Term PStr K) : Option (OpD FStr K) :=
  P.1.zipIdx.reverse.foldlM (step P.1.length) [(List.replicate P.1.length .i, P.2)]

end HQCA.InverseJW
