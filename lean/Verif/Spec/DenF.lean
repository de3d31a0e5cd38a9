import Verif.Spec.Den
import Verif.Model.Fermi

/-!
# Denotation of fermionic and qubit strings (specification)
-/

namespace HQCA
variable {K : Type} [Coef K]

/-- The operator of a fermionic letter on orbital `k`. -/
def fop (k : ℕ) : FL → Oper K
  | .i => 1
  | .cr => cre k
  | .an => ann k
  | .p => cre k * ann k
  | .h => ann k * cre k

/-- A fermionic string: product of the letters in increasing orbital order. -/
def denF (k : ℕ) : FStr → Oper K
  | [] => 1
  | x :: xs => fop k x * denF (k+1) xs

/-- A word of fermionic letters, product in the given order. -/
def wordF (l : List (ℕ × FL)) : Oper K := (l.map (fun a => fop a.1 a.2)).prod

/-- The matrix of a qubit letter. -/
def qmat : FL → M2 K
  | .i => 1
  | .cr => mRaise
  | .an => mLow
  | .p => mOcc
  | .h => mEmp

/-- A qubit string. -/
def denQ (k : ℕ) : FStr → Oper K
  | [] => 1
  | x :: xs => site k (qmat x) * denQ (k+1) xs

/-- A word of qubit letters, product in the given order. -/
def wordQ (l : List (ℕ × FL)) : Oper K := (l.map (fun a => site a.1 (qmat a.2))).prod

end HQCA
