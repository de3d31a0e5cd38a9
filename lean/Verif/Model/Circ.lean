import Verif.Model.Pauli
import Verif.Model.Fermi
import Verif.Spec.Site

/-!
# Model of `hqca/tools/_gates.py` (`Circ`) and of the matrix tools of `hqca/tools/_operator_tools.py`

A numpy matrix is a function of row and column index; its size is a separate argument.  A `Circ` is its
matrix `m`.  Angles enter through the values of cosine and sine.
-/

namespace HQCA
variable {K : Type} [Coef K]

/-- Entries of a numpy matrix. -/
abbrev Mat (K : Type) := ℕ → ℕ → K

namespace Circ

/-- `np.identity(N)`. -/
def ident : Mat K := fun i j => if i = j then 1 else 0

/-- `np.kron(A, g)` for a two-by-two `g` given by its entries (row bit, column bit). -/
def kron2 (A : Mat K) (g : M2 K) : Mat K :=
  fun i j => A (i / 2) (j / 2) * g (decide (i % 2 = 1)) (decide (j % 2 = 1))

/-- `np.dot(A, B)` for matrices of size `N`. -/
def dot (N : ℕ) (A B : Mat K) : Mat K := fun i j => ((List.range N).map (fun k => A i k * B k j)).sum

/-- `kron(temp, identity(2))` repeated `k` times (`_gates.py:104-105`, `107-108`). -/
def padI (k : ℕ) (A : Mat K) : Mat K := (List.range k).foldl (fun t _ => kron2 t (1 : M2 K)) A

/-- `_apply_sqg` (`_gates.py:102-110`). -/
def applySqg (n : ℕ) (g : M2 K) (i : ℕ) (m : Mat K) : Mat K :=
  dot (2 ^ n) (padI (n - (i + 1)) (kron2 (padI i ident) g)) m

/-- Two-by-two array. -/
def arr (a b c d : K) : M2 K := fun r s => if r then (if s then d else c) else (if s then b else a)

/-- `x`, `y`, `z` (`_gates.py:265-275`). -/
def gx : M2 K := arr 0 1 1 0
def gy : M2 K := arr 0 (-I) I 0
def gz : M2 K := arr 1 0 0 (-1)
/-- `particle`, `hole`, `create`, `annihilate` (`_gates.py:283-297`). -/
def gpart : M2 K := arr 0 0 0 1
def ghole : M2 K := arr 1 0 0 0
def gcre : M2 K := arr 0 0 1 0
def gann : M2 K := arr 0 1 0 0
/-- `h` (`_gates.py:253-256`), `a = 1/np.sqrt(2)`. -/
def gh (a : K) : M2 K := arr a a a (-a)
/-- `sx` (`_gates.py:258-263`). -/
def gsx : M2 K := arr (1 / 2 * (1 + I)) (1 / 2 * (1 - I)) (1 / 2 * (1 - I)) (1 / 2 * (1 + I))
/-- `ph` (`_gates.py:277-281`) with `c = cos θ`, `s = sin θ`. -/
def gph (c s : K) : M2 K := arr 1 0 0 (c + I * s)
/-- `Rx`, `Rz`, `Ry` (`_gates.py:375-391`) with `c = cos(θ/2)`, `s = sin(θ/2)`. -/
def gRx (c s : K) : M2 K := arr c (-I * s) (-I * s) c
def gRz (c s : K) : M2 K := arr (c - I * s) 0 0 (c + I * s)
def gRy (c s : K) : M2 K := arr c (-s) s c

/-- `self.b[k][i]=='1'`: character `i` of `'{:0nb}'.format(k)` (`_gates.py:20`). -/
def bchar (n k i : ℕ) : Bool := decide (k / 2 ^ (n - 1 - i) % 2 = 1)

/-- `b[k][0:j]==b[l][0:j]` and `b[k][j+1:]==b[l][j+1:]` (`_gates.py:334-335`). -/
def sameBut (n j k l : ℕ) : Bool :=
  (List.range n).all (fun i => i = j || bchar n k i == bchar n l i)

/-- The matrix `hold` of `Cx`, `Toff` and `Toff4` (`_gates.py:329-349`, `225-246`, `196-217`): rows where all
controls are `1` get the flip of qubit `j`. -/
def holdM (n : ℕ) (ctl : List ℕ) (j : ℕ) : Mat K := fun k l =>
  if ctl.all (fun i => bchar n k i) && sameBut n j k l then
    (if bchar n k j = bchar n l j then 0 else 1)
  else ident k l

/-- `Cx` (`_gates.py:329-349`), `Toff` (`225-246`), `Toff4` (`196-217`) on the matrix. -/
def applyCtl (n : ℕ) (ctl : List ℕ) (j : ℕ) (m : Mat K) : Mat K := dot (2 ^ n) (holdM n ctl j) m

end Circ

namespace MatTools

/-- The table `keys` (`_operator_tools.py:19-27`). -/
def keyLetter : Bool → Bool → FL
  | false, false => .h
  | false, true => .an
  | true, false => .cr
  | true, true => .p

/-- The string of row `i` and column `j` (`_operator_tools.py:13`, `18`, `28-29`). -/
def keyString (n i j : ℕ) : FStr :=
  (List.range n).map (fun l => keyLetter (Circ.bchar n i l) (Circ.bchar n j l))

/-- `np.nonzero` in row-major order, then `abs(...)>1e-8` (`_operator_tools.py:15-17`); `big c` stands for
`abs(c) > 1e-8`. -/
def bigEntries (big : K → Bool) (n : ℕ) (M : Mat K) : List (ℕ × ℕ) :=
  ((List.range (2 ^ n)).flatMap (fun i => (List.range (2 ^ n)).map (fun j => (i, j)))).filter
    (fun p => !isZero (M p.1 p.2) && big (M p.1 p.2))

/-- `matrix_to_qubit` (`_operator_tools.py:10-35`) for a matrix of size `2^n`. -/
def matrixToQubit (big : K → Bool) (n : ℕ) (M : Mat K) : OpD FStr K :=
  (bigEntries big n M).foldl (fun op p => OpD.addStr op (keyString n p.1 p.2, M p.1 p.2)) []

/-- The gate of one letter (`_operator_tools.py:71-76`, `84-90`). -/
def pauliGate (n : ℕ) (m : Mat K) (x : PL × ℕ) : Mat K :=
  match x.1 with
  | .X => Circ.applySqg n Circ.gx x.2 m
  | .Y => Circ.applySqg n Circ.gy x.2 m
  | .Z => Circ.applySqg n Circ.gz x.2 m
  | .I => m

/-- The circuit of one Pauli string (`_operator_tools.py:70-77`, `83-90`). -/
def pauliCirc (n : ℕ) (s : PStr) : Mat K := s.zipIdx.foldl (pauliGate n) Circ.ident

/-- `operator_to_matrix` of an operator (`_operator_tools.py:79-93`); `none`: `next(iter(op))` on an empty
operator.  Only operators of Pauli strings of one length are modelled (numpy raises otherwise). -/
def operatorToMatrix (A : POp K) : Option (ℕ × Mat K) :=
  match A with
  | [] => none
  | t :: _ =>
    some (t.1.length, A.foldl (fun m o => fun i j => m i j + pauliCirc t.1.length o.1 i j * o.2) (fun _ _ => 0))

end MatTools

end HQCA
