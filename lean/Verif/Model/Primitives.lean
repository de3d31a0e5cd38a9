import Verif.Spec.QCirc

/-!
# Model of the circuit primitives (`hqca/core/primitives/_pauli_strings.py`)

A function that appends gates to `Q.qc` is modelled by the list of gates it appends.  `QG` is the vocabulary of
the external circuit library.  Letters other than `I`, `X`, `Y`, `Z` are not modelled.
-/

namespace HQCA
namespace Prim
noncomputable section
open Real

/-- `pauliOp` (`_pauli_strings.py:26-54`). -/
def pauliOp (n : ℕ) (p : PL) (inv : Bool) : List QG :=
  match p with
  | .Z => []
  | .X => [.h n]
  | .I => []
  | .Y => if inv then [.h n, .s n] else [.sdg n, .h n]

/-- `ind` and `terms` (`_pauli_strings.py:97-104`): positions and letters different from `I`. -/
def nonI (k : ℕ) : PStr → List (ℕ × PL)
  | [] => []
  | p :: s => if p = .I then nonI (k + 1) s else (k, p) :: nonI (k + 1) s

/-- The chain of `cx` gates (`_pauli_strings.py:113-114`). -/
def ladder (ind : List ℕ) : List QG :=
  (List.range (ind.length - 1)).map (fun n => .cx (ind.getD n 0) (ind.getD (n + 1) 0))

/-- The branch for more than one letter (`_pauli_strings.py:94-122`). -/
def gadgetMany (v : ℝ) (s : PStr) : List QG :=
  let L := nonI 0 s
  let ind := L.map (·.1)
  if L.length = 0 then []
  else
    L.flatMap (fun x => pauliOp x.1 x.2 false) ++ ladder ind ++ [.rz (v * (-2)) (ind.getLastD 0)] ++
      (ladder ind).reverse ++ L.flatMap (fun x => pauliOp x.1 x.2 true)

/-- `pauli_gadget` (`_pauli_strings.py:76-122`). -/
def gadget (v : ℝ) (s : PStr) : List QG :=
  match s with
  | [.I] => []
  | [.X] => [.rx (v * (-2)) 0]
  | [.Y] => [.ry (v * (-2)) 0]
  | [.Z] => [.rz (v * (-2)) 0]
  | s => gadgetMany v s

/-- The gates of one letter in `apply_pauli_string` (`_pauli_strings.py:61-69`). -/
def applyLetter (q : ℕ) : PL → List QG
  | .X => [.x q]
  | .Y => [.rz (π / 2) q, .x q, .rz (π / 2) q]
  | .Z => [.rz π q]
  | .I => []

/-- The loop of `apply_pauli_string`. -/
def applyFrom (k : ℕ) : PStr → List QG
  | [] => []
  | p :: s => applyLetter k p ++ applyFrom (k + 1) s

/-- `apply_pauli_string` (`_pauli_strings.py:56-69`); `none` is the `sys.exit`. -/
def applyPauli (c : ℂ) (s : PStr) : Option (List QG) :=
  if |‖c‖ - 1| < 1e-4 then some (applyFrom 0 s) else none

/-- The gates appended before a measurement in the basis `b` (`hqca/tomography/_tomography.py:192-194`,
`_qubit_tomography.py:143-145`). -/
def measFrom (k : ℕ) : PStr → List QG
  | [] => []
  | p :: s => pauliOp k p false ++ measFrom (k + 1) s

end
end Prim
end HQCA
