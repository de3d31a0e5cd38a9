import Verif.Model.Primitives
import Mathlib.Analysis.SpecialFunctions.Trigonometric.Inverse

/-!
# Model of `hqca/instructions/_instruct_exact_unitary.py` (one-qubit exponentials)

Operators on one qubit are lists of letters with complex coefficients.  Exact arithmetic; the solution for the three
Euler angles (`_instruct_exact_unitary.py:200-234`) is in `Model/ExactInst.lean`; here the test it has to pass and the gates emitted afterwards.
-/

namespace HQCA
namespace Exact
noncomputable section
open Real

/-- The value of a term (`_instruct_exact_unitary.py:125-133`, `:176-179`): the real part if the imaginary part is below `1e-12`, else
the imaginary part. -/
def termVal (c : ℂ) : ℝ := if |c.im| < 1e-12 then c.re else c.im

/-- The dictionary of values per letter. -/
def vals (op : List (PL × ℂ)) (p : PL) : ℝ := ((op.filter (fun t => t.1 = p)).map (fun t => termVal t.2)).sum

/-- Length of the vector part (`:142-143`, `:181-186`). -/
def len (v : PL → ℝ) : ℝ := √(v .X * v .X + v .Y * v .Y + v .Z * v .Z)

/-- `Operator` with the three terms `k` (`:167-170`). -/
def ofVec (x y z : ℝ) : List (PL × ℂ) := [(.X, x), (.Y, y), (.Z, z)]

/-- `_combine_xyz_abc_rotation` (`:116-171`).  `none`: the first operator has a term whose imaginary part is below `1e-12` (the undefined name `o`,
line 126), or the division by `sin(c)` is by zero. -/
def combine (op1 op2 : List (PL × ℂ)) (s1 s2 : ℝ) : Option (List (PL × ℂ)) :=
  if op1.any (fun t => decide (|t.2.im| < 1e-12)) then none
  else
    let n := vals op1
    let m := vals op2
    let a := len n
    let b := len m
    if |a| < 1e-14 then some (ofVec (m .X * s2) (m .Y * s2) (m .Z * s2))
    else if |b| < 1e-14 then some (ofVec (n .X * s1) (n .Y * s1) (n .Z * s1))
    else
      let u := fun p => n p * (1 / |a|)
      let w := fun p => m p * (1 / |b|)
      let a' := a * s1
      let b' := b * s2
      let dot := u .X * w .X + u .Y * w .Y + u .Z * w .Z
      let c := arccos (cos a' * cos b' - dot * sin a' * sin b')
      let term := fun p q r => u p * sin a' * cos b' + w p * sin b' * cos a' - (u q * w r - u r * w q) * sin a' * sin b'
      if sin c = 0 then none
      else some (ofVec (1 / sin c * term .X .Y .Z * c) (1 / sin c * term .Y .Z .X * c) (1 / sin c * term .Z .X .Y * c))

/-- `new` (`:187-195`), the matrix of the rotation. -/
def rotM (v : PL → ℝ) (scale : ℝ) : M2 ℂ :=
  let norm := len v
  let c := cos (2 * norm * scale / 2)
  let s := sin (2 * norm * scale / 2)
  (-Complex.I * s / norm) • mat2 (v .Z : ℂ) (v .X - Complex.I * v .Y) (v .X + Complex.I * v .Y) (-v .Z) + (c : ℂ) • (1 : M2 ℂ)

/-- The circuit `test` (`:212-215`, `:231-234`, gates `tools/_gates.py:381-391`): the matrix of `Rz(beta)`, `Ry(gam)`, `Rz(delt)` applied in this order. -/
def testM (beta gam delt : ℝ) : M2 ℂ :=
  mat2 ((cos (delt / 2) : ℝ) - Complex.I * (sin (delt / 2) : ℝ)) 0 0 ((cos (delt / 2) : ℝ) + Complex.I * (sin (delt / 2) : ℝ)) *
    (mat2 ((cos (gam / 2) : ℝ) : ℂ) (-((sin (gam / 2) : ℝ) : ℂ)) ((sin (gam / 2) : ℝ) : ℂ) ((cos (gam / 2) : ℝ) : ℂ) *
      mat2 ((cos (beta / 2) : ℝ) - Complex.I * (sin (beta / 2) : ℝ)) 0 0 ((cos (beta / 2) : ℝ) + Complex.I * (sin (beta / 2) : ℝ)))

/-- The gates appended (`:244-249`, without the global phase of the letter `I`): three calls of `generic_Pauli_term`. -/
def emitted (beta gam delt : ℝ) : List QG := Prim.gadget beta [.Z] ++ Prim.gadget gam [.Y] ++ Prim.gadget delt [.Z]

end
end Exact
end HQCA
