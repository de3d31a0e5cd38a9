import Verif.Model.ExactUnitary

/-!
# Model of `SingleQubitExponential` (`hqca/instructions/_instruct_exact_unitary.py:26-114, 173-317`)

The solution for the three angles, the division of the list of strings into rotations, and the propagation with the Hamiltonian.  Exact arithmetic; the numbers that are complex
in the code but whose imaginary part is zero in exact arithmetic (`da`, `cb`) are real here.
-/

namespace HQCA
namespace Exact
noncomputable section
open Real

/-- `np.linalg.norm` of a 2×2 matrix. -/
def frob (m : M2 ℂ) : ℝ := √(‖m false false‖ ^ 2 + ‖m false true‖ ^ 2 + ‖m true false‖ ^ 2 + ‖m true true‖ ^ 2)

/-- `max(-1,min(1,x/y))` (`:206-207`, `:224-225`).  For `y = 0` also `x = 0`: the quotient is `nan`, `min(1,nan)` is `1`. -/
def clampDiv (x y : ℝ) : ℝ := if y = 0 then 1 else max (-1) (min 1 (x / y))

/-- The angles tried for a given `gam` (`:201-211`, `:219-229`). -/
def trial (new : M2 ℂ) (gam : ℝ) : ℝ × ℝ × ℝ :=
  let cg := cos (gam / 2)
  let sg := sin (gam / 2)
  let da := (Complex.I * (new true true - new false false)).re
  let cb := (new true false - new false true).re
  let m := arcsin (clampDiv (-da) (2 * cg))
  let n := arccos (clampDiv cb (2 * sg))
  (m + n, gam, m - n)

/-- The angles found (`:200-240`); `none`: `sys.exit` (line 240). -/
def solve (v : PL → ℝ) (scale : ℝ) : Option (ℝ × ℝ × ℝ) :=
  let new := rotM v scale
  let gam := 2 * arccos (max (-1) (min ‖new false false‖ 1))
  let t := trial new gam
  let t := if frob (testM t.1 t.2.1 t.2.2 - new) > 1e-10 then trial new (gam * -1) else t
  if frob (testM t.1 t.2.1 t.2.2 - new) > 1e-6 then none else some t

/-- `_xyz_to_rotation` (`:173-249`): the arguments of `generic_Pauli_term` appended. -/
def rotation (op : List (PL × ℂ)) (scale : ℝ) : Option (List (ℝ × PL)) :=
  let v := vals op
  if |v .X * v .X + v .Y * v .Y + v .Z * v .Z| < 1e-14 then some []
  else (solve v scale).map fun t => (if |v .I| > 1e-10 then [(v .I, PL.I)] else []) ++ [(t.1, PL.Z), (t.2.1, PL.Y), (t.2.2, PL.Z)]

/-- `new+=item` (`operators/_operator.py:70-75`). -/
def addTerm (op : List (PL × ℂ)) (t : PL × ℂ) : List (PL × ℂ) :=
  if op.any (fun u => u.1 = t.1) then op.map fun u => if u.1 = t.1 then (u.1, u.2 + t.2) else u else op ++ [t]

/-- State of the loop (`:54-75`, `:84-105`): the counters `x, y, z` as a function of the letter, `new`, and the operators finished. -/
structure Grp where
  cnt : PL → ℕ
  new : List (PL × ℂ)
  out : List (List (PL × ℂ))

/-- One pass of the loop (`:56-75`, `:86-105`).  `item.p` is a phase, not a letter: after a new operator has been begun all counters are zero. -/
def grpStep (st : Grp) (t : PL × ℂ) : Grp :=
  if ‖t.2‖ < 1e-10 then st
  else
    let cnt := if t.1 = .I then st.cnt else Function.update st.cnt t.1 (st.cnt t.1 + 1)
    if cnt .Z > 1 ∨ cnt .X > 1 ∨ cnt .Y > 1 then ⟨fun _ => 0, addTerm [] t, st.out ++ [st.new]⟩
    else ⟨cnt, addTerm st.new t, st.out⟩

/-- The operators rotated one after the other (`:54-76`, `:84-106`). -/
def groups (l : List (PL × ℂ)) : List (List (PL × ℂ)) :=
  let st := l.foldl grpStep ⟨fun _ => 0, [], []⟩
  st.out ++ [st.new]

/-- The loop combining the last two operators (`:107-112`). -/
def combineAll : List (List (PL × ℂ)) → Option (List (PL × ℂ))
  | [] => none
  | [op] => some op
  | op1 :: rest => (combineAll rest).bind fun op2 => combine op1 op2 1 1

/-- Lists of appended gates one after the other; `none` if one stops. -/
def emitAll : List (Option (List (ℝ × PL))) → Option (List (ℝ × PL))
  | [] => some []
  | x :: xs => x.bind fun g => (emitAll xs).map fun h => g ++ h

/-- `_applyGenericOp` (`:48-76`). -/
def genericOp (l : List (PL × ℂ)) : Option (List (ℝ × PL)) := emitAll ((groups l).map fun g => rotation g 1)

/-- `_applySimpleOp` (`:78-114`): the operator kept and the gates. -/
def simpleOp (l : List (PL × ℂ)) : Option (List (PL × ℂ) × List (ℝ × PL)) :=
  (combineAll (groups l)).bind fun op => (rotation op 1).map fun g => (op, g)

/-- `_applyH_simplify` (`:274-292`) with one step. -/
def commuteH (op H : List (PL × ℂ)) (scaleH : ℝ) : Option (List (ℝ × PL)) :=
  (combine op H 1 scaleH).bind fun k => rotation k 1

/-- `_applyH_rotate` (`:294-302`) with one step: the gates added. -/
def rotateH (H : List (PL × ℂ)) (scaleH : ℝ) : Option (List (ℝ × PL)) := rotation H scaleH

/-- `_applyH_trotter` (`:304-317`): the loop runs over the keys of the dictionary `H.op`, and a key (a `str`) has no attribute `c`. -/
def trotterH (H : List (PL × ℂ)) (steps : ℕ) : Option (List (ℝ × PL)) := if 0 < steps ∧ H ≠ [] then none else some []

/-- `propagate_method` (`:259-272`); `other` ends the program. -/
inductive Method | trotter | rotation | commute | other

/-- `__init__` (`:26-37`) for one qubit: `prop` is the method if `propagate` is set.  `none`: an exception or `sys.exit`. -/
def instruction (l : List (PL × ℂ)) (simple : Bool) (prop : Option Method) (H : List (PL × ℂ)) (steps : ℕ) (scaleH : ℝ) : Option (List (ℝ × PL)) :=
  (if simple then (simpleOp l).map fun r => (some r.1, r.2) else (genericOp l).map fun g => (none, g)).bind fun r =>
    match prop with
    | none => some r.2
    | some .trotter => (trotterH H steps).map fun g => r.2 ++ g
    | some .rotation => if steps > 1 then none else (rotateH H scaleH).map fun g => r.2 ++ g
    | some .commute => if steps > 1 then none else r.1.bind fun op => commuteH op H scaleH
    | some .other => none

end
end Exact
end HQCA
