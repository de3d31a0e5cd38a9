import Verif.Model.Heap
import Verif.Spec.Den

/-!
# Value semantics of operator histories (specification)

What the commands of `Verif.Model.Heap` should do if every operator were an independent value.
-/

namespace HQCA.Heap
variable {α K : Type} [DecidableEq α] [Coef K]

/-- Operators and strings as plain values. -/
structure VSt (α K : Type) where
  ops : List (OpD α K)
  strs : List (Term α K)
deriving DecidableEq

/-- Negate every coefficient. -/
def vneg (A : OpD α K) : OpD α K := A.map (fun t => (t.1, -t.2))

/-- Operator number `i`. -/
def VSt.op (v : VSt α K) (i : ℕ) : OpD α K := v.ops.getD i []

/-- Each command changes only its target. -/
def vstep (sm : Term α K → Term α K → Option (Term α K)) (v : VSt α K) : Cmd α K → Option (VSt α K)
  | .newStr s c => some { v with strs := v.strs ++ [(s, c)] }
  | .newOp => some { v with ops := v.ops ++ [[]] }
  | .addStr i j => v.strs[j]?.bind (fun t =>
      if i < v.ops.length then some { v with ops := v.ops.set i ((v.op i).addStr t) } else none)
  | .addOp i j => if i < v.ops.length ∧ j < v.ops.length then
      some { v with ops := v.ops.set i ((v.op i).add (v.op j)) } else none
  | .mul i j => if i < v.ops.length ∧ j < v.ops.length then
      (OpD.mul sm (v.op i) (v.op j)).map (fun P => { v with ops := v.ops ++ [P] }) else none
  | .comm i j => if i < v.ops.length ∧ j < v.ops.length then
      (OpD.mul sm (v.op i) (v.op j)).bind (fun P =>
        (OpD.mul sm (v.op j) (v.op i)).map (fun Q => { v with ops := v.ops ++ [P.add (vneg Q)] }))
      else none
  | .subStr i j => v.strs[j]?.bind (fun t =>
      if i < v.ops.length then some { v with ops := v.ops.set i ((v.op i).addStr (t.1, -t.2)) } else none)
  | .subOp i j => if i < v.ops.length ∧ j < v.ops.length then
      some { v with ops := v.ops.set i ((v.op i).add (vneg (v.op j))) } else none

/-- A history on values. -/
def vrun (sm : Term α K → Term α K → Option (Term α K)) (v : VSt α K) : List (Cmd α K) → Option (VSt α K)
  | [] => some v
  | c :: cs => (vstep sm v c).bind (fun w => vrun sm w cs)

/-- What a user sees in a heap state. -/
def St.val (σ : St α K) : VSt α K :=
  ⟨σ.ops.map (view σ.heap), σ.strs.map (fun r => (r.1, get σ.heap r))⟩

/-- The two in-place negating commands. -/
def Cmd.isSub : Cmd α K → Bool
  | .subStr _ _ => true
  | .subOp _ _ => true
  | _ => false

end HQCA.Heap
