import Verif.Model.Operator

/-!
# Model of `hqca/operators/quantum_strings/_pauli_string.py`
-/

namespace HQCA

/-- Letters of a Pauli string. -/
inductive PL | I | X | Y | Z
deriving DecidableEq, Repr

namespace PL
/-- `self.l` bit (`_pauli_string.py:24`): X or Y. -/
def l : PL → Bool | .X => true | .Y => true | _ => false
/-- `self.r` bit (`_pauli_string.py:25`): Z or Y. -/
def r : PL → Bool | .Z => true | .Y => true | _ => false
/-- `_construct` table (`_pauli_string.py:41-46`). -/
def ofBits : Bool → Bool → PL
  | false, false => .I
  | true, false => .X
  | false, true => .Z
  | true, true => .Y
end PL

/-- A Pauli string key. -/
abbrev PStr := List PL

/-- `int` of a bit, as numpy does. -/
def b2i (b : Bool) : ℤ := if b then 1 else 0

namespace Pauli

/-- `_construct` (`_pauli_string.py:40-48`). -/
def construct (l r : List Bool) : PStr := List.zipWith PL.ofBits l r

/-- First phase exponent (`_pauli_string.py:86`): `sum(r1 & l2 - l1 & r2)`. -/
def exp1 (l1 r1 l2 r2 : List Bool) : ℤ :=
  (List.zipWith (· - ·) (List.zipWith (fun a b => b2i (a && b)) r1 l2)
    (List.zipWith (fun a b => b2i (a && b)) l1 r2)).sum

/-- Second phase exponent (`_pauli_string.py:84-87`): `sum(L*R - l&r)` with `L = l1+l2`, `R = r1+r2`
(ordinary integer sums) and `l = l1^l2`, `r = r1^r2`. -/
def exp2 (l1 r1 l2 r2 : List Bool) : ℤ :=
  (List.zipWith (· - ·)
    (List.zipWith (· * ·) (List.zipWith (fun a b => b2i a + b2i b) l1 l2)
      (List.zipWith (fun a b => b2i a + b2i b) r1 r2))
    (List.zipWith (fun a b => b2i (a && b)) (List.zipWith xor l1 l2) (List.zipWith xor r1 r2))).sum

/-- `__mul__` of two Pauli strings (`_pauli_string.py:82-112`).  Arrays of different length make numpy
raise (`none`); numpy's broadcasting of length-one arrays is not modelled. -/
def mul {K : Type} [Coef K] (P Q : Term PStr K) : Option (Term PStr K) :=
  if P.1.length = Q.1.length then
    let l1 := P.1.map PL.l; let r1 := P.1.map PL.r
    let l2 := Q.1.map PL.l; let r2 := Q.1.map PL.r
    some (construct (List.zipWith xor l1 l2) (List.zipWith xor r1 r2),
      P.2 * Q.2 * (I ^ exp1 l1 r1 l2 r2 * I ^ exp2 l1 r1 l2 r2))
  else none

/-- `partial_trace` (`_pauli_string.py:134-144`): a traced qubit carrying a non-identity letter multiplies
the coefficient by zero; the letters of the traced qubits are removed. -/
def partialTrace {K : Type} [Coef K] (qb : List ℕ) (P : Term PStr K) : Term PStr K :=
  let tagged := P.1.zipIdx
  ((tagged.filter (fun x => !(x.2 ∈ qb))).map (·.1),
    tagged.reverse.foldl (fun c x => if x.2 ∈ qb ∧ x.1 ≠ PL.I then c * 0 else c) P.2)

end Pauli

/-- Products of Pauli operators (`_operator.py:101-121` on `PauliString`s). -/
abbrev POp (K : Type) := OpD PStr K

end HQCA
