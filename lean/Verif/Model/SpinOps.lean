import Verif.Model.Operator
import Verif.Model.Fermi

/-!
# Model of `hqca/tools/_fermionic_operators.py`

Every index list in the file is a fresh literal, and the operators of `total_spin_squared` are not used after the
subtraction that negates one of them in place, so values are enough.
-/

namespace HQCA
namespace SpinOps
variable {K : Type} [Coef K]

/-- `FermiString(coeff=c,indices=[i,j],ops='+-',N=N)` (`_fermionic_operators.py:13-17`, `48-53`). -/
def pm (c : K) (i j N : ℕ) : Option (Term FStr K) := Fermi.generate true c [(i, .cr), (j, .an)] N

/-- The loops `for ...: A += FermiString(...)` (`_fermionic_operators.py:12-23` and the others); an exception in
one string ends the function. -/
def sumPM (l : List (K × ℕ × ℕ)) (N : ℕ) : Option (OpD FStr K) :=
  (l.mapM (fun t => pm t.1 t.2.1 t.2.2 N)).map (fun r => r.foldl OpD.addStr [])

/-- `spin_projected` (`_fermionic_operators.py:10-24`). -/
def spinProjected (alpha beta : List ℕ) (N : ℕ) : Option (OpD FStr K) :=
  sumPM (alpha.map (fun a => (1 / 2, a, a)) ++ beta.map (fun b => (-(1 / 2), b, b))) N

/-- `number` (`_fermionic_operators.py:26-42`); `none` orbitals is `range(N)`. -/
def number (orbitals : Option (List ℕ)) (N : ℕ) : Option (OpD FStr K) :=
  sumPM ((orbitals.getD (List.range N)).map (fun i => (1, i, i))) N

/-- `a,b = alpha[s],beta[s]` (`_fermionic_operators.py:47`); `none`: index out of range.  Negative indices are not
modelled. -/
def look (alpha beta : List ℕ) (s : ℕ) : Option (ℕ × ℕ) :=
  match alpha[s]?, beta[s]? with
  | some a, some b => some (a, b)
  | _, _ => none

/-- `spin_plus` (`_fermionic_operators.py:44-54`). -/
def spinPlus (spatial alpha beta : List ℕ) (N : ℕ) : Option (OpD FStr K) :=
  (spatial.mapM (look alpha beta)).bind (fun l => sumPM (l.map (fun p => (1, p.1, p.2))) N)

/-- `spin_minus` (`_fermionic_operators.py:56-66`). -/
def spinMinus (spatial alpha beta : List ℕ) (N : ℕ) : Option (OpD FStr K) :=
  (spatial.mapM (look alpha beta)).bind (fun l => sumPM (l.map (fun p => (1, p.2, p.1))) N)

/-- `partial_projected_spin` (`_fermionic_operators.py:68-84`). -/
def partialProjected (spatial alpha beta : List ℕ) (N : ℕ) : Option (OpD FStr K) :=
  (spatial.mapM (look alpha beta)).bind
    (fun l => sumPM (l.flatMap (fun p => [(1 / 2, p.1, p.1), (-(1 / 2), p.2, p.2)])) N)

/-- `total_spin_squared` (`_fermionic_operators.py:86-90`): `Sp*Sm + Sz*Sz - Sz`. -/
def totalSpinSquared (spatial alpha beta : List ℕ) (N : ℕ) : Option (OpD FStr K) := do
  let Sz ← partialProjected spatial alpha beta N
  let Sp ← spinPlus spatial alpha beta N
  let Sm ← spinMinus spatial alpha beta N
  let P ← OpD.mul Fermi.mul Sp Sm
  let Q ← OpD.mul Fermi.mul Sz Sz
  pure ((P.add Q).add (Sz.map (fun t => (t.1, t.2 * (-1)))))

end SpinOps
end HQCA
