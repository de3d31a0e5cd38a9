import Verif.Model.Hamiltonian
import Verif.Model.DMatrix

/-!
# Model of `FermionicHamiltonian._build_projected_K2` (`hqca/hamiltonian/fermionic.py:116-139`)

Without a frozen core, so that orbitals and qubits have the same numbers.  Printing is dropped.
-/

namespace HQCA
namespace Ham
variable {K : Type} [Coef K] {r : ℕ}

/-- The contributions of a one-body string `i, j` (`fermionic.py:127-132`). -/
def addOne (h1 : Fin r → Fin r → K) (ne : K) (i j : Fin r) (K2 : Fin r → Fin r → Fin r → Fin r → K) : Fin r → Fin r → Fin r → Fin r → K :=
  fun a b c d => K2 a b c d + ∑ k,
    ((if (a, b, c, d) = (i, k, j, k) then h1 i j / (4 * (ne - 1)) else 0)
      + (if (a, b, c, d) = (k, i, k, j) then h1 i j / (4 * (ne - 1)) else 0)
      + (if (a, b, c, d) = (k, i, j, k) then -(h1 i j / (4 * (ne - 1))) else 0)
      + (if (a, b, c, d) = (i, k, k, j) then -(h1 i j / (4 * (ne - 1))) else 0))

/-- The contributions of a two-body string (`fermionic.py:133-138`). -/
def addTwo (V : Fin r → Fin r → Fin r → Fin r → K) (i k j l : Fin r) (K2 : Fin r → Fin r → Fin r → Fin r → K) : Fin r → Fin r → Fin r → Fin r → K :=
  fun a b c d => K2 a b c d
    + (if (a, b, c, d) = (i, k, j, l) then 1 / 2 * V i k j l else 0)
    + (if (a, b, c, d) = (k, i, j, l) then 1 / 2 * V k i j l else 0)
    + (if (a, b, c, d) = (k, i, l, j) then 1 / 2 * V k i l j else 0)
    + (if (a, b, c, d) = (i, k, l, j) then 1 / 2 * V i k l j else 0)

/-- An index into the integrals; `none` is `IndexError`. -/
def idx (r i : ℕ) : Option (Fin r) := if h : i < r then some ⟨i, h⟩ else none

/-- `temp.transform(...).null() or abs(f.c)<thresh` (`fermionic.py:121-122`): the string is left out.  `tiny` is `abs(c) < 1e-10`, `below` the other test. -/
def discard (T : Term FStr K → Option (POp K)) (tiny below : K → Bool) (f : Term FStr K) : Option Bool :=
  (OpD.transform T [f]).map fun Q => OpD.null tiny Q || below f.2

/-- One pass of the loop (`fermionic.py:119-138`); `fuel` bounds the passes of `order_as_D_matrix`. -/
def projStep (T : Term FStr K → Option (POp K)) (tiny below : K → Bool) (fuel : ℕ) (h1 : Fin r → Fin r → K)
    (V : Fin r → Fin r → Fin r → Fin r → K) (ne : K) (K2 : Fin r → Fin r → Fin r → Fin r → K) (f : Term FStr K) :
    Option (Fin r → Fin r → Fin r → Fin r → K) :=
  (discard T tiny below f).bind fun out =>
    if out then some K2
    else (DMat.orderAsD fuel f).bind fun o => o.head?.bind fun e =>
      match e.2.map (·.1) with
      | [i, j] => (idx r i).bind fun i => (idx r j).map fun j => addOne h1 ne i j K2
      | [i, k, l, j] => (idx r i).bind fun i => (idx r k).bind fun k => (idx r l).bind fun l => (idx r j).map fun j => addTwo V i k j l K2
      | _ => some K2

/-- `_build_projected_K2` (`fermionic.py:116-139`). -/
def projK2 (T : Term FStr K → Option (POp K)) (skip tiny below : K → Bool) (fuel : ℕ) (h1 : Fin r → Fin r → K)
    (V : Fin r → Fin r → Fin r → Fin r → K) (ne : K) : Option (Fin r → Fin r → Fin r → Fin r → K) :=
  (fermiOp skip h1 V).bind fun A => A.foldlM (projStep T tiny below fuel h1 V ne) fun _ _ _ _ => 0

end Ham
end HQCA
