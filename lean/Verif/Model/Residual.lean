import Mathlib.Algebra.BigOperators.Fin
import Verif.Model.Hamiltonian

/-!
# Model of the residual of the classical ACSE

`hqca/acse/_class_A_acse.py:70-121`, from the reduced Hamiltonian `K2` and given two- and three-body density matrices.
-/

namespace HQCA
namespace Resid
variable {K : Type} [Coef K] {r : ℕ}

/-- `W = K2 - K2.transpose(0,1,3,2)` (`_class_A_acse.py:87`). -/
def wmat (k : Fin r → Fin r → Fin r → Fin r → K) (a b c d : Fin r) : K := k a b c d - k a b d c

/-- `A[i,k,j,l]` (`_class_A_acse.py:89-99`): `np.dot(X, Y.T).trace()` is the sum of the products of the entries.  The
orbital list `so` is `range(r)`. -/
def residual (k2 : Fin r → Fin r → Fin r → Fin r → K) (D2 : Fin r → Fin r → Fin r → Fin r → K)
    (D3 : Fin r → Fin r → Fin r → Fin r → Fin r → Fin r → K) (i k j l : Fin r) : K :=
  0 - (∑ p, ∑ q, D2 p q j l * wmat k2 p q i k) + (∑ p, ∑ q, D2 p q i k * wmat k2 p q j l)
    + ∑ x, ((∑ p, ∑ s, D3 p x k j l s * wmat k2 p x i s) - (∑ p, ∑ s, D3 p x i j l s * wmat k2 p x k s)
      - (∑ p, ∑ s, D3 i k p x s j * wmat k2 p l x s) + (∑ p, ∑ s, D3 i k p x s l * wmat k2 p j x s))

/-- The compact form returned with `matrix=True` (`_class_A_acse.py:100-109`): `-A[i,k,l,j]` for the key `[i,k,l,j]`. -/
def compact (A : Fin r → Fin r → Fin r → Fin r → K) (keys : List (Fin r × Fin r × Fin r × Fin r)) : List K :=
  keys.map (fun t => -A t.1 t.2.1 t.2.2.1 t.2.2.2)

/-- The operator returned otherwise (`_class_A_acse.py:111-121`): terms with `abs(term) >= S_min` (`keep`), coefficient
`-term`, in the order of `np.nonzero`; entries that are zero are skipped. -/
def resTerms (keep : K → Bool) (A : Fin r → Fin r → Fin r → Fin r → K) : List (K × List (ℕ × FL)) :=
  (List.finRange r).flatMap fun i => (List.finRange r).flatMap fun k => (List.finRange r).flatMap fun j =>
    (List.finRange r).flatMap fun l =>
      if Coef.isZero (A i k j l) = false ∧ keep (A i k j l) = true then
        [(-A i k j l, [(i.val, .cr), (k.val, .cr), (l.val, .an), (j.val, .an)])] else []

def resOp (keep : K → Bool) (A : Fin r → Fin r → Fin r → Fin r → K) : Option (OpD FStr K) :=
  ((resTerms keep A).mapM (fun t => Fermi.generate true t.1 t.2 r)).map (fun l => l.foldl OpD.addStr [])

/-- `vector_to_operator` (`acse/_tools_acse.py:161-214`) for fermionic keys `[i,k,l,j]`: `4*val` on the indices
`[i,k] + [l,j][::-1]`; entries with `abs(val) <= S_min` (`skip`) are skipped. -/
def vecTerms (skip : K → Bool) (kv : List ((Fin r × Fin r × Fin r × Fin r) × K)) : List (K × List (ℕ × FL)) :=
  kv.flatMap fun t => if skip t.2 then [] else
    [(4 * t.2, [(t.1.1.val, .cr), (t.1.2.1.val, .cr), (t.1.2.2.2.val, .an), (t.1.2.2.1.val, .an)])]

def vecOp (skip : K → Bool) (kv : List ((Fin r × Fin r × Fin r × Fin r) × K)) : Option (OpD FStr K) :=
  ((vecTerms skip kv).mapM (fun t => Fermi.generate true t.1 t.2 r)).map (fun l => l.foldl OpD.addStr [])

end Resid
end HQCA
