import Verif.Model.Integrals

/-!
# Model of `generate_spin_2ei_pyscf` (`hqca/tools/_chemistry.py:635-752`)
-/

namespace HQCA
namespace Ints
variable {R : Type} [CommRing R]

/-- The array with its second and third index exchanged. -/
def exchange23 (A : ℕ × ℕ × ℕ × ℕ → R) : ℕ × ℕ × ℕ × ℕ → R := fun x => A (x.1, x.2.2.1, x.2.1, x.2.2.2)

/-- `generate_spin_2ei_pyscf` (`_chemistry.py:635-752`), onto an array `new`: the loops of `generate_spin_2ei` without the tests for equal orbitals, and the result is
added to `new_ei[i,j,k,l]` instead of `new_ei[i,k,j,l]`. -/
def spin2Pyscf (N : ℕ) (Ua Ub : ℕ → ℕ → R) (ei : ℕ → ℕ → ℕ → ℕ → R) (s2s : ℕ → ℕ) (alpha beta : List ℕ)
    (new : ℕ × ℕ × ℕ × ℕ → R) : ℕ × ℕ × ℕ × ℕ → R :=
  exchange23 (block2 N Ub Ub ei s2s false beta beta (block2 N Ub Ua ei s2s false beta alpha
    (block2 N Ua Ub ei s2s false alpha beta (block2 N Ua Ua ei s2s false alpha alpha (exchange23 new)))))

/-- `region='full'` (`_chemistry.py:655-658`). -/
def spin2PyscfFull (N : ℕ) (Ua Ub : ℕ → ℕ → R) (ei : ℕ → ℕ → ℕ → ℕ → R) (s2s : ℕ → ℕ) (alpha beta : Orbs) : ℕ × ℕ × ℕ × ℕ → R :=
  spin2Pyscf N Ua Ub ei s2s alpha.full beta.full fun _ => 0

end Ints
end HQCA
