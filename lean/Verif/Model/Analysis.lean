import Verif.Model.RDMAlg
import Verif.Coef
import Mathlib.Analysis.Matrix.Spectrum

/-!
# Model of `RDM.analysis` (`hqca/tools/rdm/_spin_rdm.py:215-330`)

Only what is returned for a two-body matrix; printing is dropped.  `np.linalg.eigvalsh` is the library's: the eigenvalues of the Hermitian matrix that the lower triangle
stands for, here as a multiset (the library returns them in ascending order).
-/

namespace HQCA
namespace Analysis
noncomputable section
open Matrix

/-- `aa_basis` and `bb_basis` (`_spin_rdm.py:223-226, 230-233`). -/
def pairs (g : List ℕ) : List (List ℕ) := g.flatMap fun i => (g.filter fun j => i < j).map fun j => [i, j]

/-- `ab_basis` (`_spin_rdm.py:227-229`). -/
def mixed (alp bet : List ℕ) : List (List ℕ) := alp.flatMap fun i => bet.map fun j => [i, j]

/-- `aa`, `ab`, `bb` (`_spin_rdm.py:237-251`). -/
def block (D : List ℕ → ℂ) (B : List (List ℕ)) : Matrix (Fin B.length) (Fin B.length) ℂ := fun i j => 0 + D (B[i] ++ B[j])

/-- `a1`, `b1` (`_spin_rdm.py:284-294`): `m` rows, filled for the orbitals of `g`. -/
def block1 (D : List ℕ → ℂ) (g : List ℕ) (m : ℕ) : Matrix (Fin m) (Fin m) ℂ :=
  fun i j => if i.val < g.length ∧ j.val < g.length then 0 + D [g.getD i.val 0, g.getD j.val 0] else 0

/-- The Hermitian matrix with the given lower triangle. -/
def lower {m : ℕ} (M : Matrix (Fin m) (Fin m) ℂ) : Matrix (Fin m) (Fin m) ℂ :=
  fun i j => if j < i then M i j else if i < j then star (M j i) else ((M i i).re : ℂ)

theorem lower_hermitian {m : ℕ} (M : Matrix (Fin m) (Fin m) ℂ) : (lower M).IsHermitian := by
  ext i j
  rw [conjTranspose_apply]
  show star (if i < j then M j i else if j < i then star (M i j) else ((M j j).re : ℂ)) = if j < i then M i j else if i < j then star (M j i) else ((M i i).re : ℂ)
  rcases lt_trichotomy i j with h | h | h
  · rw [if_pos h, if_neg (lt_asymm h), if_pos h]
  · subst h
    rw [if_neg (lt_irrefl _), if_neg (lt_irrefl _)]
    exact Complex.conj_ofReal _
  · rw [if_neg (lt_asymm h), if_pos h, if_pos h, star_star]

/-- `np.linalg.eigvalsh`. -/
def eigvalsh {m : ℕ} (M : Matrix (Fin m) (Fin m) ℂ) : Multiset ℝ := Finset.univ.val.map (lower_hermitian M).eigenvalues

/-- `analysis` of a two-body matrix (`_spin_rdm.py:215-315`).  `none`: `ZeroDivisionError` of `reduce_order`, or `IndexError` for more beta than alpha orbitals, `b1` having the
size of `a1`. -/
def analysis (Ne : ℤ) (D : List ℕ → ℂ) (alp bet : List ℕ) : Option (Multiset ℝ × Multiset ℝ × Multiset ℝ × Multiset ℝ × Multiset ℝ) :=
  (RDM.reduceOrder 2 (alp.length + bet.length) Ne D).bind fun D1 =>
    if alp.length < bet.length then none else
      some (eigvalsh (block D (pairs alp)), eigvalsh (block D (pairs bet)), eigvalsh (block D (mixed alp bet)),
        eigvalsh (block1 D1 alp alp.length), eigvalsh (block1 D1 bet alp.length))

end
end Analysis
end HQCA
