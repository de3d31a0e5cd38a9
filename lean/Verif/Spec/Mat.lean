import Verif.Spec.Site
import Mathlib.Algebra.BigOperators.Group.Finset.Basic
import Mathlib.Algebra.BigOperators.Ring.Finset
import Mathlib.Algebra.Order.BigOperators.Group.Finset
import Mathlib.Tactic.Linarith

/-!
# Matrices on `n` qubits as operators (specification)

Qubit 0 is the most significant bit of the row/column index (the usual Kronecker order).
-/

namespace HQCA

/-- Index of the first `n` bits, most significant first. -/
def idx : ℕ → Cfg → ℕ
  | 0, _ => 0
  | n + 1, b => 2 * idx n b + (if b n then 1 else 0)

/-- Replace the first `n` bits by those of the number `j`. -/
def setBits : ℕ → ℕ → Cfg → Cfg
  | 0, _, b => b
  | n + 1, j, b => Function.update (setBits n (j / 2) b) n (decide (j % 2 = 1))

variable {K : Type} [Field K]

/-- The operator with matrix `M` on the first `n` qubits. -/
def ofMat (n : ℕ) (M : ℕ → ℕ → K) : Oper K where
  toFun ψ := fun b => ∑ j ∈ Finset.range (2 ^ n), M (idx n b) j * ψ (setBits n j b)
  map_add' ψ φ := by funext b; simp [mul_add, Finset.sum_add_distrib]
  map_smul' c ψ := by
    funext b
    simp only [Pi.smul_apply, smul_eq_mul, RingHom.id_apply, Finset.mul_sum]
    apply Finset.sum_congr rfl
    intro j _; ring

theorem ofMat_apply (n : ℕ) (M : ℕ → ℕ → K) (ψ : Cfg → K) (b : Cfg) :
    ofMat n M ψ b = ∑ j ∈ Finset.range (2 ^ n), M (idx n b) j * ψ (setBits n j b) := rfl

/-- Basis state number `j`. -/
def basisSt (n j : ℕ) : Cfg → K := fun b => if idx n b = j then 1 else 0

/-- Matrix element `⟨i| X |j⟩`. -/
def entry (n : ℕ) (X : Oper K) (i j : ℕ) : K := X (basisSt n j) (setBits n i (fun _ => false))

end HQCA
