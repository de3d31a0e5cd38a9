import Verif.Spec.Fock
import Mathlib.Data.Finsupp.Basic
import Mathlib.Algebra.BigOperators.Finsupp.Basic

/-!
# Adjoints (specification)

`⟨φ, ψ⟩ = Σ_b conj (φ b) * ψ b` for a finitely supported `φ`.  `IsAdj A B` says `⟨φ, A ψ⟩ = ⟨B φ, ψ⟩`
(and that `B` keeps finite support), i.e. `B` is the adjoint of `A`.
-/

namespace HQCA
variable {K : Type} [Coef K]

/-- Inner product with a finitely supported left argument. -/
noncomputable def pair (φ : Cfg →₀ K) (ψ : Cfg → K) : K := φ.sum (fun b c => conj c * ψ b)

/-- `B` is the adjoint of `A`. -/
def IsAdj (A B : Oper K) : Prop :=
  ∀ φ : Cfg →₀ K, ∃ φ' : Cfg →₀ K, (φ' : Cfg → K) = B φ ∧ ∀ ψ, pair φ (A ψ) = pair φ' ψ

end HQCA
