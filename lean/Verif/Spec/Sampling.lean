import Verif.Model.Primitives
import Verif.Spec.QCirc
import Mathlib.Data.Complex.BigOperators
import Mathlib.Data.Fintype.Pi
import Mathlib.Data.Fintype.BigOperators

/-!
# Independent measurements

Finite probability spaces, and the space of all records of `Ns` shots for every basis: the shots are independent and each follows Born's rule.
-/

namespace HQCA
noncomputable section

/-- Expectation value of a real quantity. -/
def ev {Ω : Type} [Fintype Ω] (W : Ω → ℝ) (X : Ω → ℝ) : ℝ := ∑ ω, W ω * X ω

/-- Expectation value of a complex quantity. -/
def mean {Ω : Type} [Fintype Ω] (W : Ω → ℝ) (X : Ω → ℂ) : ℂ := ∑ ω, (W ω : ℂ) * X ω

/-- Probability of an event. -/
def prob {Ω : Type} [Fintype Ω] (W : Ω → ℝ) (A : Ω → Prop) : ℝ := open Classical in ∑ ω, if A ω then W ω else 0

instance : Fintype PL := ⟨⟨([.I, .X, .Y, .Z] : List PL), by decide⟩, by intro x; cases x <;> simp⟩

/-- Born's rule: the probability of outcome `l` when the qubits of the state `ψ` are measured in the basis `b`. -/
def born (ψ : Cfg → ℂ) (b : PStr) (l : ℕ) : ℝ := ‖circOp (Prim.measFrom 0 b) ψ (cfgOf l)‖ ^ 2

/-- A record: the outcome of every shot in every basis of `N` letters. -/
abbrev Record (N Ns : ℕ) : Type := (Fin N → PL) × Fin Ns → Fin (2 ^ N)

/-- Probability of a record. -/
def recProb {N Ns : ℕ} (ψ : Cfg → ℂ) (ω : Record N Ns) : ℝ := ∏ i, born ψ (List.ofFn i.1) (ω i).val

/-- The outcomes of one basis. -/
def Record.shots {N Ns : ℕ} (ω : Record N Ns) (b : PStr) : List ℕ := List.ofFn fun j : Fin Ns => (ω (fun i => b.getD i.val .I, j)).val

end
end HQCA
