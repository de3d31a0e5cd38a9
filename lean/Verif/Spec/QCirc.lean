import Verif.Spec.Den
import Verif.Spec.Gates
import Mathlib.Analysis.SpecialFunctions.Trigonometric.Basic
import Mathlib.Topology.Algebra.InfiniteSum.Basic

/-!
# Meaning of the circuit library's gates, exponentials and expectation values (specification)

The gates are the textbook ones; that the external circuit library implements them is assumed.
-/

namespace HQCA
noncomputable section
open Real

/-- Two-by-two matrix by rows. -/
def mat2 {K : Type} (a b c d : K) : M2 K := fun r s => if r then (if s then d else c) else (if s then b else a)

/-- The gates used by the primitives. -/
inductive QG
  | h (i : ℕ)
  | s (i : ℕ)
  | sdg (i : ℕ)
  | x (i : ℕ)
  | rx (θ : ℝ) (i : ℕ)
  | ry (θ : ℝ) (i : ℕ)
  | rz (θ : ℝ) (i : ℕ)
  | cx (i j : ℕ)
  | sx (i : ℕ)
  | cz (i j : ℕ)

/-- `1/√2`. -/
def r2 : ℂ := ((1 / √2 : ℝ) : ℂ)

/-- The unitary of a gate. -/
def opQ : QG → Oper ℂ
  | .h i => site i (mat2 r2 r2 r2 (-r2))
  | .s i => site i (mat2 1 0 0 Complex.I)
  | .sdg i => site i (mat2 1 0 0 (-Complex.I))
  | .x i => site i mX
  | .rx θ i => site i (mat2 (cos (θ / 2) : ℝ) (-Complex.I * (sin (θ / 2) : ℝ)) (-Complex.I * (sin (θ / 2) : ℝ))
      (cos (θ / 2) : ℝ))
  | .ry θ i => site i (mat2 (cos (θ / 2) : ℝ) (-(sin (θ / 2) : ℝ)) (sin (θ / 2) : ℝ) (cos (θ / 2) : ℝ))
  | .rz θ i => site i (mat2 (Complex.exp (-Complex.I * (θ / 2 : ℝ))) 0 0 (Complex.exp (Complex.I * (θ / 2 : ℝ))))
  | .cx i j => ctlOp [i] (site j mX)
  | .sx i => site i (mat2 ((1 + Complex.I) / 2) ((1 - Complex.I) / 2) ((1 - Complex.I) / 2) ((1 + Complex.I) / 2))
  | .cz i j => ctlOp [i] (site j mZ)

/-- The unitary of a circuit; the first gate acts first. -/
def circOp : List QG → Oper ℂ
  | [] => 1
  | g :: gs => circOp gs * opQ g

/-- `U = exp X`: the exponential series converges to `U`, amplitude by amplitude. -/
def IsExp (X U : Oper ℂ) : Prop :=
  ∀ ψ b, HasSum (fun k : ℕ => ((Nat.factorial k : ℂ))⁻¹ * (X ^ k) ψ b) (U ψ b)

/-- The configuration of basis state number `l`: qubit 0 is the least significant bit (the circuit library's
order). -/
def cfgOf (l : ℕ) : Cfg := fun i => l.testBit i

/-- `⟨φ|ψ⟩` on `n` qubits. -/
def innerQ (n : ℕ) (φ ψ : Cfg → ℂ) : ℂ := ∑ l ∈ Finset.range (2 ^ n), (starRingEnd ℂ) (φ (cfgOf l)) * ψ (cfgOf l)

end
end HQCA
