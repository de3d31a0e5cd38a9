import Verif.Spec.Fock
import Verif.Model.Pauli

/-!
# Denotation of Pauli strings and of operators (specification)
-/

namespace HQCA
variable {K : Type} [Coef K]

/-- The matrix named by a Pauli letter. -/
def pmat : PL → M2 K
  | .I => 1
  | .X => mX
  | .Y => mY
  | .Z => mZ

/-- Tensor product of the letters, starting at qubit `k`. -/
def denP (k : ℕ) : PStr → Oper K
  | [] => 1
  | p :: ps => site k (pmat p) * denP (k+1) ps

/-- Linear combination of denoted keys. -/
def denD {α : Type} (d : α → Oper K) (A : OpD α K) : Oper K := (A.map (fun t => t.2 • d t.1)).sum

/-- Meaning of a Pauli operator. -/
def denPO (A : POp K) : Oper K := denD (denP 0) A

/-- The coefficient of key `s` (0 when absent). -/
def coef {α : Type} [DecidableEq α] (A : OpD α K) (s : α) : K :=
  ((A.filter (fun t => t.1 = s)).map (·.2)).sum

/-- No key occurs twice. -/
def UniqueKeys {α K : Type} (A : OpD α K) : Prop := (A.map (·.1)).Nodup

instance {α K : Type} [DecidableEq α] (A : OpD α K) : Decidable (UniqueKeys A) :=
  inferInstanceAs (Decidable (A.map (·.1)).Nodup)

/-- `C` is an exact representation of the operator `X` (one term per key) from which exactly the terms
with `small` coefficient (`|c| ≤ 1e-12`) have been removed. -/
def Rounds {α : Type} (d : α → Oper K) (C : OpD α K) (X : Oper K) : Prop :=
  ∃ R : OpD α K, UniqueKeys R ∧ denD d R = X ∧ C = R.filter (fun t => !small t.2)

end HQCA
