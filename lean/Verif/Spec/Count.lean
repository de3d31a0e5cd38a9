import Verif.Spec.Site
import Verif.Model.Fermi
import Mathlib.Algebra.BigOperators.Group.Finset.Basic
import Mathlib.Data.Finset.Card

/-!
# Occupation numbers (specification)
-/

namespace HQCA

/-- Number of occupied sites of `A` in the configuration `b`. -/
def occOn (A : Finset ℕ) (b : Cfg) : ℕ := (A.filter (fun k => b k = true)).card

/-- All configurations of the state `ψ` have `n` occupied sites in `A`. -/
def HasOcc {K : Type} [Coef K] (A : Finset ℕ) (n : ℤ) (ψ : Cfg → K) : Prop := ∀ b, ψ b ≠ 0 → (occOn A b : ℤ) = n

/-- By how much a string changes the number of occupied sites of `A`: its `+` minus its `-` on `A`. -/
def change (A : Finset ℕ) (s : FStr) : ℤ :=
  ∑ j ∈ Finset.range s.length, if j ∈ A then (if s.getD j .i = .cr then 1 else if s.getD j .i = .an then -1 else 0) else 0

/-- Two strings with `i`, with `+`/`-` and with `p`/`h` at the same places. -/
def SameKind (s s' : FStr) : Prop :=
  List.Forall₂ (fun (x y : FL) => (x = .i ↔ y = .i) ∧ ((x = .cr ∨ x = .an) ↔ (y = .cr ∨ y = .an))) s s'

end HQCA
