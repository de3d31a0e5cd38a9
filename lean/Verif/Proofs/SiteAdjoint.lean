import Verif.Proofs.Adjoint
import Verif.Proofs.Pauli

/-!
# Adjoints of single-qubit operators and of Pauli strings
-/

namespace HQCA
variable {K : Type} [Coef K]

/-- Conjugate transpose. -/
def dag (m : M2 K) : M2 K := fun a b => conj (m b a)

theorem isAdj_site (k : ℕ) (m : M2 K) : IsAdj (site k m : Oper K) (site k (dag m)) := by
  classical
  apply isAdj_of_single
  intro b c
  refine ⟨Finsupp.single (Function.update b k false) (conj (m (b k) false) * c) +
    Finsupp.single (Function.update b k true) (conj (m (b k) true) * c), ?_, fun ψ => ?_⟩
  · funext x
    simp only [Finsupp.coe_add, Pi.add_apply, single_eq, site_apply, dag]
    have key : ∀ y : Bool, (b = Function.update x k y) ↔ (b k = y ∧ Function.update b k (x k) = x) := by
      intro y
      constructor
      · intro h
        refine ⟨by rw [h]; simp, by rw [h]; simp⟩
      · rintro ⟨h1, h2⟩
        rw [← h2]
        simp only [Function.update_idem, ← h1, Function.update_eq_self]
    have key2 : ∀ y : Bool, (Function.update b k y = x) ↔ (x k = y ∧ Function.update b k (x k) = x) := by
      intro y
      constructor
      · intro h
        have h1 : x k = y := by rw [← h]; simp
        exact ⟨h1, by rw [h1]; exact h⟩
      · rintro ⟨h1, h2⟩
        rw [← h1]; exact h2
    rw [if_congr (key2 false) rfl rfl, if_congr (key2 true) rfl rfl, if_congr (key false) rfl rfl,
      if_congr (key true) rfl rfl]
    by_cases h : Function.update b k (x k) = x
    · cases hb : b k <;> cases hx : x k <;> rw [hx] at h <;> simp [h]
    · simp [h]
  · rw [pair_add, pair_single, pair_single, site_apply]
    simp only [Coef.conj_mul, Coef.conj_conj]
    ring

theorem dag_pmat (p : PL) : (dag (pmat p) : M2 K) = pmat p := by
  funext a b
  cases p <;> cases a <;> cases b <;> simp [dag, pmat, conj_one, conj_zero, conj_neg, Coef.conj_I]

/-- Pauli strings are self-adjoint. -/
theorem isAdj_denP (k : ℕ) (s : PStr) : IsAdj (denP k s : Oper K) (denP k s) := by
  induction s generalizing k with
  | nil => exact IsAdj.one
  | cons p s ih =>
    have h := (isAdj_site k (pmat p : M2 K)).mul (ih (k+1))
    rw [dag_pmat, ← denP_site_lt (Nat.lt_succ_self k)] at h
    exact h

end HQCA
