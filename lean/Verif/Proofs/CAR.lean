import Mathlib.Tactic.NoncommRing
import Verif.Proofs.Fermi
import Verif.Proofs.RDMDet

/-!
# Anticommutation relations and the commutators of `a†_i a_j`
-/

set_option linter.unusedSectionVars false

namespace HQCA
variable {K : Type} [Coef K]

theorem ann_mul_cre_same (k : ℕ) : (ann k * cre k : Oper K) = 1 - cre k * ann k := by
  ext ψ b
  have h1 : (cre k * ann k : Oper K) ψ b = if b k then ψ b else 0 := number_apply k ψ b
  have h2 : (ann k * cre k : Oper K) ψ b = if b k then 0 else ψ b := by
    change (if b k then (0 : K) else fsign b k * (cre k ψ) (Function.update b k true)) = _
    split_ifs with h
    · rfl
    · change fsign b k * (if (Function.update b k true) k then
        fsign (Function.update b k true) k * ψ (Function.update (Function.update b k true) k false) else 0) = _
      rw [Function.update_self, if_pos rfl, fsign_update, Function.update_idem]
      have e : Function.update b k false = b := by
        have : b k = false := by simpa using h
        rw [← this]; exact Function.update_eq_self k b
      rw [e, ← mul_assoc, fsign_sq, one_mul]
  rw [h2, LinearMap.sub_apply, Pi.sub_apply, h1, Module.End.one_apply]
  split_ifs <;> simp

/-- `{a_i, a†_j} = δ_ij`. -/
theorem car_ann_cre (i j : ℕ) : (ann i * cre j : Oper K) = (if i = j then 1 else 0) - cre j * ann i := by
  by_cases h : i = j
  · subst h; rw [if_pos rfl, ann_mul_cre_same]
  · rw [if_neg h, zero_sub]
    have := fop_swap (K := K) (Ne.symm h) .cr .an
    simp only [fop, esign, FL.odd] at this
    rw [this]
    exact Oper.neg_one_smul _

theorem car_ann_ann (i j : ℕ) : (ann i * ann j : Oper K) = - (ann j * ann i) := by
  by_cases h : i = j
  · subst h
    have : (ann i * ann i : Oper K) = 0 := fop_contr_zero i .an .an rfl
    rw [this, neg_zero]
  · have := fop_swap (K := K) (Ne.symm h) .an .an
    simp only [fop, esign, FL.odd] at this
    rw [this]
    exact Oper.neg_one_smul _

theorem car_cre_cre (i j : ℕ) : (cre i * cre j : Oper K) = - (cre j * cre i) := by
  by_cases h : i = j
  · subst h
    have : (cre i * cre i : Oper K) = 0 := fop_contr_zero i .cr .cr rfl
    rw [this, neg_zero]
  · have := fop_swap (K := K) (Ne.symm h) .cr .cr
    simp only [fop, esign, FL.odd] at this
    rw [this]
    exact Oper.neg_one_smul _

theorem ring_comm4 {R : Type} [Ring R] (c1 a1 c2 a2 d12 d21 : R) (h12 : a1 * c2 = d12 - c2 * a1)
    (h21 : a2 * c1 = d21 - c1 * a2) (hc : c1 * c2 = -(c2 * c1)) (ha : a1 * a2 = -(a2 * a1)) :
    c1 * a1 * (c2 * a2) - c2 * a2 * (c1 * a1) = c1 * d12 * a2 - c2 * d21 * a1 := by
  have e1 : c1 * a1 * (c2 * a2) = c1 * d12 * a2 - c1 * c2 * (a1 * a2) := by
    calc c1 * a1 * (c2 * a2) = c1 * (a1 * c2) * a2 := by noncomm_ring
      _ = _ := by rw [h12]; noncomm_ring
  have e2 : c2 * a2 * (c1 * a1) = c2 * d21 * a1 - c2 * c1 * (a2 * a1) := by
    calc c2 * a2 * (c1 * a1) = c2 * (a2 * c1) * a1 := by noncomm_ring
      _ = _ := by rw [h21]; noncomm_ring
  rw [e1, e2, hc, ha]
  noncomm_ring

/-- `[a†_i a_j, a†_k a_l] = δ_jk a†_i a_l − δ_il a†_k a_j`. -/
theorem comm_E (i j k l : ℕ) :
    (cre i * ann j * (cre k * ann l) - cre k * ann l * (cre i * ann j) : Oper K) =
      (if j = k then cre i * ann l else 0) - (if i = l then cre k * ann j else 0) := by
  rw [ring_comm4 (cre i) (ann j) (cre k) (ann l) _ _ (car_ann_cre j k) (car_ann_cre l i)
    (car_cre_cre i k) (car_ann_ann j l)]
  by_cases h1 : j = k
  · by_cases h2 : i = l
    · simp [h1, h2]
    · have : ¬ l = i := fun e => h2 e.symm
      simp [h1, h2, this]
  · by_cases h2 : i = l
    · simp [h1, h2]
    · have : ¬ l = i := fun e => h2 e.symm
      simp [h1, h2, this]

end HQCA
