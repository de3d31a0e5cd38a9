import Mathlib.Analysis.SpecialFunctions.Trigonometric.Deriv
import Mathlib.Analysis.SpecialFunctions.ExpDeriv
import Mathlib.Analysis.SpecialFunctions.Sqrt
import Mathlib.Analysis.Calculus.FDeriv.Pi
import Mathlib.Analysis.Calculus.Deriv.Pow
import Mathlib.Tactic.FieldSimp
import Mathlib.Tactic.LinearCombination
import Verif.Model.Objectives

/-!
# Gradients of the test objectives (C54)
-/

namespace HQCA
namespace Props
open Objective Real

/-- Specification: `g` is the gradient of `f` at `p`. -/
def IsGradientAt {n : ℕ} (f : (Fin n → ℝ) → ℝ) (g : Fin n → ℝ) (p : Fin n → ℝ) : Prop :=
  HasFDerivAt f (∑ i, g i • ContinuousLinearMap.proj (R := ℝ) (φ := fun _ : Fin n => ℝ) i) p

theorem coord {n : ℕ} (p : Fin n → ℝ) (i : Fin n) :
    HasFDerivAt (fun q : Fin n → ℝ => q i) (ContinuousLinearMap.proj (R := ℝ) (φ := fun _ : Fin n => ℝ) i) p :=
  (ContinuousLinearMap.proj (R := ℝ) (φ := fun _ : Fin n => ℝ) i).hasFDerivAt

theorem C54_beale (p : Fin 2 → ℝ) : IsGradientAt beale2p (gradBeale2p p) p := by
  have hx := coord p 0
  have hy := coord p 1
  have h1 := (((hx.const_sub 1.5).add (hx.mul hy)).pow 2)
  have h2 := (((hx.const_sub 2.25).add (hx.mul (hy.pow 2))).pow 2)
  have h3 := (((hx.const_sub 2.625).add (hx.mul (hy.pow 3))).pow 2)
  refine ((h1.add h2).add h3).congr_fderiv ?_
  ext v
  simp [gradBeale2p, Fin.sum_univ_two]
  ring

theorem C54_rastrigin {d : ℕ} (p : Fin d → ℝ) : IsGradientAt rastrigin (gradRastrigin p) p := by
  have h : ∀ i : Fin d, HasFDerivAt (fun q : Fin d → ℝ => q i ^ 2 - 10 * cos (2 * π * q i))
      (gradRastrigin p i • ContinuousLinearMap.proj (R := ℝ) (φ := fun _ : Fin d => ℝ) i) p := by
    intro i
    have hx := coord p i
    refine ((hx.pow 2).sub (((hx.const_mul (2 * π)).cos).const_mul 10)).congr_fderiv ?_
    ext v
    simp [gradRastrigin]
    ring
  exact (HasFDerivAt.fun_sum (fun i _ => h i)).const_add _

theorem C54_rosenbrock {m : ℕ} (p : Fin (m + 2) → ℝ) : IsGradientAt rosenbrock (gradRosenbrock p) p := by
  have h : ∀ i : Fin (m + 1), HasFDerivAt
      (fun q : Fin (m + 2) → ℝ => 100 * (q i.succ - q i.castSucc ^ 2) ^ 2 + (1 - q i.castSucc) ^ 2)
      ((200 * (p i.succ - p i.castSucc ^ 2)) • ContinuousLinearMap.proj (R := ℝ) (φ := fun _ : Fin (m + 2) => ℝ) i.succ
        + (2 * (200 * p i.castSucc ^ 3 - 200 * p i.castSucc * p i.succ + p i.castSucc - 1)) •
          ContinuousLinearMap.proj (R := ℝ) (φ := fun _ : Fin (m + 2) => ℝ) i.castSucc) p := by
    intro i
    have hx := coord p i.castSucc
    have hy := coord p i.succ
    refine ((((hy.sub (hx.pow 2)).pow 2).const_mul 100).add ((hx.const_sub 1).pow 2)).congr_fderiv ?_
    ext v
    simp
    ring
  refine (HasFDerivAt.fun_sum (fun i _ => h i)).congr_fderiv ?_
  have hg : ∀ j : Fin (m + 2), gradRosenbrock p j
      = (Fin.cases 0 (fun i : Fin (m + 1) => 200 * (p i.succ - p i.castSucc ^ 2)) j : ℝ)
        + (Fin.lastCases 0 (fun i : Fin (m + 1) =>
            2 * (200 * p i.castSucc ^ 3 - 200 * p i.castSucc * p i.succ + p i.castSucc - 1)) j : ℝ) := by
    intro j
    refine Fin.cases ?_ (fun i => ?_) j
    · have : (0 : Fin (m + 2)) = Fin.castSucc 0 := rfl
      rw [Fin.cases_zero, zero_add]
      conv_rhs => rw [this, Fin.lastCases_castSucc]
      simp [gradRosenbrock]
    · rw [Fin.cases_succ]
      unfold gradRosenbrock
      rw [if_neg (Fin.succ_ne_zero i)]
      have hprev : p ⟨i.succ.val - 1, by have := i.succ.isLt; omega⟩ = p i.castSucc := by congr 1
      simp only [hprev]
      by_cases hl : i = Fin.last m
      · subst hl
        rw [dif_pos (Fin.succ_last m)]
        have : (Fin.last m).succ = Fin.last (m + 1) := Fin.succ_last m
        rw [this, Fin.lastCases_last, add_zero]
      · have hne : i.succ ≠ Fin.last (m + 1) := by
          rw [← Fin.succ_last]; exact fun h => hl (Fin.succ_injective _ h)
        rw [dif_neg hne]
        have hlt : i.val < m := by
          have := i.isLt
          have : i.val ≠ m := fun h => hl (Fin.ext h)
          omega
        have hc : i.succ = Fin.castSucc (⟨i.val + 1, by omega⟩ : Fin (m + 1)) := Fin.ext rfl
        conv_rhs => rw [hc, Fin.lastCases_castSucc]
        rw [add_comm]
        rfl
  ext v
  simp only [ContinuousLinearMap.sum_apply, ContinuousLinearMap.add_apply, ContinuousLinearMap.smul_apply,
    ContinuousLinearMap.proj_apply, smul_eq_mul, hg, add_mul, Finset.sum_add_distrib]
  congr 1
  · rw [Fin.sum_univ_succ (n := m + 1)]
    simp
  · rw [Fin.sum_univ_castSucc (n := m + 1)]
    simp

/-- The true gradient of `ackley` away from the origin. -/
theorem ackley_gradient (p : Fin 2 → ℝ) (hp : p ≠ 0) :
    IsGradientAt ackley (fun i => 2 * √2 * exp (-(0.2 * √(1 / 2)) * √(∑ k, p k ^ 2)) * p i / √(∑ k, p k ^ 2)
      + π * exp (0.5 * ∑ k, cos (2 * π * p k)) * sin (2 * π * p i)) p := by
  have hx := coord p 0
  have hy := coord p 1
  have hs : 0 < p 0 ^ 2 + p 1 ^ 2 := by
    by_contra h
    have h0 : p 0 = 0 := by nlinarith [sq_nonneg (p 0), sq_nonneg (p 1)]
    have h1 : p 1 = 0 := by nlinarith [sq_nonneg (p 0), sq_nonneg (p 1)]
    exact hp (by ext i; fin_cases i <;> simp [h0, h1])
  have hsq : (1 / 2) * (p 0 ^ 2 + p 1 ^ 2) ≠ 0 := by positivity
  have hr := ((((hx.pow 2).add (hy.pow 2)).const_mul (1 / 2)).sqrt hsq)
  have h1 := ((hr.const_mul (-0.2)).exp).const_mul (-20)
  have h2 := (((((hx.const_mul (2 * π)).cos).add ((hy.const_mul (2 * π)).cos)).const_mul (1 / 2)).exp).neg
  have hf : ackley = fun q : Fin 2 → ℝ => -20 * exp (-0.2 * √((1 / 2) * (q 0 ^ 2 + q 1 ^ 2)))
      + -exp ((1 / 2) * (cos (2 * π * q 0) + cos (2 * π * q 1))) + (20 + exp 1) := by
    funext q; simp [ackley, Fin.sum_univ_two]
  unfold IsGradientAt
  rw [hf]
  refine ((h1.add h2).add_const _).congr_fderiv ?_
  have hm : √((1 / 2) * (p 0 ^ 2 + p 1 ^ 2)) = √(1 / 2) * √(p 0 ^ 2 + p 1 ^ 2) := sqrt_mul (by norm_num) _
  have hh : √(1 / 2 : ℝ) = √2 / 2 := by
    rw [sqrt_div (by norm_num), sqrt_one, div_eq_div_iff (by positivity) (by norm_num)]
    rw [mul_self_sqrt (by norm_num)]; norm_num
  have h2p : (0:ℝ) < √2 := by positivity
  have h22 : √2 * √2 = 2 := mul_self_sqrt (by norm_num)
  have hP : 0 < √(p 0 ^ 2 + p 1 ^ 2) := sqrt_pos.mpr hs
  have hexp : -(0.2:ℝ) * (√(1 / 2) * √(p 0 ^ 2 + p 1 ^ 2)) = -(0.2 * √(1 / 2)) * √(p 0 ^ 2 + p 1 ^ 2) := by ring
  have h05 : (0.5 : ℝ) = 1 / 2 := by norm_num
  ext v
  simp only [Fin.sum_univ_two, ContinuousLinearMap.add_apply, ContinuousLinearMap.smul_apply,
    ContinuousLinearMap.neg_apply, ContinuousLinearMap.proj_apply, smul_eq_mul, Pi.add_apply, hm, hexp, hh, h05]
  have hexp' : -(0.2:ℝ) * (√2 / 2 * √(p 0 ^ 2 + p 1 ^ 2)) = -(0.2 * (√2 / 2)) * √(p 0 ^ 2 + p 1 ^ 2) := by ring
  rw [hexp']
  generalize rexp (-(0.2 * (√2 / 2)) * √(p 0 ^ 2 + p 1 ^ 2)) = E
  generalize rexp (1 / 2 * (cos (2 * π * p 0) + cos (2 * π * p 1))) = G
  generalize √(p 0 ^ 2 + p 1 ^ 2) = R at hP
  generalize √2 = r at h2p h22
  have hr2 : 1 / (2 * (r / 2 * R)) = r / (2 * R) := by
    field_simp
    linear_combination -h22
  rw [hr2]
  simp only [nsmul_eq_mul]
  norm_num
  field_simp
  ring

/-- Away from the first coordinate axis being zero the first component supplied with `ackley` is not the derivative: the
exponential has the wrong sign. -/
theorem C54_ackley_wrong (p : Fin 2 → ℝ) (hp : p 0 ≠ 0) : ¬ IsGradientAt ackley (gradAckley p) p := by
  intro h
  have hp' : p ≠ 0 := fun h => hp (by rw [h]; rfl)
  have h1 := h.unique (ackley_gradient p hp')
  have h2 := congrArg (fun L => L (Pi.single 0 1)) h1
  simp only [Fin.sum_univ_two, ContinuousLinearMap.add_apply, ContinuousLinearMap.smul_apply,
    ContinuousLinearMap.proj_apply, smul_eq_mul, Pi.single_eq_same, gradAckley] at h2
  simp only [Pi.single_apply] at h2
  norm_num at h2
  have hs : 0 < p 0 ^ 2 + p 1 ^ 2 := by positivity
  have hR : 0 < √(p 0 ^ 2 + p 1 ^ 2) := sqrt_pos.mpr hs
  have h3 := (div_left_inj' hR.ne').mp h2
  have h4 := mul_right_cancel₀ hp h3
  have ht : 0 < 1 / 5 * (√2)⁻¹ * √(p 0 ^ 2 + p 1 ^ 2) := by positivity
  generalize 1 / 5 * (√2)⁻¹ * √(p 0 ^ 2 + p 1 ^ 2) = t at ht h4
  have h5 : rexp (-t) < rexp t := exp_lt_exp.mpr (by linarith)
  have h6 : √2 ≤ 1.414215 := by
    rw [sqrt_le_left (by norm_num)]; norm_num
  have h7 : 0 < rexp (-t) := exp_pos _
  nlinarith [mul_le_mul_of_nonneg_right h6 h7.le]

/-- A concrete point. -/
theorem C54_ackley_example : ¬ IsGradientAt ackley (gradAckley ![1, 0]) ![1, 0] :=
  C54_ackley_wrong _ (by simp)

/-- Concrete values of the gradients: at the minima of the objectives they vanish, elsewhere they need not. -/
example : gradRosenbrock (m := 1) ![1, 1, 1] = 0 ∧ gradRosenbrock (m := 0) ![0, 1] = ![-2, 200] := by
  constructor
  · ext v; fin_cases v <;> simp [gradRosenbrock, Fin.last, Fin.ext_iff] <;> norm_num
  · ext v; fin_cases v <;> simp [gradRosenbrock, Fin.last, Fin.ext_iff]

end Props
end HQCA
