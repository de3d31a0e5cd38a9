import Verif.Props.Gadget
import Mathlib.Analysis.Normed.Ring.InfiniteSum
import Mathlib.Analysis.Normed.Module.FiniteDimension
import Mathlib.Analysis.SpecialFunctions.Exponential
import Mathlib.LinearAlgebra.Complex.FiniteDimensional
import Mathlib.Data.Nat.Choose.Sum

/-!
# Exponentials of sums of commuting Pauli terms
-/

namespace HQCA
namespace Props
noncomputable section
open Real

theorem hasSum_exp_c (z : ℂ) : HasSum (fun k : ℕ => ((Nat.factorial k : ℂ))⁻¹ * z ^ k) (Complex.exp z) := by
  have := NormedSpace.expSeries_div_hasSum_exp z
  rw [← Complex.exp_eq_exp_ℂ] at this
  have e : (fun k : ℕ => ((Nat.factorial k : ℂ))⁻¹ * z ^ k) = fun k : ℕ => z ^ k / (Nat.factorial k : ℂ) := by
    funext k; rw [div_eq_mul_inv, mul_comm]
  rw [e]
  exact this

theorem oper_sum_apply {ι : Type} (s : Finset ι) (f : ι → Oper ℂ) (ψ : Cfg → ℂ) (b : Cfg) :
    (∑ i ∈ s, f i) ψ b = ∑ i ∈ s, f i ψ b := by
  rw [LinearMap.sum_apply, Finset.sum_apply]

/-- A multiple of the identity in the exponent is a factor. -/
theorem isExp_add_scalar {A U : Oper ℂ} (h : IsExp A U) (z : ℂ) : IsExp (A + z • 1) (Complex.exp z • U) := by
  intro ψ b
  have h1 := hasSum_exp_c z
  have h2 := h ψ b
  have n1 := Summable.norm h1.summable
  have n2 := Summable.norm h2.summable
  have hs := (summable_norm_sum_mul_antidiagonal_of_summable_norm n1 n2).of_norm
  have ht := tsum_mul_tsum_eq_tsum_sum_antidiagonal_of_summable_norm n1 n2
  rw [h1.tsum_eq, h2.tsum_eq] at ht
  have hh := hs.hasSum
  rw [← ht] at hh
  have e : ∀ n : ℕ, ((Nat.factorial n : ℂ))⁻¹ * ((A + z • (1 : Oper ℂ)) ^ n) ψ b =
      ∑ kl ∈ Finset.antidiagonal n, ((Nat.factorial kl.1 : ℂ))⁻¹ * z ^ kl.1 * (((Nat.factorial kl.2 : ℂ))⁻¹ * (A ^ kl.2) ψ b) := by
    intro n
    have hc : Commute (z • (1 : Oper ℂ)) A := (Commute.one_left A).smul_left z
    rw [add_comm A, hc.add_pow', oper_sum_apply, Finset.mul_sum]
    refine Finset.sum_congr rfl fun kl hkl => ?_
    have hn := Finset.mem_antidiagonal.mp hkl
    have hf : (n.choose kl.1 : ℂ) = Nat.factorial n / (Nat.factorial kl.1 * Nat.factorial kl.2) := by
      rw [← hn, Nat.choose_symm_add, Nat.add_choose]
      rw [Nat.cast_div (Nat.factorial_mul_factorial_dvd_factorial_add _ _)
        (by exact_mod_cast Nat.mul_ne_zero (Nat.factorial_ne_zero _) (Nat.factorial_ne_zero _))]
      push_cast; rfl
    have e1 : (n.choose kl.1 • ((z • (1 : Oper ℂ)) ^ kl.1 * A ^ kl.2)) ψ b = (n.choose kl.1 : ℂ) * (z ^ kl.1 * (A ^ kl.2) ψ b) := by
      rw [smul_pow, one_pow, smul_mul_assoc, one_mul, ← Nat.cast_smul_eq_nsmul ℂ]
      rfl
    rw [e1, hf]
    have a1 : (Nat.factorial n : ℂ) ≠ 0 := by exact_mod_cast Nat.factorial_ne_zero n
    have a2 : (Nat.factorial kl.1 : ℂ) ≠ 0 := by exact_mod_cast Nat.factorial_ne_zero _
    have a3 : (Nat.factorial kl.2 : ℂ) ≠ 0 := by exact_mod_cast Nat.factorial_ne_zero _
    field_simp
  have e2 : (Complex.exp z • U) ψ b = Complex.exp z * U ψ b := rfl
  rw [e2]
  simpa only [e] using hh

/-- Powers split over the two eigenspaces of an involution that commutes with the rest. -/
theorem pow_split (A P : Oper ℂ) (hP : P * P = 1) (hc : A * P = P * A) (z : ℂ) (k : ℕ) :
    (A + z • P) ^ k = (A + z • 1) ^ k * ((1 / 2 : ℂ) • (1 + P)) + (A + (-z) • 1) ^ k * ((1 / 2 : ℂ) • (1 - P)) := by
  induction k with
  | zero => simp only [pow_zero, one_mul]; module
  | succ k ih =>
    have e1 : ((1 / 2 : ℂ) • (1 + P)) * (A + z • P) = (A + z • 1) * ((1 / 2 : ℂ) • (1 + P)) := by
      simp only [mul_add, add_mul, smul_mul_assoc, mul_smul_comm, one_mul, mul_one, hP, hc]
      module
    have e2 : ((1 / 2 : ℂ) • (1 - P)) * (A + z • P) = (A + (-z) • 1) * ((1 / 2 : ℂ) • (1 - P)) := by
      simp only [mul_add, add_mul, sub_mul, mul_sub, smul_mul_assoc, mul_smul_comm, one_mul, mul_one, hP, hc]
      module
    rw [pow_succ, ih, add_mul, mul_assoc, e1, mul_assoc, e2, ← mul_assoc, ← mul_assoc, ← pow_succ, ← pow_succ]

/-- Adding a commuting Pauli term multiplies the exponential. -/
theorem isExp_add_inv {A U : Oper ℂ} (h : IsExp A U) (P : Oper ℂ) (hP : P * P = 1) (hc : A * P = P * A) (v : ℝ) :
    IsExp (A + (Complex.I * v) • P) (U * (((cos v : ℝ) : ℂ) • (1 : Oper ℂ) + (Complex.I * (sin v : ℝ)) • P)) := by
  intro ψ b
  have h1 := isExp_add_scalar h (Complex.I * v) (((1 / 2 : ℂ) • (1 + P)) ψ) b
  have h2 := isExp_add_scalar h (-(Complex.I * v)) (((1 / 2 : ℂ) • (1 - P)) ψ) b
  have hs := h1.add h2
  have e : ∀ k : ℕ, ((Nat.factorial k : ℂ))⁻¹ * ((A + (Complex.I * v) • P) ^ k) ψ b =
      ((Nat.factorial k : ℂ))⁻¹ * ((A + (Complex.I * v) • (1 : Oper ℂ)) ^ k) (((1 / 2 : ℂ) • (1 + P)) ψ) b +
      ((Nat.factorial k : ℂ))⁻¹ * ((A + (-(Complex.I * v)) • (1 : Oper ℂ)) ^ k) (((1 / 2 : ℂ) • (1 - P)) ψ) b := by
    intro k
    rw [pow_split A P hP hc, ← mul_add]
    rfl
  simp only [e]
  convert hs using 1
  have c1 : Complex.exp (Complex.I * v) = (cos v : ℝ) + Complex.I * (sin v : ℝ) := by
    rw [mul_comm, Complex.exp_mul_I]; push_cast; ring
  have c2 : Complex.exp (-(Complex.I * v)) = (cos v : ℝ) - Complex.I * (sin v : ℝ) := by
    rw [show -(Complex.I * (v : ℂ)) = ((-v : ℝ) : ℂ) * Complex.I by push_cast; ring, Complex.exp_mul_I]
    rw [← Complex.ofReal_cos, ← Complex.ofReal_sin, cos_neg, sin_neg]; push_cast; ring
  rw [c1, c2]
  have hop : U * (((cos v : ℝ) : ℂ) • (1 : Oper ℂ) + (Complex.I * (sin v : ℝ)) • P) =
      ((((cos v : ℝ) : ℂ) + Complex.I * (sin v : ℝ)) • U) * ((1 / 2 : ℂ) • (1 + P)) +
      ((((cos v : ℝ) : ℂ) - Complex.I * (sin v : ℝ)) • U) * ((1 / 2 : ℂ) • (1 - P)) := by
    simp only [mul_add, mul_sub, smul_mul_assoc, mul_smul_comm, mul_one]
    module
  rw [hop]
  rfl

end
end Props
end HQCA
