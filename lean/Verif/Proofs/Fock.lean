import Verif.Proofs.CAR
import Verif.Proofs.RDMState
import Verif.Proofs.RDMDet

/-!
# Annihilators on finite states over `ℂ`: norms and the canonical anticommutation relations
-/

namespace HQCA
noncomputable section

/-- `ann k` and `cre k` on finite states. -/
def annF (k : ℕ) (φ : Cfg →₀ ℂ) : Cfg →₀ ℂ := (isAdj_cre (K := ℂ) k φ).choose
def creF (k : ℕ) (φ : Cfg →₀ ℂ) : Cfg →₀ ℂ := (isAdj_ann (K := ℂ) k φ).choose

theorem coe_annF (k : ℕ) (φ : Cfg →₀ ℂ) : (annF k φ : Cfg → ℂ) = ann k φ := (isAdj_cre (K := ℂ) k φ).choose_spec.1
theorem coe_creF (k : ℕ) (φ : Cfg →₀ ℂ) : (creF k φ : Cfg → ℂ) = cre k φ := (isAdj_ann (K := ℂ) k φ).choose_spec.1
theorem pair_cre (k : ℕ) (φ : Cfg →₀ ℂ) (ψ : Cfg → ℂ) : pair φ (cre k ψ) = pair (annF k φ) ψ := (isAdj_cre (K := ℂ) k φ).choose_spec.2 ψ
theorem pair_ann (k : ℕ) (φ : Cfg →₀ ℂ) (ψ : Cfg → ℂ) : pair φ (ann k ψ) = pair (creF k φ) ψ := (isAdj_ann (K := ℂ) k φ).choose_spec.2 ψ

theorem annF_add (k : ℕ) (φ ψ : Cfg →₀ ℂ) : annF k (φ + ψ) = annF k φ + annF k ψ := by
  apply DFunLike.coe_injective
  rw [Finsupp.coe_add, coe_annF, coe_annF, coe_annF, Finsupp.coe_add, map_add]

theorem annF_smul (k : ℕ) (c : ℂ) (φ : Cfg →₀ ℂ) : annF k (c • φ) = c • annF k φ := by
  apply DFunLike.coe_injective
  rw [Finsupp.coe_smul, coe_annF, coe_annF, Finsupp.coe_smul, map_smul]

/-- The square of the norm. -/
def nsq (φ : Cfg →₀ ℂ) : ℝ := (pair φ φ).re

theorem pair_sum_left {ι : Type} (s : Finset ι) (f : ι → Cfg →₀ ℂ) (ψ : Cfg → ℂ) : pair (∑ i ∈ s, f i) ψ = ∑ i ∈ s, pair (f i) ψ := by
  classical
  induction s using Finset.induction_on with
  | empty => simp [pair_zero]
  | insert a s ha ih => rw [Finset.sum_insert ha, Finset.sum_insert ha, pair_add, ih]

theorem pair_sum_right {ι : Type} (s : Finset ι) (φ : Cfg →₀ ℂ) (f : ι → Cfg →₀ ℂ) : pair φ (∑ i ∈ s, f i : Cfg →₀ ℂ) = ∑ i ∈ s, pair φ (f i) := by
  classical
  induction s using Finset.induction_on with
  | empty =>
    rw [Finset.sum_empty, Finset.sum_empty]
    simp [pair]
  | insert a s ha ih => rw [Finset.sum_insert ha, Finset.sum_insert ha, Finsupp.coe_add, pair_add_right, ih]

theorem pair_smulL (φ : Cfg →₀ ℂ) (c : ℂ) (ψ : Cfg → ℂ) : pair (c • φ) ψ = star c * pair φ ψ := pair_smul_left φ c ψ

theorem pair_smulR (φ ψ : Cfg →₀ ℂ) (c : ℂ) : pair φ (c • ψ : Cfg →₀ ℂ) = c * pair φ ψ := by
  rw [Finsupp.coe_smul, pair_smul_right]

theorem pair_conj (φ ψ : Cfg →₀ ℂ) : pair φ ψ = star (pair ψ φ) := by
  classical
  induction φ using Finsupp.induction_linear with
  | zero => 
    rw [pair_zero]
    simp [pair]
  | add f g hf hg => rw [pair_add, hf, hg, Finsupp.coe_add, pair_add_right, star_add]
  | single b c =>
    rw [pair_single, pair_single_right]
    show star c * ψ b = star (star (ψ b) * c)
    rw [star_mul', star_star, mul_comm]

theorem pair_self (φ : Cfg →₀ ℂ) : pair φ φ = ((∑ b ∈ φ.support, ‖φ b‖ ^ 2 : ℝ) : ℂ) := by
  unfold pair Finsupp.sum
  rw [Complex.ofReal_sum]
  refine Finset.sum_congr rfl fun b _ => ?_
  show (starRingEnd ℂ) (φ b) * φ b = _
  rw [Complex.conj_mul', Complex.ofReal_pow]

theorem pair_self_nsq (φ : Cfg →₀ ℂ) : pair φ φ = (nsq φ : ℂ) := by
  unfold nsq
  rw [pair_self, Complex.ofReal_re]

theorem nsq_nonneg (φ : Cfg →₀ ℂ) : 0 ≤ nsq φ := by
  unfold nsq
  rw [pair_self, Complex.ofReal_re]
  exact Finset.sum_nonneg fun _ _ => by positivity

theorem nsq_smul (c : ℂ) (φ : Cfg →₀ ℂ) : nsq (c • φ) = ‖c‖ ^ 2 * nsq φ := by
  have h : pair (c • φ) (c • φ : Cfg →₀ ℂ) = ((‖c‖ ^ 2 * nsq φ : ℝ) : ℂ) := by
    rw [pair_smulL, pair_smulR, ← mul_assoc, pair_self_nsq]
    have : star c * c = ((‖c‖ ^ 2 : ℝ) : ℂ) := by
      show (starRingEnd ℂ) c * c = _
      rw [Complex.conj_mul', Complex.ofReal_pow]
    rw [this, ← Complex.ofReal_mul]
  show (pair (c • φ) (c • φ : Cfg →₀ ℂ)).re = _
  rw [h, Complex.ofReal_re]

/-- The arithmetic-geometric form of the Cauchy-Schwarz inequality. -/
theorem two_re_pair_le (t : ℝ) (ht : 0 < t) (φ ψ : Cfg →₀ ℂ) : 2 * (pair φ ψ).re ≤ t * nsq φ + t⁻¹ * nsq ψ := by
  have h := nsq_nonneg (((t : ℝ) : ℂ) • φ + (-1 : ℂ) • ψ)
  have e : nsq (((t : ℝ) : ℂ) • φ + (-1 : ℂ) • ψ) = t ^ 2 * nsq φ + nsq ψ - 2 * t * (pair φ ψ).re := by
    have e1 : pair (((t : ℝ) : ℂ) • φ + (-1 : ℂ) • ψ) (((t : ℝ) : ℂ) • φ + (-1 : ℂ) • ψ : Cfg →₀ ℂ)
        = (t : ℂ) ^ 2 * pair φ φ + pair ψ ψ - t * (pair φ ψ + star (pair φ ψ)) := by
      rw [Finsupp.coe_add, pair_add_right, pair_add, pair_add]
      simp only [pair_smulL, pair_smulR]
      rw [← pair_conj ψ φ]
      have : star (t : ℂ) = t := Complex.conj_ofReal t
      rw [this]
      simp only [star_neg, star_one]
      ring
    show (pair (((t : ℝ) : ℂ) • φ + (-1 : ℂ) • ψ) (((t : ℝ) : ℂ) • φ + (-1 : ℂ) • ψ : Cfg →₀ ℂ)).re = _
    rw [e1, pair_self_nsq, pair_self_nsq]
    simp only [Complex.add_re, Complex.sub_re, ← Complex.ofReal_pow, ← Complex.ofReal_mul, Complex.ofReal_re, Complex.re_ofReal_mul]
    have : (star (pair φ ψ)).re = (pair φ ψ).re := Complex.conj_re _
    rw [this]
    ring
  rw [e] at h
  have h2 : t * (t * nsq φ + t⁻¹ * nsq ψ - 2 * (pair φ ψ).re) ≥ 0 := by
    have : t * (t * nsq φ + t⁻¹ * nsq ψ - 2 * (pair φ ψ).re) = t ^ 2 * nsq φ + nsq ψ - 2 * t * (pair φ ψ).re := by
      field_simp
    rw [this]
    exact h
  have := nonneg_of_mul_nonneg_right h2 ht
  linarith

/-- `a(v)` and its adjoint. -/
def annV (U : Finset ℕ) (v : ℕ → ℂ) (φ : Cfg →₀ ℂ) : Cfg →₀ ℂ := ∑ i ∈ U, v i • annF i φ
def creV (U : Finset ℕ) (v : ℕ → ℂ) (φ : Cfg →₀ ℂ) : Cfg →₀ ℂ := ∑ i ∈ U, star (v i) • creF i φ

theorem pair_annV (U : Finset ℕ) (v : ℕ → ℂ) (φ ψ : Cfg →₀ ℂ) : pair φ (annV U v ψ) = pair (creV U v φ) ψ := by
  unfold annV creV
  rw [pair_sum_right, pair_sum_left]
  refine Finset.sum_congr rfl fun i _ => ?_
  rw [pair_smulR, pair_smulL, star_star, coe_annF, pair_ann]

/-- The anticommutation relation: the two norms add up. -/
theorem nsq_car (U : Finset ℕ) (v : ℕ → ℂ) (φ : Cfg →₀ ℂ) : nsq (annV U v φ) + nsq (creV U v φ) = (∑ i ∈ U, ‖v i‖ ^ 2) * nsq φ := by
  have h : pair (annV U v φ) (annV U v φ) + pair (creV U v φ) (creV U v φ) = ((∑ i ∈ U, ‖v i‖ ^ 2 : ℝ) : ℂ) * pair φ φ := by
    have e1 : pair (annV U v φ) (annV U v φ) = ∑ i ∈ U, ∑ j ∈ U, star (v i) * v j * pair φ ((cre i * ann j : Oper ℂ) φ) := by
      unfold annV
      rw [pair_sum_left]
      refine Finset.sum_congr rfl fun i _ => ?_
      rw [pair_smulL, pair_sum_right, Finset.mul_sum]
      refine Finset.sum_congr rfl fun j _ => ?_
      rw [pair_smulR, mul_assoc, ← pair_cre, coe_annF]
      rfl
    have e2 : pair (creV U v φ) (creV U v φ) = ∑ i ∈ U, ∑ j ∈ U, star (v i) * v j * pair φ ((ann j * cre i : Oper ℂ) φ) := by
      rw [Finset.sum_comm]
      unfold creV
      rw [pair_sum_left]
      refine Finset.sum_congr rfl fun i _ => ?_
      rw [pair_smulL, star_star, pair_sum_right, Finset.mul_sum]
      refine Finset.sum_congr rfl fun j _ => ?_
      rw [pair_smulR, mul_left_comm, mul_assoc, ← pair_ann, coe_creF]
      rfl
    rw [e1, e2, ← Finset.sum_add_distrib, Complex.ofReal_sum, Finset.sum_mul]
    refine Finset.sum_congr rfl fun i hi => ?_
    rw [← Finset.sum_add_distrib]
    have : ∀ j ∈ U, star (v i) * v j * pair φ ((cre i * ann j : Oper ℂ) φ) + star (v i) * v j * pair φ ((ann j * cre i : Oper ℂ) φ)
        = if j = i then star (v i) * v i * pair φ φ else 0 := by
      intro j _
      rw [← mul_add, ← pair_add_right, ← LinearMap.add_apply, car_ann_cre, add_sub_cancel]
      split_ifs with h
      · subst h; rfl
      · simp [pair]
    rw [Finset.sum_congr rfl this, Finset.sum_ite_eq' U i, if_pos hi]
    congr 1
    show (starRingEnd ℂ) (v i) * v i = _
    rw [Complex.conj_mul', Complex.ofReal_pow]
  rw [pair_self_nsq, pair_self_nsq, pair_self_nsq, ← Complex.ofReal_add, ← Complex.ofReal_mul] at h
  exact Complex.ofReal_injective h

theorem nsq_annV_le (U : Finset ℕ) (v : ℕ → ℂ) (φ : Cfg →₀ ℂ) : nsq (annV U v φ) ≤ (∑ i ∈ U, ‖v i‖ ^ 2) * nsq φ := by
  have := nsq_car U v φ
  have := nsq_nonneg (creV U v φ)
  linarith

theorem nsq_creV_le (U : Finset ℕ) (v : ℕ → ℂ) (φ : Cfg →₀ ℂ) : nsq (creV U v φ) ≤ (∑ i ∈ U, ‖v i‖ ^ 2) * nsq φ := by
  have := nsq_car U v φ
  have := nsq_nonneg (annV U v φ)
  linarith

/-- Two annihilators: the norm is bounded by the coefficients and the number of particles on the first set. -/
theorem nsq_two_le (U V : Finset ℕ) (c : ℕ → ℕ → ℂ) (ψ : Cfg →₀ ℂ) :
    nsq (∑ i ∈ U, annV V (c i) (annF i ψ)) ≤ (∑ i ∈ U, ∑ j ∈ V, ‖c i j‖ ^ 2) * ∑ i ∈ U, nsq (annF i ψ) := by
  set φ := ∑ i ∈ U, annV V (c i) (annF i ψ) with hφ
  set S := ∑ i ∈ U, ∑ j ∈ V, ‖c i j‖ ^ 2 with hS
  set n := ∑ i ∈ U, nsq (annF i ψ) with hn
  have hn0 : 0 ≤ n := Finset.sum_nonneg fun _ _ => nsq_nonneg _
  have hS0 : 0 ≤ S := Finset.sum_nonneg fun _ _ => Finset.sum_nonneg fun _ _ => by positivity
  have hX : nsq φ = ∑ i ∈ U, (pair (creV V (c i) φ) (annF i ψ)).re := by
    have : pair φ φ = ∑ i ∈ U, pair (creV V (c i) φ) (annF i ψ) := by
      conv_lhs => rw [hφ]; rw [← hφ]
      rw [show pair φ φ = pair φ (∑ i ∈ U, annV V (c i) (annF i ψ) : Cfg →₀ ℂ) by rw [← hφ], pair_sum_right]
      exact Finset.sum_congr rfl fun i _ => pair_annV _ _ _ _
    unfold nsq
    rw [this, Complex.re_sum]
  have hkey : ∀ t : ℝ, 0 < t → 2 * nsq φ ≤ t * (S * nsq φ) + t⁻¹ * n := by
    intro t ht
    rw [hX, Finset.mul_sum, ← hX, hS, hn, Finset.sum_mul, Finset.mul_sum, Finset.mul_sum, ← Finset.sum_add_distrib]
    refine Finset.sum_le_sum fun i _ => (two_re_pair_le t ht _ _).trans ?_
    have := nsq_creV_le V (c i) φ
    gcongr
  rcases hS0.lt_or_eq with h | h
  · have := hkey S⁻¹ (inv_pos.mpr h)
    rw [inv_inv, ← mul_assoc, inv_mul_cancel₀ h.ne', one_mul] at this
    linarith
  · rw [← h, zero_mul]
    by_contra hneg
    push Not at hneg
    have := hkey ((n + 1) / nsq φ) (div_pos (by linarith) hneg)
    rw [← h, zero_mul, mul_zero, zero_add, inv_div] at this
    have h2 : nsq φ / (n + 1) * n ≤ nsq φ := by
      rw [div_mul_eq_mul_div, div_le_iff₀ (by linarith)]
      nlinarith
    linarith

end
end HQCA
