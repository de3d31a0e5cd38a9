import Verif.Spec.Sampling
import Mathlib.Algebra.Order.BigOperators.Group.Finset
import Mathlib.Algebra.Order.BigOperators.Ring.Finset
import Mathlib.Tactic.Linarith
import Mathlib.Tactic.FieldSimp
import Mathlib.Tactic.Positivity

/-!
# Means and variances of independent measurements
-/

namespace HQCA
noncomputable section

section general
variable {Ω : Type} [Fintype Ω] (W : Ω → ℝ)

theorem ev_mono (hW : ∀ ω, 0 ≤ W ω) {X Y : Ω → ℝ} (h : ∀ ω, X ω ≤ Y ω) : ev W X ≤ ev W Y :=
  Finset.sum_le_sum fun ω _ => mul_le_mul_of_nonneg_left (h ω) (hW ω)

theorem ev_add (X Y : Ω → ℝ) : ev W (fun ω => X ω + Y ω) = ev W X + ev W Y := by
  unfold ev; rw [← Finset.sum_add_distrib]; exact Finset.sum_congr rfl fun ω _ => mul_add _ _ _

theorem ev_mul (c : ℝ) (X : Ω → ℝ) : ev W (fun ω => c * X ω) = c * ev W X := by
  unfold ev; rw [Finset.mul_sum]; exact Finset.sum_congr rfl fun ω _ => by ring

theorem ev_zero : ev W (fun _ => 0) = 0 := by simp [ev]

theorem ev_list {α : Type} (l : List α) (X : α → Ω → ℝ) : ev W (fun ω => (l.map fun a => X a ω).sum) = (l.map fun a => ev W (X a)).sum := by
  induction l with
  | nil => simpa using ev_zero W
  | cons a l ih => simp only [List.map_cons, List.sum_cons]; rw [ev_add, ih]

theorem ev_sum {α : Type} (s : Finset α) (X : α → Ω → ℝ) : ev W (fun ω => ∑ a ∈ s, X a ω) = ∑ a ∈ s, ev W (X a) := by
  unfold ev
  rw [Finset.sum_comm]
  exact Finset.sum_congr rfl fun ω _ => Finset.mul_sum _ _ _

theorem mean_add (X Y : Ω → ℂ) : mean W (fun ω => X ω + Y ω) = mean W X + mean W Y := by
  unfold mean; rw [← Finset.sum_add_distrib]; exact Finset.sum_congr rfl fun ω _ => mul_add _ _ _

theorem mean_mul (X : Ω → ℂ) (c : ℂ) : mean W (fun ω => X ω * c) = mean W X * c := by
  unfold mean; rw [Finset.sum_mul]; exact Finset.sum_congr rfl fun ω _ => (mul_assoc _ _ _).symm

theorem mean_zero : mean W (fun _ => 0) = 0 := by simp [mean]

theorem mean_const (h1 : ∑ ω, W ω = 1) (c : ℂ) : mean W (fun _ => c) = c := by
  unfold mean
  rw [← Finset.sum_mul, ← Complex.ofReal_sum, h1, Complex.ofReal_one, one_mul]

theorem mean_conj (X : Ω → ℂ) : mean W (fun ω => (starRingEnd ℂ) (X ω)) = (starRingEnd ℂ) (mean W X) := by
  unfold mean
  rw [map_sum]
  exact Finset.sum_congr rfl fun ω _ => by rw [map_mul, Complex.conj_ofReal]

theorem mean_list {α : Type} (l : List α) (X : α → Ω → ℂ) : mean W (fun ω => (l.map fun a => X a ω).sum) = (l.map fun a => mean W (X a)).sum := by
  induction l with
  | nil => simpa using mean_zero W
  | cons a l ih => simp only [List.map_cons, List.sum_cons]; rw [mean_add, ih]

theorem mean_sum {α : Type} (s : Finset α) (X : α → Ω → ℂ) : mean W (fun ω => ∑ a ∈ s, X a ω) = ∑ a ∈ s, mean W (X a) := by
  unfold mean
  rw [Finset.sum_comm]
  exact Finset.sum_congr rfl fun ω _ => Finset.mul_sum _ _ _

theorem mean_ofReal (X : Ω → ℝ) : mean W (fun ω => (X ω : ℂ)) = (ev W X : ℂ) := by
  unfold mean ev; push_cast; rfl

theorem mean_re (X : Ω → ℂ) : ev W (fun ω => (X ω).re) = (mean W X).re := by
  unfold mean ev
  rw [Complex.re_sum]
  exact Finset.sum_congr rfl fun ω _ => by rw [Complex.re_ofReal_mul]

theorem mean_im (X : Ω → ℂ) : ev W (fun ω => (X ω).im) = (mean W X).im := by
  unfold mean ev
  rw [Complex.im_sum]
  exact Finset.sum_congr rfl fun ω _ => by rw [Complex.im_ofReal_mul]

/-- Weighted Cauchy–Schwarz. -/
theorem list_sq_le {α : Type} (l : List α) (κ x : α → ℝ) (hκ : ∀ a ∈ l, 0 ≤ κ a) :
    (l.map fun a => κ a * x a).sum ^ 2 ≤ (l.map κ).sum * (l.map fun a => κ a * x a ^ 2).sum ∧ 0 ≤ (l.map κ).sum ∧ 0 ≤ (l.map fun a => κ a * x a ^ 2).sum := by
  induction l with
  | nil => simp
  | cons a l ih =>
    obtain ⟨i1, i2, i3⟩ := ih fun b hb => hκ b (by simp [hb])
    have hk := hκ a (by simp)
    simp only [List.map_cons, List.sum_cons]
    set S := (l.map fun a => κ a * x a).sum
    set K := (l.map κ).sum
    set T := (l.map fun a => κ a * x a ^ 2).sum
    refine ⟨?_, by positivity, by positivity⟩
    have key : 2 * x a * S ≤ T + K * x a ^ 2 := by
      have h2 : (2 * x a * S) ^ 2 ≤ (T + K * x a ^ 2) ^ 2 := by
        have : x a ^ 2 * S ^ 2 ≤ x a ^ 2 * (K * T) := mul_le_mul_of_nonneg_left i1 (sq_nonneg _)
        nlinarith [sq_nonneg (T - K * x a ^ 2)]
      exact (le_abs_self _).trans (abs_le_of_sq_le_sq h2 (by positivity))
    nlinarith [mul_le_mul_of_nonneg_left key hk]

theorem ev_sq_list (hW : ∀ ω, 0 ≤ W ω) {α : Type} (l : List α) (κ : α → ℝ) (hκ : ∀ a ∈ l, 0 ≤ κ a) (x : α → Ω → ℝ) (B : ℝ)
    (hB : ∀ a ∈ l, ev W (fun ω => x a ω ^ 2) ≤ B) : ev W (fun ω => (l.map fun a => κ a * x a ω).sum ^ 2) ≤ (l.map κ).sum ^ 2 * B := by
  have h1 : ev W (fun ω => (l.map fun a => κ a * x a ω).sum ^ 2) ≤ ev W (fun ω => (l.map κ).sum * (l.map fun a => κ a * x a ω ^ 2).sum) :=
    ev_mono W hW fun ω => (list_sq_le l κ (fun a => x a ω) hκ).1
  refine h1.trans ?_
  rw [ev_mul, ev_list W l fun a ω => κ a * x a ω ^ 2, sq, mul_assoc]
  refine mul_le_mul_of_nonneg_left ?_ (list_sq_le l κ (fun _ => 0) hκ).2.1
  rw [← List.sum_map_mul_right]
  apply List.sum_le_sum
  intro a ha
  rw [ev_mul]
  exact mul_le_mul_of_nonneg_left (hB a ha) (hκ a ha)

theorem ev_sq_sum (hW : ∀ ω, 0 ≤ W ω) {α : Type} (s : Finset α) (κ : α → ℝ) (hκ : ∀ a, 0 ≤ κ a) (x : α → Ω → ℝ) (B : ℝ)
    (hB : ∀ a, ev W (fun ω => x a ω ^ 2) ≤ B) : ev W (fun ω => (∑ a ∈ s, κ a * x a ω) ^ 2) ≤ (∑ a ∈ s, κ a) ^ 2 * B := by
  have := ev_sq_list W hW s.toList κ (fun a _ => hκ a) x B (fun a _ => hB a)
  simpa only [Finset.sum_map_toList] using this

/-- Chebyshev's inequality. -/
theorem prob_le (hW : ∀ ω, 0 ≤ W ω) (X : Ω → ℝ) (δ B : ℝ) (hδ : 0 < δ) (hB : ev W (fun ω => X ω ^ 2) ≤ B) :
    prob W (fun ω => δ ≤ |X ω|) ≤ B / δ ^ 2 := by
  rw [le_div_iff₀ (by positivity)]
  refine le_trans ?_ hB
  unfold prob ev
  rw [Finset.sum_mul]
  refine Finset.sum_le_sum fun ω _ => ?_
  split
  · rename_i h
    refine mul_le_mul_of_nonneg_left ?_ (hW ω)
    show δ ^ 2 ≤ X ω ^ 2
    rw [← sq_abs (X ω)]
    gcongr
  · rw [zero_mul]
    exact mul_nonneg (hW ω) (sq_nonneg _)

end general

section independent
variable {I O : Type} [Fintype I] [DecidableEq I] [Fintype O] (w : I → O → ℝ)

/-- Probability of a sequence of independent outcomes. -/
def joint (ω : I → O) : ℝ := ∏ i, w i (ω i)

theorem ev_prod (φ : I → O → ℝ) : ev (joint w) (fun ω => ∏ i, φ i (ω i)) = ∏ i, ∑ o, w i o * φ i o := by
  classical
  unfold ev joint
  rw [Finset.prod_univ_sum, Fintype.piFinset_univ]
  exact Finset.sum_congr rfl fun ω _ => Finset.prod_mul_distrib.symm

variable (hw : ∀ i, ∑ o, w i o = 1)
include hw

theorem sum_joint : ∑ ω, joint w ω = 1 := by
  have := ev_prod w (fun _ _ => 1)
  simpa [ev, hw] using this

theorem ev_one (i : I) (g : O → ℝ) : ev (joint w) (fun ω => g (ω i)) = ∑ o, w i o * g o := by
  have := ev_prod w (fun j o => if j = i then g o else 1)
  simp only [Finset.prod_ite_eq', Finset.mem_univ, if_true] at this
  rw [this]
  rw [Finset.prod_eq_single i]
  · simp
  · intro j _ hj
    simp [hj, hw]
  · simp

theorem ev_two (i k : I) (hik : i ≠ k) (g h : O → ℝ) : ev (joint w) (fun ω => g (ω i) * h (ω k)) = (∑ o, w i o * g o) * ∑ o, w k o * h o := by
  have := ev_prod w (fun j o => (if j = i then g o else 1) * (if j = k then h o else 1))
  simp only [Finset.prod_mul_distrib, Finset.prod_ite_eq', Finset.mem_univ, if_true] at this
  rw [this, Finset.prod_eq_mul i k hik]
  · simp [hik, Ne.symm hik]
  · intro j _ hj
    simp [hj.1, hj.2, hw]
  · simp
  · simp

/-- Mean of an average of independent outcomes. -/
theorem ev_average {n : ℕ} (hn : 0 < n) (e : Fin n → I) (s : O → ℝ) (μ : ℝ) (hμ : ∀ j, ∑ o, w (e j) o * s o = μ) :
    ev (joint w) (fun ω => (∑ j, s (ω (e j))) / n) = μ := by
  have hn' : (n : ℝ) ≠ 0 := by positivity
  have : (fun ω : I → O => (∑ j, s (ω (e j))) / (n : ℝ)) = fun ω => (n : ℝ)⁻¹ * ∑ j, s (ω (e j)) := by
    funext ω; rw [div_eq_mul_inv, mul_comm]
  rw [this, ev_mul, ev_sum]
  simp only [ev_one w hw, hμ, Finset.sum_const, Finset.card_univ, Fintype.card_fin, nsmul_eq_mul]
  field_simp

/-- Variance of an average of independent outcomes of modulus at most one. -/
theorem ev_variance (h0 : ∀ i o, 0 ≤ w i o) {n : ℕ} (hn : 0 < n) (e : Fin n → I) (he : Function.Injective e) (s : O → ℝ) (hs : ∀ o, s o ^ 2 ≤ 1) (μ : ℝ)
    (hμ : ∀ j, ∑ o, w (e j) o * s o = μ) : ev (joint w) (fun ω => ((∑ j, s (ω (e j))) / n - μ) ^ 2) ≤ 1 / n := by
  have hn' : (n : ℝ) ≠ 0 := by positivity
  have h1 : (fun ω : I → O => ((∑ j, s (ω (e j))) / (n : ℝ) - μ) ^ 2) = fun ω => ((n : ℝ) ^ 2)⁻¹ * ∑ j, ∑ k, (s (ω (e j)) - μ) * (s (ω (e k)) - μ) := by
    funext ω
    rw [← Finset.sum_mul_sum, Finset.sum_sub_distrib]
    simp only [Finset.sum_const, Finset.card_univ, Fintype.card_fin, nsmul_eq_mul]
    field_simp
  have h2 : ∀ j k, ev (joint w) (fun ω => (s (ω (e j)) - μ) * (s (ω (e k)) - μ)) ≤ if j = k then 1 else 0 := by
    intro j k
    have hz : ∀ j, ∑ o, w (e j) o * (s o - μ) = 0 := by
      intro j
      simp only [mul_sub, Finset.sum_sub_distrib, hμ, ← Finset.sum_mul, hw, one_mul, sub_self]
    by_cases h : j = k
    · subst h
      rw [if_pos rfl]
      have := ev_one w hw (e j) (fun o => (s o - μ) * (s o - μ))
      rw [this]
      have e1 : ∑ o, w (e j) o * ((s o - μ) * (s o - μ)) = ∑ o, w (e j) o * s o ^ 2 - μ ^ 2 := by
        have : ∀ o, w (e j) o * ((s o - μ) * (s o - μ)) = w (e j) o * s o ^ 2 - 2 * μ * (w (e j) o * s o) + μ ^ 2 * w (e j) o := fun o => by ring
        simp only [this, Finset.sum_add_distrib, Finset.sum_sub_distrib, ← Finset.mul_sum, hμ, hw]
        ring
      rw [e1]
      have e2 : ∑ o, w (e j) o * s o ^ 2 ≤ 1 := by
        rw [← hw (e j)]
        exact Finset.sum_le_sum fun o _ => mul_le_of_le_one_right (h0 _ _) (hs o)
      nlinarith [sq_nonneg μ]
    · rw [if_neg h]
      have := ev_two w hw (e j) (e k) (fun h' => h (he h')) (fun o => s o - μ) (fun o => s o - μ)
      rw [this, hz, zero_mul]
  rw [h1, ev_mul, ev_sum]
  simp only [ev_sum]
  have h3 : ∑ j : Fin n, ∑ k : Fin n, ev (joint w) (fun ω => (s (ω (e j)) - μ) * (s (ω (e k)) - μ)) ≤ n := by
    refine (Finset.sum_le_sum fun j _ => Finset.sum_le_sum fun k _ => h2 j k).trans ?_
    simp
  have : ((n : ℝ) ^ 2)⁻¹ * ∑ j : Fin n, ∑ k : Fin n, ev (joint w) (fun ω => (s (ω (e j)) - μ) * (s (ω (e k)) - μ)) ≤ ((n : ℝ) ^ 2)⁻¹ * n :=
    mul_le_mul_of_nonneg_left h3 (by positivity)
  refine this.trans (le_of_eq ?_)
  field_simp

end independent
end
end HQCA
