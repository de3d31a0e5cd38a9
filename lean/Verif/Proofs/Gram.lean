import Verif.Proofs.Fock
import Verif.Model.Analysis

/-!
# Gram matrices of states: eigenvalues between zero and a bound of the quadratic form, with the squared norms as their sum
-/

namespace HQCA
noncomputable section
open Matrix Analysis

theorem lower_of_hermitian {m : ℕ} (M : Matrix (Fin m) (Fin m) ℂ) (h : M.IsHermitian) : lower M = M := by
  ext i j
  show (if j < i then M i j else if i < j then star (M j i) else ((M i i).re : ℂ)) = M i j
  rcases lt_trichotomy i j with g | g | g
  · rw [if_neg (lt_asymm g), if_pos g, h.apply]
  · subst g
    rw [if_neg (lt_irrefl _), if_neg (lt_irrefl _)]
    exact Complex.conj_eq_iff_re.mp (h.apply i i)
  · rw [if_pos g]

theorem gram_hermitian {m : ℕ} (w : Fin m → Cfg →₀ ℂ) : Matrix.IsHermitian (fun i j => pair (w i) (w j) : Matrix (Fin m) (Fin m) ℂ) := by
  ext i j
  exact (pair_conj (w i) (w j)).symm

theorem gram_form {m : ℕ} (w : Fin m → Cfg →₀ ℂ) (x : Fin m → ℂ) :
    (dotProduct (star x) ((fun i j => pair (w i) (w j) : Matrix (Fin m) (Fin m) ℂ) *ᵥ x)).re = nsq (∑ k, x k • w k) := by
  unfold nsq
  congr 1
  rw [pair_sum_left]
  unfold dotProduct
  refine Finset.sum_congr rfl fun i _ => ?_
  rw [pair_smulL, pair_sum_right]
  congr 1
  show ∑ j, pair (w i) (w j) * x j = _
  refine Finset.sum_congr rfl fun j _ => ?_
  rw [pair_smulR, mul_comm]

theorem gram_eig {m : ℕ} (w : Fin m → Cfg →₀ ℂ) (A : Matrix (Fin m) (Fin m) ℂ) (hA : A.IsHermitian)
    (hw : A = fun i j => pair (w i) (w j)) (B : ℝ) (hB : ∀ x : Fin m → ℂ, nsq (∑ k, x k • w k) ≤ (∑ k, ‖x k‖ ^ 2) * B) (i : Fin m) :
    0 ≤ hA.eigenvalues i ∧ hA.eigenvalues i ≤ B := by
  rw [hA.eigenvalues_eq]
  subst hw
  have e := gram_form w (hA.eigenvectorBasis i)
  have hb := hB (hA.eigenvectorBasis i)
  have hn : ∑ k, ‖(hA.eigenvectorBasis i) k‖ ^ 2 = 1 := by
    rw [← EuclideanSpace.norm_sq_eq, hA.eigenvectorBasis.orthonormal.1 i, one_pow]
  rw [hn, one_mul] at hb
  change 0 ≤ Complex.re _ ∧ Complex.re _ ≤ B
  rw [e]
  exact ⟨nsq_nonneg _, hb⟩

theorem gram_sum {m : ℕ} (w : Fin m → Cfg →₀ ℂ) (A : Matrix (Fin m) (Fin m) ℂ) (hA : A.IsHermitian)
    (hw : A = fun i j => pair (w i) (w j)) : ∑ i, hA.eigenvalues i = ∑ k, nsq (w k) := by
  have h := hA.trace_eq_sum_eigenvalues
  have h2 : A.trace = ((∑ k, nsq (w k) : ℝ) : ℂ) := by
    rw [hw, Complex.ofReal_sum]
    exact Finset.sum_congr rfl fun k _ => pair_self_nsq (w k)
  rw [h2] at h
  have h3 : ((∑ k, nsq (w k) : ℝ) : ℂ) = ((∑ i, hA.eigenvalues i : ℝ) : ℂ) := by
    rw [h, Complex.ofReal_sum]
    rfl
  exact (Complex.ofReal_injective h3).symm

/-- What `np.linalg.eigvalsh` returns for a Gram matrix. -/
theorem eigvalsh_gram {m : ℕ} (w : Fin m → Cfg →₀ ℂ) (A : Matrix (Fin m) (Fin m) ℂ)
    (hw : ∀ i j, A i j = pair (w i) (w j)) (B : ℝ) (hB : ∀ x : Fin m → ℂ, nsq (∑ k, x k • w k) ≤ (∑ k, ‖x k‖ ^ 2) * B) :
    (∀ e ∈ eigvalsh A, 0 ≤ e ∧ e ≤ B) ∧ (eigvalsh A).sum = ∑ k, nsq (w k) ∧ (eigvalsh A).card = m := by
  have hw' : A = fun i j => pair (w i) (w j) := by ext i j; exact hw i j
  have hl : lower A = fun i j => pair (w i) (w j) := by
    rw [lower_of_hermitian A (by rw [hw']; exact gram_hermitian w), hw']
  refine ⟨?_, ?_, ?_⟩
  · intro e he
    unfold eigvalsh at he
    rw [Multiset.mem_map] at he
    obtain ⟨i, _, rfl⟩ := he
    exact gram_eig w _ _ hl B hB i
  · exact gram_sum w _ (lower_hermitian A) hl
  · simp [eigvalsh]

/-! ### Norms of one and two annihilators -/

theorem annF_anti (i j : ℕ) (φ : Cfg →₀ ℂ) : annF j (annF i φ) = (-1 : ℂ) • annF i (annF j φ) := by
  apply DFunLike.coe_injective
  rw [Finsupp.coe_smul, coe_annF, coe_annF, coe_annF, coe_annF]
  have h := congrArg (fun A : Oper ℂ => A φ) (car_ann_ann (K := ℂ) j i)
  funext b
  have := congrFun h b
  simpa using this

theorem nsq_annF (i : ℕ) (ψ : Cfg →₀ ℂ) : nsq (annF i ψ) = ∑ b ∈ ψ.support, ‖ψ b‖ ^ 2 * (if b i then 1 else 0) := by
  have h : pair (annF i ψ) (annF i ψ) = ((∑ b ∈ ψ.support, ‖ψ b‖ ^ 2 * (if b i then 1 else 0) : ℝ) : ℂ) := by
    rw [← pair_cre, coe_annF]
    unfold pair Finsupp.sum
    rw [Complex.ofReal_sum]
    refine Finset.sum_congr rfl fun b _ => ?_
    have := number_apply (K := ℂ) i ψ b
    rw [Module.End.mul_apply] at this
    beta_reduce
    rw [this]
    split_ifs with hb
    · show (starRingEnd ℂ) (ψ b) * ψ b = _
      rw [Complex.conj_mul', mul_one, Complex.ofReal_pow]
    · simp
  unfold nsq
  rw [h, Complex.ofReal_re]

theorem nsq_annF2 (i j : ℕ) (hij : i ≠ j) (ψ : Cfg →₀ ℂ) :
    nsq (annF j (annF i ψ)) = ∑ b ∈ ψ.support, ‖ψ b‖ ^ 2 * ((if b i then 1 else 0) * (if b j then 1 else 0)) := by
  have hop : (cre i * (cre j * (ann j * ann i)) : Oper ℂ) = (cre i * ann i) * (cre j * ann j) := by
    have h1 := car_ann_ann (K := ℂ) j i
    have h2 := car_ann_cre (K := ℂ) i j
    rw [if_neg hij, zero_sub] at h2
    calc (cre i * (cre j * (ann j * ann i)) : Oper ℂ) = cre i * (-(cre j * ann i)) * ann j := by
          rw [h1]; ext φ b; simp
      _ = cre i * (ann i * cre j) * ann j := by rw [h2]
      _ = _ := by noncomm_ring
  have h : pair (annF j (annF i ψ)) (annF j (annF i ψ))
      = ((∑ b ∈ ψ.support, ‖ψ b‖ ^ 2 * ((if b i then 1 else 0) * (if b j then 1 else 0)) : ℝ) : ℂ) := by
    rw [← pair_cre, ← pair_cre, coe_annF, coe_annF]
    have e : cre i (cre j (ann j (ann i ψ))) = ((cre i * ann i) * (cre j * ann j) : Oper ℂ) ψ := by rw [← hop]; rfl
    rw [e]
    unfold pair Finsupp.sum
    rw [Complex.ofReal_sum]
    refine Finset.sum_congr rfl fun b _ => ?_
    beta_reduce
    rw [Module.End.mul_apply, number_apply (K := ℂ) i, number_apply (K := ℂ) j]
    by_cases hi : b i = true <;> by_cases hj : b j = true
    · rw [if_pos hi, if_pos hj, if_pos hi, if_pos hj]
      show (starRingEnd ℂ) (ψ b) * ψ b = _
      rw [Complex.conj_mul', mul_one, mul_one, Complex.ofReal_pow]
    all_goals simp [hi, hj]
  unfold nsq
  rw [h, Complex.ofReal_re]

/-- One annihilator of each index, no index twice. -/
theorem nsq_one_le {ι : Type} [Fintype ι] (p : ι → ℕ) (hp : Function.Injective p) (x : ι → ℂ) (ψ : Cfg →₀ ℂ) :
    nsq (∑ k, x k • annF (p k) ψ) ≤ (∑ k, ‖x k‖ ^ 2) * nsq ψ := by
  classical
  have h := nsq_annV_le (Finset.univ.image p) (fun i => ∑ k, if p k = i then x k else 0) ψ
  have hc : ∀ k, (∑ k', if p k' = p k then x k' else 0) = x k := by
    intro k
    rw [Finset.sum_eq_single k (fun k' _ hk => if_neg (fun e => hk (hp e))) (fun hk => absurd (Finset.mem_univ _) hk), if_pos rfl]
  have e1 : annV (Finset.univ.image p) (fun i => ∑ k, if p k = i then x k else 0) ψ = ∑ k, x k • annF (p k) ψ := by
    unfold annV
    rw [Finset.sum_image fun a _ b _ e => hp e]
    exact Finset.sum_congr rfl fun k _ => by beta_reduce; rw [hc]
  have e2 : ∑ i ∈ Finset.univ.image p, ‖∑ k, if p k = i then x k else 0‖ ^ 2 = ∑ k, ‖x k‖ ^ 2 := by
    rw [Finset.sum_image fun a _ b _ e => hp e]
    exact Finset.sum_congr rfl fun k _ => by rw [hc]
  rw [e1, e2] at h
  exact h

/-- Two annihilators, no pair of indices twice, the first index in `U`. -/
theorem nsq_pairs_le {ι : Type} [Fintype ι] (p : ι → ℕ × ℕ) (hp : Function.Injective p) (U : Finset ℕ) (hU : ∀ k, (p k).1 ∈ U)
    (x : ι → ℂ) (ψ : Cfg →₀ ℂ) :
    nsq (∑ k, x k • annF (p k).2 (annF (p k).1 ψ)) ≤ (∑ k, ‖x k‖ ^ 2) * ∑ i ∈ U, nsq (annF i ψ) := by
  classical
  set V := Finset.univ.image fun k => (p k).2 with hV
  set c : ℕ × ℕ → ℂ := fun q => ∑ k, if p k = q then x k else 0 with hcd
  have h := nsq_two_le U V (fun i j => c (i, j)) ψ
  have hc : ∀ k, c (p k) = x k := by
    intro k
    rw [hcd]
    show (∑ k', if p k' = p k then x k' else 0) = x k
    rw [Finset.sum_eq_single k (fun k' _ hk => if_neg (fun e => hk (hp e))) (fun hk => absurd (Finset.mem_univ _) hk), if_pos rfl]
  have hz : ∀ q, q ∉ Finset.univ.image p → c q = 0 := by
    intro q hq
    refine Finset.sum_eq_zero fun k _ => if_neg fun e => hq ?_
    rw [← e]
    exact Finset.mem_image_of_mem _ (Finset.mem_univ _)
  have hsub : Finset.univ.image p ⊆ U ×ˢ V := by
    intro q hq
    obtain ⟨k, _, rfl⟩ := Finset.mem_image.mp hq
    exact Finset.mem_product.mpr ⟨hU k, Finset.mem_image_of_mem (fun k => (p k).2) (Finset.mem_univ k)⟩
  have e1 : ∑ i ∈ U, annV V (fun j => c (i, j)) (annF i ψ) = ∑ k, x k • annF (p k).2 (annF (p k).1 ψ) := by
    unfold annV
    rw [← Finset.sum_product' U V (fun i j => c (i, j) • annF j (annF i ψ)),
      ← Finset.sum_subset hsub (fun q _ hq => by rw [show (q.1, q.2) = q from rfl, hz q hq, zero_smul]),
      Finset.sum_image fun a _ b _ e => hp e]
    exact Finset.sum_congr rfl fun k _ => by rw [show ((p k).1, (p k).2) = p k from rfl, hc]
  have e2 : ∑ i ∈ U, ∑ j ∈ V, ‖c (i, j)‖ ^ 2 = ∑ k, ‖x k‖ ^ 2 := by
    rw [← Finset.sum_product' U V (fun i j => ‖c (i, j)‖ ^ 2),
      ← Finset.sum_subset hsub (fun q _ hq => by rw [show (q.1, q.2) = q from rfl, hz q hq, norm_zero]; ring),
      Finset.sum_image fun a _ b _ e => hp e]
    exact Finset.sum_congr rfl fun k _ => by rw [show ((p k).1, (p k).2) = p k from rfl, hc]
  rw [e1, e2] at h
  exact h

/-- For increasing pairs the bound is half as large. -/
theorem nsq_lt_pairs_le {ι : Type} [Fintype ι] (p : ι → ℕ × ℕ) (hp : Function.Injective p) (hlt : ∀ k, (p k).1 < (p k).2)
    (U : Finset ℕ) (hU : ∀ k, (p k).1 ∈ U ∧ (p k).2 ∈ U) (x : ι → ℂ) (ψ : Cfg →₀ ℂ) :
    nsq (∑ k, x k • annF (p k).2 (annF (p k).1 ψ)) ≤ (∑ k, ‖x k‖ ^ 2) * ((∑ i ∈ U, nsq (annF i ψ)) / 2) := by
  have h := nsq_pairs_le (ι := ι ⊕ ι) (Sum.elim p fun k => (p k).swap) (by
    rintro (a | a) (b | b) e
    · exact congrArg Sum.inl (hp e)
    · have e1 := congrArg Prod.fst e
      have e2 := congrArg Prod.snd e
      simp only [Sum.elim_inl, Sum.elim_inr, Prod.fst_swap, Prod.snd_swap] at e1 e2
      have := hlt a; have := hlt b
      omega
    · have e1 := congrArg Prod.fst e
      have e2 := congrArg Prod.snd e
      simp only [Sum.elim_inl, Sum.elim_inr, Prod.fst_swap, Prod.snd_swap] at e1 e2
      have := hlt a; have := hlt b
      omega
    · exact congrArg Sum.inr (hp (Prod.swap_injective e))) U (by
    rintro (k | k)
    · exact (hU k).1
    · exact (hU k).2) (Sum.elim (fun k => (1 / 2 : ℂ) * x k) fun k => -(1 / 2 : ℂ) * x k) ψ
  rw [Fintype.sum_sum_type, Fintype.sum_sum_type] at h
  simp only [Sum.elim_inl, Sum.elim_inr, Prod.fst_swap, Prod.snd_swap] at h
  rw [← Finset.sum_add_distrib, ← Finset.sum_add_distrib] at h
  have e1 : ∀ k, ((1 / 2 : ℂ) * x k) • annF (p k).2 (annF (p k).1 ψ) + (-(1 / 2 : ℂ) * x k) • annF (p k).1 (annF (p k).2 ψ)
      = x k • annF (p k).2 (annF (p k).1 ψ) := by
    intro k
    rw [annF_anti (p k).2 (p k).1, smul_smul, ← add_smul]
    congr 1
    ring
  have e2 : ∀ k, ‖(1 / 2 : ℂ) * x k‖ ^ 2 + ‖-(1 / 2 : ℂ) * x k‖ ^ 2 = ‖x k‖ ^ 2 / 2 := by
    intro k
    rw [norm_mul, norm_mul, norm_neg]
    norm_num
    ring
  simp only [e1, e2] at h
  rw [← Finset.sum_div] at h
  linarith [h]

/-- `Σ_{i<j} f i f j` over a set. -/
theorem two_sum_lt (G : Finset ℕ) (f : ℕ → ℝ) :
    2 * ∑ i ∈ G, ∑ j ∈ G with i < j, f i * f j = (∑ i ∈ G, f i) ^ 2 - ∑ i ∈ G, f i ^ 2 := by
  have h1 : (∑ i ∈ G, f i) ^ 2 = ∑ i ∈ G, ∑ j ∈ G, f i * f j := by rw [sq, Finset.sum_mul_sum]
  have h2 : ∀ i ∈ G, ∑ j ∈ G, f i * f j = (∑ j ∈ G with i < j, f i * f j) + (∑ j ∈ G with j < i, f i * f j) + f i ^ 2 := by
    intro i hi
    rw [Finset.sum_filter, Finset.sum_filter, ← Finset.sum_add_distrib]
    have : f i ^ 2 = ∑ j ∈ G, if j = i then f i * f j else 0 := by rw [Finset.sum_ite_eq' G i, if_pos hi, sq]
    rw [this, ← Finset.sum_add_distrib]
    refine Finset.sum_congr rfl fun j _ => ?_
    rcases lt_trichotomy i j with h | h | h
    · rw [if_pos h, if_neg (lt_asymm h), if_neg h.ne', add_zero, add_zero]
    · rw [if_neg (by omega), if_neg (by omega), if_pos h.symm, zero_add, zero_add]
    · rw [if_neg (lt_asymm h), if_pos h, if_neg h.ne, add_zero, zero_add]
  rw [h1, Finset.sum_congr rfl h2, Finset.sum_add_distrib, Finset.sum_add_distrib]
  have h3 : ∑ i ∈ G, ∑ j ∈ G with j < i, f i * f j = ∑ i ∈ G, ∑ j ∈ G with i < j, f i * f j := by
    simp only [Finset.sum_filter]
    rw [Finset.sum_comm]
    refine Finset.sum_congr rfl fun i _ => Finset.sum_congr rfl fun j _ => ?_
    rw [mul_comm]
  rw [h3]
  ring

end
end HQCA
