import Verif.Model.Variance
import Verif.Props.RhoTomo
import Verif.Props.Euler
import Mathlib.Analysis.Matrix.PosDef
import Mathlib.Analysis.Matrix.Order

/-!
# C136: the variance of the energy
-/

namespace HQCA.Props
open HQCA HQCA.Circ
open scoped Matrix ComplexOrder
noncomputable section

theorem tr_topM (N : ℕ) (A : Mat ℂ) : Variance.tr N A = (topM N A).trace := by
  have : ∀ (g : ℕ → ℂ) (M : ℕ), ((List.range M).map g).sum = ∑ k ∈ Finset.range M, g k := by
    intro g M
    induction M with
    | zero => rfl
    | succ M ih => rw [List.range_succ, List.map_append, List.sum_append, ih, Finset.sum_range_succ]; simp
  unfold Variance.tr
  rw [this, Matrix.trace, ← Fin.sum_univ_eq_sum_range (fun i => A i i)]
  rfl

open scoped MatrixOrder Matrix.Norms.L2Operator in
theorem psd_factor {N : ℕ} {R : Matrix (Fin N) (Fin N) ℂ} (h : R.PosSemidef) : ∃ B : Matrix (Fin N) (Fin N) ℂ, R = Bᴴ * B :=
  CStarAlgebra.nonneg_iff_eq_star_mul_self.mp h.nonneg

/-- **C136, density matrices.**  For a density matrix and a Hermitian matrix `H` with mean value `E`, the number returned is the mean value of
`(H - E)²`; it is not negative, and zero exactly when every state in the mixture is an eigenstate of `H` with value `E`. -/
theorem C136_variance_partial (N : ℕ) (rho H : Mat ℂ) (hr : (topM N rho).PosSemidef) (h1 : (topM N rho).trace = 1) (hH : (topM N H).IsHermitian) :
    ∃ (E v : ℝ), (topM N rho * topM N H).trace = E ∧ Variance.checkVariance N (some rho) H = some v ∧
      (topM N rho * ((topM N H - (E : ℂ) • 1) * (topM N H - (E : ℂ) • 1))).trace = v ∧ 0 ≤ v ∧
      (v = 0 ↔ topM N H * topM N rho = (E : ℂ) • topM N rho) := by
  set R := topM N rho with hR
  set M := topM N H with hM
  have hE : ∃ E : ℝ, (R * M).trace = E := by
    refine ⟨((R * M).trace).re, ?_⟩
    rw [eq_comm]
    apply Complex.conj_eq_iff_re.mp
    have : star (R * M).trace = (R * M).trace := by
      rw [← Matrix.trace_conjTranspose, Matrix.conjTranspose_mul, hH.eq, hr.1.eq, Matrix.trace_mul_comm]
    exact this
  obtain ⟨E, hE⟩ := hE
  set G := M - (E : ℂ) • (1 : Matrix (Fin N) (Fin N) ℂ) with hG
  have hGh : Gᴴ = G := by
    rw [hG, Matrix.conjTranspose_sub, Matrix.conjTranspose_smul, Matrix.conjTranspose_one, hH.eq]
    simp
  have htr : (R * (G * G)).trace = (R * (M * M)).trace - (E : ℂ) ^ 2 := by
    have e : R * (G * G) = R * (M * M) - (2 * E : ℂ) • (R * M) + ((E : ℂ) ^ 2) • R := by
      rw [hG]
      simp only [sub_mul, mul_sub, Matrix.smul_mul, Matrix.mul_smul, Matrix.one_mul, Matrix.mul_one, smul_smul, smul_sub]
      module
    rw [e, Matrix.trace_add, Matrix.trace_sub, Matrix.trace_smul, Matrix.trace_smul, hE, h1]
    simp only [smul_eq_mul]
    ring
  have hps : (G * R * Gᴴ).PosSemidef := hr.mul_mul_conjTranspose_same G
  have hcyc : (G * R * Gᴴ).trace = (R * (G * G)).trace := by
    rw [hGh, Matrix.mul_assoc, Matrix.trace_mul_comm, Matrix.mul_assoc]
  have hnn : 0 ≤ (R * (G * G)).trace := hcyc ▸ hps.trace_nonneg
  have hre : (R * (G * G)).trace = (((R * (G * G)).trace).re : ℂ) := by
    have := Complex.nonneg_iff.mp hnn
    exact Complex.ext rfl (by simp [← this.2])
  refine ⟨E, ((R * (G * G)).trace).re, hE, ?_, hre, (Complex.nonneg_iff.mp hnn).1, ?_⟩
  · unfold Variance.checkVariance
    simp only [Option.map_some, tr_topM, topM_dot]
    rw [← hR, ← hM, hE, htr]
  · constructor
    · intro h0
      have ht : (G * R * Gᴴ).trace = 0 := by rw [hcyc, hre, h0]; rfl
      have hz : G * R * Gᴴ = 0 := hps.trace_eq_zero_iff.mp ht
      obtain ⟨B, hB⟩ := psd_factor hr
      have h2 : (B * Gᴴ)ᴴ * (B * Gᴴ) = 0 := by
        rw [Matrix.conjTranspose_mul, Matrix.conjTranspose_conjTranspose, ← hz, hB]
        simp only [Matrix.mul_assoc]
      have h3 := Matrix.conjTranspose_mul_self_eq_zero.mp h2
      have h4 : G * R = 0 := by
        have := congrArg Matrix.conjTranspose h3
        rw [Matrix.conjTranspose_mul, Matrix.conjTranspose_conjTranspose, Matrix.conjTranspose_zero] at this
        rw [hB, ← Matrix.mul_assoc, this, Matrix.zero_mul]
      rw [hG, Matrix.sub_mul, Matrix.smul_mul, Matrix.one_mul] at h4
      exact sub_eq_zero.mp h4
    · intro h
      have h4 : G * R = 0 := by rw [hG, Matrix.sub_mul, Matrix.smul_mul, Matrix.one_mul, h, sub_self]
      rw [← hcyc, h4, Matrix.zero_mul, Matrix.trace_zero]; rfl

/-- **C136, vectors.**  For a normalised vector the number is the squared length of `Hψ - Eψ`. -/
theorem C136_pure_partial (N : ℕ) (φ : ℕ → ℂ) (H : Mat ℂ) (h1 : ∑ l ∈ Finset.range N, ‖φ l‖ ^ 2 = 1) (hH : (topM N H).IsHermitian) :
    ∃ E : ℝ, (E : ℂ) = ∑ l ∈ Finset.range N, (starRingEnd ℂ) (φ l) * ∑ m ∈ Finset.range N, H l m * φ m ∧
      Variance.checkVariance N (some (pureRho φ)) H = some (∑ l ∈ Finset.range N, ‖∑ m ∈ Finset.range N, H l m * φ m - E * φ l‖ ^ 2) := by
  have htr : (topM N (pureRho φ)).trace = 1 := by
    have : (topM N (pureRho φ)).trace = ((∑ l ∈ Finset.range N, ‖φ l‖ ^ 2 : ℝ) : ℂ) := by
      rw [Matrix.trace, ← Fin.sum_univ_eq_sum_range (fun l => ‖φ l‖ ^ 2)]
      push_cast
      refine Finset.sum_congr rfl fun l _ => ?_
      show φ l * (starRingEnd ℂ) (φ l) = _
      rw [Complex.mul_conj, Complex.normSq_eq_norm_sq]; push_cast; rfl
    rw [this, h1]; rfl
  obtain ⟨E, v, e1, e2, e3, _, _⟩ := C136_variance_partial N (pureRho φ) H (pureRho_psd N φ) htr hH
  have hvec : ∀ A : Matrix (Fin N) (Fin N) ℂ, (topM N (pureRho φ) * A).trace = ∑ l : Fin N, (starRingEnd ℂ) (φ l) * ∑ m : Fin N, A l m * φ m := by
    intro A
    rw [Matrix.trace_mul_comm, Matrix.trace]
    refine Finset.sum_congr rfl fun l _ => ?_
    rw [Matrix.diag_apply, Matrix.mul_apply, Finset.mul_sum]
    refine Finset.sum_congr rfl fun m _ => ?_
    unfold topM pureRho
    ring
  refine ⟨E, ?_, ?_⟩
  · rw [← e1, hvec, ← Fin.sum_univ_eq_sum_range (fun l => (starRingEnd ℂ) (φ l) * ∑ m ∈ Finset.range N, H l m * φ m)]
    refine Finset.sum_congr rfl fun l _ => ?_
    rw [← Fin.sum_univ_eq_sum_range (fun m => H l m * φ m)]
    rfl
  · rw [e2]
    congr 1
    apply Complex.ofReal_injective
    rw [← e3]
    set G := topM N H - (E : ℂ) • (1 : Matrix (Fin N) (Fin N) ℂ) with hG
    have hGh : Gᴴ = G := by
      rw [hG, Matrix.conjTranspose_sub, Matrix.conjTranspose_smul, Matrix.conjTranspose_one, hH.eq]
      simp
    set w : Fin N → ℂ := fun l => ∑ m : Fin N, G l m * φ m with hw
    have hw' : ∀ l : Fin N, w l = ∑ m ∈ Finset.range N, H l m * φ m - E * φ l := by
      intro l
      rw [← Fin.sum_univ_eq_sum_range (fun m => H l m * φ m), hw]
      simp only [hG, Matrix.sub_apply, Matrix.smul_apply, Matrix.one_apply, sub_mul, Finset.sum_sub_distrib, smul_eq_mul, mul_ite, mul_one, mul_zero,
        ite_mul, zero_mul, Finset.sum_ite_eq, Finset.mem_univ, if_true]
      rfl
    rw [hvec, ← Fin.sum_univ_eq_sum_range (fun l => ‖∑ m ∈ Finset.range N, H l m * φ m - E * φ l‖ ^ 2)]
    have h2 : ∑ l : Fin N, (starRingEnd ℂ) (φ l) * ∑ m : Fin N, (G * G) l m * φ m = ∑ k : Fin N, (starRingEnd ℂ) (w k) * w k := by
      have h3 : ∀ l : Fin N, ∑ m : Fin N, (G * G) l m * φ m = ∑ k : Fin N, G l k * w k := by
        intro l
        simp only [Matrix.mul_apply, Finset.sum_mul, hw, Finset.mul_sum]
        rw [Finset.sum_comm]
        refine Finset.sum_congr rfl fun k _ => Finset.sum_congr rfl fun m _ => ?_
        ring
      simp only [h3, Finset.mul_sum]
      rw [Finset.sum_comm]
      refine Finset.sum_congr rfl fun k _ => ?_
      have : (starRingEnd ℂ) (w k) = ∑ l : Fin N, (starRingEnd ℂ) (φ l) * G l k := by
        rw [hw, map_sum]
        refine Finset.sum_congr rfl fun l _ => ?_
        rw [map_mul, mul_comm]
        congr 1
        have := congrFun (congrFun hGh l) k
        rw [Matrix.conjTranspose_apply] at this
        exact this
      rw [this, Finset.sum_mul]
      refine Finset.sum_congr rfl fun l _ => ?_
      ring
    rw [h2]
    push_cast
    refine Finset.sum_congr rfl fun k _ => ?_
    rw [← hw' k, mul_comm, Complex.mul_conj, Complex.normSq_eq_norm_sq]
    push_cast
    rfl

section Stale
open HQCA.Euler
variable {α K S : Type} [DecidableEq α] [Coef K]

theorem ansatz_add_length_le (closed : ℤ) (L : List (OpD α K)) (O : OpD α K) : (Ansatz.add closed L O).length ≤ L.length + 1 := by
  have hf : ∀ (m : ℕ) (O : OpD α K) (st : List (OpD α K) × OpD α K), (O.foldl (Ansatz.addTerm m L) st).1.length = st.1.length := by
    intro m O
    induction O with
    | nil => intro st; rfl
    | cons t O ih =>
      intro st
      rw [List.foldl_cons, ih]
      unfold Ansatz.addTerm
      split <;> simp
  unfold Ansatz.add
  split
  · simp
  · unfold Ansatz.clean
    refine (List.length_filter_le _ _).trans ?_
    rw [List.length_map]
    unfold Ansatz.layers
    split
    · simp
    · split
      · simp
      · dsimp only
        split
        · rw [hf]; exact Nat.le_succ _
        · rw [List.length_append, hf]; simp

/-- With an open ansatz the matrix kept by the driver does not change during the first `p` iterations. -/
theorem rho_stale (closed : ℤ) (p : ℕ) (hp : p ≠ 0) (U : OpD α K → S → S) (Os : List (OpD α K)) (s : Rho α K S) (h : s.psi.length + Os.length ≤ p) :
    (rhoRun closed p U Os s).2.rho = s.rho := by
  induction Os generalizing s with
  | nil => rfl
  | cons O Os ih =>
    have hl := ansatz_add_length_le closed s.psi O
    rw [List.length_cons] at h
    have e : (rhoStep closed p U s O).2 = ⟨Ansatz.add closed s.psi O, s.rho, s.popped⟩ := by
      unfold rhoStep
      dsimp only
      rw [if_neg hp, if_neg (by omega)]
    show (rhoRun closed p U Os (rhoStep closed p U s O).2).2.rho = s.rho
    rw [e]
    exact ih _ (by show (Ansatz.add closed s.psi O).length + Os.length ≤ p; omega)

end Stale

/-- **C136 fails** for an open ansatz: during the first `p` iterations the variance returned is that of the initial state, whatever the circuits do. -/
theorem C136_stale {α K : Type} [DecidableEq α] [Coef K] (closed : ℤ) (p : ℕ) (hp : p ≠ 0) (N : ℕ) (U : OpD α K → Mat ℂ → Mat ℂ) (Os : List (OpD α K))
    (h : Os.length ≤ p) (rho0 H : Mat ℂ) :
    Variance.checkVariance N (some (Euler.rhoRun closed p U Os ⟨[], rho0, []⟩).2.rho) H = Variance.checkVariance N (some rho0) H := by
  rw [rho_stale closed p hp U Os _ (by simpa using h)]

/-- The matrices of the example: a rotation of one qubit, the initial state and the bit flip. -/
def exRot : Mat ℂ := fun i j => if i = j then 3 / 5 else if i = 0 then -(4 / 5) else 4 / 5
def exRho : Mat ℂ := fun i j => if i = 0 ∧ j = 0 then 1 else 0
def exFlip : Mat ℂ := fun i j => if i = j then 0 else 1

/-- **C136 fails**: one iteration of an open ansatz whose layer rotates the qubit.  The state reported by the step has variance `49/625`; `check_variance`
returns `1`. -/
theorem C136_fails : let U : OpD String GQ → Mat ℂ → Mat ℂ := fun _ r => RhoTomo.evolve 1 exRot r
    let step := Euler.rhoStep (-2) (Euler.depth (-2)) U ⟨[], exRho, []⟩ [("a", 1)]
    Variance.checkVariance 2 (some step.1) exFlip = some (49 / 625) ∧ Variance.checkVariance 2 (some step.2.rho) exFlip = some 1 := by
  intro U step
  have e1 : step.1 = RhoTomo.evolve 1 exRot exRho := rfl
  have e2 : step.2.rho = exRho := rfl
  rw [e1, e2]
  constructor
  · simp [Variance.checkVariance, Variance.tr, RhoTomo.evolve, RhoTomo.dagger, dot, exRot, exRho, exFlip, List.range_succ]
    have h3 : (starRingEnd ℂ) 3 = 3 := Complex.conj_ofNat 3
    have h4 : (starRingEnd ℂ) 4 = 4 := Complex.conj_ofNat 4
    have h5 : (starRingEnd ℂ) 5 = 5 := Complex.conj_ofNat 5
    rw [h3, h4, h5]
    norm_num [pow_two, Complex.mul_re, Complex.div_re, Complex.div_im, Complex.normSq]
  · simp [Variance.checkVariance, Variance.tr, dot, exRho, exFlip, List.range_succ]

/-- A case meeting the hypotheses of the positive theorems: the rotated state and the bit flip. -/
example : (topM 2 exFlip).IsHermitian ∧ ∑ l ∈ Finset.range 2, ‖(if l = 0 then 3 / 5 else 4 / 5 : ℂ)‖ ^ 2 = 1 := by
  constructor
  · ext i j
    rw [Matrix.conjTranspose_apply]
    unfold topM exFlip
    by_cases h : (i : ℕ) = j
    · rw [if_pos h, if_pos h.symm]; simp
    · rw [if_neg h, if_neg (Ne.symm h)]; simp
  · rw [Finset.sum_range_succ, Finset.sum_range_one]
    norm_num

end
end HQCA.Props
