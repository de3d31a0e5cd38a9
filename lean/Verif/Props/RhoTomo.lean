import Verif.Model.RhoTomo
import Verif.Props.StateTomo
import Mathlib.LinearAlgebra.Matrix.PosDef
import Mathlib.Analysis.SpecialFunctions.Pow.Real

/-!
# C135: tomography with the density-matrix backend
-/

namespace HQCA.Props
open HQCA HQCA.Prim HQCA.Process HQCA.Tomo HQCA.StateTomo HQCA.Transform HQCA.Circ
open scoped Matrix ComplexOrder
noncomputable section

/-- Specification: the first `N` rows and columns. -/
def topM (N : ℕ) (m : Mat ℂ) : Matrix (Fin N) (Fin N) ℂ := fun i j => m i j

open scoped Classical in
/-- Specification: the matrix of an operator on `n` qubits, in the order of the circuit library. -/
def opM (n : ℕ) (A : Oper ℂ) : Matrix (Fin (2 ^ n)) (Fin (2 ^ n)) ℂ := fun l m => A (Pi.single (cfgOf m) 1) (cfgOf l)

theorem topM_dot (N : ℕ) (A B : Mat ℂ) : topM N (dot N A B) = topM N A * topM N B := by
  ext i j
  rw [Matrix.mul_apply]
  show ((List.range N).map fun k => A i k * B k j).sum = ∑ k : Fin N, A i k * B k j
  rw [Fin.sum_univ_eq_sum_range (fun k => A i k * B k j)]
  have : ∀ (g : ℕ → ℂ) (M : ℕ), ((List.range M).map g).sum = ∑ k ∈ Finset.range M, g k := by
    intro g M
    induction M with
    | zero => rfl
    | succ M ih => rw [List.range_succ, List.map_append, List.sum_append, ih, Finset.sum_range_succ]; simp
  exact this _ _

theorem topM_evolve (n : ℕ) (U rho : Mat ℂ) : topM (2 ^ n) (RhoTomo.evolve n U rho) = topM (2 ^ n) U * topM (2 ^ n) rho * (topM (2 ^ n) U)ᴴ := by
  unfold RhoTomo.evolve
  rw [topM_dot, topM_dot, Matrix.mul_assoc]
  rfl

theorem basisFrom_eq (s : PStr) (k : ℕ) : RhoTomo.basisFrom k s = measFrom k s := by
  induction s generalizing k with
  | nil => rfl
  | cons p s ih =>
    cases p <;> simp [RhoTomo.basisFrom, measFrom, ih, pauliOp]

/-- Measuring in a basis, as matrices. -/
theorem opM_meas (n : ℕ) (s b : PStr) (h : Recoverable s b) (hn : b.length ≤ n) :
    (opM n (circOp (measFrom 0 b)))ᴴ * Matrix.diagonal (fun l : Fin (2 ^ n) => (outcome 0 s (cfgOf l) : ℂ)) * opM n (circOp (measFrom 0 b)) =
      opM n (denP 0 s) := by
  classical
  ext m' m
  rw [Matrix.mul_apply]
  simp only [Matrix.mul_diagonal, Matrix.conjTranspose_apply]
  have key : innerQ n (Pi.single (cfgOf m') 1) ((denP 0 s : Oper ℂ) (Pi.single (cfgOf m) 1)) = opM n (denP 0 s) m' m := by
    unfold innerQ opM
    rw [Finset.sum_eq_single m'.1]
    · simp
    · intro l _ hl
      rw [Pi.single_eq_of_ne (fun e => hl (cfgOf_inj e)), map_zero, zero_mul]
    · intro h0; exact absurd (Finset.mem_range.mpr m'.2) h0
  rw [← key, ← conj_layer s b h.1 h.2 0, Module.End.mul_apply, Module.End.mul_apply, ← innerQ_layer n 0 b (by omega)]
  unfold innerQ
  rw [← Fin.sum_univ_eq_sum_range (fun l => (starRingEnd ℂ) (circOp (measFrom 0 b) (Pi.single (cfgOf m') 1) (cfgOf l)) *
    (denP 0 (s.map zl) : Oper ℂ) (circOp (measFrom 0 b) (Pi.single (cfgOf m) 1)) (cfgOf l))]
  refine Finset.sum_congr rfl fun l _ => ?_
  rw [denP_zl]
  unfold opM
  rw [Complex.star_def]
  ring

theorem cpow_half_norm (z : ℂ) : ‖z ^ (1 / 2 : ℂ)‖ ^ 2 = ‖z‖ := by
  rw [← norm_pow, ← Complex.cpow_nat_mul]
  norm_num

/-- **C135, one string.**  For every density matrix and every string recoverable from a basis, the value computed from the numbers the simulator stores
for the basis is the trace of the product of the density matrix and the string, up to the numbers skipped. -/
theorem C135_values (n : ℕ) (rho : Mat ℂ) (hrho : (topM (2 ^ n) rho).PosSemidef) (s b : PStr) (h : Recoverable s b) (hn : b.length ≤ n) :
    ‖(statevector n s (RhoTomo.ndiag n rho b) : ℂ) - (topM (2 ^ n) rho * opM n (denP 0 s)).trace‖ ≤ 2 ^ n * 1e-28 := by
  set U := opM n (circOp (measFrom 0 b)) with hU
  set D := U * topM (2 ^ n) rho * Uᴴ with hD
  have hdiag : ∀ l : Fin (2 ^ n), RhoTomo.evolve n (RhoTomo.unitary (RhoTomo.basisFrom 0 b)) rho l l = D l l := by
    intro l
    have := congrFun (congrFun (topM_evolve n (RhoTomo.unitary (RhoTomo.basisFrom 0 b)) rho) l) l
    rw [basisFrom_eq] at this ⊢
    exact this
  have hpos : D.PosSemidef := hrho.mul_mul_conjTranspose_same U
  have hnn : ∀ l, D l l = (‖D l l‖ : ℂ) := fun l => (Complex.norm_of_nonneg' hpos.diag_nonneg).symm
  have htr : (topM (2 ^ n) rho * opM n (denP 0 s)).trace = ∑ l : Fin (2 ^ n), ((‖D l l‖ * (outcome 0 s (cfgOf l) : ℝ) : ℝ) : ℂ) := by
    rw [← opM_meas n s b h hn, ← hU, ← Matrix.mul_assoc, ← Matrix.mul_assoc, Matrix.trace_mul_comm, ← Matrix.mul_assoc, ← Matrix.mul_assoc, ← hD, Matrix.trace]
    refine Finset.sum_congr rfl fun l _ => ?_
    rw [Matrix.diag_apply, Matrix.mul_diagonal]
    conv_lhs => rw [hnn l]
    push_cast
    rfl
  have hval : statevector n s (RhoTomo.ndiag n rho b) = ∑ l : Fin (2 ^ n), if ‖RhoTomo.ndiag n rho b l‖ < 1e-14 then 0 else
      ‖D l l‖ * (outcome 0 s (cfgOf l) : ℝ) := by
    rw [statevector_eq, ← Fin.sum_univ_eq_sum_range (fun l => if ‖RhoTomo.ndiag n rho b l‖ < 1e-14 then 0 else
      ‖RhoTomo.ndiag n rho b l‖ ^ 2 * (sgn n l s : ℝ))]
    refine Finset.sum_congr rfl fun l _ => ?_
    rw [sgn_eq n l s (by rw [h.1]; exact hn)]
    congr 1
    unfold RhoTomo.ndiag
    rw [cpow_half_norm, hdiag]
  rw [htr, hval, ← Complex.ofReal_sum, ← Complex.ofReal_sub, Complex.norm_real, ← Finset.sum_sub_distrib]
  refine (norm_sum_le _ _).trans ?_
  have : ∀ l ∈ (Finset.univ : Finset (Fin (2 ^ n))), ‖(if ‖RhoTomo.ndiag n rho b l‖ < 1e-14 then 0 else ‖D l l‖ * (outcome 0 s (cfgOf l) : ℝ)) -
      ‖D l l‖ * (outcome 0 s (cfgOf l) : ℝ)‖ ≤ (1e-28 : ℝ) := by
    intro l _
    split
    · rename_i h1
      rw [zero_sub, norm_neg, norm_mul, norm_norm]
      have h2 : ‖(outcome 0 s (cfgOf l) : ℝ)‖ = 1 := by
        rcases outcome_sq 0 s (cfgOf l) with e | e <;> rw [e] <;> simp
      have h3 : ‖RhoTomo.ndiag n rho b l‖ ^ 2 = ‖D l l‖ := by
        unfold RhoTomo.ndiag
        rw [cpow_half_norm, hdiag]
      have h4 := norm_nonneg (RhoTomo.ndiag n rho b l)
      rw [h2, mul_one, ← h3]
      have : ‖RhoTomo.ndiag n rho b l‖ ^ 2 ≤ (1e-14 : ℝ) ^ 2 := by gcongr
      refine this.trans ?_
      norm_num
    · simp; norm_num
  refine (Finset.sum_le_sum this).trans ?_
  simp

/-- A state of the register is the sum of its basis states. -/
theorem reg_expand (n : ℕ) (ψ : Cfg →₀ ℂ) (hreg : ∀ b, ψ b ≠ 0 → ∀ i, n ≤ i → b i = false) (A : Oper ℂ) (l : Fin (2 ^ n)) :
    A ψ (cfgOf l) = ∑ m : Fin (2 ^ n), opM n A l m * ψ (cfgOf m) := by
  classical
  have h : (ψ : Cfg → ℂ) = ∑ m : Fin (2 ^ n), ψ (cfgOf m) • (Pi.single (cfgOf m) (1 : ℂ) : Cfg → ℂ) := by
    funext b
    rw [Finset.sum_apply]
    by_cases hb : ψ b = 0
    · rw [hb, eq_comm]
      refine Finset.sum_eq_zero fun m _ => ?_
      by_cases e : b = cfgOf m
      · rw [← e, hb]; simp
      · rw [Pi.smul_apply, Pi.single_eq_of_ne e, smul_zero]
    · obtain ⟨k, hk, rfl⟩ := exists_cfgOf n b (hreg b hb)
      rw [Finset.sum_eq_single ⟨k, hk⟩]
      · simp
      · intro m _ hm
        rw [Pi.smul_apply, Pi.single_eq_of_ne (fun e => hm (Fin.ext (cfgOf_inj e).symm)), smul_zero]
      · intro h0; exact absurd (Finset.mem_univ _) h0
  conv_lhs => rw [h]
  rw [map_sum, Finset.sum_apply]
  refine Finset.sum_congr rfl fun m _ => ?_
  rw [map_smul, Pi.smul_apply, smul_eq_mul, mul_comm]
  rfl

/-- Specification: the density matrix of a vector. -/
def pureRho (φ : ℕ → ℂ) : Mat ℂ := fun l m => φ l * (starRingEnd ℂ) (φ m)

theorem pureRho_psd (N : ℕ) (φ : ℕ → ℂ) : (topM N (pureRho φ)).PosSemidef :=
  Matrix.posSemidef_vecMulVec_self_star (fun i : Fin N => φ i)

theorem pureRho_trace (n : ℕ) (ψ : Cfg →₀ ℂ) (hreg : ∀ b, ψ b ≠ 0 → ∀ i, n ≤ i → b i = false) (A : Oper ℂ) (φ : ℕ → ℂ)
    (hφ : ∀ l < 2 ^ n, φ l = ψ (cfgOf l)) : (topM (2 ^ n) (pureRho φ) * opM n A).trace = innerQ n ψ (A ψ) := by
  unfold innerQ
  rw [← Fin.sum_univ_eq_sum_range (fun l => (starRingEnd ℂ) (ψ (cfgOf l)) * A ψ (cfgOf l)), Matrix.trace_mul_comm, Matrix.trace]
  refine Finset.sum_congr rfl fun l _ => ?_
  rw [Matrix.diag_apply, Matrix.mul_apply, reg_expand n ψ hreg A l, Finset.mul_sum]
  refine Finset.sum_congr rfl fun m _ => ?_
  unfold topM pureRho
  rw [hφ m m.2, hφ l l.2]
  ring

/-- **C135, evolution.**  From a density matrix and a unitary circuit the simulator stores a density matrix, with the expectation values of the evolved
state; from the density matrix of a vector, that of the vector after the circuit. -/
theorem C135_evolve (n : ℕ) (bases : List PStr) (U rho : Mat ℂ) (r : Mat ℂ × List (PStr × (ℕ → ℂ))) (hr : RhoTomo.simulate n bases U rho = some r) :
    ((topM (2 ^ n) rho).PosSemidef → (topM (2 ^ n) r.1).PosSemidef) ∧
    (∀ A : Matrix (Fin (2 ^ n)) (Fin (2 ^ n)) ℂ, (topM (2 ^ n) r.1 * A).trace =
      (topM (2 ^ n) rho * ((topM (2 ^ n) U)ᴴ * A * topM (2 ^ n) U)).trace) ∧
    ((topM (2 ^ n) U)ᴴ * topM (2 ^ n) U = 1 → (topM (2 ^ n) r.1).trace = (topM (2 ^ n) rho).trace) ∧
    (∀ φ : ℕ → ℂ, rho = pureRho φ → topM (2 ^ n) r.1 = topM (2 ^ n) (pureRho fun l => ∑ m ∈ Finset.range (2 ^ n), U l m * φ m)) := by
  unfold RhoTomo.simulate at hr
  split at hr
  · cases hr
  · obtain rfl := Option.some.inj hr
    simp only [topM_evolve]
    have hA : ∀ A : Matrix (Fin (2 ^ n)) (Fin (2 ^ n)) ℂ, (topM (2 ^ n) U * topM (2 ^ n) rho * (topM (2 ^ n) U)ᴴ * A).trace =
        (topM (2 ^ n) rho * ((topM (2 ^ n) U)ᴴ * A * topM (2 ^ n) U)).trace := by
      intro A
      rw [Matrix.mul_assoc, Matrix.mul_assoc, Matrix.trace_mul_comm, Matrix.mul_assoc]
    refine ⟨fun h => h.mul_mul_conjTranspose_same _, hA, ?_, ?_⟩
    · intro h
      have := hA 1
      rw [Matrix.mul_one, Matrix.mul_one, h, Matrix.mul_one] at this
      exact this
    · rintro φ rfl
      ext l m
      rw [Matrix.mul_apply]
      simp only [Matrix.mul_apply, Matrix.conjTranspose_apply]
      unfold topM pureRho
      beta_reduce
      rw [← Fin.sum_univ_eq_sum_range (fun i => U l i * φ i), ← Fin.sum_univ_eq_sum_range (fun j => U m j * φ j), map_sum, Finset.mul_sum]
      refine Finset.sum_congr rfl fun j _ => ?_
      rw [Finset.sum_mul, Finset.sum_mul]
      refine Finset.sum_congr rfl fun i _ => ?_
      rw [map_mul, Complex.star_def]
      ring

theorem rho_dget (n : ℕ) (bases : List PStr) (U rho : Mat ℂ) (r : Mat ℂ × List (PStr × (ℕ → ℂ))) (hr : RhoTomo.simulate n bases U rho = some r)
    (b : PStr) (hb : b ∈ bases) : dget r.2 b = some (RhoTomo.ndiag n r.1 b) ∧ b.length ≤ n := by
  unfold RhoTomo.simulate at hr
  split at hr
  · cases hr
  · rename_i hl
    obtain rfl := Option.some.inj hr
    refine ⟨?_, ?_⟩
    · have hz : ∀ l : List PStr, ∀ x ∈ l.zip (l.map (RhoTomo.ndiag n (RhoTomo.evolve n U rho))), x.2 = RhoTomo.ndiag n (RhoTomo.evolve n U rho) x.1 := by
        intro l
        induction l with
        | nil => simp
        | cons a l ih =>
          intro x hx
          rw [List.map_cons, List.zip_cons_cons, List.mem_cons] at hx
          rcases hx with rfl | hx
          · rfl
          · exact ih x hx
      obtain ⟨v, hv⟩ := dget_isSome (bases.zip (bases.map (RhoTomo.ndiag n (RhoTomo.evolve n U rho)))) b (by
        rw [List.map_fst_zip (by simp)]; exact hb)
      have := hz _ _ (dget_mem _ _ _ hv)
      show dget (bases.zip (bases.map (RhoTomo.ndiag n (RhoTomo.evolve n U rho)))) b = _
      rw [hv]
      exact congrArg some this
    · by_contra h
      exact hl (Bool.or_eq_true_iff.mpr (Or.inr (List.any_eq_true.mpr ⟨b, hb, by simp only [decide_eq_true_eq]; omega⟩)))

theorem ndiag_congr (n : ℕ) (rho rho' : Mat ℂ) (h : topM (2 ^ n) rho = topM (2 ^ n) rho') (b s : PStr) :
    statevector n s (RhoTomo.ndiag n rho b) = statevector n s (RhoTomo.ndiag n rho' b) := by
  rw [statevector_eq, statevector_eq]
  refine Finset.sum_congr rfl fun l hl => ?_
  have e : RhoTomo.ndiag n rho b l = RhoTomo.ndiag n rho' b l := by
    have := congrFun (congrFun ((topM_evolve n (RhoTomo.unitary (RhoTomo.basisFrom 0 b)) rho).trans
      ((congrArg (fun M => _ * M * _) h).trans (topM_evolve n (RhoTomo.unitary (RhoTomo.basisFrom 0 b)) rho').symm)) ⟨l, Finset.mem_range.mp hl⟩) ⟨l, Finset.mem_range.mp hl⟩
    unfold RhoTomo.ndiag
    exact congrArg (· ^ (1 / 2 : ℂ)) this
  rw [e]

/-- The density-matrix backend returns what exact expectation values of the evolved state would give, up to the numbers skipped. -/
theorem rho_of_exact (T : Term FStr ℂ → Option (POp ℂ)) (p : ℕ) (f : Flags) (hp0 : 0 < p) (hp3 : p ≤ 3)
    (Na Nb : ℕ) (hL : ListsUnique p Na (Na + Nb) f.skipDiag (rdme p f (alpha Na) (beta Na Nb)))
    (hL0 : rdme p f (alpha Na) (beta Na Nb) ≠ []) (col : List PStr → ℕ → ℕ) (hcol : ColouringOK col)
    (ψ : Cfg →₀ ℂ) (hreg : ∀ b, ψ b ≠ 0 → ∀ i, Na + Nb ≤ i → b i = false)
    (U : Mat ℂ) (φ : ℕ → ℂ) (hψ : ∀ l < 2 ^ (Na + Nb), ψ (cfgOf l) = ∑ m ∈ Finset.range (2 ^ (Na + Nb)), U l m * φ m)
    (hel : ∀ ind ∈ rdme p f (alpha Na) (beta Na Nb), ∃ Q : POp ℂ, rdmeQubT T f ind (Na + Nb) = some (ind, Q) ∧
      (∀ u ∈ Q, u.1.length = Na + Nb) ∧ l1 Q ≤ 1 ∧ (f.real = false → Q ≠ []))
    (D0 : List ℕ → ℂ)
    (hD0 : tomographyT T p f (alpha Na) (beta Na Nb) (fun s => pair ψ (denP 0 s ψ)) = some D0) :
    ∃ D, RhoTomo.runT T p f (alpha Na) (beta Na Nb) col U (pureRho φ) = some D ∧
      ∀ c a : List ℕ, c.length = p → a.length = p → (∀ x ∈ c, x < Na + Nb) → (∀ x ∈ a, x < Na + Nb) →
        ‖D (c ++ a) - D0 (c ++ a)‖ ≤ 2 ^ (Na + Nb) * 1e-28 := by
  set N := Na + Nb with hNdef
  have hlen : (alpha Na).length + (beta Na Nb).length = N := by simp [alpha, beta, hNdef]
  set L := rdme p f (alpha Na) (beta Na Nb) with hLdef
  choose! Qof hQ1 hQ2 hQ3 hQ4 using hel
  have hels : L.mapM (fun ind => rdmeQubT T f ind N) = some (L.map (fun ind => (ind, Qof ind))) :=
    mapM_eq_map L _ _ hQ1
  obtain ⟨ops, mp, hm, hm1, hm2, hm3⟩ := C95_plan f.real N col hcol (L.map Qof) (by
    intro Q hQ
    obtain ⟨ind, hind, rfl⟩ := List.mem_map.mp hQ
    exact hQ2 ind hind)
  have hops : ops ≠ [] := by
    apply hm3
    by_cases hr : f.real = true
    · exact Or.inl hr
    · right
      obtain ⟨ind, hind⟩ := List.exists_mem_of_ne_nil L hL0
      exact ⟨Qof ind, List.mem_map_of_mem hind, hQ4 ind hind (by simpa using hr)⟩
  have hsim : ∃ r, RhoTomo.simulate N ops U (pureRho φ) = some r := by
    unfold RhoTomo.simulate
    rw [if_neg]
    · exact ⟨_, rfl⟩
    · rw [Bool.or_eq_true_iff, List.any_eq_true]
      rintro (h | ⟨c, hc, h⟩)
      · exact hops (List.isEmpty_iff.mp h)
      simp only [decide_eq_true_eq] at h
      have := hm2 c hc
      omega
  obtain ⟨r, hsim⟩ := hsim
  have hrho := (C135_evolve N ops U _ r hsim).2.2.2 φ rfl
  have hε : (0 : ℝ) ≤ 2 ^ N * 1e-28 := by positivity
  have hmeas : (fun s => innerQ N ψ ((denP 0 s : Oper ℂ) ψ)) = fun s => pair ψ (denP 0 s ψ) := by
    funext s
    exact (pair_eq_innerQ N ψ hreg _).symm
  have hval : ∀ ind ∈ L, ∃ x, valueSV N mp r.2 (Qof ind) = some x ∧
      ‖x - value (fun s => pair ψ (denP 0 s ψ)) (Qof ind)‖ ≤ 2 ^ N * 1e-28 := by
    intro ind hind
    obtain ⟨x, hx, hb⟩ := valueSV_spec N ψ mp r.2 (2 ^ N * 1e-28) hε (Qof ind) (by
      intro u hu
      obtain ⟨b, hb1, hb2, hb3⟩ := hm1 (Qof ind) (List.mem_map_of_mem hind) u hu
      obtain ⟨hv, hbl⟩ := rho_dget N ops U _ r hsim b hb2
      refine ⟨b, _, hb1, hv, ?_⟩
      rw [ndiag_congr N _ _ hrho, ← pureRho_trace N ψ hreg (denP 0 u.1) _ (fun l hl => (hψ l hl).symm)]
      exact C135_values N _ (pureRho_psd _ _) u.1 b hb3 hbl)
    rw [hmeas] at hb
    refine ⟨x, hx, hb.trans ?_⟩
    have := hQ3 ind hind
    nlinarith
  choose! val hv1 hv2 using hval
  have hvals : (L.map (fun ind => (ind, Qof ind))).mapM (fun e => (valueSV N mp r.2 e.2).map (fun v => (e.1, v))) =
      some (L.map (fun ind => (ind, val ind))) := by
    have := mapM_eq_map (L.map (fun ind => (ind, Qof ind))) (fun e => (valueSV N mp r.2 e.2).map (fun v => (e.1, v)))
      (fun e => (e.1, val e.1)) (by
        intro e he
        obtain ⟨ind, hind, rfl⟩ := List.mem_map.mp he
        rw [hv1 ind hind]
        rfl)
    rw [this, List.map_map]
    rfl
  refine ⟨build p (L.map (fun ind => (ind, val ind))), ?_, ?_⟩
  · unfold RhoTomo.runT
    simp only [hlen]
    rw [← hLdef, hels, Option.bind_some, List.map_map]
    rw [show ((fun x : List ℕ × POp ℂ => x.2) ∘ fun ind => (ind, Qof ind)) = Qof from rfl, hm, Option.bind_some, hsim,
      Option.bind_some, hvals, if_neg (by simpa using hL0)]
    rfl
  · intro c a hc ha hcN haN
    have hD0' : D0 = build p (L.map (fun ind => (ind, value (fun s => pair ψ (denP 0 s ψ)) (Qof ind)))) := by
      unfold tomographyT at hD0
      rw [hlen, ← hLdef, mapM_eq_map L _ (fun ind => (ind, value (fun s => pair ψ (denP 0 s ψ)) (Qof ind)))
        (fun ind hind => by rw [hQ1 ind hind]; rfl)] at hD0
      exact (Option.some.inj hD0).symm
    rw [hD0']
    exact fill_error p Na N hp0 hp3 f.skipDiag L hL val _ _ hε hv2 c a hc ha hcN haN

/-- **C135.**  Tomography with the density-matrix backend, end to end: started from the density matrix of a vector `φ` and a circuit with matrix `U`
taking `φ` to a normalised state `ψ` of the register with a fixed number of alpha electrons, it returns the tensor of `⟨ψ|a†…a|ψ⟩` (or its real or
imaginary part) at every index, up to `2^N · 1e-28`.  Missing, as in C96: order 1 with real parts, order 4, more beta than alpha orbitals. -/
theorem C135_tomography_partial (p : ℕ) (f : Flags) (hf : f.real = true ∨ f.imag = true)
    (hp : p = 2 ∨ p = 3 ∨ (p = 1 ∧ f.real = false)) (Na Nb : ℕ) (hN : Nb ≤ Na)
    (hL0 : rdme p f (alpha Na) (beta Na Nb) ≠ []) (col : List PStr → ℕ → ℕ) (hcol : ColouringOK col)
    (ψ : Cfg →₀ ℂ) (h1 : pair ψ ψ = 1) (hreg : ∀ b, ψ b ≠ 0 → ∀ i, Na + Nb ≤ i → b i = false)
    (n : ℤ) (hs : Sector Na n ψ)
    (U : Mat ℂ) (φ : ℕ → ℂ) (hψ : ∀ l < 2 ^ (Na + Nb), ψ (cfgOf l) = ∑ m ∈ Finset.range (2 ^ (Na + Nb)), U l m * φ m) :
    ∃ D, RhoTomo.runT jordanWigner p f (alpha Na) (beta Na Nb) col U (pureRho φ) = some D ∧
      ∀ c a : List ℕ, c.length = p → a.length = p → (∀ x ∈ c, x < Na + Nb) → (∀ x ∈ a, x < Na + Nb) →
        ‖D (c ++ a) - target f ψ c a‖ ≤ 2 ^ (Na + Nb) * 1e-28 := by
  obtain ⟨D0, hD0, hD0e⟩ := C62_tomography_partial p f hf hp Na Nb hN ψ h1 n hs
    (fun s => pair ψ (denP 0 s ψ)) (fun _ => rfl)
  set N := Na + Nb with hNdef
  have hlen : (alpha Na).length + (beta Na Nb).length = N := by simp [alpha, beta, hNdef]
  set L := rdme p f (alpha Na) (beta Na Nb) with hLdef
  have hp0 : 0 < p := by omega
  have hp3 : p ≤ 3 := by omega
  have hL : ListsUnique p Na N f.skipDiag L := by
    rcases hp with rfl | rfl | ⟨rfl, _⟩
    · exact C27_order2_partial f Na Nb hN
    · exact C27_order3_partial f Na Nb hN
    · exact C27_order1 f Na Nb
  -- the elements
  have hskip : f.real = false → ∀ c a, c ++ a.reverse ∈ L → Sorted p N c → Sorted p N a → nAlpha Na c = nAlpha Na a →
      c ≠ a := by
    rintro hr c _ hind hc ha hn rfl
    have hskip : f.skipDiag = true := by
      simp only [Flags.skipDiag, hr]
      simpa [hr] using hf
    have := hL.2 c c hc ha hn
    rw [if_pos rfl, if_pos ⟨rfl, hskip⟩, add_zero] at this
    exact (List.count_pos_iff.mpr hind).ne' this
  have hel : ∀ ind ∈ L, ∃ Q : POp ℂ, rdmeQubT jordanWigner f ind N = some (ind, Q) ∧ (∀ u ∈ Q, u.1.length = N) ∧ l1 Q ≤ 1 ∧
      (f.real = false → Q ≠ []) := by
    intro ind hind
    obtain ⟨c, a, rfl, hc, ha, hn⟩ := hL.1 ind hind
    have hne : 2 ≤ p ∨ (p = 1 ∧ c ≠ a) := by
      rcases hp with h | h | ⟨rfl, hr⟩
      · left; omega
      · left; omega
      · exact Or.inr ⟨rfl, hskip hr c a hind hc ha hn⟩
    obtain ⟨Q, q1, q2, q3⟩ := rdmeQub_full p N f hf (by omega) c a hc ha hne
    refine ⟨Q, q1, q2, l1_rdmeQub jordanWigner (denF 0) jw_spec f _ _ N Q q1, ?_⟩
    rintro hr rfl
    have hi : f.imag = true := by simpa [hr] using hf
    rw [hr, hi] at q3
    exact rdmOp_ne p N c a hc ha (hskip hr c a hind hc ha hn) _ _ (by simp [half]) q3.symm
  obtain ⟨D, hD, hDe⟩ := rho_of_exact jordanWigner p f hp0 hp3 Na Nb hL hL0 col hcol ψ hreg U φ hψ hel D0 hD0
  exact ⟨D, hD, fun c a hc ha hcN haN => by rw [← hD0e c a hc ha hcN haN]; exact hDe c a hc ha hcN haN⟩

/-- A case meeting the hypotheses: two alpha and two beta orbitals, order 2, both parts, an empty circuit and the density matrix of `exState`. -/
example : ∃ D, RhoTomo.runT jordanWigner 2 ⟨true, true⟩ (alpha 2) (beta 2 2) (fun _ i => i) ident (pureRho fun l => exState (cfgOf l)) = some D := by
  obtain ⟨D, hD, _⟩ := C135_tomography_partial 2 ⟨true, true⟩ (Or.inl rfl) (Or.inl rfl) 2 2 le_rfl exState_reg.1 (fun _ i => i) colouring_id exState
    exState_ok.1 exState_reg.2 1 exState_ok.2 ident (fun l => exState (cfgOf l)) (by
      intro l hl
      rw [Finset.sum_eq_single l]
      · simp [ident]
      · intro m _ hm
        rw [ident, if_neg (Ne.symm hm), zero_mul]
      · intro h; exact absurd (Finset.mem_range.mpr hl) h)
  exact ⟨D, hD⟩

end
end HQCA.Props
