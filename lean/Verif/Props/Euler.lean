import Verif.Model.Euler
import Verif.Props.Ansatz
import Verif.Props.QResidual
import Verif.Props.Transforms
import Verif.Proofs.Independent
import Mathlib.Analysis.Calculus.Deriv.MeanValue

/-!
# The Euler step of the ACSE (C102) and the density-matrix backend (C103)
-/

set_option linter.unusedSectionVars false

namespace HQCA
namespace Props
open Euler

section Ansatz
variable {α K : Type} [DecidableEq α] [Coef K]

theorem coef_scaled (eps : K) (A : OpD α K) (s : α) : coef (scaled eps A) s = -(eps * coef A s) := by
  induction A with
  | nil => simp [scaled, coef]
  | cons t A ih =>
    have e : scaled eps (t :: A) = (t.1, t.2 * (-1 * eps)) :: scaled eps A := rfl
    rw [e, coef_cons, coef_cons, ih]
    dsimp only
    split <;> ring

theorem scaled_unique (eps : K) (A : OpD α K) (h : UniqueKeys A) : UniqueKeys (scaled eps A) := by
  unfold UniqueKeys scaled at *
  rw [List.map_map]
  exact h

/-- **C102.** The Euler step adds `-ε` times the residual operator to the ansatz: the total coefficient of every term
changes by `-ε` times its coefficient in the residual, up to `1e-12` per layer. -/
theorem C102_ansatz (closed : ℤ) (hc : closed ≤ 1) (eps : ℂ) (s : St α ℂ) (hL : ∀ A ∈ s.psi, UniqueKeys A)
    (hA : UniqueKeys s.A) (k : α) :
    ‖total (step closed eps s).psi k - (total s.psi k - eps * coef s.A k)‖ ≤ (s.psi.length + 1) * 1e-12 := by
  have := C39_add_complex closed hc s.psi (scaled eps s.A) hL (scaled_unique eps s.A hA) k
  rw [coef_scaled, ← sub_eq_add_neg] at this
  exact this

/-- **C102 fails** for the residual operator itself: an operator obtained from the driver before the step is scaled by
`-ε` by the step (shallow copy); terms that are not small after scaling show it for every kind of ansatz. -/
theorem C102_fails_residual (closed : ℤ) (eps : K) (s : St α K) (k : α) (hA : UniqueKeys s.A)
    (hs : small (eps * coef s.A k) = false) : coef (step closed eps s).A k = -(eps * coef s.A k) := by
  show coef (Ansatz.argAfter closed s.psi (scaled eps s.A)) k = _
  unfold Ansatz.argAfter
  rw [← coef_scaled]
  split
  · rfl
  split
  · rw [OpD.coef_clean _ (scaled_unique eps _ hA), coef_scaled, Coef.small_neg, hs]
    rfl
  · rfl

/-- With `ε = 1/10` the coefficient 1 of the residual reads `-1/10` after the step; the ansatz has the new layer. -/
example : (step (K := GQ) 1 ⟨1/10, 0⟩ ⟨[[("a", 2)]], [("b", 1), ("c", 3)]⟩).psi
      = [[("a", 2)], [("b", ⟨-1/10, 0⟩), ("c", ⟨-3/10, 0⟩)]] ∧
    (step (K := GQ) 1 ⟨1/10, 0⟩ ⟨[[("a", 2)]], [("b", 1), ("c", 3)]⟩).A = [("b", ⟨-1/10, 0⟩), ("c", ⟨-3/10, 0⟩)] := by
  decide +kernel
end Ansatz

/-! ### The step lowers the energy -/

section Descent
open Resid Ham Instr Prim Filter Topology
noncomputable section

theorem IsAdj.sum' {K ι : Type} [Coef K] (s : Finset ι) (A B : ι → Oper K) (h : ∀ i ∈ s, IsAdj (A i) (B i)) :
    IsAdj (∑ i ∈ s, A i) (∑ i ∈ s, B i) := by
  classical
  induction s using Finset.induction_on with
  | empty => simpa [conj_zero] using (IsAdj.one (K := K)).smul 0
  | insert a s ha ih =>
    rw [Finset.sum_insert ha, Finset.sum_insert ha]
    exact (h a (by simp)).add (ih fun i hi => h i (by simp [hi]))

/-- An operator is determined by its adjoint. -/
theorem IsAdj.left_unique {K : Type} [Coef K] {A A' B : Oper K} (h : IsAdj A B) (h' : IsAdj A' B) : A = A' := by
  refine LinearMap.ext fun ψ => funext fun b => ?_
  obtain ⟨φ, h1, h2⟩ := h (Finsupp.single b 1)
  obtain ⟨φ', h1', h2'⟩ := h' (Finsupp.single b 1)
  have e : φ = φ' := DFunLike.coe_injective (h1.trans h1'.symm)
  have := (h2 ψ).trans (e ▸ (h2' ψ).symm)
  unfold pair at this
  rwa [Finsupp.sum_single_index (by simp [conj_zero]), Finsupp.sum_single_index (by simp [conj_zero]), conj_one, one_mul,
    one_mul] at this

/-- Conjugating the coefficients gives the adjoint of a Pauli operator. -/
theorem isAdj_denPO (C : POp ℂ) : IsAdj (denPO (C.map fun t => (t.1, (starRingEnd ℂ) t.2))) (denPO C) := by
  induction C with
  | nil => simpa [denPO, OpD.denD_nil, conj_zero] using (IsAdj.one (K := ℂ)).smul 0
  | cons t C ih =>
    have e1 : (denPO (t :: C) : Oper ℂ) = t.2 • denP 0 t.1 + denPO C := rfl
    have e2 : (denPO ((t :: C).map fun t => (t.1, (starRingEnd ℂ) t.2)) : Oper ℂ)
      = (starRingEnd ℂ) t.2 • denP 0 t.1 + denPO (C.map fun t => (t.1, (starRingEnd ℂ) t.2)) := rfl
    rw [e1, e2]
    have := (isAdj_denP (K := ℂ) 0 t.1).smul ((starRingEnd ℂ) t.2)
    rw [show conj ((starRingEnd ℂ) t.2) = t.2 from Complex.conj_conj _] at this
    exact this.add ih

theorem coef_map_add {α : Type} [DecidableEq α] (g : ℂ → ℂ) (g0 : g 0 = 0) (ga : ∀ x y, g (x + y) = g x + g y)
    (C : OpD α ℂ) (s : α) : coef (C.map fun t => (t.1, g t.2)) s = g (coef C s) := by
  induction C with
  | nil => simp [coef, g0]
  | cons t C ih =>
    rw [List.map_cons, coef_cons, coef_cons, ih, ga]
    congr 1
    dsimp only
    split
    · rfl
    · exact g0.symm

/-- The Pauli form of an anti-Hermitian operator has imaginary coefficients. -/
theorem antiherm_imag (n : ℕ) (C : POp ℂ) (hU : UniqueKeys C) (hn : ∀ t ∈ C, t.1.length = n)
    (h : IsAdj (-denPO C) (denPO C)) : ∀ t ∈ C, t.2.re = 0 := by
  have e := IsAdj.left_unique (isAdj_denPO C) h
  have e2 : ∀ C : POp ℂ, (-denPO C : Oper ℂ) = denPO (C.map fun t => (t.1, -t.2)) := by
    intro C
    induction C with
    | nil => simp [denPO, OpD.denD_nil]
    | cons t C ih =>
      have a1 : (denPO (t :: C) : Oper ℂ) = t.2 • denP 0 t.1 + denPO C := rfl
      have a2 : (denPO ((t :: C).map fun t => (t.1, -t.2)) : Oper ℂ) = (-t.2) • denP 0 t.1 + denPO (C.map fun t => (t.1, -t.2)) := rfl
      rw [a1, a2, ← ih]
      module
  intro t ht
  have hl : ∀ f : ℂ → ℂ, ∀ u ∈ C.map (fun t => (t.1, f t.2)), u.1.length = n := by
    intro f u hu
    obtain ⟨v, hv, rfl⟩ := List.mem_map.mp hu
    exact hn v hv
  have := coef_unique n _ _ (hl _) (hl _) (e.trans (e2 C)) t.1
  rw [coef_map_add _ (map_zero _) (map_add _), coef_map_add _ neg_zero neg_add, OpD.coef_of_mem C hU t ht] at this
  have hre := congrArg Complex.re this
  simp at hre
  linarith

/-- The gates of a step `ε` for a generator with Pauli form `C`. -/
def stepGates (C : POp ℂ) (ε : ℝ) : List (ℝ × PStr) := C.map fun t => (-(ε * t.2.im), t.1)

/-- The instruction set emits these gates for the scaled generator, as long as no angle is below its threshold. -/
theorem stepGates_emitted (C : POp ℂ) (hC : ∀ t ∈ C, t.2.re = 0) (ε : ℝ) (hε : ∀ t ∈ C, (1e-14 : ℝ) < |ε * t.2.im|)
    (prev : Option ℝ) : applyOp 1 prev (scaled (ε : ℂ) C) = some (stepGates C ε) := by
  induction C generalizing prev with
  | nil => rfl
  | cons t C ih =>
    have h2 := hε t (by simp)
    have him : (t.2 * (-1 * (ε : ℂ))).im = -(ε * t.2.im) := by simp; ring
    have hre : (t.2 * (-1 * (ε : ℂ))).re = 0 := by simp [hC t (by simp)]
    have e : scaled (ε : ℂ) (t :: C) = (t.1, t.2 * (-1 * (ε : ℂ))) :: scaled (ε : ℂ) C := rfl
    have ha : angleOf prev (t.2 * (-1 * (ε : ℂ))) = some (-(ε * t.2.im)) := by
      unfold angleOf
      rw [him, hre, if_neg (by rw [abs_neg]; exact not_lt.mpr (le_of_lt h2)), if_pos (by rw [abs_zero]; norm_num)]
    rw [e]
    unfold applyOp
    rw [ha]
    dsimp only
    rw [if_pos (by rw [abs_neg]; exact h2), ih (fun u hu => hC u (by simp [hu])) (fun u hu => hε u (by simp [hu]))]
    simp [stepGates]

/-- Derivative of an expectation value along the gates of a step. -/
theorem hasDeriv_step (C : POp ℂ) (hC : ∀ t ∈ C, t.2.re = 0) (ψ : Cfg →₀ ℂ) (H : Oper ℂ) (ψe : ℝ → Cfg →₀ ℂ)
    (hψ : ∀ ε, (ψe ε : Cfg → ℂ) = circOp (gatesOf (stepGates C ε)) ψ) :
    HasDerivAt (fun ε => pair (ψe ε) (H (ψe ε))) (pair ψ ((denPO C * H - H * denPO C : Oper ℂ) ψ)) 0 := by
  let as : List (ℝ × PStr) := C.map fun t => (-t.2.im, t.1)
  have hgs : ∀ ε, circOp (gatesOf (stepGates C ε)) = evol as ε := by
    intro ε
    unfold evol stepGates
    rw [List.map_map]
    congr 2
    refine List.map_congr_left fun t _ => ?_
    simp only [Function.comp]
    congr 1
    ring
  have key : ∀ d, pair (ψe d) (H (ψe d)) = evState ψ (evolAdj as d * H * evol as d) := by
    intro d
    obtain ⟨φ, h1, h2⟩ := isAdj_evol as d ψ
    have : φ = ψe d := by
      apply DFunLike.coe_injective
      rw [h1, hψ, hgs]
    show _ = pair ψ (evolAdj as d (H (evol as d ψ)))
    rw [h2, this, hψ, hgs]
  have hd := ((((hasD_evol as).2.mul (HasD.const H)).mul (hasD_evol as).1).ev (evState ψ))
  rw [(evol_zero _).1, (evol_zero _).2] at hd
  have hsum : ∀ G : Oper ℂ, G * (as.map fun g => (Complex.I * g.1) • genOf g.2).sum
      - (as.map fun g => (Complex.I * g.1) • genOf g.2).sum * G = -(G * denPO C - denPO C * G) := by
    intro G
    show G * ((C.map fun t => (-t.2.im, t.1)).map fun g : ℝ × PStr => (Complex.I * g.1) • genOf g.2).sum
      - ((C.map fun t => (-t.2.im, t.1)).map fun g : ℝ × PStr => (Complex.I * g.1) • genOf g.2).sum * G = _
    clear hd key hgs hψ as
    induction C with
    | nil => simp [denPO, OpD.denD_nil]
    | cons t C ih =>
      have ih' := ih (fun u hu => hC u (by simp [hu]))
      have hz : Complex.I * ((-t.2.im : ℝ) : ℂ) = -t.2 := by
        apply Complex.ext <;> simp [hC t (by simp)]
      have e : (denPO (t :: C) : Oper ℂ) = t.2 • denP 0 t.1 + denPO C := rfl
      have g := genOf_comm G t.1
      have r : ∀ (c : ℂ) (X Y : Oper ℂ), (c • (G * X) + G * Y) - (c • (X * G) + Y * G)
          = c • (G * X - X * G) + (G * Y - Y * G) := fun c X Y => by module
      rw [List.map_cons, List.map_cons, List.sum_cons, e, mul_add, add_mul, mul_add, add_mul, mul_smul_comm, smul_mul_assoc,
        mul_smul_comm, smul_mul_assoc, r, r, ih', g, hz]
      module
  have hval : evState ψ ((-(as.map fun g => (Complex.I * g.1) • genOf g.2).sum * H + 1 * 0) * 1
      + 1 * H * (as.map fun g => (Complex.I * g.1) • genOf g.2).sum)
      = pair ψ ((denPO C * H - H * denPO C : Oper ℂ) ψ) := by
    have e : (-(as.map fun g => (Complex.I * g.1) • genOf g.2).sum * H + 1 * 0) * 1
        + 1 * H * (as.map fun g => (Complex.I * g.1) • genOf g.2).sum
        = denPO C * H - H * denPO C := by
      rw [← neg_sub (H * denPO C), ← hsum H]
      generalize (as.map fun g => (Complex.I * g.1) • genOf g.2).sum = S
      rw [mul_zero, add_zero, mul_one, one_mul]
      exact (by rw [sub_eq_add_neg, add_comm]; congr 1)
    rw [e]
    rfl
  rw [hval] at hd
  exact hd.congr_of_eventuallyEq (Eventually.of_forall key)

theorem rdm2_conj {r : ℕ} (ψ : Cfg →₀ ℂ) (hψ : RealAmp (ψ : Cfg → ℂ)) (a b c d : Fin r) :
    (starRingEnd ℂ) (rdm2 (evState ψ) a b c d) = rdm2 (evState ψ) a b c d := by
  have e : rdm2 (evState ψ) a b c d = rdm ψ [a.val, b.val] [c.val, d.val] := by
    show pair ψ _ = pair ψ _
    unfold rdmOp
    simp [mul_assoc]
  rw [e]
  exact pair_real ψ _ hψ (hψ.rdmOp _ _)

theorem rdm3_conj {r : ℕ} (ψ : Cfg →₀ ℂ) (hψ : RealAmp (ψ : Cfg → ℂ)) (a b c d e f : Fin r) :
    (starRingEnd ℂ) (rdm3 (evState ψ) a b c d e f) = rdm3 (evState ψ) a b c d e f := by
  have h : rdm3 (evState ψ) a b c d e f = rdm ψ [a.val, b.val, c.val] [d.val, e.val, f.val] := by
    show pair ψ _ = pair ψ _
    unfold rdmOp
    simp [mul_assoc]
  rw [h]
  exact pair_real ψ _ hψ (hψ.rdmOp _ _)

theorem residual_conj {r : ℕ} (w D2 : Fin r → Fin r → Fin r → Fin r → ℂ) (D3 : Fin r → Fin r → Fin r → Fin r → Fin r → Fin r → ℂ)
    (hw : ∀ a b c d, (starRingEnd ℂ) (w a b c d) = w a b c d) (h2 : ∀ a b c d, (starRingEnd ℂ) (D2 a b c d) = D2 a b c d)
    (h3 : ∀ a b c d e f, (starRingEnd ℂ) (D3 a b c d e f) = D3 a b c d e f) (i k j l : Fin r) :
    (starRingEnd ℂ) (residual w D2 D3 i k j l) = residual w D2 D3 i k j l := by
  unfold Resid.residual wmat
  simp only [map_add, map_sub, map_sum, map_mul, map_zero, hw, h2, h3]

theorem k2_conj {r : ℕ} (h1 : Fin r → Fin r → ℝ) (V : Fin r → Fin r → Fin r → Fin r → ℝ) (ne : ℝ) (a b c d : Fin r) :
    (starRingEnd ℂ) (k2 (fun a b => (h1 a b : ℂ)) (fun a b c d => (V a b c d : ℂ)) (ne : ℂ) a b c d)
      = k2 (fun a b => (h1 a b : ℂ)) (fun a b c d => (V a b c d : ℂ)) (ne : ℂ) a b c d := by
  unfold k2
  simp only [map_add, map_sum, map_mul, apply_ite (starRingEnd ℂ), map_neg, map_div₀, map_sub, map_zero, map_one,
    Complex.conj_ofReal, Complex.conj_ofNat]

theorem sum4_neg {R : Type} [AddCommGroup R] [Module ℂ R] {r : ℕ} (A : Fin r → Fin r → Fin r → Fin r → ℂ)
    (g : Fin r → Fin r → Fin r → Fin r → R) :
    -(∑ i, ∑ k, ∑ j, ∑ l, (-A i k j l) • g i k j l) = ∑ i, ∑ k, ∑ j, ∑ l, A i k j l • g i k j l := by
  simp only [neg_smul, Finset.sum_neg_distrib, neg_neg]

theorem sum4_swap {R : Type} [AddCommGroup R] {r : ℕ} (f : Fin r → Fin r → Fin r → Fin r → R) :
    ∑ a, ∑ b, ∑ c, ∑ d, f a b c d = ∑ c, ∑ d, ∑ a, ∑ b, f a b c d := by
  calc _ = ∑ a, ∑ c, ∑ b, ∑ d, f a b c d := Finset.sum_congr rfl fun a _ => Finset.sum_comm
    _ = ∑ c, ∑ a, ∑ b, ∑ d, f a b c d := Finset.sum_comm
    _ = ∑ c, ∑ a, ∑ d, ∑ b, f a b c d := Finset.sum_congr rfl fun c _ => Finset.sum_congr rfl fun a _ => Finset.sum_comm
    _ = ∑ c, ∑ d, ∑ a, ∑ b, f a b c d := Finset.sum_congr rfl fun c _ => Finset.sum_comm

/-- The operator of a real antisymmetric residual is anti-Hermitian. -/
theorem residual_antiherm {r : ℕ} (A : Fin r → Fin r → Fin r → Fin r → ℂ) (hr : ∀ i k j l, (starRingEnd ℂ) (A i k j l) = A i k j l)
    (ha : ∀ i k j l, A j l i k = -A i k j l) :
    IsAdj (-∑ i, ∑ k, ∑ j, ∑ l, (-A i k j l) • (gop i k j l : Oper ℂ)) (∑ i, ∑ k, ∑ j, ∑ l, (-A i k j l) • gop i k j l) := by
  have e1 : (-∑ i, ∑ k, ∑ j, ∑ l, (-A i k j l) • (gop i k j l : Oper ℂ)) = ∑ i, ∑ k, ∑ j, ∑ l, A i k j l • gop i k j l :=
    sum4_neg A _
  have e2 : (∑ i, ∑ k, ∑ j, ∑ l, (-A i k j l) • (gop i k j l : Oper ℂ)) = ∑ i, ∑ k, ∑ j, ∑ l, A i k j l • gop j l i k := by
    rw [sum4_swap (fun i k j l => A i k j l • (gop j l i k : Oper ℂ))]
    exact Finset.sum_congr rfl fun i _ => Finset.sum_congr rfl fun k _ => Finset.sum_congr rfl fun j _ =>
      Finset.sum_congr rfl fun l _ => by rw [ha i k j l]
  rw [e1, e2]
  refine IsAdj.sum' _ _ _ fun i _ => IsAdj.sum' _ _ _ fun k _ => IsAdj.sum' _ _ _ fun j _ => IsAdj.sum' _ _ _ fun l _ => ?_
  have := (isAdj_gop (K := ℂ) i k j l).smul (A i k j l)
  rwa [show conj (A i k j l) = A i k j l from hr i k j l] at this

theorem sq_sum_pos {r : ℕ} (x : Fin r → Fin r → Fin r → Fin r → ℝ) (i k j l : Fin r) (h : x i k j l ≠ 0) :
    0 < ∑ i, ∑ k, ∑ j, ∑ l, (x i k j l) ^ 2 :=
  Finset.sum_pos' (fun _ _ => Finset.sum_nonneg fun _ _ => Finset.sum_nonneg fun _ _ => Finset.sum_nonneg fun _ _ => sq_nonneg _)
    ⟨i, Finset.mem_univ _, Finset.sum_pos' (fun _ _ => Finset.sum_nonneg fun _ _ => Finset.sum_nonneg fun _ _ => sq_nonneg _)
      ⟨k, Finset.mem_univ _, Finset.sum_pos' (fun _ _ => Finset.sum_nonneg fun _ _ => sq_nonneg _)
        ⟨j, Finset.mem_univ _, Finset.sum_pos' (fun _ _ => sq_nonneg _) ⟨l, Finset.mem_univ _, pow_pos_of_ne h⟩⟩⟩⟩
where
  pow_pos_of_ne {y : ℝ} (h : y ≠ 0) : 0 < y ^ 2 := by positivity

/-- A function with negative derivative at 0 decreases at first. -/
theorem lower_of_deriv (f : ℝ → ℝ) (D : ℝ) (h : HasDerivAt f D 0) (hD : D < 0) : ∃ δ > 0, ∀ ε, 0 < ε → ε < δ → f ε < f 0 := by
  have hs := hasDerivAt_iff_tendsto_slope_zero.mp h
  have hev0 := hs.eventually (gt_mem_nhds hD)
  rw [eventually_nhdsWithin_iff, Metric.eventually_nhds_iff] at hev0
  obtain ⟨δ, hδ, hb⟩ := hev0
  refine ⟨δ, hδ, fun ε h0 hlt => ?_⟩
  have := hb (y := ε) (by rw [dist_zero_right, Real.norm_eq_abs, abs_of_pos h0]; exact hlt) (ne_of_gt h0)
  simp only [zero_add, smul_eq_mul] at this
  have h2 := mul_neg_of_pos_of_neg h0 this
  rw [← mul_assoc, mul_inv_cancel₀ (ne_of_gt h0), one_mul] at h2
  linarith

theorem hasDeriv_re (f : ℝ → ℂ) (D : ℝ) (h : HasDerivAt f (D : ℂ) 0) : HasDerivAt (fun x => (f x).re) D 0 := by
  have := Complex.reCLM.hasFDerivAt.comp_hasDerivAt (0 : ℝ) h
  rw [Complex.reCLM_apply, Complex.ofReal_re] at this
  exact this

/-- **C102.** For real integrals, a real state with a definite number `ne ≠ 1` of electrons and any truncation of the
residual that does not look at its sign: the operator of the kept entries has a Pauli form with imaginary coefficients;
for a step `ε` whose angles are all above `1e-14` the circuit of `-ε` times it consists of one gate per term; and along these
circuits the energy has derivative minus the sum of the squares of the kept entries at `ε = 0`.  So unless all kept entries
are zero, every small enough Euler step lowers the energy. -/
theorem C102_descent {r : ℕ} (ψ : Cfg →₀ ℂ) (hψ : RealAmp (ψ : Cfg → ℂ)) (ne : ℝ) (hne : ne ≠ 1)
    (hN : numberOp r (ψ : Cfg → ℂ) = (ne : ℂ) • (ψ : Cfg → ℂ))
    (h1 : Fin r → Fin r → ℝ) (V : Fin r → Fin r → Fin r → Fin r → ℝ) (hh : ∀ a b, h1 a b = h1 b a)
    (hV : ∀ a b c d, V a b c d = V c d a b) (hx : ∀ a b c d, V a b c d = V b a d c)
    (keep : ℂ → Bool) (hk : ∀ x, keep (-x) = keep x) :
    let H : Oper ℂ := secondQ (fun a b => (h1 a b : ℂ)) (fun a b c d => (V a b c d : ℂ))
    let A := residual (k2 (fun a b => (h1 a b : ℂ)) (fun a b c d => (V a b c d : ℂ)) (ne : ℂ)) (rdm2 (evState ψ) (r := r))
      (rdm3 (evState ψ))
    ∃ B C, resOp keep A = some B ∧ UniqueKeys C ∧ (∀ t ∈ C, t.1.length = r ∧ t.2.re = 0) ∧
      denPO C = denD (denF 0) B ∧
      (∀ ε : ℝ, (∀ t ∈ C, (1e-14 : ℝ) < |ε * t.2.im|) → applyOp 1 none (scaled (ε : ℂ) C) = some (stepGates C ε)) ∧
      ∀ ψe : ℝ → Cfg →₀ ℂ, (∀ ε, (ψe ε : Cfg → ℂ) = circOp (gatesOf (stepGates C ε)) ψ) →
        HasDerivAt (fun ε => (pair (ψe ε) (H (ψe ε))).re) (-∑ i, ∑ k, ∑ j, ∑ l, ((kept keep (A i k j l)).re) ^ 2) 0 ∧
        ((∃ i k j l, kept keep (A i k j l) ≠ 0) →
          ∃ δ > 0, ∀ ε, 0 < ε → ε < δ → (pair (ψe ε) (H (ψe ε))).re < (pair (ψe 0) (H (ψe 0))).re) := by
  intro H A
  have hhc : ∀ a b, ((h1 a b : ℝ) : ℂ) = (h1 b a : ℂ) := fun a b => by rw [hh]
  have hVc : ∀ a b c d, ((V a b c d : ℝ) : ℂ) = (V c d a b : ℂ) := fun a b c d => by rw [hV]
  have hxc : ∀ a b c d, ((V a b c d : ℝ) : ℂ) = (V b a d c : ℂ) := fun a b c d => by rw [hx]
  have hnec : (ne : ℂ) ≠ 1 := by exact_mod_cast hne
  have hev : ∀ X : Oper ℂ, evState ψ (X * numberOp r) = (ne : ℂ) * evState ψ X := fun X => by
    show pair ψ (X (numberOp r ψ)) = _ * pair ψ (X ψ)
    rw [hN, map_smul, pair_smul_right]
  have hAr : ∀ i k j l, (starRingEnd ℂ) (A i k j l) = A i k j l :=
    residual_conj _ _ _ (k2_conj h1 V ne) (rdm2_conj ψ hψ) (rdm3_conj ψ hψ)
  have hAa : ∀ i k j l, A j l i k = -A i k j l := fun i k j l =>
    residual_antisymm _ _ _ (k2_symm _ _ _ hhc hVc) (k2_exchange _ _ _ hxc) (rdm3_real ψ hψ) i k j l
  have hdesc : ∃ B, resOp keep A = some B ∧ evState ψ (denD (denF 0) B * H - H * denD (denF 0) B)
      = -∑ i, ∑ k, ∑ j, ∑ l, kept keep (A i k j l) ^ 2 :=
    C74_descent (evState ψ) (ne : ℂ) hnec hev (rdm2_real ψ hψ) _ _ hhc hVc hxc keep
  clear_value A H
  obtain ⟨B', b1, b2⟩ := hdesc
  have hkr : ∀ i k j l, (starRingEnd ℂ) (kept keep (A i k j l)) = kept keep (A i k j l) := by
    intro i k j l
    unfold kept
    split
    · exact hAr i k j l
    · exact map_zero _
  have hka : ∀ i k j l, kept keep (A j l i k) = -kept keep (A i k j l) := by
    intro i k j l
    unfold kept
    rw [hAa i k j l, hk]
    split <;> simp
  obtain ⟨L, e1, e2, e3⟩ := mapM_generate r _ (resTerms_ok keep A)
  have hU : UniqueKeys ([] : OpD FStr ℂ) := List.nodup_nil
  have hB : resOp keep A = some (L.foldl OpD.addStr []) := by unfold resOp; rw [e1]; rfl
  have hden : denD (denF 0) (L.foldl OpD.addStr []) = ∑ i, ∑ k, ∑ j, ∑ l, (-kept keep (A i k j l)) • (gop i k j l : Oper ℂ) := by
    rw [OpD.denD_foldl_addStr _ _ _ hU, OpD.denD_nil, zero_add, e2, resTerms_sum]
  obtain ⟨_, E, _, _, _, hE, hEl, _⟩ := C15_transform_jw L r e3
  have hUP : UniqueKeys ([] : POp ℂ) := List.nodup_nil
  have hC : denPO (E.foldl OpD.addStr []) = denD (denF 0) (L.foldl OpD.addStr []) := by
    unfold denPO at hE ⊢
    rw [OpD.denD_foldl_addStr _ _ _ hUP, OpD.denD_nil, zero_add, hE, OpD.denD_foldl_addStr _ _ _ hU, OpD.denD_nil, zero_add]
  have hCU := OpD.foldl_addStr_unique E [] hUP
  have hCl : ∀ t ∈ E.foldl OpD.addStr [], t.1.length = r := lengths_foldl_addStr (fun s => s.length = r) E [] (by simp) hEl
  have hCi := antiherm_imag r _ hCU hCl (by rw [hC, hden]; exact residual_antiherm _ hkr hka)
  refine ⟨_, _, hB, hCU, fun t ht => ⟨hCl t ht, hCi t ht⟩, hC, fun ε hε => stepGates_emitted _ hCi ε hε none, ?_⟩
  intro ψe hψe
  have hD := hasDeriv_step _ hCi ψ H ψe hψe
  have hBB : B' = L.foldl OpD.addStr [] := Option.some.inj (b1.symm.trans hB)
  rw [hBB, ← hC] at b2
  have hval : pair ψ ((denPO (E.foldl OpD.addStr []) * H - H * denPO (E.foldl OpD.addStr []) : Oper ℂ) ψ)
      = ((-∑ i, ∑ k, ∑ j, ∑ l, ((kept keep (A i k j l)).re) ^ 2 : ℝ) : ℂ) := by
    refine b2.trans ?_
    push_cast
    congr 1
    refine Finset.sum_congr rfl fun i _ => Finset.sum_congr rfl fun k _ => Finset.sum_congr rfl fun j _ =>
      Finset.sum_congr rfl fun l _ => ?_
    rw [Complex.conj_eq_iff_re.mp (hkr i k j l)]
  rw [hval] at hD
  have hre := hasDeriv_re _ _ hD
  refine ⟨hre, ?_⟩
  rintro ⟨i, k, j, l, hne0⟩
  refine lower_of_deriv _ _ hre (neg_lt_zero.mpr (sq_sum_pos (fun i k j l => (kept keep (A i k j l)).re) i k j l ?_))
  exact fun h => hne0 (by
    have e := Complex.conj_eq_iff_re.mp (hkr i k j l)
    rw [h, Complex.ofReal_zero] at e
    exact e.symm)

/-- A case with a residual: two electrons in the orbitals 0 and 1 of four (two-body density matrix of the determinant, no
three-body part), and an interaction that couples them to the orbitals 2 and 3
(`k2` is half the interaction when there are no one-electron integrals). -/
example : Resid.residual (K := GQ) (r := 4)
      (fun a b c d => if (a, b, c, d) = (0, 1, 2, 3) ∨ (a, b, c, d) = (2, 3, 0, 1) ∨ (a, b, c, d) = (1, 0, 3, 2)
        ∨ (a, b, c, d) = (3, 2, 1, 0) then 1 / 2 else 0)
      (fun a b c d => if a.val < 2 ∧ b.val < 2 then (if a = c ∧ b = d then 1 else 0) - (if a = d ∧ b = c then 1 else 0) else 0)
      (fun _ _ _ _ _ _ => 0) 2 3 0 1 ≠ 0 := by decide +kernel

end
end Descent

/-! ### The density-matrix backend (C103) -/

section Rho
variable {α K S : Type} [DecidableEq α] [Coef K]

theorem simulate_append (U : OpD α K → S → S) (L M : List (OpD α K)) (rho : S) :
    simulate U (L ++ M) rho = simulate U M (simulate U L rho) := by
  unfold simulate
  rw [List.foldl_append]

/-- The circuit of a whole ansatz: the layers act one after the other. -/
def circuitState (U : OpD α K → S → S) (L : List (OpD α K)) (rho : S) : S :=
  match L with
  | [] => rho
  | A :: L => circuitState U L (U A rho)

theorem simulate_eq (U : OpD α K → S → S) (L : List (OpD α K)) (rho : S) : simulate U L rho = circuitState U L rho := by
  induction L generalizing rho with
  | nil => rfl
  | cons A L ih => exact ih _

/-- **C103**, open ansatz. After any number of steps with `p > 0`, the state reported by the next step is the state of the
circuit of all layers, absorbed ones first, and absorbing keeps it. -/
theorem C103_open (closed : ℤ) (p : ℕ) (hp : p ≠ 0) (U : OpD α K → S → S) (Os : List (OpD α K)) (s : Rho α K S) (rho0 : S)
    (hs : s.rho = circuitState U s.popped rho0) (O : OpD α K) :
    let s' := (rhoRun closed p U Os s).2
    (rhoStep closed p U s' O).1 = circuitState U (s'.popped ++ Ansatz.add closed s'.psi O) rho0 ∧
    (rhoStep closed p U s' O).2.popped ++ (rhoStep closed p U s' O).2.psi = s'.popped ++ Ansatz.add closed s'.psi O := by
  have inv : ∀ (s : Rho α K S) (O : OpD α K), s.rho = circuitState U s.popped rho0 →
      (rhoStep closed p U s O).2.rho = circuitState U (rhoStep closed p U s O).2.popped rho0 := by
    intro s O h
    unfold rhoStep
    dsimp only
    rw [if_neg hp]
    split
    · show simulate U ((Ansatz.add closed s.psi O).take 1) s.rho
        = circuitState U (s.popped ++ (Ansatz.add closed s.psi O).take 1) rho0
      rw [← simulate_eq U (_ ++ _), simulate_append, h, simulate_eq U s.popped]
    · exact h
  have run : ∀ (Os : List (OpD α K)) (s : Rho α K S), s.rho = circuitState U s.popped rho0 →
      (rhoRun closed p U Os s).2.rho = circuitState U (rhoRun closed p U Os s).2.popped rho0 := by
    intro Os
    induction Os with
    | nil => exact fun s h => h
    | cons O Os ih => exact fun s h => ih _ (inv s O h)
  intro s'
  have h' : s'.rho = circuitState U s'.popped rho0 := run Os s hs
  unfold rhoStep used
  dsimp only
  rw [if_neg hp, if_neg hp]
  constructor
  · have : simulate U (Ansatz.add closed s'.psi O) s'.rho = circuitState U (s'.popped ++ Ansatz.add closed s'.psi O) rho0 := by
      rw [← simulate_eq U (_ ++ _), simulate_append, h', simulate_eq U s'.popped]
    split <;> exact this
  · split
    · dsimp only
      rw [List.append_assoc]
      congr 1
      cases Ansatz.add closed s'.psi O <;> rfl
    · rfl

/-- **C103**, what the layers amount to: from an empty ansatz, the total coefficient of every term over the absorbed and the
remaining layers is the sum of what the steps added, up to `1e-12` per layer and step. -/
theorem C103_total (closed : ℤ) (hc : closed ≤ 1) (p : ℕ) (hp : p ≠ 0) (U : OpD α ℂ → S → S) (Os : List (OpD α ℂ))
    (hO : ∀ O ∈ Os, UniqueKeys O) (rho0 : S) (k : α) :
    ‖total ((rhoRun closed p U Os ⟨[], rho0, []⟩).2.popped ++ (rhoRun closed p U Os ⟨[], rho0, []⟩).2.psi) k - total Os k‖
      ≤ Os.length * Os.length * 1e-12 := by
  have one : ∀ (s : Rho α ℂ S) (O : OpD α ℂ), (rhoStep closed p U s O).2.popped ++ (rhoStep closed p U s O).2.psi
      = s.popped ++ Ansatz.add closed s.psi O := by
    intro s O
    unfold rhoStep
    dsimp only
    rw [if_neg hp]
    split
    · dsimp only
      rw [List.append_assoc]
      congr 1
      cases Ansatz.add closed s.psi O <;> rfl
    · rfl
  have sub : ∀ (s : Rho α ℂ S) (O : OpD α ℂ), ∀ A ∈ (rhoStep closed p U s O).2.psi, A ∈ Ansatz.add closed s.psi O := by
    intro s O A
    unfold rhoStep
    dsimp only
    rw [if_neg hp]
    split
    · exact fun h => List.mem_of_mem_tail h
    · exact fun h => h
  have len : ∀ (s : Rho α ℂ S) (O : OpD α ℂ), (rhoStep closed p U s O).2.psi.length ≤ (Ansatz.add closed s.psi O).length := by
    intro s O
    unfold rhoStep
    dsimp only
    rw [if_neg hp]
    split
    · simp
    · rfl
  have key : ∀ (Os : List (OpD α ℂ)) (s : Rho α ℂ S), (∀ O ∈ Os, UniqueKeys O) → (∀ A ∈ s.psi, UniqueKeys A) →
      ‖total ((rhoRun closed p U Os s).2.popped ++ (rhoRun closed p U Os s).2.psi) k - (total (s.popped ++ s.psi) k + total Os k)‖
        ≤ Os.length * (s.psi.length + Os.length) * 1e-12 := by
    intro Os
    induction Os with
    | nil => intro s _ _; simp [rhoRun, total]
    | cons O Os ih =>
      intro s hO hs
      have h1 := C39_add_complex closed hc s.psi O hs (hO O (by simp)) k
      have h2 := ih (rhoStep closed p U s O).2 (fun A hA => hO A (by simp [hA]))
        (fun A hA => C39_unique closed hc s.psi O hs (hO O (by simp)) A (sub s O A hA))
      rw [one] at h2
      have hl : ((rhoStep closed p U s O).2.psi.length : ℝ) ≤ s.psi.length + 1 := by
        exact_mod_cast (len s O).trans (add_length closed hc s.psi O hs (hO O (by simp)))
      have et : total (O :: Os) k = coef O k + total Os k := rfl
      rw [total_append s.popped] at h2
      rw [et, total_append s.popped]
      show ‖total ((rhoRun closed p U Os (rhoStep closed p U s O).2).2.popped
        ++ (rhoRun closed p U Os (rhoStep closed p U s O).2).2.psi) k - _‖ ≤ _
      refine (norm_sub_le_norm_sub_add_norm_sub _
        (total s.popped k + total (Ansatz.add closed s.psi O) k + total Os k) _).trans ?_
      have e : total s.popped k + total (Ansatz.add closed s.psi O) k + total Os k
          - (total s.popped k + total s.psi k + (coef O k + total Os k))
          = total (Ansatz.add closed s.psi O) k - (total s.psi k + coef O k) := by ring
      rw [e]
      refine (add_le_add h2 h1).trans ?_
      rw [List.length_cons]
      push_cast
      have : (0 : ℝ) ≤ Os.length := by positivity
      nlinarith
  have := key Os ⟨[], rho0, []⟩ hO (by simp)
  simpa [total] using this

/-- **C103, partial**: closed ansatz (the default).  If every operator after the first has a term above `1e-12`, the last
state reported, and the one kept, is that of the circuit of all layers.  The case left out is false
(`C103_fails_repeated`). -/
theorem C103_closed_partial (U : OpD α K → S → S) (O : OpD α K) (Os : List (OpD α K)) (hO : ∀ P ∈ Os, OpD.clean P ≠ [])
    (rho0 : S) :
    (rhoRun 1 0 U (O :: Os) ⟨[], rho0, []⟩).1.getLast? = some (circuitState U (O :: Os.map OpD.clean) rho0) ∧
    (rhoRun 1 0 U (O :: Os) ⟨[], rho0, []⟩).2.rho = circuitState U (O :: Os.map OpD.clean) rho0 := by
  have stp : ∀ (s : Rho α K S) (P : OpD α K), s.psi ≠ [] → OpD.clean P ≠ [] →
      (rhoStep 1 0 U s P).1 = U (OpD.clean P) s.rho ∧ (rhoStep 1 0 U s P).2.rho = U (OpD.clean P) s.rho ∧
      (rhoStep 1 0 U s P).2.psi ≠ [] := by
    intro s P hs hP
    have ha : ∃ M, Ansatz.add 1 s.psi P = M ++ [OpD.clean P] := by
      unfold Ansatz.add Ansatz.layers Ansatz.clean
      rw [if_neg hs, if_neg hs, if_pos rfl, List.map_append, List.filter_append]
      exact ⟨_, congrArg _ (by simp [hP])⟩
    obtain ⟨M, ha⟩ := ha
    unfold rhoStep used
    dsimp only
    rw [ha]
    simp [simulate]
  have run : ∀ (Os : List (OpD α K)) (s : Rho α K S), (∀ P ∈ Os, OpD.clean P ≠ []) → s.psi ≠ [] →
      (s.rho :: (rhoRun 1 0 U Os s).1).getLast? = some (circuitState U (Os.map OpD.clean) s.rho) ∧
      (rhoRun 1 0 U Os s).2.rho = circuitState U (Os.map OpD.clean) s.rho := by
    intro Os
    induction Os with
    | nil => intro s _ _; exact ⟨rfl, rfl⟩
    | cons P Os ih =>
      intro s hO hs
      obtain ⟨e1, e2, e3⟩ := stp s P hs (hO P (by simp))
      obtain ⟨i1, i2⟩ := ih (rhoStep 1 0 U s P).2 (fun Q hQ => hO Q (by simp [hQ])) e3
      rw [e2] at i1 i2
      refine ⟨?_, i2⟩
      show (s.rho :: ((rhoStep 1 0 U s P).1 :: (rhoRun 1 0 U Os (rhoStep 1 0 U s P).2).1)).getLast? = _
      rw [List.getLast?_cons_cons, e1]
      exact i1
  have h := run Os (rhoStep 1 0 U ⟨[], rho0, []⟩ O).2 hO (by simp [rhoStep, Ansatz.add])
  exact h

/-- **C103 fails** for a closed ansatz and an operator without terms above `1e-12`, such as the residual of a converged run:
nothing is added, and the circuit of the last layer is applied again. -/
theorem C103_fails_repeated (U : OpD α K → S → S) (s : Rho α K S) (M : List (OpD α K)) (A O : OpD α K)
    (hs : s.psi = M ++ [A]) (hc : Ansatz.clean s.psi = s.psi) (hO : OpD.clean O = []) :
    Ansatz.add 1 s.psi O = s.psi ∧ (rhoStep 1 0 U s O).1 = U A s.rho := by
  have hne : s.psi ≠ [] := by simp [hs]
  have ha : Ansatz.add 1 s.psi O = s.psi := by
    unfold Ansatz.add Ansatz.layers
    rw [if_neg hne, if_neg hne, if_pos rfl]
    nth_rw 2 [← hc]
    unfold Ansatz.clean
    rw [List.map_append, List.filter_append]
    simp [hO]
  refine ⟨ha, ?_⟩
  unfold rhoStep used
  dsimp only
  rw [ha, hs]
  simp [simulate]

/-- A run in which the second residual is empty reports the first layer twice. -/
example : (rhoRun (K := GQ) 1 0 (fun A (r : List (OpD String GQ)) => r ++ [A]) [[("a", 2)], []] ⟨[], [], []⟩).1
    = [[[("a", 2)]], [[("a", 2)], [("a", 2)]]] ∧ depth 1 = 0 ∧ depth (-2) = 2 := by decide +kernel

end Rho
end Props
end HQCA
