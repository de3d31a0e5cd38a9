import Mathlib.Analysis.SpecialFunctions.Trigonometric.Deriv
import Mathlib.Analysis.Complex.RealDeriv
import Mathlib.Analysis.Calculus.Deriv.Slope
import Mathlib.Algebra.BigOperators.Ring.Finset
import Verif.Props.Instructions
import Verif.Props.Residual
import Verif.Proofs.SiteAdjoint

/-!
# The residual of the quantum ACSE (C77)

`hqca/acse/_quant_A_acse.py`: the residual is read off the imaginary part of the density matrix after a short Hamiltonian
evolution.  In the limit of a short step it is the commutator that the classical solver computes.
-/

namespace HQCA
namespace Props
open Instr Prim Filter Topology
noncomputable section

/-- A family of operators that is a finite combination of fixed operators with coefficients differentiable at 0, and its
derivative. -/
def HasD (X : ℝ → Oper ℂ) (X' : Oper ℂ) : Prop :=
  ∃ (n : ℕ) (g : Fin n → ℝ → ℂ) (g' : Fin n → ℂ) (A : Fin n → Oper ℂ), (∀ i, HasDerivAt (g i) (g' i) 0) ∧
    (∀ d, X d = ∑ i, g i d • A i) ∧ X' = ∑ i, g' i • A i

theorem HasD.of_fintype {ι : Type} [Fintype ι] (X : ℝ → Oper ℂ) (X' : Oper ℂ) (g : ι → ℝ → ℂ) (g' : ι → ℂ) (A : ι → Oper ℂ)
    (h1 : ∀ i, HasDerivAt (g i) (g' i) 0) (h2 : ∀ d, X d = ∑ i, g i d • A i) (h3 : X' = ∑ i, g' i • A i) : HasD X X' := by
  let e := (Fintype.equivFin ι).symm
  refine ⟨Fintype.card ι, g ∘ e, g' ∘ e, A ∘ e, fun i => h1 _, fun d => ?_, ?_⟩
  · rw [h2]; exact (e.sum_comp (fun i => g i d • A i)).symm
  · rw [h3]; exact (e.sum_comp (fun i => g' i • A i)).symm

theorem HasD.const (A : Oper ℂ) : HasD (fun _ => A) 0 :=
  .of_fintype (ι := Unit) _ _ (fun _ _ => 1) (fun _ => 0) (fun _ => A) (fun _ => hasDerivAt_const _ _) (fun _ => by simp) (by simp)

theorem HasD.mul {X Y : ℝ → Oper ℂ} {X' Y' : Oper ℂ} (hX : HasD X X') (hY : HasD Y Y') :
    HasD (fun d => X d * Y d) (X' * Y 0 + X 0 * Y') := by
  obtain ⟨n, g, g', A, h1, h2, h3⟩ := hX
  obtain ⟨m, k, k', B, j1, j2, j3⟩ := hY
  refine .of_fintype (ι := Fin n × Fin m) _ _ (fun i d => g i.1 d * k i.2 d) (fun i => g' i.1 * k i.2 0 + g i.1 0 * k' i.2)
    (fun i => A i.1 * B i.2) (fun i => (h1 i.1).mul (j1 i.2)) (fun d => ?_) ?_
  · rw [h2, j2, Fintype.sum_mul_sum, Fintype.sum_prod_type]
    exact Finset.sum_congr rfl fun i _ => Finset.sum_congr rfl fun j _ => by
      rw [smul_mul_assoc, mul_smul_comm, smul_smul]
  · rw [h3, j3, h2, j2, Fintype.sum_mul_sum, Fintype.sum_mul_sum, Fintype.sum_prod_type, ← Finset.sum_add_distrib]
    refine Finset.sum_congr rfl fun i _ => ?_
    rw [← Finset.sum_add_distrib]
    refine Finset.sum_congr rfl fun j _ => ?_
    rw [smul_mul_assoc, mul_smul_comm, smul_smul, smul_mul_assoc, mul_smul_comm, smul_smul, add_smul]

theorem HasD.ev {X : ℝ → Oper ℂ} {X' : Oper ℂ} (hX : HasD X X') (ev : Oper ℂ →ₗ[ℂ] ℂ) :
    HasDerivAt (fun d => ev (X d)) (ev X') 0 := by
  obtain ⟨n, g, g', A, h1, h2, h3⟩ := hX
  have e : (fun d => ev (X d)) = fun d => ∑ i, g i d * ev (A i) := by
    funext d
    rw [h2, map_sum]
    exact Finset.sum_congr rfl fun i _ => by rw [map_smul, smul_eq_mul]
  rw [e, h3, map_sum]
  have : ∑ i, ev (g' i • A i) = ∑ i, g' i * ev (A i) :=
    Finset.sum_congr rfl fun i _ => by rw [map_smul, smul_eq_mul]
  rw [this]
  exact HasDerivAt.fun_sum fun i _ => (h1 i).mul_const _

theorem gadget_I (v : ℝ) (n : ℕ) : gadget v (List.replicate n PL.I) = [] := by
  have hn : ∀ k, nonI k (List.replicate n PL.I) = [] := by
    induction n with
    | zero => intro k; rfl
    | succ n ih => intro k; rw [List.replicate_succ, nonI, if_pos rfl, ih]
  have hm : gadgetMany v (List.replicate n PL.I) = [] := by
    unfold gadgetMany
    simp [hn]
  unfold gadget
  split
  · rfl
  · rename_i h; exact absurd (List.eq_of_mem_replicate (h ▸ List.mem_singleton_self PL.X)) (by simp)
  · rename_i h; exact absurd (List.eq_of_mem_replicate (h ▸ List.mem_singleton_self PL.Y)) (by simp)
  · rename_i h; exact absurd (List.eq_of_mem_replicate (h ▸ List.mem_singleton_self PL.Z)) (by simp)
  · exact hm

/-- The generator of a gate; a string of identities contributes nothing. -/
def genOf (s : PStr) : Oper ℂ := open Classical in if ∃ p ∈ s, p ≠ PL.I then denP 0 s else 0

theorem hasD_gadget (a : ℝ) (s : PStr) : HasD (fun d => circOp (gadget (a * d) s)) ((Complex.I * a) • genOf s) := by
  unfold genOf
  by_cases h : ∃ p ∈ s, p ≠ PL.I
  · rw [if_pos h]
    refine .of_fintype (ι := Bool) _ _ (fun b d => if b then (Real.cos (a * d) : ℂ) else Complex.I * (Real.sin (a * d) : ℂ))
      (fun b => if b then 0 else Complex.I * a) (fun b => if b then 1 else denP 0 s) ?_ (fun d => ?_) ?_
    · have hl : HasDerivAt (fun d : ℝ => a * d) a 0 := by simpa using (hasDerivAt_id (0 : ℝ)).const_mul a
      intro b
      cases b
      · have := ((Real.hasDerivAt_sin (a * 0)).comp (0 : ℝ) hl).ofReal_comp.const_mul Complex.I
        simpa using this
      · have := ((Real.hasDerivAt_cos (a * 0)).comp (0 : ℝ) hl).ofReal_comp
        simpa using this
    · rw [gadget_eq _ s h]
      simp
    · simp
  · rw [if_neg h, smul_zero]
    have : (fun d : ℝ => circOp (gadget (a * d) s)) = fun _ => 1 := by
      funext d
      rw [all_I s h, gadget_I]
      rfl
    rw [this]
    exact .const 1

/-- The adjoint of a gate is the gate with the opposite angle. -/
theorem isAdj_gadget (v : ℝ) (s : PStr) : IsAdj (circOp (gadget (-v) s)) (circOp (gadget v s)) := by
  by_cases h : ∃ p ∈ s, p ≠ PL.I
  · rw [gadget_eq _ s h, gadget_eq _ s h]
    have e1 := (IsAdj.one (K := ℂ)).smul ((Real.cos (-v) : ℝ) : ℂ)
    have e2 := (isAdj_denP (K := ℂ) 0 s).smul (Complex.I * (Real.sin (-v) : ℝ))
    have c1 : conj ((Real.cos (-v) : ℝ) : ℂ) = ((Real.cos v : ℝ) : ℂ) := by
      rw [Real.cos_neg]; exact Complex.conj_ofReal _
    have c2 : conj (Complex.I * (Real.sin (-v) : ℝ)) = Complex.I * (Real.sin v : ℝ) := by
      show (starRingEnd ℂ) _ = _
      rw [map_mul, Complex.conj_I, Complex.conj_ofReal, Real.sin_neg]
      push_cast
      ring
    rw [c1] at e1
    rw [c2] at e2
    exact e1.add e2
  · rw [all_I s h, gadget_I, gadget_I]
    exact IsAdj.one

/-- The circuit of gates with angles `a * d`. -/
def evol (as : List (ℝ × PStr)) (d : ℝ) : Oper ℂ := circOp (gatesOf (as.map fun g => (g.1 * d, g.2)))

/-- The adjoint circuit. -/
def evolAdj (as : List (ℝ × PStr)) (d : ℝ) : Oper ℂ := (as.map fun g => circOp (gadget (-(g.1 * d)) g.2)).prod

theorem evol_cons (g : ℝ × PStr) (as : List (ℝ × PStr)) (d : ℝ) :
    evol (g :: as) d = evol as d * circOp (gadget (g.1 * d) g.2) := by
  unfold evol gatesOf
  rw [List.map_cons, List.flatMap_cons, circOp_append]

theorem isAdj_evol (as : List (ℝ × PStr)) (d : ℝ) : IsAdj (evolAdj as d) (evol as d) := by
  induction as with
  | nil => exact IsAdj.one
  | cons g as ih =>
    rw [evol_cons]
    unfold evolAdj
    rw [List.map_cons, List.prod_cons]
    exact (isAdj_gadget _ _).mul ih

theorem gadget_zero (s : PStr) : circOp (gadget 0 s) = 1 := by
  by_cases h : ∃ p ∈ s, p ≠ PL.I
  · rw [gadget_eq 0 s h]; simp
  · rw [all_I s h, gadget_I]; rfl

theorem evol_zero (as : List (ℝ × PStr)) : evol as 0 = 1 ∧ evolAdj as 0 = 1 := by
  induction as with
  | nil => exact ⟨rfl, rfl⟩
  | cons g as ih =>
    constructor
    · rw [evol_cons, ih.1, mul_zero, gadget_zero, one_mul]
    · have : evolAdj (g :: as) 0 = circOp (gadget (-(g.1 * 0)) g.2) * evolAdj as 0 := rfl
      rw [this, ih.2, mul_zero, neg_zero, gadget_zero, one_mul]

theorem hasD_evol (as : List (ℝ × PStr)) :
    HasD (evol as) ((as.map fun g => (Complex.I * g.1) • genOf g.2).sum) ∧
    HasD (evolAdj as) (-(as.map fun g => (Complex.I * g.1) • genOf g.2).sum) := by
  induction as with
  | nil =>
    refine ⟨?_, ?_⟩
    · rw [List.map_nil, List.sum_nil]; exact HasD.const 1
    · rw [List.map_nil, List.sum_nil, neg_zero]; exact HasD.const 1
  | cons g as ih =>
    constructor
    · have h := ih.1.mul (hasD_gadget g.1 g.2)
      have e : evol (g :: as) = fun d => evol as d * circOp (gadget (g.1 * d) g.2) := funext (evol_cons g as)
      rw [e]
      rw [(evol_zero as).1, mul_zero, gadget_zero, one_mul, mul_one] at h
      rw [List.map_cons, List.sum_cons, add_comm]
      exact h
    · have h := (hasD_gadget (-g.1) g.2).mul ih.2
      have e : evolAdj (g :: as) = fun d => circOp (gadget (-g.1 * d) g.2) * evolAdj as d := by
        funext d
        unfold evolAdj
        rw [List.map_cons, List.prod_cons, neg_mul]
      rw [e]
      rw [(evol_zero as).2, mul_zero, gadget_zero, one_mul, mul_one] at h
      have e2 : -(List.map (fun g => (Complex.I * (g.1 : ℂ)) • genOf g.2) (g :: as)).sum
          = (Complex.I * ((-g.1 : ℝ) : ℂ)) • genOf g.2 + -(List.map (fun g => (Complex.I * (g.1 : ℂ)) • genOf g.2) as).sum := by
        rw [List.map_cons, List.sum_cons]
        push_cast
        module
      rw [e2]
      exact h

/-- The gates of the Hamiltonian step have angles proportional to the step. -/
def rates (n : ℕ) (H : List (PStr × ℂ)) : List (ℝ × PStr) :=
  (List.range n).flatMap fun _ => H.map fun t => (1 / n * t.2.re, t.1)

theorem applyH_evol (n : ℕ) (d : ℝ) (H : List (PStr × ℂ)) : circOp (gatesOf (applyH n d H)) = evol (rates n H) d := by
  unfold evol rates applyH
  rw [List.map_flatMap]
  congr 3
  funext _
  rw [List.map_map]
  refine List.map_congr_left fun t _ => ?_
  simp only [Function.comp]
  congr 1
  ring

theorem rates_sum (n : ℕ) (hn : n ≠ 0) (H : List (PStr × ℂ)) :
    ((rates n H).map fun g => (Complex.I * g.1) • genOf g.2).sum = (H.map fun t => (Complex.I * t.2.re) • genOf t.1).sum := by
  unfold rates
  rw [map_sum_flatMap]
  have hnc : (n : ℂ) ≠ 0 := Nat.cast_ne_zero.mpr hn
  have e : ∀ L : List (PStr × ℂ), ((L.map fun t => ((1 / n * t.2.re : ℝ), t.1)).map fun g : ℝ × PStr => (Complex.I * g.1) • genOf g.2).sum
      = (1 / (n : ℂ)) • (L.map fun t => (Complex.I * t.2.re) • genOf t.1).sum := by
    intro L
    induction L with
    | nil => simp
    | cons t L ih =>
      simp only [List.map_cons, List.sum_cons]
      rw [ih, smul_add, smul_smul]
      congr 2
      push_cast
      ring
  rw [e]
  simp only [List.map_const', List.length_range, List.sum_replicate]
  rw [← Nat.cast_smul_eq_nsmul ℂ, smul_smul, mul_one_div_cancel hnc, one_smul]

theorem genOf_comm (G : Oper ℂ) (s : PStr) : G * genOf s - genOf s * G = G * denP 0 s - denP 0 s * G := by
  unfold genOf
  by_cases h : ∃ p ∈ s, p ≠ PL.I
  · rw [if_pos h]
  · rw [if_neg h]
    have hd : ∀ (n k : ℕ), (denP k (List.replicate n PL.I) : Oper ℂ) = 1 := by
      intro n
      induction n with
      | zero => intro k; rfl
      | succ n ih => intro k; rw [List.replicate_succ, denP, ih]; simp [pmat, site_one]
    rw [all_I s h, hd]
    simp

theorem gen_comm (G : Oper ℂ) (H : List (PStr × ℂ)) (hr : ∀ t ∈ H, t.2.im = 0) :
    G * (H.map fun t => (Complex.I * t.2.re) • genOf t.1).sum - (H.map fun t => (Complex.I * t.2.re) • genOf t.1).sum * G
      = Complex.I • (G * denPO H - denPO H * G) := by
  induction H with
  | nil => simp [denPO, denD]
  | cons t H ih =>
    have ih' := ih (fun u hu => hr u (by simp [hu]))
    have hz : ((t.2.re : ℝ) : ℂ) = t.2 := by apply Complex.ext <;> simp [hr t (by simp)]
    have e : (denPO (t :: H) : Oper ℂ) = t.2 • denP 0 t.1 + denPO H := rfl
    have g := genOf_comm G t.1
    have r : ∀ (c : ℂ) (X Y P Q : Oper ℂ), (c • (G * X) + G * Y) - (c • (X * G) + Y * G)
        = c • (G * X - X * G) + (G * Y - Y * G) := fun c X Y P Q => by module
    rw [List.map_cons, List.sum_cons, e, mul_add, add_mul, mul_add, add_mul, mul_smul_comm, smul_mul_assoc, mul_smul_comm,
      smul_mul_assoc, r _ _ _ 1 1, r _ _ _ 1 1, ih', g, hz, smul_add, smul_smul]

/-- **C77.** For a Hamiltonian with real coefficients, any number of Trotter steps, any state and any operator with a real
expectation value, the imaginary part of its expectation value after the Hamiltonian step, divided by the step size, tends
to the real part of the expectation value of its commutator with the Hamiltonian as the step goes to zero. -/
theorem C77_limit (H : List (PStr × ℂ)) (hr : ∀ t ∈ H, t.2.im = 0) (n : ℕ) (hn : n ≠ 0) (ψ : Cfg →₀ ℂ) (G : Oper ℂ)
    (hG : (pair ψ (G ψ)).im = 0) (ψd : ℝ → Cfg →₀ ℂ)
    (hψ : ∀ d, (ψd d : Cfg → ℂ) = circOp (gatesOf (applyH n d H)) ψ) :
    Tendsto (fun d => (pair (ψd d) (G (ψd d))).im * (1 / d)) (𝓝[≠] 0)
      (𝓝 (pair ψ ((G * denPO H - denPO H * G : Oper ℂ) ψ)).re) := by
  have key : ∀ d, pair (ψd d) (G (ψd d)) = evState ψ (evolAdj (rates n H) d * G * evol (rates n H) d) := by
    intro d
    obtain ⟨φ, h1, h2⟩ := isAdj_evol (rates n H) d ψ
    have : φ = ψd d := by
      apply DFunLike.coe_injective
      rw [h1, hψ, applyH_evol]
    show _ = pair ψ (evolAdj (rates n H) d (G (evol (rates n H) d ψ)))
    rw [h2, this, hψ, applyH_evol]
  have hd := ((((hasD_evol (rates n H)).2.mul (HasD.const G)).mul (hasD_evol (rates n H)).1).ev (evState ψ))
  rw [(evol_zero _).1, (evol_zero _).2, rates_sum n hn] at hd
  have hval : evState ψ ((-(H.map fun t => (Complex.I * t.2.re) • genOf t.1).sum * G + 1 * 0) * 1
      + 1 * G * (H.map fun t => (Complex.I * t.2.re) • genOf t.1).sum)
      = Complex.I * pair ψ ((G * denPO H - denPO H * G : Oper ℂ) ψ) := by
    have e : (-(H.map fun t => (Complex.I * t.2.re) • genOf t.1).sum * G + 1 * 0) * 1
        + 1 * G * (H.map fun t => (Complex.I * t.2.re) • genOf t.1).sum
        = G * (H.map fun t => (Complex.I * t.2.re) • genOf t.1).sum - (H.map fun t => (Complex.I * t.2.re) • genOf t.1).sum * G := by
      generalize (H.map fun t => (Complex.I * t.2.re) • genOf t.1).sum = S
      rw [mul_zero, add_zero, mul_one, one_mul]
      exact (by rw [sub_eq_add_neg, add_comm]; congr 1)
    rw [e, gen_comm G H hr, map_smul]
    rfl
  rw [hval] at hd
  have him := Complex.imCLM.hasFDerivAt.comp_hasDerivAt (0 : ℝ) hd
  have h0 : (pair (ψd 0) (G (ψd 0))).im = 0 := by
    rw [key, (evol_zero _).1, (evol_zero _).2]
    rw [one_mul, mul_one]
    exact hG
  have hs := (hasDerivAt_iff_tendsto_slope_zero.mp him)
  have hre : (Complex.I * pair ψ ((G * denPO H - denPO H * G : Oper ℂ) ψ)).im
      = (pair ψ ((G * denPO H - denPO H * G : Oper ℂ) ψ)).re := by simp
  rw [show Complex.imCLM (Complex.I * pair ψ ((G * denPO H - denPO H * G : Oper ℂ) ψ)) = _ from hre] at hs
  refine hs.congr fun t => ?_
  have k0 := key 0
  have kt := key t
  simp only [Function.comp, zero_add]
  show t⁻¹ • ((evState ψ (evolAdj (rates n H) t * G * evol (rates n H) t)).im
    - (evState ψ (evolAdj (rates n H) 0 * G * evol (rates n H) 0)).im) = _
  rw [← k0, ← kt, h0, sub_zero, smul_eq_mul, one_div, mul_comm]

/-- Such states exist: the circuit maps finitely supported states to finitely supported states. -/
theorem C77_states (H : List (PStr × ℂ)) (n : ℕ) (ψ : Cfg →₀ ℂ) :
    ∃ ψd : ℝ → Cfg →₀ ℂ, ∀ d, (ψd d : Cfg → ℂ) = circOp (gatesOf (applyH n d H)) ψ := by
  have h : ∀ d, ∃ φ : Cfg →₀ ℂ, (φ : Cfg → ℂ) = circOp (gatesOf (applyH n d H)) ψ := by
    intro d
    obtain ⟨φ, h1, _⟩ := isAdj_evol (rates n H) d ψ
    exact ⟨φ, by rw [h1, applyH_evol]⟩
  choose f hf using h
  exact ⟨f, hf⟩

/-- **C77** with C74: for a real state with a definite number `ne ≠ 1` of electrons, real integrals and a qubit Hamiltonian
that represents them, the residual measured by the quantum solver tends to the one computed by the classical solver. -/
theorem C77_residual {r : ℕ} (H : List (PStr × ℂ)) (hr : ∀ t ∈ H, t.2.im = 0) (n : ℕ) (hn : n ≠ 0) (ψ : Cfg →₀ ℂ)
    (hψr : RealAmp (ψ : Cfg → ℂ)) (ne : ℂ) (hne : ne ≠ 1) (hN : numberOp r (ψ : Cfg → ℂ) = ne • (ψ : Cfg → ℂ))
    (h1 : Fin r → Fin r → ℂ) (V : Fin r → Fin r → Fin r → Fin r → ℂ) (hh : ∀ a b, h1 a b = h1 b a)
    (hV : ∀ a b c d, V a b c d = V c d a b) (hx : ∀ a b c d, V a b c d = V b a d c) (hH : denPO H = secondQ h1 V)
    (ψd : ℝ → Cfg →₀ ℂ) (hψ : ∀ d, (ψd d : Cfg → ℂ) = circOp (gatesOf (applyH n d H)) ψ) (i k j l : Fin r) :
    Tendsto (fun d => (rdm2 (evState (ψd d)) i k j l).im * (1 / d)) (𝓝[≠] 0)
      (𝓝 (Resid.residual (Ham.k2 h1 V ne) (rdm2 (evState ψ)) (rdm3 (evState ψ)) i k j l).re) := by
  rw [C74_state ψ hψr ne hne hN h1 V hh hV hx, ← hH]
  refine C77_limit H hr n hn ψ (gop i k j l) ?_ ψd hψ
  have e : pair ψ ((gop i k j l : Oper ℂ) ψ) = rdm ψ [i.val, k.val] [j.val, l.val] := by
    unfold rdm rdmOp gop
    simp only [List.map_cons, List.map_nil, List.prod_cons, List.prod_nil, mul_one, List.reverse_cons, List.reverse_nil,
      List.nil_append, List.cons_append, mul_assoc]
  rw [e]
  have := pair_real ψ _ hψr (hψr.rdmOp [i.val, k.val] [j.val, l.val])
  exact Complex.conj_eq_iff_im.mp this

end
end Props
end HQCA
