import Verif.Props.EulerQ
import Verif.Props.LineSlope

/-!
# C165: the measured direction lowers the energy
-/

namespace HQCA
namespace Props
open ACSE ACSEEn EulerRun HFStore Ham Prepare Resid UCC Tomo Euler Instr Filter Topology Collect
noncomputable section

theorem sum4_pos {r : ℕ} (x : Fin r → Fin r → Fin r → Fin r → ℝ) (h0 : ∀ i k j l, 0 ≤ x i k j l) (i k j l : Fin r) (h : 0 < x i k j l) :
    0 < ∑ i, ∑ k, ∑ j, ∑ l, x i k j l :=
  Finset.sum_pos' (fun _ _ => Finset.sum_nonneg fun _ _ => Finset.sum_nonneg fun _ _ => Finset.sum_nonneg fun _ _ => h0 _ _ _ _)
    ⟨i, Finset.mem_univ _, Finset.sum_pos' (fun _ _ => Finset.sum_nonneg fun _ _ => Finset.sum_nonneg fun _ _ => h0 _ _ _ _)
      ⟨k, Finset.mem_univ _, Finset.sum_pos' (fun _ _ => Finset.sum_nonneg fun _ _ => h0 _ _ _ _)
        ⟨j, Finset.mem_univ _, Finset.sum_pos' (fun _ _ => h0 _ _ _ _) ⟨l, Finset.mem_univ _, h⟩⟩⟩⟩

/-- A kept entry has the sign of the exact one when the error is below the threshold. -/
theorem same_sign {S a b : ℝ} (h1 : S ≤ |a|) (h2 : |a - b| < S) : 0 < a * b := by
  rcases abs_cases a with ⟨e, h⟩ | ⟨e, h⟩ <;> rcases abs_lt.mp h2 with ⟨h3, h4⟩ <;> nlinarith

/-- **C165.** The slope of the energy along the Euler step of an inexact residual, for any operator `H` and any state: for a real tensor `A`, odd under exchange of creation and
annihilation, the operator of the entries of modulus at least `S` has a Pauli form with imaginary coefficients, and along its circuits the energy has at zero the derivative minus the sum of the
kept entries times the exact residual.  If every entry of `A` is closer than `S` to the exact one, every small enough step lowers the energy unless no entry is kept. -/
theorem C165_slope {r : ℕ} (ψ : Cfg →₀ ℂ) (H : Oper ℂ) (A : Fin r → Fin r → Fin r → Fin r → ℂ)
    (hAr : ∀ i k j l, (starRingEnd ℂ) (A i k j l) = A i k j l) (hAa : ∀ i k j l, A j l i k = -A i k j l) (S : ℝ) :
    ∃ B C, resOp (above S) A = some B ∧ UniqueKeys C ∧ (∀ t ∈ C, t.1.length = r ∧ t.2.re = 0) ∧ denPO C = denD (denF 0) B ∧
      (∀ ε : ℝ, (∀ t ∈ C, (1e-14 : ℝ) < |ε * t.2.im|) → applyOp 1 none (scaled (ε : ℂ) C) = some (stepGates C ε)) ∧
      ∀ ψe : ℝ → Cfg →₀ ℂ, (∀ ε, (ψe ε : Cfg → ℂ) = circOp (gatesOf (stepGates C ε)) ψ) →
        HasDerivAt (fun ε => (pair (ψe ε) (H (ψe ε))).re)
          (-∑ i, ∑ k, ∑ j, ∑ l, (cutAt S A i k j l).re * (pair ψ ((gop i k j l * H - H * gop i k j l : Oper ℂ) ψ)).re) 0 ∧
        ((∀ i k j l, |(A i k j l).re - (pair ψ ((gop i k j l * H - H * gop i k j l : Oper ℂ) ψ)).re| < S) → (∃ i k j l, S ≤ ‖A i k j l‖) →
          ∃ δ > 0, ∀ ε, 0 < ε → ε < δ → (pair (ψe ε) (H (ψe ε))).re < (pair (ψe 0) (H (ψe 0))).re) := by
  have hkr : ∀ i k j l, (starRingEnd ℂ) (kept (above S) (A i k j l)) = kept (above S) (A i k j l) := by
    intro i k j l
    unfold kept
    split
    · exact hAr i k j l
    · exact map_zero _
  have hka : ∀ i k j l, kept (above S) (A j l i k) = -kept (above S) (A i k j l) := by
    intro i k j l
    unfold kept above
    rw [hAa i k j l, norm_neg]
    split <;> simp
  obtain ⟨L, e1, e2, e3⟩ := mapM_generate r _ (resTerms_ok (above S) A)
  have hU : UniqueKeys ([] : OpD FStr ℂ) := List.nodup_nil
  have hB : resOp (above S) A = some (L.foldl OpD.addStr []) := by unfold resOp; rw [e1]; rfl
  have hden : denD (denF 0) (L.foldl OpD.addStr []) = ∑ i, ∑ k, ∑ j, ∑ l, (-kept (above S) (A i k j l)) • (gop i k j l : Oper ℂ) := by
    rw [OpD.denD_foldl_addStr _ _ _ hU, OpD.denD_nil, zero_add, e2, resTerms_sum]
  obtain ⟨_, E, _, _, _, hE, hEl, _⟩ := C15_transform_jw L r e3
  have hUP : UniqueKeys ([] : POp ℂ) := List.nodup_nil
  have hC : denPO (E.foldl OpD.addStr []) = denD (denF 0) (L.foldl OpD.addStr []) := by
    unfold denPO at hE ⊢
    rw [OpD.denD_foldl_addStr _ _ _ hUP, OpD.denD_nil, zero_add, hE, OpD.denD_foldl_addStr _ _ _ hU, OpD.denD_nil, zero_add]
  have hCU := OpD.foldl_addStr_unique E [] hUP
  have hCl : ∀ t ∈ E.foldl OpD.addStr [], t.1.length = r := lengths_foldl_addStr (fun s => s.length = r) E [] (by simp) hEl
  have hCi := antiherm_imag r _ hCU hCl (by rw [hC, hden]; exact residual_antiherm _ hkr hka)
  refine ⟨_, _, hB, hCU, fun t ht => ⟨hCl t ht, hCi t ht⟩, hC, fun ε hε => stepGates_emitted _ hCi ε hε none, ?_⟩
  intro ψe hψe
  have hD := hasDeriv_step _ hCi ψ H ψe hψe
  have hval : (evState ψ (denPO (E.foldl OpD.addStr []) * H - H * denPO (E.foldl OpD.addStr []) : Oper ℂ)).re
      = -∑ i, ∑ k, ∑ j, ∑ l, (cutAt S A i k j l).re * (pair ψ ((gop i k j l * H - H * gop i k j l : Oper ℂ) ψ)).re := by
    rw [hC, hden]
    simp only [Finset.sum_mul, Finset.mul_sum, ← Finset.sum_sub_distrib, map_sum, ← Finset.sum_neg_distrib, Complex.re_sum]
    refine Finset.sum_congr rfl fun i _ => Finset.sum_congr rfl fun k _ => Finset.sum_congr rfl fun j _ =>
      Finset.sum_congr rfl fun l _ => ?_
    rw [smul_mul_assoc, mul_smul_comm, map_sub, map_smul, map_smul, ← smul_sub, ← map_sub, smul_eq_mul, ← kept_cutAt, Complex.mul_re, Complex.neg_re, Complex.neg_im,
      Complex.conj_eq_iff_im.mp (hkr i k j l), neg_zero, zero_mul, sub_zero, neg_mul]
    rfl
  have hre : HasDerivAt (fun ε => (pair (ψe ε) (H (ψe ε))).re)
      (-∑ i, ∑ k, ∑ j, ∑ l, (cutAt S A i k j l).re * (pair ψ ((gop i k j l * H - H * gop i k j l : Oper ℂ) ψ)).re) 0 := by
    have := Complex.reCLM.hasFDerivAt.comp_hasDerivAt (0 : ℝ) hD
    rw [Complex.reCLM_apply] at this
    rw [← hval]
    exact this
  refine ⟨hre, fun hacc => ?_⟩
  rintro ⟨i, k, j, l, hS⟩
  have hre0 : ∀ i k j l, ((A i k j l).re : ℂ) = A i k j l := fun i k j l => Complex.conj_eq_iff_re.mp (hAr i k j l)
  have hnorm : ∀ i k j l, ‖A i k j l‖ = |(A i k j l).re| := fun i k j l => by
    conv_lhs => rw [← hre0 i k j l]
    rw [Complex.norm_real, Real.norm_eq_abs]
  have hpos : ∀ i k j l, S ≤ ‖A i k j l‖ → 0 < (A i k j l).re * (pair ψ ((gop i k j l * H - H * gop i k j l : Oper ℂ) ψ)).re :=
    fun i k j l h => same_sign (hnorm i k j l ▸ h) (hacc i k j l)
  refine lower_of_deriv _ _ hre (neg_lt_zero.mpr (sum4_pos _ (fun i k j l => ?_) i k j l ?_))
  · unfold cutAt
    split
    · exact (hpos i k j l ‹_›).le
    · simp
  · unfold cutAt
    rw [if_pos hS]
    exact hpos i k j l hS

/-- **C165.** The norm the quantum solver reports gives the slope.  If every entry of the measured residual is within `η` of the exact one, the slope of the energy along the direction it returns with the
norm `m` is `-4 m²` up to the relative error `η / S`, for the threshold `S`. -/
theorem C165_rate {r : ℕ} (ψ : Cfg →₀ ℂ) (H : Oper ℂ) (A : Fin r → Fin r → Fin r → Fin r → ℂ)
    (hAr : ∀ i k j l, (starRingEnd ℂ) (A i k j l) = A i k j l) (hAa : ∀ i k j l, A j l i k = -A i k j l) (S : ℝ) (hS : 0 < S) (η : ℝ)
    (hacc : ∀ i k j l, |(A i k j l).re - (pair ψ ((gop i k j l * H - H * gop i k j l : Oper ℂ) ψ)).re| ≤ η) (B : OpD FStr ℂ) (m : ℝ)
    (hB : Collect.quantum S A = some (B, m)) :
    ∃ (C : POp ℂ) (D : ℝ), UniqueKeys C ∧ (∀ t ∈ C, t.1.length = r ∧ t.2.re = 0) ∧ denPO C = denD (denF 0) B ∧
      (∀ ψe : ℝ → Cfg →₀ ℂ, (∀ ε, (ψe ε : Cfg → ℂ) = circOp (gatesOf (stepGates C ε)) ψ) → HasDerivAt (fun ε => (pair (ψe ε) (H (ψe ε))).re) D 0) ∧
      |D + 4 * m ^ 2| ≤ η / S * (4 * m ^ 2) := by
  obtain ⟨B', C, b1, b2, b3, b4, _, b6⟩ := C165_slope ψ H A hAr hAa S
  unfold Collect.quantum at hB
  rw [b1, Option.bind_some] at hB
  split at hB
  swap
  · cases hB
  obtain ⟨rfl, rfl⟩ := Prod.mk.inj (Option.some.inj hB)
  refine ⟨C, _, b2, b3, b4, fun ψe hψe => (b6 ψe hψe).1, ?_⟩
  have hre : ∀ i k j l, ‖A i k j l‖ = |(A i k j l).re| := fun i k j l => by
    conv_lhs => rw [← Complex.conj_eq_iff_re.mp (hAr i k j l)]
    rw [Complex.norm_real, Real.norm_eq_abs]
  have hcut : ∀ i k j l, ‖cutAt S A i k j l‖ ^ 2 = (cutAt S A i k j l).re ^ 2 := fun i k j l => by
    unfold cutAt
    split
    · rw [hre, sq_abs]
    · simp
  have hm : 4 * (0.5 * Real.sqrt (keptSq S A)) ^ 2 = ∑ i, ∑ k, ∑ j, ∑ l, (cutAt S A i k j l).re ^ 2 := by
    rw [keptSq_eq]
    unfold frob
    rw [mul_pow, Real.sq_sqrt (by positivity)]
    simp only [hcut]
    ring
  rw [hm]
  simp only [← Finset.sum_neg_distrib, ← Finset.sum_add_distrib, Finset.mul_sum]
  refine (Finset.abs_sum_le_sum_abs _ _).trans (Finset.sum_le_sum fun i _ => (Finset.abs_sum_le_sum_abs _ _).trans (Finset.sum_le_sum fun k _ =>
    (Finset.abs_sum_le_sum_abs _ _).trans (Finset.sum_le_sum fun j _ => (Finset.abs_sum_le_sum_abs _ _).trans (Finset.sum_le_sum fun l _ => ?_))))
  unfold cutAt
  split
  · rename_i h
    rw [hre] at h
    have h2 := hacc i k j l
    set a := (A i k j l).re
    set b := (pair ψ ((gop i k j l * H - H * gop i k j l : Oper ℂ) ψ)).re
    have hη : 0 ≤ η := (abs_nonneg _).trans h2
    rw [show -(a * b) + a ^ 2 = a * (a - b) by ring, abs_mul, ← sq_abs a, div_mul_eq_mul_div, le_div_iff₀ hS]
    calc |a| * |a - b| * S ≤ |a| * η * |a| := by gcongr
      _ = η * |a| ^ 2 := by ring
  · simp

theorem ex_symm : (∀ a b, exH a b = exH b a) ∧ (∀ a b c d, exV a b c d = exV c d a b) ∧ ∀ a b c d, exV a b c d = exV b a d c := by
  refine ⟨fun a b => ?_, fun a b c d => ?_, fun a b c d => ?_⟩
  · unfold exH
    by_cases h : a = b
    · rw [h]
    · rw [if_neg h, if_neg (Ne.symm h)]
  · unfold exV
    exact if_congr (and_congr iff_comm iff_comm) (if_congr (and_congr eq_comm eq_comm) rfl (if_congr (and_congr ne_comm ne_comm) rfl rfl)) rfl
  · unfold exV
    exact if_congr and_comm (if_congr and_comm rfl (if_congr and_comm rfl rfl)) rfl

/-- The hypotheses with `η = 0`: the exact residual of the reference of a minimal-basis molecule, where the slope is exactly `-4 m²`. -/
example : ∃ (Ψ : Cfg →₀ ℂ) (B : OpD FStr ℂ) (m : ℝ) (C : POp ℂ), pair Ψ Ψ = 1 ∧
    Collect.quantum 1e-10 (residual (k2 exH exV ((1 + 1 : ℕ) : ℂ)) (rdm2 (evState Ψ)) (rdm3 (evState Ψ))) = some (B, m) ∧ denPO C = denD (denF 0) B ∧
    ∀ ψe : ℝ → Cfg →₀ ℂ, (∀ ε, (ψe ε : Cfg → ℂ) = circOp (gatesOf (stepGates C ε)) Ψ) →
      HasDerivAt (fun ε => (pair (ψe ε) (secondQ exH exV (ψe ε))).re) (-(4 * m ^ 2)) 0 := by
  obtain ⟨hh, hV, hx⟩ := ex_symm
  obtain ⟨_, _, Ψ, _, _, _, _, _, _, s7, s8, s9⟩ := acse_state 2 1 1 (by norm_num) (by norm_num) [] (by simp)
  have hN : numberOp (2 * 2) (Ψ : Cfg → ℂ) = ((1 + 1 : ℕ) : ℂ) • (Ψ : Cfg → ℂ) := number_sec (2 * 2) (1 + 1) Ψ fun b hb0 => (s8 b hb0).2.1
  have hst := C74_state Ψ s9 _ (by norm_num) hN exH exV hh hV hx
  have hk2 := k2_conj (fun a b => (exH a b).re) (fun a b c d => (exV a b c d).re) ((1 + 1 : ℕ) : ℝ)
  simp only [Complex.conj_eq_iff_re.mp (ex_spin.real1 _ _), Complex.conj_eq_iff_re.mp (ex_spin.real2 _ _ _ _), Complex.ofReal_natCast] at hk2
  obtain ⟨B, m, hB, _, _⟩ := C114_quantum_safe (r := 2 * 2) 1e-10 (by norm_num) (by norm_num)
    (residual (k2 exH exV ((1 + 1 : ℕ) : ℂ)) (rdm2 (evState Ψ)) (rdm3 (evState Ψ)))
  obtain ⟨C, D, _, _, c3, c4, c5⟩ := C165_rate Ψ (secondQ exH exV) _ (residual_conj _ _ _ hk2 (rdm2_conj Ψ s9) (rdm3_conj Ψ s9))
    (residual_antisymm _ _ _ (k2_symm _ _ _ hh hV) (k2_exchange _ _ _ hx) (rdm3_real Ψ s9)) 1e-10 (by norm_num) 0
    (fun i k j l => by rw [hst, sub_self, abs_zero]) B m hB
  refine ⟨Ψ, B, m, C, s7, hB, c3, fun ψe hψe => ?_⟩
  have : D = -(4 * m ^ 2) := by
    rw [zero_div, zero_mul] at c5
    have := abs_nonpos_iff.mp c5
    linarith
  rw [← this]
  exact c4 ψe hψe

/-- Small Euler steps along the operator `B` of `r` orbitals lower the energy: it has a Pauli form with imaginary coefficients, from which the instruction set emits one gate per term as long as no angle is
below its threshold, and the circuits with small positive step, started in `Ψ`, end in states of lower energy (specification). -/
def Descends (r : ℕ) (H : Oper ℂ) (Ψ : Cfg →₀ ℂ) (B : OpD FStr ℂ) : Prop :=
  ∃ C : POp ℂ, UniqueKeys C ∧ (∀ t ∈ C, t.1.length = r ∧ t.2.re = 0) ∧ denPO C = denD (denF 0) B ∧
    (∀ ε : ℝ, (∀ t ∈ C, (1e-14 : ℝ) < |ε * t.2.im|) → applyOp 1 none (scaled (ε : ℂ) C) = some (stepGates C ε)) ∧
    ∀ ψe : ℝ → Cfg →₀ ℂ, (∀ ε, (ψe ε : Cfg → ℂ) = circOp (gatesOf (stepGates C ε)) Ψ) →
      ∃ δ > 0, ∀ ε, 0 < ε → ε < δ → (pair (ψe ε) (H (ψe ε))).re < (pair Ψ (H Ψ)).re

theorem descends_of_close {r : ℕ} (Ψ : Cfg →₀ ℂ) (H : Oper ℂ) (A : Fin r → Fin r → Fin r → Fin r → ℂ)
    (hAr : ∀ i k j l, (starRingEnd ℂ) (A i k j l) = A i k j l) (hAa : ∀ i k j l, A j l i k = -A i k j l) (S : ℝ)
    (hclose : ∀ i k j l, ‖A i k j l - pair Ψ ((gop i k j l * H - H * gop i k j l : Oper ℂ) Ψ)‖ < S) (B : OpD FStr ℂ) (m : ℝ)
    (hB : Collect.quantum S A = some (B, m)) (hm : m ≠ 0) : Descends r H Ψ B := by
  obtain ⟨B', C, b1, b2, b3, b4, b5, b6⟩ := C165_slope Ψ H A hAr hAa S
  unfold Collect.quantum at hB
  rw [b1, Option.bind_some] at hB
  split at hB
  swap
  · cases hB
  obtain ⟨rfl, rfl⟩ := Prod.mk.inj (Option.some.inj hB)
  refine ⟨C, b2, b3, b4, b5, fun ψe hψe => ?_⟩
  obtain ⟨_, g2⟩ := b6 ψe hψe
  have hz : ψe 0 = Ψ := by
    apply DFunLike.coe_injective
    rw [hψe]
    have : circOp (gatesOf (stepGates C 0)) = evol (C.map fun t => (-t.2.im, t.1)) 0 := by
      unfold evol stepGates
      rw [List.map_map]
      congr 2
      exact List.map_congr_left fun t _ => by simp [Function.comp]
    rw [this, (evol_zero _).1]
    rfl
  rw [hz] at g2
  refine g2 (fun i k j l => ?_) ?_
  · rw [← Complex.sub_re]
    exact (Complex.abs_re_le_norm _).trans_lt (hclose i k j l)
  · by_contra hno0
    push Not at hno0
    refine hm ?_
    have : frob (cutAt S A) = 0 := by
      unfold frob
      have h0 : ∀ i k j l, cutAt S A i k j l = 0 := fun i k j l => by unfold cutAt; rw [if_neg (not_le.mpr (hno0 i k j l))]
      simp [h0]
    rw [keptSq_eq, this, mul_zero]

theorem measured_setup (no na nb : ℕ) (hno : 1 < no) (ha : na ≤ no) (hb : nb ≤ no) (hne : na + nb ≠ 1)
    (col : List PStr → ℕ → ℕ) (hcol : ColouringOK col) (h1 : Fin (2 * no) → Fin (2 * no) → ℂ)
    (V : Fin (2 * no) → Fin (2 * no) → Fin (2 * no) → Fin (2 * no) → ℂ) (hs : SpinInts no h1 V) (hh : ∀ a b, h1 a b = h1 b a)
    (hV : ∀ a b c d, V a b c d = V c d a b) (hx : ∀ a b c d, V a b c d = V b a d c) (L : List (OpD FStr ℂ)) (hL : ∀ A ∈ L, LayerOK no A)
    (H : List (PStr × ℂ)) (hH : denPO H = secondQ h1 V) (hHr : ∀ t ∈ H, t.2.im = 0) (hHl : ∀ t ∈ H, t.1.length = 2 * no) (n : ℕ) (hn : n ≠ 0)
    (S : ℝ) (hS : 0 < S) :
    ∃ (psi : List (Term PStr ℂ)) (Us : List (Oper ℂ)) (Ψ : Cfg →₀ ℂ), ACSEEn.strings L = some psi ∧
      List.Forall₂ (fun t U => IsExp (t.2 • (denP 0 t.1 : Oper ℂ)) U) psi Us ∧ (Ψ : Cfg → ℂ) = Us.reverse.prod (ket (hfCfg no na nb)) ∧ pair Ψ Ψ = 1 ∧
      (∀ i k j l, residual (k2 h1 V ((na + nb : ℕ) : ℂ)) (rdm2 (evState Ψ)) (rdm3 (evState Ψ)) i k j l = pair Ψ ((gop i k j l * secondQ h1 V - secondQ h1 V * gop i k j l : Oper ℂ) Ψ)) ∧
      ∃ (M : ℝ → Fin (2 * no) → Fin (2 * no) → Fin (2 * no) → Fin (2 * no) → ℝ), ∃ d0 > 0,
        (∀ d : ℝ, d ≠ 0 → |d| < d0 → ∀ i k j l, ‖(M d i k j l : ℂ) - residual (k2 h1 V ((na + nb : ℕ) : ℂ)) (rdm2 (evState Ψ)) (rdm3 (evState Ψ)) i k j l‖ < S / 2) ∧
      (∀ d : ℝ, d ≠ 0 → ∃ A, MeasResid.statevector no na nb col L H n d = some A ∧ ∀ i k j l, ‖A i k j l - (M d i k j l : ℂ)‖ ≤ 2 ^ (2 * no) * 1e-28 / |d|) ∧
      (∀ d : ℝ, d ≠ 0 → ∀ Ns : ℕ, 0 < Ns → ∃ (st : Cfg → ℂ) (A : Record (2 * no) Ns → Fin (2 * no) → Fin (2 * no) → Fin (2 * no) → Fin (2 * no) → ℂ),
        MeasResid.state no na nb L H n d = some st ∧ (∀ ω : Record (2 * no) Ns, 0 ≤ recProb st ω) ∧ ∑ ω : Record (2 * no) Ns, recProb st ω = 1 ∧
        (∀ ω, MeasResid.counts no na nb col L H n d ω.shots = some (A ω)) ∧
        ∀ i k j l, mean (recProb st) (fun ω => A ω i k j l) = (M d i k j l : ℂ) ∧
          ev (recProb st) (fun ω => ‖A ω i k j l - (M d i k j l : ℂ)‖ ^ 2) ≤ 1 / (Ns * d ^ 2)) := by
  obtain ⟨psi, Us, Ψ, M, c1, c2, c3, c4, c5, c6, c7, c8⟩ := C153_residual_partial no na nb hno ha hb hne col hcol h1 V hs hh hV hx L hL H hH hHr hHl n hn
  obtain ⟨psi', Us', Ψ', ph, s1, s3, s4, _, _, _, _, s9⟩ := acse_state no na nb ha hb L hL
  obtain rfl : psi' = psi := Option.some.inj (s1.symm.trans c1)
  obtain rfl : Us' = Us := exps_unique s3 c2
  obtain rfl : Ψ' = Ψ := DFunLike.coe_injective (s4.trans c3.symm)
  have hN : numberOp (2 * no) (Ψ' : Cfg → ℂ) = ((na + nb : ℕ) : ℂ) • (Ψ' : Cfg → ℂ) := number_sec (2 * no) (na + nb) Ψ' fun b hb0 => (c5 b hb0).2.1
  have hne' : ((na + nb : ℕ) : ℂ) ≠ 1 := by exact_mod_cast hne
  have hk2 : ∀ a b c d, (starRingEnd ℂ) (k2 h1 V ((na + nb : ℕ) : ℂ) a b c d) = k2 h1 V ((na + nb : ℕ) : ℂ) a b c d := by
    have := k2_conj (fun a b => (h1 a b).re) (fun a b c d => (V a b c d).re) ((na + nb : ℕ) : ℝ)
    simp only [Complex.conj_eq_iff_re.mp (hs.real1 _ _), Complex.conj_eq_iff_re.mp (hs.real2 _ _ _ _), Complex.ofReal_natCast] at this
    exact this
  refine ⟨psi', Us', Ψ', s1, s3, s4, c4, C74_state Ψ' s9 _ hne' hN h1 V hh hV hx, M, ?_⟩
  have hRr := residual_conj _ _ _ hk2 (rdm2_conj Ψ' s9 (r := 2 * no)) (rdm3_conj Ψ' s9)
  have hev : ∀ᶠ d in 𝓝[≠] (0 : ℝ), ∀ i k j l, ‖(M d i k j l : ℂ) - residual (k2 h1 V ((na + nb : ℕ) : ℂ)) (rdm2 (evState Ψ')) (rdm3 (evState Ψ')) i k j l‖ < S / 2 := by
    simp only [eventually_all]
    intro i k j l
    have := (Metric.tendsto_nhds.mp (c8 i k j l)) (S / 2) (by linarith)
    refine this.mono fun d hd => ?_
    rw [Real.dist_eq, ← Real.norm_eq_abs, ← Complex.norm_real, Complex.ofReal_sub, Complex.conj_eq_iff_re.mp (hRr i k j l)] at hd
    exact hd
  rw [eventually_nhdsWithin_iff, Metric.eventually_nhds_iff] at hev
  obtain ⟨d0, hd0, hb0⟩ := hev
  exact ⟨d0, hd0, fun d hd hlt => hb0 (y := d) (by rw [dist_zero_right, Real.norm_eq_abs]; exact hlt) hd, c6, c7⟩

/-- **C165, partial.** The direction the quantum solver measures lowers the energy.  For every threshold `S > 0` there is a Hamiltonian step below which, as long as the rounding of the tomography divided
by the step stays under half the threshold, the solver succeeds in measuring, and whenever it returns an operator with a nonzero norm, every small enough Euler step along it, taken from the state of the
ansatz, lowers the energy of the Hamiltonian.  Missing: layers as in C115, one electron, and how small the two steps must be; whether a step small enough leaves the
rounding small enough depends on the Hamiltonian. -/
theorem C165_descent_partial (no na nb : ℕ) (hno : 1 < no) (ha : na ≤ no) (hb : nb ≤ no) (hne : na + nb ≠ 1)
    (col : List PStr → ℕ → ℕ) (hcol : ColouringOK col) (h1 : Fin (2 * no) → Fin (2 * no) → ℂ)
    (V : Fin (2 * no) → Fin (2 * no) → Fin (2 * no) → Fin (2 * no) → ℂ) (hs : SpinInts no h1 V) (hh : ∀ a b, h1 a b = h1 b a)
    (hV : ∀ a b c d, V a b c d = V c d a b) (hx : ∀ a b c d, V a b c d = V b a d c) (L : List (OpD FStr ℂ)) (hL : ∀ A ∈ L, LayerOK no A)
    (H : List (PStr × ℂ)) (hH : denPO H = secondQ h1 V) (hHr : ∀ t ∈ H, t.2.im = 0) (hHl : ∀ t ∈ H, t.1.length = 2 * no) (n : ℕ) (hn : n ≠ 0)
    (S : ℝ) (hS : 0 < S) :
    ∃ (psi : List (Term PStr ℂ)) (Us : List (Oper ℂ)) (Ψ : Cfg →₀ ℂ), ACSEEn.strings L = some psi ∧
      List.Forall₂ (fun t U => IsExp (t.2 • (denP 0 t.1 : Oper ℂ)) U) psi Us ∧ (Ψ : Cfg → ℂ) = Us.reverse.prod (ket (hfCfg no na nb)) ∧ pair Ψ Ψ = 1 ∧
      ∃ d0 > 0, ∀ d : ℝ, d ≠ 0 → |d| < d0 → 2 ^ (2 * no) * 1e-28 / |d| < S / 2 →
        ∃ A, MeasResid.statevector no na nb col L H n d = some A ∧
          (∀ i k j l, ‖A i k j l - residual (k2 h1 V ((na + nb : ℕ) : ℂ)) (rdm2 (evState Ψ)) (rdm3 (evState Ψ)) i k j l‖ < S) ∧
          ∀ B m, Collect.quantum S A = some (B, m) → m ≠ 0 → Descends (2 * no) (secondQ h1 V) Ψ B := by
  obtain ⟨psi, Us, Ψ, c1, c2, c3, c4, hst, M, d0, hd0, hM, c6, _⟩ := measured_setup no na nb hno ha hb hne col hcol h1 V hs hh hV hx L hL H hH hHr hHl n hn S hS
  refine ⟨psi, Us, Ψ, c1, c2, c3, c4, d0, hd0, fun d hd hlt hround => ?_⟩
  obtain ⟨A, hA, hAM⟩ := c6 d hd
  have hclose : ∀ i k j l, ‖A i k j l - residual (k2 h1 V ((na + nb : ℕ) : ℂ)) (rdm2 (evState Ψ)) (rdm3 (evState Ψ)) i k j l‖ < S := by
    intro i k j l
    have := norm_sub_le_norm_sub_add_norm_sub (A i k j l) (M d i k j l : ℂ) (residual (k2 h1 V ((na + nb : ℕ) : ℂ)) (rdm2 (evState Ψ)) (rdm3 (evState Ψ)) i k j l)
    have := hAM i k j l
    have := hM d hd hlt i k j l
    linarith
  have hI := measured_imag no na nb col L H n d A hA
  refine ⟨A, hA, hclose, fun B m hB hm => descends_of_close Ψ _ A hI.real hI.anti S (fun i k j l => ?_) B m hB hm⟩
  rw [← hst i k j l]
  exact hclose i k j l

theorem counts_imag (no na nb : ℕ) (col : List PStr → ℕ → ℕ) (L : List (OpD FStr ℂ)) (H : List (PStr × ℂ)) (n : ℕ) (d : ℝ) (shots : PStr → List ℕ)
    (A : Fin (2 * no) → Fin (2 * no) → Fin (2 * no) → Fin (2 * no) → ℂ) (h : MeasResid.counts no na nb col L H n d shots = some A) :
    (∀ i k j l, (starRingEnd ℂ) (A i k j l) = A i k j l) ∧ ∀ i k j l, A j l i k = -A i k j l := by
  unfold MeasResid.counts at h
  obtain ⟨prep, _, h⟩ := Option.bind_eq_some_iff.mp h
  obtain ⟨D, hD, rfl⟩ := Option.map_eq_some_iff.mp h
  have g1 : Herm 2 (entry D) := by
    have h2no : no + no = 2 * no := by omega
    have hLU : ListsUnique 2 no (2 * no) true (rdme 2 ⟨false, true⟩ (alpha no) (beta no no)) := by
      have := C27_order2_partial ⟨false, true⟩ no no le_rfl
      rw [h2no] at this
      exact this
    have ho : (defaultOrbs no).1 = alpha no := rfl
    rw [beta_default, ho] at hD
    unfold ShotTomo.runT at hD
    simp only at hD
    have hN : (alpha no).length + (beta no no).length = 2 * no := by simp [alpha, beta]; omega
    rw [hN] at hD
    obtain ⟨els, e1, h⟩ := Option.bind_eq_some_iff.mp hD
    obtain ⟨m, _, h⟩ := Option.bind_eq_some_iff.mp h
    obtain ⟨sim, _, h⟩ := Option.bind_eq_some_iff.mp h
    split at h
    · exact absurd h (by simp)
    obtain ⟨l, l1, rfl⟩ := Option.map_eq_some_iff.mp h
    refine (imag_fill no (2 * no) _ hLU l fun x hx => ?_).1
    obtain ⟨e, he, hx'⟩ := mapM_mem_of _ _ _ l1 x hx
    obtain ⟨v, _, rfl⟩ := Option.map_eq_some_iff.mp hx'
    obtain ⟨ind, hind, he'⟩ := mapM_mem_of _ _ _ e1 e he
    obtain ⟨Q, q1, _⟩ := elements_of_unique 2 ⟨false, true⟩ (Or.inr rfl) (Or.inl rfl) no (2 * no) (alpha no) (beta no no) hLU ind hind
    have he'' := q1.symm.trans he'
    obtain rfl := Option.some.inj he''
    exact hind
  refine ⟨fun i k j l => by unfold Collect.measured; exact Complex.conj_ofReal _, fun i k j l => ?_⟩
  have e : D [j.val, l.val, i.val, k.val] = (starRingEnd ℂ) (D [i.val, k.val, j.val, l.val]) := g1 [i.val, k.val] [j.val, l.val] rfl rfl
  unfold Collect.measured
  beta_reduce
  rw [e, Complex.conj_im]
  push_cast
  ring

/-- Markov's inequality for all entries of a tensor at once. -/
theorem prob_all_close {Ω : Type} [Fintype Ω] {r : ℕ} (W : Ω → ℝ) (h0 : ∀ ω, 0 ≤ W ω) (h1 : ∑ ω, W ω = 1) (X : Ω → Fin r → Fin r → Fin r → Fin r → ℝ)
    (v t : ℝ) (ht : 0 < t) (hX : ∀ i k j l, ev W (fun ω => X ω i k j l ^ 2) ≤ v) (E : Ω → Prop) (hE : ∀ ω, (∀ i k j l, X ω i k j l < t) → E ω) :
    1 - r ^ 4 * v / t ^ 2 ≤ prob W E := by
  classical
  have key : ∀ ω, W ω - (if E ω then W ω else 0) ≤ ∑ i, ∑ k, ∑ j, ∑ l, W ω * X ω i k j l ^ 2 / t ^ 2 := by
    intro ω
    have hnn : ∀ i k j l, 0 ≤ W ω * X ω i k j l ^ 2 / t ^ 2 := fun i k j l => div_nonneg (mul_nonneg (h0 ω) (sq_nonneg _)) (sq_nonneg _)
    by_cases hw : E ω
    · rw [if_pos hw, sub_self]
      exact Finset.sum_nonneg fun i _ => Finset.sum_nonneg fun k _ => Finset.sum_nonneg fun j _ => Finset.sum_nonneg fun l _ => hnn i k j l
    · rw [if_neg hw, sub_zero]
      have : ∃ i k j l, t ≤ X ω i k j l := by
        by_contra hc
        push Not at hc
        exact hw (hE ω hc)
      obtain ⟨i, k, j, l, hle⟩ := this
      have h2 : W ω ≤ W ω * X ω i k j l ^ 2 / t ^ 2 := by
        rw [le_div_iff₀ (by positivity)]
        exact mul_le_mul_of_nonneg_left (pow_le_pow_left₀ ht.le hle 2) (h0 ω)
      refine h2.trans ?_
      refine le_trans ?_ (Finset.single_le_sum (f := fun i => ∑ k, ∑ j, ∑ l, W ω * X ω i k j l ^ 2 / t ^ 2)
        (fun i _ => Finset.sum_nonneg fun k _ => Finset.sum_nonneg fun j _ => Finset.sum_nonneg fun l _ => hnn i k j l) (Finset.mem_univ i))
      refine le_trans ?_ (Finset.single_le_sum (f := fun k => ∑ j, ∑ l, W ω * X ω i k j l ^ 2 / t ^ 2)
        (fun k _ => Finset.sum_nonneg fun j _ => Finset.sum_nonneg fun l _ => hnn i k j l) (Finset.mem_univ k))
      refine le_trans ?_ (Finset.single_le_sum (f := fun j => ∑ l, W ω * X ω i k j l ^ 2 / t ^ 2)
        (fun j _ => Finset.sum_nonneg fun l _ => hnn i k j l) (Finset.mem_univ j))
      exact Finset.single_le_sum (f := fun l => W ω * X ω i k j l ^ 2 / t ^ 2) (fun l _ => hnn i k j l) (Finset.mem_univ l)
  have hsum := Finset.sum_le_sum fun ω (_ : ω ∈ Finset.univ) => key ω
  rw [Finset.sum_sub_distrib, h1] at hsum
  have hb : ∑ ω, ∑ i, ∑ k, ∑ j, ∑ l, W ω * X ω i k j l ^ 2 / t ^ 2 ≤ r ^ 4 * v / t ^ 2 := by
    rw [Finset.sum_comm]
    simp_rw [Finset.sum_comm (s := (Finset.univ : Finset Ω))]
    have : ∀ i k j l, ∑ ω, W ω * X ω i k j l ^ 2 / t ^ 2 ≤ v / t ^ 2 := fun i k j l => by
      rw [← Finset.sum_div]
      exact div_le_div_of_nonneg_right (hX i k j l) (sq_nonneg _)
    refine (Finset.sum_le_sum fun i _ => Finset.sum_le_sum fun k _ => Finset.sum_le_sum fun j _ => Finset.sum_le_sum fun l _ => this i k j l).trans ?_
    simp only [Finset.sum_const, Finset.card_univ, Fintype.card_fin, nsmul_eq_mul]
    exact le_of_eq (by ring)
  unfold prob
  have e : ∀ (i1 : ∀ ω, Decidable (E ω)), (∑ ω, @ite _ (E ω) (i1 ω) (W ω) 0) = ∑ ω, if E ω then W ω else 0 := fun i1 => Finset.sum_congr rfl fun ω _ => by congr
  rw [e]
  linarith

/-- **C165, partial.** The same from shots: for a Hamiltonian step below some `d0` and `Ns` shots for every circuit, all measured entries are closer than the threshold to the exact residual with probability at
least `1 - 4 (2 no)⁴ / (Ns d² S²)`; and for such outcomes every small enough Euler step along the returned operator lowers the energy if the reported norm is not zero, which is the case if the threshold is
below `1e-8 / (2 no)²` and some entry of the exact residual is at least twice the threshold.  Missing: layers as in C115, one electron, and how small the two steps must be. -/
theorem C165_shots_partial (no na nb : ℕ) (hno : 1 < no) (ha : na ≤ no) (hb : nb ≤ no) (hne : na + nb ≠ 1)
    (col : List PStr → ℕ → ℕ) (hcol : ColouringOK col) (h1 : Fin (2 * no) → Fin (2 * no) → ℂ)
    (V : Fin (2 * no) → Fin (2 * no) → Fin (2 * no) → Fin (2 * no) → ℂ) (hs : SpinInts no h1 V) (hh : ∀ a b, h1 a b = h1 b a)
    (hV : ∀ a b c d, V a b c d = V c d a b) (hx : ∀ a b c d, V a b c d = V b a d c) (L : List (OpD FStr ℂ)) (hL : ∀ A ∈ L, LayerOK no A)
    (H : List (PStr × ℂ)) (hH : denPO H = secondQ h1 V) (hHr : ∀ t ∈ H, t.2.im = 0) (hHl : ∀ t ∈ H, t.1.length = 2 * no) (n : ℕ) (hn : n ≠ 0)
    (S : ℝ) (hS : 0 < S) :
    ∃ (psi : List (Term PStr ℂ)) (Us : List (Oper ℂ)) (Ψ : Cfg →₀ ℂ), ACSEEn.strings L = some psi ∧
      List.Forall₂ (fun t U => IsExp (t.2 • (denP 0 t.1 : Oper ℂ)) U) psi Us ∧ (Ψ : Cfg → ℂ) = Us.reverse.prod (ket (hfCfg no na nb)) ∧ pair Ψ Ψ = 1 ∧
      ∃ d0 > 0, ∀ d : ℝ, d ≠ 0 → |d| < d0 → ∀ Ns : ℕ, 0 < Ns →
        ∃ (st : Cfg → ℂ) (A : Record (2 * no) Ns → Fin (2 * no) → Fin (2 * no) → Fin (2 * no) → Fin (2 * no) → ℂ),
          MeasResid.state no na nb L H n d = some st ∧ (∀ ω, MeasResid.counts no na nb col L H n d ω.shots = some (A ω)) ∧
          1 - 4 * (2 * no : ℕ) ^ 4 / (Ns * d ^ 2 * S ^ 2) ≤
            prob (recProb st) (fun ω : Record (2 * no) Ns => ∀ i k j l, ‖A ω i k j l - residual (k2 h1 V ((na + nb : ℕ) : ℂ)) (rdm2 (evState Ψ)) (rdm3 (evState Ψ)) i k j l‖ < S) ∧
          ∀ ω, (∀ i k j l, ‖A ω i k j l - residual (k2 h1 V ((na + nb : ℕ) : ℂ)) (rdm2 (evState Ψ)) (rdm3 (evState Ψ)) i k j l‖ < S) →
            (∀ B m, Collect.quantum S (A ω) = some (B, m) → m ≠ 0 → Descends (2 * no) (secondQ h1 V) Ψ B) ∧
            ((2 * no : ℕ) ^ 2 * S < 1e-8 → (∃ i k j l, 2 * S ≤ ‖residual (k2 h1 V ((na + nb : ℕ) : ℂ)) (rdm2 (evState Ψ)) (rdm3 (evState Ψ)) i k j l‖) →
              ∃ B m, Collect.quantum S (A ω) = some (B, m) ∧ m ≠ 0) := by
  obtain ⟨psi, Us, Ψ, c1, c2, c3, c4, hst, M, d0, hd0, hM, _, c7⟩ := measured_setup no na nb hno ha hb hne col hcol h1 V hs hh hV hx L hL H hH hHr hHl n hn S hS
  refine ⟨psi, Us, Ψ, c1, c2, c3, c4, d0, hd0, fun d hd hlt Ns hNs => ?_⟩
  obtain ⟨st, A, a1, a2, a3, a4, a5⟩ := c7 d hd Ns hNs
  refine ⟨st, A, a1, a4, ?_, fun ω hclose => ⟨fun B m hB hm => ?_, fun hsafe hbig => ?_⟩⟩
  · have := prob_all_close (recProb st) a2 a3 (fun ω i k j l => ‖A ω i k j l - (M d i k j l : ℂ)‖) (1 / (Ns * d ^ 2)) (S / 2) (by linarith) (fun i k j l => (a5 i k j l).2)
      (fun ω => ∀ i k j l, ‖A ω i k j l - residual (k2 h1 V ((na + nb : ℕ) : ℂ)) (rdm2 (evState Ψ)) (rdm3 (evState Ψ)) i k j l‖ < S) (fun ω hω i k j l => by
        have := norm_sub_le_norm_sub_add_norm_sub (A ω i k j l) (M d i k j l : ℂ) (residual (k2 h1 V ((na + nb : ℕ) : ℂ)) (rdm2 (evState Ψ)) (rdm3 (evState Ψ)) i k j l)
        have := hω i k j l
        have := hM d hd hlt i k j l
        linarith)
    refine le_trans (le_of_eq ?_) this
    have hNs' : (Ns : ℝ) ≠ 0 := by exact_mod_cast hNs.ne'
    field_simp
    try ring
  · obtain ⟨g1, g2⟩ := counts_imag no na nb col L H n d ω.shots (A ω) (a4 ω)
    refine descends_of_close Ψ _ (A ω) g1 g2 S (fun i k j l => ?_) B m hB hm
    rw [← hst i k j l]
    exact hclose i k j l
  · obtain ⟨i, k, j, l, hbig⟩ := hbig
    obtain ⟨B, m, hB, hm, _⟩ := C114_quantum_safe S hS.le hsafe (A ω)
    refine ⟨B, m, hB, ?_⟩
    have hA : S ≤ ‖A ω i k j l‖ := by
      have h3 := norm_sub_norm_le (residual (k2 h1 V ((na + nb : ℕ) : ℂ)) (rdm2 (evState Ψ)) (rdm3 (evState Ψ)) i k j l) (A ω i k j l)
      have h4 := hclose i k j l
      rw [norm_sub_rev] at h4
      linarith
    unfold Collect.quantum at hB
    obtain ⟨B', _, hB⟩ := Option.bind_eq_some_iff.mp hB
    split at hB
    swap
    · cases hB
    obtain ⟨_, rfl⟩ := Prod.mk.inj (Option.some.inj hB)
    rw [keptSq_eq]
    refine (mul_pos (by norm_num) (Real.sqrt_pos.mpr ?_)).ne'
    refine sum4_pos _ (fun _ _ _ _ => sq_nonneg _) i k j l ?_
    unfold cutAt
    rw [if_pos hA]
    exact pow_pos (hS.trans_le hA) 2

/-- The first direction of a run on a minimal-basis molecule, with the threshold `1e-5`. -/
example : ∃ (H : POp ℂ) (d0 : ℝ), denPO H = secondQ exH exV ∧ 0 < d0 ∧ ∀ d : ℝ, d ≠ 0 → |d| < d0 → 2 ^ (2 * 2) * 1e-28 / |d| < (1e-5 : ℝ) / 2 →
    ∃ A, MeasResid.statevector 2 1 1 (fun _ i => i) [] H 1 d = some A ∧
      ∀ B m, Collect.quantum 1e-5 A = some (B, m) → m ≠ 0 → IsAdj (-denD (denF 0) B : Oper ℂ) (denD (denF 0) B) := by
  obtain ⟨hh, hV, hx⟩ := ex_symm
  obtain ⟨_, H, _, _, _, q1, q2, q3⟩ := C153_hamiltonian 2 (fun _ => false) exH exV ex_spin hh hV (fun _ _ h => absurd h (by simp)) (fun _ _ _ _ h => absurd h (by simp))
  obtain ⟨_, _, _, _, _, _, _, d0, h0, h⟩ := C165_descent_partial 2 1 1 (by norm_num) (by norm_num) (by norm_num) (by norm_num) (fun _ i => i) colouring_id exH exV
    ex_spin hh hV hx [] (by simp) H q1 q2 q3 1 one_ne_zero 1e-5 (by norm_num)
  refine ⟨H, d0, q1, h0, fun d hd hlt hr => ?_⟩
  obtain ⟨A, hA, _, _⟩ := h d hd hlt hr
  exact ⟨A, hA, fun B m hB _ => (C164_direction 2 1 1 _ [] H 1 d _ A hA B m hB).1⟩

/-- The first direction from shots: for some step and number of shots the measured residual is accurate with probability at least `0.99`. -/
example : ∃ (H : POp ℂ) (Ψ : Cfg →₀ ℂ) (d : ℝ) (Ns : ℕ) (st : Cfg → ℂ) (A : Record (2 * 2) Ns → Fin (2 * 2) → Fin (2 * 2) → Fin (2 * 2) → Fin (2 * 2) → ℂ),
    denPO H = secondQ exH exV ∧ (Ψ : Cfg → ℂ) = ket (hfCfg 2 1 1) ∧ MeasResid.state 2 1 1 [] H 1 d = some st ∧
    (∀ ω, MeasResid.counts 2 1 1 (fun _ i => i) [] H 1 d ω.shots = some (A ω)) ∧
    0.99 ≤ prob (recProb st) fun ω : Record (2 * 2) Ns => ∀ B m, Collect.quantum 1e-10 (A ω) = some (B, m) → m ≠ 0 → Descends (2 * 2) (secondQ exH exV) Ψ B := by
  obtain ⟨hh, hV, hx⟩ := ex_symm
  obtain ⟨_, H, _, _, _, q1, q2, q3⟩ := C153_hamiltonian 2 (fun _ => false) exH exV ex_spin hh hV (fun _ _ h => absurd h (by simp)) (fun _ _ _ _ h => absurd h (by simp))
  obtain ⟨psi, Us, Ψ, e1, e2, e3, _, d0, h0, h⟩ := C165_shots_partial 2 1 1 (by norm_num) (by norm_num) (by norm_num) (by norm_num) (fun _ i => i) colouring_id exH exV
    ex_spin hh hV hx [] (by simp) H q1 q2 q3 1 one_ne_zero 1e-10 (by norm_num)
  obtain ⟨Ns, hNs⟩ := exists_nat_gt (100 * (4 * ((2 * 2 : ℕ) : ℝ) ^ 4) / ((d0 / 2) ^ 2 * 1e-10 ^ 2))
  have hpos : (0 : ℝ) < (d0 / 2) ^ 2 * 1e-10 ^ 2 := by positivity
  have hNs0 : (0 : ℝ) < Ns := lt_trans (by positivity) hNs
  obtain ⟨st, A, a1, a2, a3, a4⟩ := h (d0 / 2) (by positivity) (by rw [abs_of_pos (by positivity)]; linarith) Ns (by exact_mod_cast hNs0)
  have hΨ : (Ψ : Cfg → ℂ) = ket (hfCfg 2 1 1) := by
    obtain rfl : psi = [] := (Option.some.inj (show some ([] : List (Term PStr ℂ)) = some psi from e1)).symm
    cases e2
    exact e3
  refine ⟨H, Ψ, d0 / 2, Ns, st, A, q1, hΨ, a1, a2, ?_⟩
  have hb : 4 * ((2 * 2 : ℕ) : ℝ) ^ 4 / (Ns * (d0 / 2) ^ 2 * 1e-10 ^ 2) ≤ 0.01 := by
    rw [div_lt_iff₀ hpos] at hNs
    rw [div_le_iff₀ (by positivity), mul_assoc]
    linarith
  refine le_trans (le_trans (by linarith) a3) ?_
  classical
  unfold prob
  refine Finset.sum_le_sum fun ω _ => ?_
  by_cases hω : ∀ i k j l, ‖A ω i k j l - residual (k2 exH exV ((1 + 1 : ℕ) : ℂ)) (rdm2 (evState Ψ)) (rdm3 (evState Ψ)) i k j l‖ < (1e-10 : ℝ)
  · rw [if_pos hω, if_pos (a4 ω hω).1]
  · rw [if_neg hω]
    split
    · exact Finset.prod_nonneg fun _ _ => sq_nonneg _
    · exact le_rfl

end
end Props
end HQCA
