import Verif.Model.MeasResid
import Verif.Props.ShotTomo
import Verif.Props.QResidual
import Verif.Props.EulerRun

/-!
# C153: the residual measured by the quantum solver, end to end
-/

namespace HQCA.Props
open HQCA.Tomo HQCA.Prim HQCA.Transform HQCA.Prepare HQCA.Instr HQCA.Ham Filter Topology
noncomputable section

theorem gatesOf_reg (N : ℕ) (gs : List (ℝ × PStr)) (h : ∀ g ∈ gs, g.2.length = N) (ψ : Cfg → ℂ) (hψ : InS (fun b => ∀ i, N ≤ i → b i = false) ψ) :
    InS (fun b => ∀ i, N ≤ i → b i = false) (circOp (gatesOf gs) ψ) := by
  induction gs generalizing ψ with
  | nil => exact hψ
  | cons g gs ih =>
    have e : circOp (gatesOf (g :: gs)) ψ = circOp (gatesOf gs) (circOp (gadget g.1 g.2) ψ) := by
      unfold gatesOf
      rw [List.flatMap_cons, circOp_append, Module.End.mul_apply]
    rw [e]
    refine ih (fun x hx => h x (by simp [hx])) _ ?_
    by_cases hg : ∃ p ∈ g.2, p ≠ PL.I
    · rw [gadget_eq _ _ hg]
      intro b hb
      replace hb : (Real.cos g.1 : ℂ) * ψ b + (Complex.I * (Real.sin g.1 : ℂ)) * denP 0 g.2 ψ b ≠ 0 := hb
      by_cases h0 : ψ b = 0
      · rw [h0, mul_zero, zero_add] at hb
        exact denP_reg N g.2 (h g (by simp)) ψ hψ b (right_ne_zero_of_mul hb)
      · exact hψ b h0
    · rw [all_I g.2 hg, gadget_I]
      exact hψ

theorem Sector.add' {Na : ℕ} {n : ℤ} {φ χ : Cfg → ℂ} (h : Sector Na n φ) (h' : Sector Na n χ) : Sector Na n (φ + χ) := by
  intro b hb
  by_cases h0 : φ b = 0
  · refine h' b fun h1 => hb ?_
    show φ b + χ b = 0
    rw [h0, h1, add_zero]
  · exact h b h0

theorem Sector.smul' {Na : ℕ} {n : ℤ} {φ : Cfg → ℂ} (c : ℂ) (h : c ≠ 0 → Sector Na n φ) : Sector Na n (c • φ) := by
  intro b hb
  replace hb : c * φ b ≠ 0 := hb
  exact h (left_ne_zero_of_mul hb) b (right_ne_zero_of_mul hb)

theorem Sector.sum' {Na : ℕ} {n : ℤ} {ι : Type} (s : Finset ι) (φ : ι → Cfg → ℂ) (h : ∀ i ∈ s, Sector Na n (φ i)) : Sector Na n (∑ i ∈ s, φ i) := by
  classical
  induction s using Finset.induction_on with
  | empty => intro b hb; exact absurd rfl hb
  | insert i s hi ih =>
    rw [Finset.sum_insert hi]
    exact Sector.add' (h i (by simp)) (ih fun j hj => h j (by simp [hj]))

theorem sector_secondQ {no : ℕ} {h1 : Fin (2 * no) → Fin (2 * no) → ℂ} {V : Fin (2 * no) → Fin (2 * no) → Fin (2 * no) → Fin (2 * no) → ℂ}
    (hs : SpinInts no h1 V) (n : ℤ) (φ : Cfg → ℂ) (h : Sector no n φ) : Sector no n (secondQ h1 V φ) := by
  unfold secondQ
  rw [LinearMap.add_apply]
  simp only [LinearMap.sum_apply, LinearMap.smul_apply, Module.End.mul_apply]
  refine Sector.add' (Sector.sum' _ _ fun p _ => Sector.sum' _ _ fun q _ => Sector.smul' _ fun hc => ?_)
    (Sector.sum' _ _ fun p _ => Sector.sum' _ _ fun t _ => Sector.sum' _ _ fun s _ => Sector.sum' _ _ fun q _ => Sector.smul' _ fun hc => ?_)
  · have := (h.ann q.val).cre p.val
    simp only [hs.one p q hc, sub_add_cancel] at this
    exact this
  · obtain ⟨e1, e2⟩ := hs.two p t q s (right_ne_zero_of_mul hc)
    have := (((h.ann q.val).ann s.val).cre t.val).cre p.val
    simp only [e1, e2] at this
    rwa [sub_add_cancel, sub_add_cancel] at this

theorem pair_sector_ne (Ψ : Cfg →₀ ℂ) (φ : Cfg → ℂ) (no : ℕ) (n m : ℤ) (h : Sector no n (Ψ : Cfg → ℂ)) (h' : Sector no m φ) (hne : n ≠ m) : pair Ψ φ = 0 := by
  unfold pair
  rw [Finsupp.sum]
  apply Finset.sum_eq_zero
  intro b hb
  have e1 := h b (Finsupp.mem_support_iff.mp hb)
  have : φ b = 0 := by
    by_contra h0
    exact hne (e1.symm.trans (h' b h0))
  rw [this, mul_zero]

/-- The residual vanishes where the spin is not conserved. -/
theorem comm_sector {no : ℕ} {h1 : Fin (2 * no) → Fin (2 * no) → ℂ} {V : Fin (2 * no) → Fin (2 * no) → Fin (2 * no) → Fin (2 * no) → ℂ}
    (hs : SpinInts no h1 V) (n : ℤ) (Ψ : Cfg →₀ ℂ) (h : Sector no n (Ψ : Cfg → ℂ)) (i k j l : Fin (2 * no)) (hn : nAlpha no [i.val, k.val] ≠ nAlpha no [j.val, l.val]) :
    pair Ψ ((gop i k j l * secondQ h1 V - secondQ h1 V * gop i k j l : Oper ℂ) Ψ) = 0 := by
  have hg : ∀ φ : Cfg → ℂ, Sector no n φ → Sector no (n - nAlpha no [j.val, l.val] + nAlpha no [i.val, k.val]) ((gop i k j l : Oper ℂ) φ) := by
    intro φ hφ
    have := (((hφ.ann j.val).ann l.val).cre k.val).cre i.val
    have e : n - nAlpha no [j.val, l.val] + nAlpha no [i.val, k.val] = n - (if j.val < no then 1 else 0) - (if l.val < no then 1 else 0)
        + (if k.val < no then 1 else 0) + (if i.val < no then 1 else 0) := by
      rw [nAlpha_cons, nAlpha_cons, nAlpha_cons, nAlpha_cons]
      simp only [nAlpha, List.countP_nil]
      push_cast
      ring
    rw [e]
    exact this
  have hne : n ≠ n - nAlpha no [j.val, l.val] + nAlpha no [i.val, k.val] := by omega
  have e : pair Ψ ((gop i k j l * secondQ h1 V - secondQ h1 V * gop i k j l : Oper ℂ) Ψ)
      = pair Ψ ((gop i k j l : Oper ℂ) (secondQ h1 V Ψ)) - pair Ψ (secondQ h1 V ((gop i k j l : Oper ℂ) Ψ)) := by
    have : ((gop i k j l * secondQ h1 V - secondQ h1 V * gop i k j l : Oper ℂ) Ψ)
        = (gop i k j l : Oper ℂ) (secondQ h1 V Ψ) + (-1 : ℂ) • secondQ h1 V ((gop i k j l : Oper ℂ) Ψ) := by
      funext b
      show (gop i k j l : Oper ℂ) (secondQ h1 V Ψ) b - secondQ h1 V ((gop i k j l : Oper ℂ) Ψ) b = _ + (-1 : ℂ) * _
      ring
    rw [this, pair_add_right, pair_smul_right]
    ring
  rw [e, pair_sector_ne Ψ _ no n _ h (hg _ (sector_secondQ hs n _ h)) hne, pair_sector_ne Ψ _ no n _ h (sector_secondQ hs _ _ (hg _ h)) hne, sub_zero]

theorem resid_state (no na nb : ℕ) (L : List (OpD FStr ℂ)) (H : List (PStr × ℂ)) (n : ℕ) (d : ℝ) :
    MeasResid.state no na nb L H n d = (ACSEEn.state no na nb L).map fun ψ => circOp (gatesOf (applyH n d H)) ψ := by
  unfold MeasResid.state ACSEEn.state pauliSet
  cases initial (defaultOrbs no).1 (defaultOrbs no).2 na nb with
  | none => rfl
  | some l =>
    cases ACSEEn.strings L with
    | none => rfl
    | some psi =>
      simp only [Option.bind_some]
      cases applyOp 1 none psi with
      | none => rfl
      | some gs =>
        simp only [Option.bind_some, Option.map_some]
        cases prepare jordanWigner (2 * no) (2 * no) l with
        | none => rfl
        | some pg =>
          simp only [Option.map_some]
          congr 1
          have : gatesOf (gs ++ applyH n d H) = gatesOf gs ++ gatesOf (applyH n d H) := by
            unfold gatesOf; rw [List.flatMap_append]
          rw [this, ← List.append_assoc, circOp_append, Module.End.mul_apply]

theorem rdme2_imag_ne (no : ℕ) (h : 1 < no) : rdme 2 ⟨false, true⟩ (alpha no) (beta no no) ≠ [] := by
  intro h0
  have h1 := (C27_order2_partial ⟨false, true⟩ no no le_rfl).2 [0, no] [1, no]
    ⟨rfl, by simp; omega, by simp; omega⟩ ⟨rfl, by simp; omega, by simp; omega⟩ (by
    have : 0 < no := by omega
    simp [nAlpha, this, h])
  have h2 : rdme2 ⟨false, true⟩ (alpha no) (beta no no) = [] := h0
  rw [h2] at h1
  simp at h1

/-- **C153, partial.** The residual the quantum solver measures for an ansatz, end to end.  There is an ideal measured residual `M d`, the same for both kinds of backend: with the
state-vector backend the result differs from it by at most `2^N · 1e-28 / |d|`; from `Ns` shots for every circuit its expectation value is exactly `M d` and its mean square
deviation at most `1/(Ns d²)`; and `M d` tends to the residual of the classical solver in the state of the ansatz as the Hamiltonian step `d` goes to zero, for every number of
Trotter steps, although the steps do not conserve the numbers of electrons.  So the step has to be small and the number of shots large compared with `1/d²`.  Missing: one electron (C52), a single
spatial orbital (`C153_single_orbital`), and layers as in C115. -/
theorem C153_residual_partial (no na nb : ℕ) (hno : 1 < no) (ha : na ≤ no) (hb : nb ≤ no) (hne : na + nb ≠ 1)
    (col : List PStr → ℕ → ℕ) (hcol : ColouringOK col) (h1 : Fin (2 * no) → Fin (2 * no) → ℂ)
    (V : Fin (2 * no) → Fin (2 * no) → Fin (2 * no) → Fin (2 * no) → ℂ) (hs : SpinInts no h1 V) (hh : ∀ a b, h1 a b = h1 b a)
    (hV : ∀ a b c d, V a b c d = V c d a b) (hx : ∀ a b c d, V a b c d = V b a d c) (L : List (OpD FStr ℂ)) (hL : ∀ A ∈ L, LayerOK no A)
    (H : List (PStr × ℂ)) (hH : denPO H = secondQ h1 V) (hHr : ∀ t ∈ H, t.2.im = 0) (hHl : ∀ t ∈ H, t.1.length = 2 * no) (n : ℕ) (hn : n ≠ 0) :
    ∃ (psi : List (Term PStr ℂ)) (Us : List (Oper ℂ)) (Ψ : Cfg →₀ ℂ) (M : ℝ → Fin (2 * no) → Fin (2 * no) → Fin (2 * no) → Fin (2 * no) → ℝ),
      ACSEEn.strings L = some psi ∧ List.Forall₂ (fun t U => IsExp (t.2 • (denP 0 t.1 : Oper ℂ)) U) psi Us ∧
      (Ψ : Cfg → ℂ) = Us.reverse.prod (ket (hfCfg no na nb)) ∧ pair Ψ Ψ = 1 ∧ InS (InSec no (2 * no) na (na + nb)) Ψ ∧
      (∀ d : ℝ, d ≠ 0 → ∃ A, MeasResid.statevector no na nb col L H n d = some A ∧ ∀ i k j l, ‖A i k j l - (M d i k j l : ℂ)‖ ≤ 2 ^ (2 * no) * 1e-28 / |d|) ∧
      (∀ d : ℝ, d ≠ 0 → ∀ Ns : ℕ, 0 < Ns → ∃ (st : Cfg → ℂ) (A : Record (2 * no) Ns → Fin (2 * no) → Fin (2 * no) → Fin (2 * no) → Fin (2 * no) → ℂ),
        MeasResid.state no na nb L H n d = some st ∧ (∀ ω : Record (2 * no) Ns, 0 ≤ recProb st ω) ∧ ∑ ω : Record (2 * no) Ns, recProb st ω = 1 ∧
        (∀ ω, MeasResid.counts no na nb col L H n d ω.shots = some (A ω)) ∧
        ∀ i k j l, mean (recProb st) (fun ω => A ω i k j l) = (M d i k j l : ℂ) ∧
          ev (recProb st) (fun ω => ‖A ω i k j l - (M d i k j l : ℂ)‖ ^ 2) ≤ 1 / (Ns * d ^ 2)) ∧
      ∀ i k j l, Tendsto (fun d => M d i k j l) (𝓝[≠] 0)
        (𝓝 (Resid.residual (k2 h1 V ((na + nb : ℕ) : ℂ)) (rdm2 (evState Ψ)) (rdm3 (evState Ψ)) i k j l).re) := by
  obtain ⟨psi, Us, Ψ, ph, s1, s3, s4, s5, s6, s7, s8, s9⟩ := acse_state no na nb ha hb L hL
  obtain ⟨ψd, hψd⟩ := C77_states H n Ψ
  have ho : (defaultOrbs no).1 = alpha no := rfl
  have h2no : no + no = 2 * no := by omega
  have hLU : ListsUnique 2 no (2 * no) true (rdme 2 ⟨false, true⟩ (alpha no) (beta no no)) := by
    have := C27_order2_partial ⟨false, true⟩ no no le_rfl
    rw [h2no] at this
    exact this
  have hreg0 : InS (fun b => ∀ i, 2 * no ≤ i → b i = false) (Ψ : Cfg → ℂ) := fun b hb0 => (s8 b hb0).2.2
  have hlenH : ∀ d, ∀ g ∈ applyH n d H, g.2.length = 2 * no := by
    intro d g hg
    unfold applyH at hg
    obtain ⟨_, _, hg⟩ := List.mem_flatMap.mp hg
    obtain ⟨t, ht, rfl⟩ := List.mem_map.mp hg
    exact hHl t ht
  have hregd : ∀ d b, (ph • ψd d : Cfg →₀ ℂ) b ≠ 0 → ∀ i, 2 * no ≤ i → b i = false := by
    intro d b hb0
    have h0 : ψd d b ≠ 0 := fun h => hb0 (by simp [h])
    rw [hψd] at h0
    exact gatesOf_reg (2 * no) _ (hlenH d) _ hreg0 b h0
  have hnorm : ∀ d, pair (ph • ψd d) ((ph • ψd d : Cfg →₀ ℂ) : Cfg → ℂ) = 1 := by
    intro d
    obtain ⟨φ, f1, f2⟩ := circ_norm (applyH n d H) Ψ
    have : φ = ψd d := DFunLike.coe_injective (by rw [f1, hψd])
    rw [pair_phase ph s5, ← this, f2, s7]
  have hst : ∀ d, MeasResid.state no na nb L H n d = some ((ph • ψd d : Cfg →₀ ℂ) : Cfg → ℂ) := by
    intro d
    rw [resid_state, s6, Option.map_some]
    congr 1
    have e1 : ((ph • Ψ : Cfg →₀ ℂ) : Cfg → ℂ) = ph • (Ψ : Cfg → ℂ) := rfl
    have e2 : ((ph • ψd d : Cfg →₀ ℂ) : Cfg → ℂ) = ph • (ψd d : Cfg → ℂ) := rfl
    rw [e1, e2, map_smul, hψd]
  refine ⟨psi, Us, Ψ, fun d i k j l => if nAlpha no [i.val, k.val] = nAlpha no [j.val, l.val] then (rdm2 (evState (ψd d)) i k j l).im * (1 / d) else 0,
    s1, s3, s4, s7, s8, ?_, ?_, ?_⟩
  · intro d hd
    obtain ⟨D, hD, hDe⟩ := statevector_any 2 ⟨false, true⟩ (Or.inr rfl) (Or.inl rfl) no (2 * no) (alpha no) (beta no no) (by simp [alpha, beta]; omega)
      hLU (rdme2_imag_ne no hno) col hcol (ph • ψd d) (hnorm d) (hregd d)
    refine ⟨Collect.measured d fun i k j l => D [i.val, k.val, j.val, l.val], ?_, fun i k j l => ?_⟩
    · unfold MeasResid.statevector
      rw [hst, Option.bind_some, beta_default, ho, hD, Option.map_some]
    · have := hDe [i.val, k.val] [j.val, l.val] rfl rfl (by simp [i.isLt, k.isLt]) (by simp [j.isLt, l.isLt])
      have him := (Complex.abs_im_le_norm _).trans this
      rw [Complex.sub_im] at him
      unfold Collect.measured
      rw [← Complex.ofReal_sub, Complex.norm_real, Real.norm_eq_abs]
      have e : (if nAlpha no [i.val, k.val] = nAlpha no [j.val, l.val] then (rdm2 (evState (ψd d)) i k j l).im * (1 / d) else 0)
          = (if nAlpha no [i.val, k.val] = nAlpha no [j.val, l.val] then target ⟨false, true⟩ (ph • ψd d) [i.val, k.val] [j.val, l.val] else 0).im * (1 / d) := by
        split
        · unfold target
          simp only
          rw [rdm_phase ph s5, rdm2_evState]
          simp
        · simp
      beta_reduce
      rw [e, ← sub_mul, abs_mul, abs_div, abs_one, mul_one_div]
      gcongr
      exact him
  · intro d hd Ns hNs
    obtain ⟨D, hD, hDe⟩ := shots_any 2 ⟨false, true⟩ (Or.inr rfl) (Or.inl rfl) no (2 * no) (alpha no) (beta no no) (by simp [alpha, beta]; omega)
      hLU (rdme2_imag_ne no hno) col hcol (ph • ψd d) (hnorm d) (hregd d) Ns hNs
    obtain ⟨p1, p2⟩ := C151_probability (N := 2 * no) (Ns := Ns) (ph • ψd d) (hnorm d) (hregd d)
    refine ⟨_, fun ω => Collect.measured d fun i k j l => D ω [i.val, k.val, j.val, l.val], hst d, p1, p2, fun ω => ?_, fun i k j l => ?_⟩
    · unfold MeasResid.counts
      rw [hst, Option.bind_some, beta_default, ho, hD, Option.map_some]
    · obtain ⟨m1, m2⟩ := hDe [i.val, k.val] [j.val, l.val] rfl rfl (by simp [i.isLt, k.isLt]) (by simp [j.isLt, l.isLt])
      have e : (if nAlpha no [i.val, k.val] = nAlpha no [j.val, l.val] then (rdm2 (evState (ψd d)) i k j l).im * (1 / d) else 0)
          = (if nAlpha no [i.val, k.val] = nAlpha no [j.val, l.val] then target ⟨false, true⟩ (ph • ψd d) [i.val, k.val] [j.val, l.val] else 0).im * (1 / d) := by
        split
        · unfold target
          simp only
          rw [rdm_phase ph s5, rdm2_evState]
          simp
        · simp
      beta_reduce
      rw [e]
      generalize (if nAlpha no [i.val, k.val] = nAlpha no [j.val, l.val] then target ⟨false, true⟩ (ph • ψd d) [i.val, k.val] [j.val, l.val] else 0) = t at m1 m2
      unfold Collect.measured
      constructor
      · rw [mean_ofReal]
        congr 1
        have e2 : (fun ω : Record (2 * no) Ns => (D ω [i.val, k.val, j.val, l.val]).im * (1 / d)) = fun ω => (1 / d) * (D ω [i.val, k.val, j.val, l.val]).im := by
          funext ω; exact mul_comm _ _
        rw [e2, ev_mul, mean_im, mul_comm]
        rw [show (fun ω => D ω [i.val, k.val, j.val, l.val]) = fun ω => D ω ([i.val, k.val] ++ [j.val, l.val]) from rfl, m1]
      · have e3 : (1 : ℝ) / (Ns * d ^ 2) = (1 / d ^ 2) * (1 / Ns) := by
          field_simp
        rw [e3]
        refine le_trans (le_trans (ev_mono _ p1 fun ω => ?_) (le_of_eq (ev_mul _ (1 / d ^ 2) fun ω => ‖D ω ([i.val, k.val] ++ [j.val, l.val]) - t‖ ^ 2))) (mul_le_mul_of_nonneg_left m2 (by positivity))
        rw [← Complex.ofReal_sub, Complex.norm_real, Real.norm_eq_abs, sq_abs, ← sub_mul, mul_pow, ← Complex.sub_im, mul_comm, div_pow, one_pow]
        refine mul_le_mul_of_nonneg_left ?_ (by positivity)
        rw [← sq_abs]
        exact pow_le_pow_left₀ (abs_nonneg _) (Complex.abs_im_le_norm _) 2
  · intro i k j l
    have hN : numberOp (2 * no) (Ψ : Cfg → ℂ) = ((na + nb : ℕ) : ℂ) • (Ψ : Cfg → ℂ) := number_sec (2 * no) (na + nb) Ψ fun b hb0 => (s8 b hb0).2.1
    have hne' : ((na + nb : ℕ) : ℂ) ≠ 1 := by exact_mod_cast hne
    by_cases hc : nAlpha no [i.val, k.val] = nAlpha no [j.val, l.val]
    · simp only [if_pos hc]
      exact C77_residual H hHr n hn Ψ s9 _ hne' hN h1 V hh hV hx hH ψd hψd i k j l
    · simp only [if_neg hc]
      rw [C74_state Ψ s9 _ hne' hN h1 V hh hV hx, comm_sector hs (na : ℤ) Ψ (fun b hb0 => by exact_mod_cast (s8 b hb0).1) i k j l hc, Complex.zero_re]
      exact tendsto_const_nhds

theorem sum4_rev {ι M : Type} [Fintype ι] [AddCommMonoid M] (f : ι → ι → ι → ι → M) :
    ∑ a, ∑ b, ∑ c, ∑ d, f a b c d = ∑ d, ∑ c, ∑ b, ∑ a, f a b c d := by
  have h3 : ∀ g : ι → ι → ι → M, ∑ a, ∑ b, ∑ c, g a b c = ∑ c, ∑ b, ∑ a, g a b c := by
    intro g
    rw [Finset.sum_comm]
    simp_rw [Finset.sum_comm (f := fun a c => g a _ c)]
    rw [Finset.sum_comm]
  calc ∑ a, ∑ b, ∑ c, ∑ d, f a b c d = ∑ a, ∑ d, ∑ c, ∑ b, f a b c d := Finset.sum_congr rfl fun a _ => h3 _
    _ = ∑ d, ∑ a, ∑ c, ∑ b, f a b c d := Finset.sum_comm
    _ = ∑ d, ∑ c, ∑ b, ∑ a, f a b c d := Finset.sum_congr rfl fun d _ => by
        rw [Finset.sum_comm]
        exact Finset.sum_congr rfl fun c _ => Finset.sum_comm

theorem isAdj_secondQ {r : ℕ} (h1 : Fin r → Fin r → ℂ) (V : Fin r → Fin r → Fin r → Fin r → ℂ) (hh : ∀ a b, h1 a b = h1 b a)
    (hV : ∀ a b c d, V a b c d = V c d a b) (r1 : ∀ a b, (starRingEnd ℂ) (h1 a b) = h1 a b) (r2 : ∀ a b c d, (starRingEnd ℂ) (V a b c d) = V a b c d) :
    IsAdj (secondQ h1 V) (secondQ h1 V) := by
  have a1 : IsAdj (∑ p : Fin r, ∑ q : Fin r, h1 p q • (cre p.val * ann q.val) : Oper ℂ) (∑ p : Fin r, ∑ q : Fin r, h1 p q • (cre q.val * ann p.val)) := by
    refine IsAdj.sum' _ _ _ fun p _ => IsAdj.sum' _ _ _ fun q _ => ?_
    have := ((isAdj_cre (K := ℂ) p.val).mul (isAdj_ann q.val)).smul (h1 p q)
    rw [show conj (h1 p q) = h1 p q from r1 p q] at this
    exact this
  have a2 : IsAdj (∑ p : Fin r, ∑ t : Fin r, ∑ s : Fin r, ∑ q : Fin r, (1 / 2 * V p t q s) • gop p t q s : Oper ℂ)
      (∑ p : Fin r, ∑ t : Fin r, ∑ s : Fin r, ∑ q : Fin r, (1 / 2 * V p t q s) • gop q s p t) := by
    refine IsAdj.sum' _ _ _ fun p _ => IsAdj.sum' _ _ _ fun t _ => IsAdj.sum' _ _ _ fun s _ => IsAdj.sum' _ _ _ fun q _ => ?_
    have := (isAdj_gop (K := ℂ) p t q s).smul (1 / 2 * V p t q s)
    rw [show conj (1 / 2 * V p t q s) = 1 / 2 * V p t q s by
      show (starRingEnd ℂ) _ = _
      rw [map_mul, r2, map_div₀, map_one, Complex.conj_ofNat]] at this
    exact this
  have e1 : (∑ p : Fin r, ∑ q : Fin r, h1 p q • (cre q.val * ann p.val) : Oper ℂ) = ∑ p : Fin r, ∑ q : Fin r, h1 p q • (cre p.val * ann q.val) := by
    rw [Finset.sum_comm]
    exact Finset.sum_congr rfl fun p _ => Finset.sum_congr rfl fun q _ => by rw [hh q p]
  have e2 : (∑ p : Fin r, ∑ t : Fin r, ∑ s : Fin r, ∑ q : Fin r, (1 / 2 * V p t q s) • gop q s p t : Oper ℂ)
      = ∑ p : Fin r, ∑ t : Fin r, ∑ s : Fin r, ∑ q : Fin r, (1 / 2 * V p t q s) • gop p t q s := by
    rw [sum4_rev]
    exact Finset.sum_congr rfl fun p _ => Finset.sum_congr rfl fun t _ => Finset.sum_congr rfl fun s _ => Finset.sum_congr rfl fun q _ => by rw [hV q s p t]
  rw [e1] at a1
  rw [e2] at a2
  exact a1.add a2

/-- The hypotheses of C153 on the qubit Hamiltonian are met, for every choice of symmetric real integrals, by an operator whose coefficients are within `1e-12` per
fermionic term of those the Hamiltonian class computes. -/
theorem C153_hamiltonian (no : ℕ) (skip : ℂ → Bool) (h1 : Fin (2 * no) → Fin (2 * no) → ℂ) (V : Fin (2 * no) → Fin (2 * no) → Fin (2 * no) → Fin (2 * no) → ℂ)
    (hs : SpinInts no h1 V) (hh : ∀ a b, h1 a b = h1 b a) (hV : ∀ a b c d, V a b c d = V c d a b)
    (hs1 : ∀ a b, skip (h1 a b) = true → h1 a b = 0) (hs2 : ∀ a b c d, skip (V a b c d) = true → V a b c d = 0) :
    ∃ (Q H : POp ℂ) (A : OpD FStr ℂ), qubitOp jordanWigner skip h1 V = some (Q, A) ∧ (∀ s, ‖coef Q s - coef H s‖ ≤ A.length * (1e-12 : ℝ)) ∧
      denPO H = secondQ h1 V ∧ (∀ t ∈ H, t.2.im = 0) ∧ ∀ t ∈ H, t.1.length = 2 * no := by
  obtain ⟨A, a1, _, a3, a4⟩ := C52_fermi_operator skip h1 V
  obtain ⟨C, E, c1, c2, _, c4, c5, c6⟩ := C15_transform_jw A (2 * no) a3
  have hfold : C.foldl OpD.addStr [] = C := OpD.foldl_addStr_fresh C [] (by simpa [UniqueKeys] using c2)
  have hUP : UniqueKeys ([] : POp ℂ) := List.nodup_nil
  have hU := OpD.foldl_addStr_unique E [] hUP
  have hl : ∀ t ∈ E.foldl OpD.addStr [], t.1.length = 2 * no := lengths_foldl_addStr (fun s => s.length = 2 * no) E [] (by simp) c5
  have hd : denPO (E.foldl OpD.addStr []) = secondQ h1 V := by
    have : denPO (E.foldl OpD.addStr []) = denPO E := by
      unfold denPO
      rw [OpD.denD_foldl_addStr _ _ _ hUP, OpD.denD_nil, zero_add]
    rw [this, c4, a4]
    congr 1
    · funext p q; unfold cut; split
      · exact (hs1 _ _ (by assumption)).symm
      · rfl
    · funext p t q s; unfold cut; split
      · exact (hs2 _ _ _ _ (by assumption)).symm
      · rfl
  refine ⟨C, E.foldl OpD.addStr [], A, ?_, fun s => ?_, hd, ?_, hl⟩
  · unfold qubitOp; rw [a1]; simp [c1, hfold]
  · rw [OpD.coef_foldl_addStr E [] hUP, show coef ([] : POp ℂ) s = 0 from rfl, zero_add]
    exact c6 s
  · intro t ht
    have hadj := isAdj_secondQ h1 V hh hV hs.real1 hs.real2
    rw [← hd] at hadj
    have e := IsAdj.left_unique (isAdj_denPO (E.foldl OpD.addStr [])) hadj
    have hl' : ∀ u ∈ (E.foldl OpD.addStr []).map (fun t => (t.1, (starRingEnd ℂ) t.2)), u.1.length = 2 * no := by
      intro u hu
      obtain ⟨v, hv, rfl⟩ := List.mem_map.mp hu
      exact hl v hv
    have := coef_unique (2 * no) _ _ hl' hl e t.1
    rw [coef_map_add _ (map_zero _) (map_add _), OpD.coef_of_mem _ hU t ht] at this
    exact Complex.conj_eq_iff_im.mp this

/-- With a single spatial orbital there is no imaginary part to measure and the solver raises, with either kind of backend. -/
theorem C153_single_orbital (na nb : ℕ) (col : List PStr → ℕ → ℕ) (L : List (OpD FStr ℂ)) (H : List (PStr × ℂ)) (n : ℕ) (d : ℝ) (shots : PStr → List ℕ) :
    MeasResid.statevector 1 na nb col L H n d = none ∧ MeasResid.counts 1 na nb col L H n d shots = none := by
  have h0 : rdme 2 ⟨false, true⟩ (defaultOrbs 1).1 (defaultOrbs 1).2 = [] := by decide
  constructor
  · unfold MeasResid.statevector
    apply Option.bind_eq_none_iff.mpr
    intro st _
    rw [C96_nothing 2 ⟨false, true⟩ _ _ h0]
    rfl
  · unfold MeasResid.counts
    apply Option.bind_eq_none_iff.mpr
    intro st _
    unfold ShotTomo.runT
    simp only
    rw [h0, List.mapM_nil]
    show Option.map _ (Option.bind (some []) _) = none
    rw [Option.bind_some, Option.map_eq_none_iff]
    apply Option.bind_eq_none_iff.mpr
    intro m _
    apply Option.bind_eq_none_iff.mpr
    intro sim _
    rfl

/-- **C154, partial.** The energy of an ACSE ansatz with a backend that returns counts, `Ns` shots for every circuit: it never raises, its expectation value is exactly the core
energy plus the expectation value of the Hamiltonian in the state of the ansatz, never below any lower bound of the Hamiltonian on the normalised states with these electrons,
and it deviates by `δ` or more with probability at most `K²/(Ns δ²)`.  Missing: one electron, and layers as in C115. -/
theorem C154_energy_partial (no na nb : ℕ) (hno : 0 < no) (ha : na ≤ no) (hb : nb ≤ no) (hne : na + nb ≠ 1)
    (col : List PStr → ℕ → ℕ) (hcol : ColouringOK col) (h1 : Fin (2 * no) → Fin (2 * no) → ℂ)
    (V : Fin (2 * no) → Fin (2 * no) → Fin (2 * no) → Fin (2 * no) → ℂ) (hh : ∀ a b, h1 a b = h1 b a)
    (hV : ∀ a b c d, V a b c d = V c d a b) (enc : ℝ) (L : List (OpD FStr ℂ)) (hL : ∀ A ∈ L, LayerOK no A) (Ns : ℕ) (hNs : 0 < Ns) :
    ∃ (psi : List (Term PStr ℂ)) (Us : List (Oper ℂ)) (Ψ : Cfg →₀ ℂ) (st : Cfg → ℂ) (E : Record (2 * no) Ns → ℝ),
      ACSEEn.strings L = some psi ∧ List.Forall₂ (fun t U => IsExp (t.2 • (denP 0 t.1 : Oper ℂ)) U) psi Us ∧
      (Ψ : Cfg → ℂ) = Us.reverse.prod (ket (hfCfg no na nb)) ∧ pair Ψ Ψ = 1 ∧ InS (InSec no (2 * no) na (na + nb)) Ψ ∧
      ACSEEn.state no na nb L = some st ∧ (∀ ω : Record (2 * no) Ns, 0 ≤ recProb st ω) ∧ ∑ ω : Record (2 * no) Ns, recProb st ω = 1 ∧
      (∀ ω, MeasResid.energyCounts no na nb col h1 V enc L ω.shots = some (E ω)) ∧
      ev (recProb st) E = (pair Ψ (secondQ h1 V Ψ)).re + enc ∧
      (∀ E0 : ℝ, (∀ φ : Cfg →₀ ℂ, pair φ φ = 1 → (∀ b, φ b ≠ 0 → InSec no (2 * no) na (na + nb) b) → E0 ≤ (pair φ (secondQ h1 V φ)).re) → E0 + enc ≤ ev (recProb st) E) ∧
      ∀ δ : ℝ, 0 < δ → prob (recProb st) (fun ω => δ ≤ |E ω - ((pair Ψ (secondQ h1 V Ψ)).re + enc)|)
        ≤ (∑ a, ∑ b, ∑ c, ∑ e, ‖k2 h1 V ((na + nb : ℕ) : ℂ) a b c e‖) ^ 2 / Ns / δ ^ 2 := by
  obtain ⟨psi, Us, Ψ, ph, s1, s3, s4, s5, s6, s7, s8, s9⟩ := acse_state no na nb ha hb L hL
  obtain ⟨E, e1, e2, e3⟩ := shots_energy no na nb hno hne col hcol h1 V hh hV enc Ψ ph s5 s7 s8 s9 Ns hNs
  obtain ⟨p1, p2⟩ := C151_probability (N := 2 * no) (Ns := Ns) (ph • Ψ) (by rw [pair_phase ph s5]; exact s7)
    (fun b hb0 i hi => (s8 b (fun h => hb0 (by simp [h]))).2.2 i (by omega))
  refine ⟨psi, Us, Ψ, _, E, s1, s3, s4, s7, s8, s6, p1, p2, fun ω => ?_, e2, fun E0 h0 => ?_, fun δ hδ => prob_le _ p1 _ δ _ hδ e3⟩
  · unfold MeasResid.energyCounts
    rw [s6, Option.bind_some, e1]
  · rw [e2]
    have := h0 Ψ s7 s8
    linarith

/-- Hypotheses met: two orbitals with different one-electron energies. -/
example : SpinInts 2 (fun a b => if a = b then ((a.val : ℝ) : ℂ) else 0) (fun _ _ _ _ => 0) where
  one a b h := by
    by_cases e : a = b
    · rw [e]
    · simp [e] at h
  two _ _ _ _ h := absurd rfl h
  real1 a b := by split <;> simp
  real2 _ _ _ _ := map_zero _

example : rdme 2 ⟨false, true⟩ (alpha 2) (beta 2 2) ≠ [] := rdme2_imag_ne 2 (by omega)

end
end HQCA.Props
