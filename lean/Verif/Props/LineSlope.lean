import Verif.Model.LineSlope
import Verif.Props.ClassResid
import Verif.Props.LineLayer

/-!
# C162: the slope the line search of the ACSE measures

Model: `Model/LineSlope.lean`.
-/

namespace HQCA.Props
open HQCA HQCA.Resid HQCA.Ham HQCA.Instr HQCA.Prim HQCA.Euler Filter Topology
noncomputable section

theorem exps_unique {psi : List (Term PStr ℂ)} {Us Us' : List (Oper ℂ)} (h : List.Forall₂ (fun t U => IsExp (t.2 • (denP 0 t.1 : Oper ℂ)) U) psi Us)
    (h' : List.Forall₂ (fun t U => IsExp (t.2 • (denP 0 t.1 : Oper ℂ)) U) psi Us') : Us = Us' := by
  induction h generalizing Us' with
  | nil => cases h'; rfl
  | cons a _ ih => cases h' with
    | cons b hb => rw [isExp_unique a b, ih hb]

theorem zip_slope_close {r : ℕ} (A B : Fin r → Fin r → Fin r → Fin r → ℂ) (ε : ℝ) (h : ∀ i k j l, ‖A i k j l - B i k j l‖ ≤ ε)
    (keys : List (Fin r × Fin r × Fin r × Fin r)) (v : List ℝ) (hv : v.length = keys.length) :
    |LineSlope.slope ((compact A keys).map Complex.re) v - 4 * (List.zipWith (fun x (y : ℂ) => x * y.re) v (compact B keys)).sum| ≤ 4 * ε * (v.map abs).sum := by
  unfold LineSlope.slope
  rw [← mul_sub, abs_mul, abs_of_pos (by norm_num : (0 : ℝ) < 4), mul_assoc]
  refine mul_le_mul_of_nonneg_left ?_ (by norm_num)
  induction keys generalizing v with
  | nil =>
    have : v = [] := List.eq_nil_of_length_eq_zero hv
    subst this
    simp [compact]
  | cons t keys ih =>
    cases v with
    | nil => simp at hv
    | cons x v =>
      have ih' := ih v (by simpa using hv)
      unfold compact at ih' ⊢
      simp only [List.map_cons, List.zipWith_cons_cons, List.sum_cons]
      have h1 : |(-A t.1 t.2.1 t.2.2.1 t.2.2.2).re * x - x * (-B t.1 t.2.1 t.2.2.1 t.2.2.2).re| ≤ ε * |x| := by
        rw [mul_comm _ x, ← mul_sub, abs_mul, mul_comm]
        refine mul_le_mul_of_nonneg_right ?_ (abs_nonneg _)
        rw [← Complex.sub_re, show -A t.1 t.2.1 t.2.2.1 t.2.2.2 - -B t.1 t.2.1 t.2.2.1 t.2.2.2 = -(A t.1 t.2.1 t.2.2.1 t.2.2.2 - B t.1 t.2.1 t.2.2.1 t.2.2.2) by ring]
        refine (Complex.abs_re_le_norm _).trans ?_
        rw [norm_neg]
        exact h _ _ _ _
      rw [add_sub_add_comm, mul_add]
      exact (abs_add_le _ _).trans (add_le_add h1 ih')

/-- **C162, partial.** For an ansatz as in C115 and a real direction `v`: the slope at step zero that the line search computes from the measured density matrices is the
derivative of the energy along the circuits the line search runs from the prepared state, to four times the accuracy of the residual times the sum of the `|v|`.
Missing: later steps of the search, where the Hermitian part of the generator makes the state complex (C131); active thresholds; what is missing from C159. -/
theorem C162_slope_partial (p : ℕ) (im : Bool) (no na nb : ℕ) (ha : na ≤ no) (hb : nb ≤ no) (hne : na + nb ≠ 1)
    (hp : (p = 2 ∧ 0 < no ∧ na + nb < 3) ∨ (p = 3 ∧ 1 < no ∧ na + nb ≠ 2)) (col : List PStr → ℕ → ℕ) (hcol : ColouringOK col)
    (h1 : Fin (2 * no) → Fin (2 * no) → ℝ) (V : Fin (2 * no) → Fin (2 * no) → Fin (2 * no) → Fin (2 * no) → ℝ) (hh : ∀ a b, h1 a b = h1 b a)
    (hV : ∀ a b c d, V a b c d = V c d a b) (hx : ∀ a b c d, V a b c d = V b a d c) (L : List (OpD FStr ℂ)) (hL : ∀ A ∈ L, LayerOK no A)
    (keys : List (Fin (2 * no) × Fin (2 * no) × Fin (2 * no) × Fin (2 * no))) :
    ∃ (prep : Cfg → ℂ) (g : List ℝ), ACSEEn.state no na nb L = some prep ∧
      LineSlope.gradient p im no na nb col (fun a b => (h1 a b : ℂ)) (fun a b c d => (V a b c d : ℂ)) keys L = some g ∧ g.length = keys.length ∧
      ∀ v : List ℝ, v.length = keys.length →
        ∃ (C : POp ℂ) (ψe : ℝ → Cfg →₀ ℂ) (D : ℝ), UniqueKeys C ∧
          (∀ (α : ℝ) (skip : ℂ → Bool), (∀ x ∈ v, skip ((α * x : ℝ) : ℂ) = false) →
            ∃ B, vecOp skip (keys.zip (v.map fun x : ℝ => ((α * x : ℝ) : ℂ))) = some B ∧
              denPO (C.map fun t => (t.1, (α : ℂ) * t.2)) = denD (denF 0) B) ∧
          (∀ (α : ℝ) (prev : Option ℝ), (∀ t ∈ C, (1e-14 : ℝ) < |α * (t.2.re + t.2.im)|) →
            applyOp 1 prev (C.map fun t => (t.1, (α : ℂ) * t.2)) = some (lineGates C α)) ∧
          (∀ α, (ψe α : Cfg → ℂ) = circOp (gatesOf (lineGates C α)) prep) ∧
          HasDerivAt (fun α => (pair (ψe α) (secondQ (fun a b => (h1 a b : ℂ)) (fun a b c d => (V a b c d : ℂ)) (ψe α))).re) D 0 ∧
          |LineSlope.slope g v - D| ≤
            4 * ((8 * no + 12) * tolE no (na + nb) (fun a b => (h1 a b : ℂ)) (fun a b c d => (V a b c d : ℂ))) * (v.map abs).sum := by
  have hhc : ∀ a b, ((h1 a b : ℝ) : ℂ) = (h1 b a : ℂ) := fun a b => by rw [hh]
  have hVc : ∀ a b c d, ((V a b c d : ℝ) : ℂ) = (V c d a b : ℂ) := fun a b c d => by rw [hV]
  have hxc : ∀ a b c d, ((V a b c d : ℝ) : ℂ) = (V b a d c : ℂ) := fun a b c d => by rw [hx]
  obtain ⟨psi, Us, Ψ, A, s1, s3, s4, _, _, s6, s7⟩ := C159_residual_partial p im no na nb ha hb hne hp col hcol (fun a b => (h1 a b : ℂ)) (fun a b c d => (V a b c d : ℂ))
    hhc hVc hxc L hL
  obtain ⟨psi', Us', Ψ', ph, t1, t3, t4, t5, t6, _, t8, t9⟩ := acse_state no na nb ha hb L hL
  obtain rfl : psi = psi' := Option.some.inj (s1.symm.trans t1)
  obtain rfl : Us = Us' := exps_unique s3 t3
  obtain rfl : Ψ = Ψ' := DFunLike.coe_injective (s4.trans t4.symm)
  have hN : numberOp (2 * no) (Ψ : Cfg → ℂ) = (((na + nb : ℕ) : ℝ) : ℂ) • (Ψ : Cfg → ℂ) := by
    have := number_sec (2 * no) (na + nb) Ψ fun b hb0 => (t8 b hb0).2.1
    rw [this]
    norm_cast
  have hner : ((na + nb : ℕ) : ℝ) ≠ 1 := by exact_mod_cast hne
  refine ⟨_, (compact A keys).map Complex.re, t6, by unfold LineSlope.gradient; rw [s6]; rfl, by simp [compact], fun v hv => ?_⟩
  obtain ⟨C, c1, _, c3, c4, c5⟩ := C131_slope_partial Ψ t9 ((na + nb : ℕ) : ℝ) hner hN h1 V hh hV hx keys v hv
  choose φe hφ using fun α => circuit_state (lineGates C α) Ψ
  have hd := c5 φe hφ
  refine ⟨C, fun α => ph • φe α, 4 * (List.zipWith (fun x (y : ℂ) => x * y.re) v (compact (residual (k2 (fun a b => (h1 a b : ℂ)) (fun a b c d => (V a b c d : ℂ))
    (((na + nb : ℕ) : ℝ) : ℂ)) (rdm2 (evState Ψ)) (rdm3 (evState Ψ))) keys)).sum, c1, c3, c4, fun α => ?_, ?_, ?_⟩
  · rw [Finsupp.coe_smul, hφ, Finsupp.coe_smul, map_smul]
  · have e : ∀ α, pair (ph • φe α) (secondQ (fun a b => (h1 a b : ℂ)) (fun a b c d => (V a b c d : ℂ)) ((ph • φe α : Cfg →₀ ℂ) : Cfg → ℂ))
        = pair (φe α) (secondQ (fun a b => (h1 a b : ℂ)) (fun a b c d => (V a b c d : ℂ)) (φe α)) := by
      intro α
      rw [Finsupp.coe_smul, map_smul, pair_smul_left, pair_smul_right, ← mul_assoc]
      have : conj ph * ph = 1 := by
        show (starRingEnd ℂ) ph * ph = 1
        rw [mul_comm, Complex.mul_conj, Complex.normSq_eq_norm_sq, t5]
        norm_num
      rw [this, one_mul]
    simp only [e]
    exact hd
  · refine zip_slope_close A _ _ (fun i k j l => ?_) keys v hv
    have := C74_state Ψ t9 (((na + nb : ℕ) : ℝ) : ℂ) (by exact_mod_cast hner) hN (fun a b => (h1 a b : ℂ)) (fun a b c d => (V a b c d : ℂ)) hhc hVc hxc i k j l
    rw [this]
    exact s7 i k j l

/-- **C162, partial.** Steepest descent, with which every search starts: if the sum of the squares of the measured gradient exceeds the accuracy times the sum of its
absolute values, every small enough step along its negative lowers the energy.  (Limits as `C162_slope_partial`.) -/
theorem C162_descent_partial (p : ℕ) (im : Bool) (no na nb : ℕ) (ha : na ≤ no) (hb : nb ≤ no) (hne : na + nb ≠ 1)
    (hp : (p = 2 ∧ 0 < no ∧ na + nb < 3) ∨ (p = 3 ∧ 1 < no ∧ na + nb ≠ 2)) (col : List PStr → ℕ → ℕ) (hcol : ColouringOK col)
    (h1 : Fin (2 * no) → Fin (2 * no) → ℝ) (V : Fin (2 * no) → Fin (2 * no) → Fin (2 * no) → Fin (2 * no) → ℝ) (hh : ∀ a b, h1 a b = h1 b a)
    (hV : ∀ a b c d, V a b c d = V c d a b) (hx : ∀ a b c d, V a b c d = V b a d c) (L : List (OpD FStr ℂ)) (hL : ∀ A ∈ L, LayerOK no A)
    (keys : List (Fin (2 * no) × Fin (2 * no) × Fin (2 * no) × Fin (2 * no))) :
    ∃ (prep : Cfg → ℂ) (g : List ℝ), ACSEEn.state no na nb L = some prep ∧
      LineSlope.gradient p im no na nb col (fun a b => (h1 a b : ℂ)) (fun a b c d => (V a b c d : ℂ)) keys L = some g ∧ g.length = keys.length ∧
      ((8 * no + 12) * tolE no (na + nb) (fun a b => (h1 a b : ℂ)) (fun a b c d => (V a b c d : ℂ)) * (g.map abs).sum
          < (g.map fun y => y ^ 2).sum →
        ∃ (C : POp ℂ) (ψe : ℝ → Cfg →₀ ℂ),
          (∀ (α : ℝ) (skip : ℂ → Bool), (∀ x ∈ g.map fun y => -y, skip ((α * x : ℝ) : ℂ) = false) →
            ∃ B, vecOp skip (keys.zip ((g.map fun y => -y).map fun x : ℝ => ((α * x : ℝ) : ℂ))) = some B ∧
              denPO (C.map fun t => (t.1, (α : ℂ) * t.2)) = denD (denF 0) B) ∧
          (∀ α, (ψe α : Cfg → ℂ) = circOp (gatesOf (lineGates C α)) prep) ∧
          ∃ δ > 0, ∀ α, 0 < α → α < δ →
            (pair (ψe α) (secondQ (fun a b => (h1 a b : ℂ)) (fun a b c d => (V a b c d : ℂ)) (ψe α))).re <
              (pair (ψe 0) (secondQ (fun a b => (h1 a b : ℂ)) (fun a b c d => (V a b c d : ℂ)) (ψe 0))).re) := by
  obtain ⟨prep, g, a1, a2, a0, a3⟩ := C162_slope_partial p im no na nb ha hb hne hp col hcol h1 V hh hV hx L hL keys
  refine ⟨prep, g, a1, a2, a0, fun hlt => ?_⟩
  obtain ⟨C, ψe, D, _, c2, _, c4, c5, c6⟩ := a3 (g.map fun y => -y) (by simpa using a0)
  have hm : LineSlope.slope g (g.map fun y => -y) = -(4 * (g.map fun y => y ^ 2).sum) := by
    unfold LineSlope.slope
    rw [← mul_neg]
    congr 1
    clear * -
    induction g with
    | nil => simp
    | cons y g ih => simp only [List.map_cons, List.zipWith_cons_cons, List.sum_cons, ih]; ring
  have ha' : ((g.map fun y => -y).map abs).sum = (g.map abs).sum := by
    rw [List.map_map]
    congr 1
    exact List.map_congr_left fun y _ => abs_neg y
  rw [hm, ha'] at c6
  have := (abs_le.mp c6).1
  obtain ⟨δ, hδ, hd⟩ := lower_of_deriv _ D c5 (by nlinarith)
  exact ⟨C, ψe, c2, c4, δ, hδ, hd⟩

/-- Four electrons in three spatial orbitals, an ansatz of one double excitation, three-body tomography, the direction of one key: the hypotheses are met. -/
example : ∃ (L : OpD FStr ℂ) (g : List ℝ), excLayer 3 [([2, 5, 4, 1], (1 : ℂ))] = some L ∧ g.length = 1 ∧
    LineSlope.gradient 3 false 3 2 2 (fun _ i => i) (fun a b => ((if a.val % 3 = b.val % 3 then 0 else -1 : ℝ) : ℂ))
      (fun a b c e => ((if a = c ∧ b = e then 1 else 0 : ℝ) : ℂ)) [(2, 5, 1, 4)] [L] = some g := by
  have hr : conj (1 : ℂ) = 1 := map_one _
  have hl : tinyC (1 : ℂ) = false := by simp [tinyC]; norm_num
  have hg : GoodExc 3 ([2, 5, 4, 1], (1 : ℂ)) :=
    ⟨⟨by dsimp only; decide, by dsimp only; decide, by dsimp only; decide⟩, by dsimp only; decide, by dsimp only; decide, by dsimp only; decide, hr, hl⟩
  obtain ⟨L, _, k1, k2, _⟩ := excLayer_ok 3 [([2, 5, 4, 1], (1 : ℂ))] (by simpa using hg) (List.pairwise_singleton _ _)
  obtain ⟨_, g, _, h, h', _⟩ := C162_slope_partial 3 false 3 2 2 (by norm_num) (by norm_num) (by norm_num) (Or.inr ⟨rfl, by norm_num, by norm_num⟩)
    (fun _ i => i) colouring_id (fun a b => if a.val % 3 = b.val % 3 then 0 else -1) (fun a b c e => if a = c ∧ b = e then 1 else 0)
    (fun a b => by simp only [eq_comm]) (fun a b c e => by simp only [eq_comm]) (fun a b c e => by simp only [and_comm]) [L] (by simpa using k2) [(2, 5, 1, 4)]
  exact ⟨L, g, k1, h', h⟩

end
end HQCA.Props
