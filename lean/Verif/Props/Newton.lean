import Verif.Model.Newton
import Mathlib.Tactic.Linarith
import Mathlib.Tactic.Ring
import Mathlib.Tactic.NormNum
import Mathlib.Tactic.FieldSimp
import Mathlib.Tactic.LinearCombination

/-!
# C42, C67: the Newton step of the ACSE
-/

set_option linter.unusedSectionVars false
namespace HQCA.Props
open HQCA HQCA.Newton
variable {F : Type} [Field F] [LinearOrder F] [IsStrictOrderedRing F]

/-- A quadratic energy with slope `b` and curvature `c` at zero. -/
def quadE (e b c t : F) : F := e + b * t + c / 2 * t ^ 2

/-- The displacement factors can be used. -/
def UsableSteps (C : Newton.Cfg F) : Prop := C.eps ≠ 0 ∧ C.d ≠ 0 ∧ C.d ≠ 1

theorem UsableSteps.ne1 {C : Newton.Cfg F} (h : UsableSteps C) : C.d * C.eps * (C.d - 1) ≠ 0 :=
  mul_ne_zero (mul_ne_zero h.2.1 h.1) (sub_ne_zero.mpr h.2.2)

theorem UsableSteps.ne2 {C : Newton.Cfg F} (h : UsableSteps C) : C.d * C.eps * C.eps * (C.d - 1) ≠ 0 :=
  mul_ne_zero (mul_ne_zero (mul_ne_zero h.2.1 h.1) h.1) (sub_ne_zero.mpr h.2.2)

/-- **C42** (derivatives).  On a quadratic energy the finite-difference estimates are the true slope and curvature, for
all usable step sizes. -/
theorem C42_derivatives (C : Newton.Cfg F) (e b c : F) (h : UsableSteps C) :
    first C e (quadE e b c C.eps) (quadE e b c (C.d * C.eps)) = b ∧
    second C e (quadE e b c C.eps) (quadE e b c (C.d * C.eps)) = c := by
  constructor
  · rw [first, div_eq_iff h.ne1]; simp only [quadE]; ring
  · rw [second, div_eq_iff h.ne2]; simp only [quadE]; ring

theorem derivs_quad (C : Newton.Cfg F) (e b c : F) (h : UsableSteps C) (hb : 1 / 10 ^ 16 ≤ |b|)
    (hc : 1 / 10 ^ 16 ≤ |c|) :
    derivs C e (quadE e b c C.eps) (quadE e b c (C.d * C.eps)) = some (b, c) := by
  obtain ⟨h1, h2⟩ := C42_derivatives C e b c h
  simp only [derivs, h.ne2, if_false, h1, h2, not_lt.mpr hb, not_lt.mpr hc]

/-- The coefficient chosen is the minimiser of the quadratic over the trust region, and lowers it. -/
theorem coeffOf_min (e b c del : F) (hb : b ≠ 0) (hc : 0 < c) (hdel : 0 < del) :
    |coeffOf b c del| ≤ del ∧ quadE e b c (coeffOf b c del) < e ∧
    (∀ t, |t| ≤ del → quadE e b c (coeffOf b c del) ≤ quadE e b c t) ∧
    (|b / c| < del → coeffOf b c del = -b / c ∧ ∀ t, quadE e b c (coeffOf b c del) ≤ quadE e b c t) := by
  have hb2 : 0 < b ^ 2 := by positivity
  by_cases hin : |b / c| < del
  · have e0 : coeffOf b c del = -b / c := by simp [coeffOf, hin]
    have hmin : ∀ t, quadE e b c (-b / c) ≤ quadE e b c t := by
      intro t
      have : quadE e b c t - quadE e b c (-b / c) = c / 2 * (t + b / c) ^ 2 := by
        simp only [quadE]; field_simp; ring
      have h2 : 0 ≤ c / 2 * (t + b / c) ^ 2 := by positivity
      linarith
    rw [e0]
    refine ⟨by rw [neg_div, abs_neg]; exact hin.le, ?_, fun t _ => hmin t, fun _ => ⟨rfl, hmin⟩⟩
    have : quadE e b c (-b / c) = e - b ^ 2 / (2 * c) := by simp only [quadE]; field_simp; ring
    rw [this]
    have : 0 < b ^ 2 / (2 * c) := by positivity
    linarith
  · have hout : del ≤ |b / c| := not_lt.mp hin
    rw [abs_div, abs_of_pos hc, le_div_iff₀ hc] at hout
    have hdc : 0 < del * c := mul_pos hdel hc
    have hprod : 0 < del * (del * c) := mul_pos hdel hdc
    rcases lt_or_gt_of_ne hb with hneg | hpos
    · have e0 : coeffOf b c del = del := by
        have : ¬ -b / c < 0 := not_lt.mpr (div_nonneg (by linarith) hc.le)
        simp [coeffOf, hin, this]
      rw [abs_of_neg hneg] at hout
      rw [e0]
      refine ⟨(abs_of_pos hdel).le, ?_, ?_, fun h => absurd h hin⟩
      · have h1 := mul_le_mul_of_nonneg_left hout hdel.le
        simp only [quadE]; nlinarith
      · intro t ht
        obtain ⟨t1, t2⟩ := abs_le.mp ht
        have h1 := mul_le_mul_of_nonneg_left hout (sub_nonneg.mpr t2)
        have h2 : (del - t) * c * (t + del) ≤ (del - t) * c * (2 * del) :=
          mul_le_mul_of_nonneg_left (by linarith) (mul_nonneg (sub_nonneg.mpr t2) hc.le)
        simp only [quadE]; nlinarith
    · have e0 : coeffOf b c del = del * (-1) := by
        have : -b / c < 0 := div_neg_of_neg_of_pos (by linarith) hc
        simp [coeffOf, hin, this]
      rw [abs_of_pos hpos] at hout
      rw [e0, mul_neg_one]
      refine ⟨by rw [abs_neg]; exact (abs_of_pos hdel).le, ?_, ?_, fun h => absurd h hin⟩
      · have h1 := mul_le_mul_of_nonneg_left hout hdel.le
        simp only [quadE]; nlinarith
      · intro t ht
        obtain ⟨t1, t2⟩ := abs_le.mp ht
        have h1 := mul_le_mul_of_nonneg_left hout (by linarith : 0 ≤ t + del)
        have h2 : (t + del) * c * (del - t) ≤ (t + del) * c * (2 * del) :=
          mul_le_mul_of_nonneg_left (by linarith) (mul_nonneg (by linarith) hc.le)
        simp only [quadE]; nlinarith

/-- **C42** (step).  On a quadratic energy with positive curvature (and slope and curvature above the guards), the step
is accepted after one evaluation; model and objective agree, so the trust ratio is 1 (`taylor = object`, not zero); the
energy drops; the coefficient is the best one within the trust region, and if the stationary point is inside the region
the step lands on it, the global minimum. -/
theorem C42_step (C : Newton.Cfg F) (e b c del : F) (h : UsableSteps C) (hb : 1 / 10 ^ 16 ≤ |b|)
    (hc : 1 / 10 ^ 16 ≤ c) (hdel : 0 < del) (htr : C.useTR = true) (hn : C.noisy = false) (hnv : C.nv ≤ 1) :
    ∃ s, step C (quadE e b c) e del = some (.accept s) ∧
      s.taylor = s.object ∧ 0 < s.object ∧ s.object / s.taylor = 1 ∧
      s.object = e - quadE e b c s.coeff ∧ |s.coeff| ≤ del ∧
      (∀ t, |t| ≤ del → quadE e b c s.coeff ≤ quadE e b c t) ∧
      (|b / c| < del → s.coeff = -b / c ∧ ∀ t, quadE e b c s.coeff ≤ quadE e b c t) := by
  have hg : (0 : F) < 1 / 10 ^ 16 := by positivity
  have hc0 : 0 < c := lt_of_lt_of_le hg hc
  have hb0 : b ≠ 0 := by rintro rfl; simp at hb; linarith
  obtain ⟨k1, k2, k3, k4⟩ := coeffOf_min e b c del hb0 hc0 hdel
  set x := coeffOf b c del with hx
  have ht : e - (e + x * b + 1 / 2 * x * c * x) = e - quadE e b c x := by simp only [quadE]; ring
  have hpos : 0 < e - quadE e b c x := by linarith
  have hpass : ∃ del', pass C (quadE e b c) e b c del =
      some ⟨x, e - quadE e b c x, e - quadE e b c x, del', true⟩ := by
    unfold pass
    simp only [← hx, ht, div_self hpos.ne', hnv, ge_iff_le, if_true, hpos.ne', if_false]
    split_ifs
    exacts [⟨_, rfl⟩, ⟨_, rfl⟩, ⟨_, rfl⟩]
  obtain ⟨del', hpass⟩ := hpass
  refine ⟨⟨x, e - quadE e b c x, e - quadE e b c x, del', true⟩, ?_, rfl, hpos, div_self hpos.ne', rfl, k1, k3, k4⟩
  have hd := derivs_quad C e b c h hb (by rw [abs_of_pos hc0]; exact hc)
  simp only [step, hd, Option.bind_some, htr, not_lt.mpr hc0.le, if_false, hn, loop, hpass, Option.map_some,
    Bool.true_or, if_true, Bool.true_eq_false, Bool.false_eq_true]

/-- `E(t) = 1 - 2t + 2t^2` from `epsilon = -1`, `d = 2`: the step is `1/2`, energy from 1 to 1/2. -/
example : (match step (⟨-1, 2, 1/10^10, 1/10^10, 9/10, 1/10, 2, 1/2, true, false⟩ : Newton.Cfg ℚ) (quadE 1 (-2) 4) 1 3 with
    | some (.accept s) => some (s.coeff, s.taylor, s.object, s.del, s.trust)
    | _ => none) = some (1/2, 1/2, 1/2, 6, true) := by decide +kernel

/-- **C67**, in part: on the simulators (`sv`, `qasm`), whenever the estimated curvature is not negative the step
completes and appends the residual with a coefficient no larger than the trust region, for every energy function.
Missing: negative curvature and noisy backends, see below. -/
theorem C67_completes_partial (C : Newton.Cfg F) (E : F → F) (e0 del : F) (h : UsableSteps C) (hdel : 0 < del)
    (htr : C.useTR = true) (hn : C.noisy = false) (hts : 0 ≤ C.tsCrit) (hgd0 : 0 < C.gd) (hgd : C.gd ≤ 1)
    (hcurv : 0 ≤ second C e0 (E C.eps) (E (C.d * C.eps))) :
    ∃ s, step C E e0 del = some (.accept s) ∧ |s.coeff| ≤ del ∧ s.object = e0 - E s.coeff := by
  have hco : ∀ g hh del' : F, 0 < del' → |coeffOf g hh del'| ≤ del' := by
    intro g hh del' hd
    unfold coeffOf
    split_ifs with h1 h2
    · rw [neg_div, abs_neg]; exact h1.le
    · rw [mul_neg_one, abs_neg]; exact (abs_of_pos hd).le
    · exact (abs_of_pos hd).le
  have hpass : ∀ g hh del' : F, 0 < del' → ∃ s, pass C E e0 g hh del' = some s ∧ |s.coeff| ≤ del' ∧
      s.object = e0 - E s.coeff ∧ (s.trust = false → s.del = del' * C.gd) := by
    intro g hh del' hd
    have := hco g hh del' hd
    unfold pass
    dsimp only
    split_ifs with h1 h2 h3 h4 h5
    · exact ⟨_, rfl, this, rfl, by simp⟩
    · exact ⟨_, rfl, this, rfl, by simp⟩
    · exact absurd (by rw [h3, abs_zero]; exact hts) h2
    · exact ⟨_, rfl, this, rfl, by simp⟩
    · exact ⟨_, rfl, this, rfl, by simp⟩
    · exact ⟨_, rfl, this, rfl, by simp⟩
  have hloop : ∀ g hh : F, ∃ s, loop C E e0 g hh del = some s ∧ |s.coeff| ≤ del ∧ s.object = e0 - E s.coeff := by
    intro g hh
    obtain ⟨s, p1, p2, p3, p4⟩ := hpass g hh del hdel
    unfold loop
    rw [p1, Option.bind_some, hn, Bool.or_false]
    cases hs : s.trust with
    | true => exact ⟨s, rfl, p2, p3⟩
    | false =>
      rw [p4 hs]
      obtain ⟨s', q1, q2, q3, -⟩ := hpass g hh (del * C.gd) (mul_pos hdel hgd0)
      refine ⟨s', by simpa using q1, q2.trans ?_, q3⟩
      calc del * C.gd ≤ del * 1 := mul_le_mul_of_nonneg_left hgd hdel.le
        _ = del := mul_one _
  have hder : ∃ g hh, derivs C e0 (E C.eps) (E (C.d * C.eps)) = some (g, hh) ∧ 0 ≤ hh := by
    unfold derivs
    rw [if_neg h.ne2]
    dsimp only
    split_ifs
    · exact ⟨_, _, rfl, by positivity⟩
    · exact ⟨_, _, rfl, hcurv⟩
    · exact ⟨_, _, rfl, hcurv⟩
  obtain ⟨g, hh, hd, hpos⟩ := hder
  obtain ⟨s, l1, l2, l3⟩ := hloop g hh
  refine ⟨s, ?_, l2, l3⟩
  simp only [step, hd, Option.bind_some, htr, not_lt.mpr hpos, if_false, hn, l1, Option.map_some, Bool.false_eq_true,
    Bool.true_eq_false]

/-- **C67** fails on negative curvature: for every energy whose estimated curvature is negative the step ends in an
exception on the simulators (a variable is read before assignment). -/
theorem C67_negative_curvature (C : Newton.Cfg F) (E : F → F) (e0 del : F) (hn : C.noisy = false)
    (hcurv : second C e0 (E C.eps) (E (C.d * C.eps)) ≤ -(1 / 10 ^ 16)) : step C E e0 del = none := by
  have hg : (0 : F) < 1 / 10 ^ 16 := by positivity
  unfold step derivs
  by_cases h : C.d * C.eps * C.eps * (C.d - 1) = 0
  · simp [h]
  · have h1 : ¬ |second C e0 (E C.eps) (E (C.d * C.eps))| < 1 / 10 ^ 16 := by
      rw [abs_of_neg (by linarith)]; linarith
    have h2 : second C e0 (E C.eps) (E (C.d * C.eps)) < 0 := by linarith
    simp only [h, if_false, h1]
    split_ifs <;> simp_all

/-- **C67** fails on noisy backends: no Newton step is ever accepted there, whatever the energies. -/
theorem C67_noisy (C : Newton.Cfg F) (E : F → F) (e0 del : F) (hn : C.noisy = true) (s : St F) :
    step C E e0 del ≠ some (.accept s) := by
  unfold step
  intro h
  obtain ⟨gh, -, h⟩ := Option.bind_eq_some_iff.mp h
  rw [hn] at h
  simp only [if_true] at h
  split_ifs at h
  · simp at h
  · obtain ⟨x, -, hx⟩ := Option.map_eq_some_iff.mp h
    simp at hx

/-- Concave example: `E(t) = -t^2`. -/
example : second (⟨-1, 2, 0, 0, 9/10, 1/10, 2, 1/2, true, false⟩ : Newton.Cfg ℚ) 0 (-1) (-4) = -2 ∧
    (step (⟨-1, 2, 0, 0, 9/10, 1/10, 2, 1/2, true, false⟩ : Newton.Cfg ℚ) (fun t => -t^2) 0 1).isNone = true := by
  decide +kernel

end HQCA.Props
