import Verif.Proofs.LineSearch
import Mathlib.Analysis.Real.Sqrt
import Mathlib.Tactic.LinearCombination
import Mathlib.Tactic.FieldSimp

/-!
# C43, C44, C66: the ACSE line search

The energy along the line is an arbitrary function, the slope another.  The caller passes the energy and slope at the
current state; a descent direction has negative slope.
-/

set_option linter.unusedSectionVars false
namespace HQCA.Props
open HQCA HQCA.LineSearch
variable {F : Type} [Field F] [LinearOrder F] [IsStrictOrderedRing F] {V : Type}

/-- **C43** (function level).  When `line_search_nocedal` reports success, the reported energy is the energy at the
reported step and the sufficient-decrease condition holds there. -/
theorem C43_search (C : Cfg F V) (alp1 : F) (r : Res F V) (hf : C.fzed = C.phi 0) (hc : 0 ≤ C.c1) (hg : C.gzed < 0)
    (h1 : 0 < alp1) (hm : alp1 ≤ C.alpMax) (hr : search C alp1 = some r) (he : r.err = false) :
    r.f = C.phi r.alp ∧ C.phi r.alp ≤ C.phi 0 + C.c1 * r.alp * C.gzed := by
  obtain ⟨r', hr', rfl⟩ := Option.map_eq_some_iff.mp hr
  have G := mainLoop_good hf hc hg _ true [] 0 C.fzed C.gzed alp1 r' le_rfl h1.le hm hf (by simp) (by simp) hr'
  rw [← hf]
  split_ifs at he ⊢ with hw
  · simp only [Bool.and_eq_true] at hw
    rcases G with G | ⟨-, G⟩
    · exact ⟨G.f, by have := hw.1.1; rw [w1, decide_eq_true_eq, G.f] at this; exact this⟩
    · rw [G] at hw; simp at hw
  · rcases G with G | ⟨G, -⟩
    · exact ⟨G.f, (G.ok he).1⟩
    · rw [G] at he; exact absurd he (by simp)

/-- **C43**.  When the line search of the ACSE (`LineSearchACSE.run`) reports success, the reported energy is the energy
at the reported step, the stored state is the one of that step, it is the lowest of all the energies evaluated, and both
Wolfe conditions hold there with the true slope. -/
theorem C43_run (C : Cfg F V) (alp1 : F) (u : Run F) (hf : C.fzed = C.phi 0) (hc : 0 ≤ C.c1) (hg : C.gzed < 0)
    (h1 : 0 < alp1) (hm : alp1 ≤ C.alpMax) (hr : run C alp1 = some u) (he : u.err = false) :
    u.f = C.phi u.alp ∧ u.stored = u.alp ∧
    C.phi u.alp ≤ C.phi 0 + C.c1 * u.alp * C.gzed ∧ C.c2 * C.gzed ≤ (C.dphi u.alp).2 ∧
    ∃ r, search C alp1 = some r ∧ u.alp ∈ r.evals ∧ ∀ a ∈ r.evals, u.f ≤ C.phi a := by
  obtain ⟨r, hs, hu⟩ := Option.bind_eq_some_iff.mp hr
  dsimp only at hu
  split_ifs at hu with hb
  simp only [Option.some.injEq] at hu
  subst hu
  simp only [Bool.or_eq_false_iff, decide_eq_false_iff_not, not_not] at he
  obtain ⟨he, hbest⟩ := he
  obtain ⟨e1, e2⟩ := C43_search C alp1 r hf hc hg h1 hm hs he
  have hlow : r.alp ∈ r.evals ∧ ∀ a ∈ r.evals, r.f ≤ C.phi a := by
    obtain ⟨pre, post, h1, -, -, h4, h5⟩ := (best_spec C.phi r.evals).2 hb
    rw [hbest] at h1 h4 h5
    refine ⟨by rw [h1]; simp, fun a ha => ?_⟩
    rw [e1]
    rw [h1] at ha
    rcases List.mem_append.mp ha with ha | ha
    · exact (h4 a ha).le
    · rcases List.mem_cons.mp ha with rfl | ha
      · exact le_rfl
      · exact h5 a ha
  refine ⟨e1, hbest, e2, ?_, r, hs, hlow⟩
  obtain ⟨r', hr', hrr⟩ := Option.map_eq_some_iff.mp hs
  have G := mainLoop_good hf hc hg _ true [] 0 C.fzed C.gzed alp1 r' le_rfl h1.le hm hf (by simp) (by simp) hr'
  by_cases hw : (w1 C r' && w2 C r' && r'.err) = true
  · rw [if_pos hw] at hrr
    subst hrr
    simp only [Bool.and_eq_true] at hw
    rcases G with G | ⟨-, G⟩
    · have hsd : SD C r'.alp := by have := hw.1.1; rw [w1, decide_eq_true_eq, G.f] at this; exact this
      have h2 := hw.1.2
      rw [w2, decide_eq_true_eq, G.er hw.2 hsd hb hbest] at h2
      rw [mul_comm]; exact h2
    · rw [G] at hw; simp at hw
  · rw [if_neg hw] at hrr
    subst hrr
    rcases G with G | ⟨G, -⟩
    · have := neg_le_of_abs_le (G.ok he).2.1
      linarith
    · rw [G] at he; exact absurd he (by simp)

/-- **C43, acceptance.** A first step that meets the Wolfe conditions with a negative energy is accepted as it is. -/
theorem C43_accepts (C : Cfg F V) (alp1 : F) (h0 : C.phi alp1 < 0) (h1 : C.phi alp1 ≤ C.fzed + C.c1 * alp1 * C.gzed)
    (h2 : |(C.dphi alp1).2| ≤ -C.c2 * C.gzed) : run C alp1 = some ⟨alp1, C.phi alp1, false, alp1⟩ := by
  have hm : ∀ n, mainLoop C n true [] 0 C.fzed C.gzed alp1 =
      some ⟨alp1, C.phi alp1, (C.dphi alp1).1, (C.dphi alp1).2, false, [alp1]⟩ := by
    intro n
    have h2' : |(C.dphi alp1).2| ≤ -(C.c2 * C.gzed) := by rw [← neg_mul]; exact h2
    cases n <;> simp [mainLoop, mainExit, not_lt.mpr h1, h2']
  simp [run, search, hm, best, h0]

/-- A search that brackets and interpolates: `E(t) = (t-1/3)^2 - 1` from slope `-2/3`. -/
def exCfg : Cfg ℚ Unit :=
  ⟨fun t => (t - 1/3)^2 - 1, fun t => ((), 2 * (t - 1/3)), fun x => x, 1/10000, 9/10, 10, 25, -8/9, -2/3⟩

example : (exCfg.fzed = exCfg.phi 0 ∧ 0 ≤ exCfg.c1 ∧ exCfg.gzed < 0) ∧
    (run exCfg 1).map (fun u => (u.alp, u.f, u.err, u.stored)) = some (1/3, -1, false, 1/3) := by decide +kernel

/-- Callbacks for which the iteration limit is reached just after a rejected step with the same energy as the last
accepted one.  The only square root taken is that of 196. -/
def staleCfg : Cfg ℚ Unit :=
  ⟨fun t => if t = 0 ∨ t = 1 then 0 else -1/4,
   fun t => ((), if t = 1/2 then 2 else if t = 1/4 then -5 else -1),
   fun x => if x = 196 then 14 else 0, 1/10000, 9/10, 1, 25, 0, -1⟩

/-- `line_search_nocedal` on its own may report success with a stale slope: here it returns the step `1/4` with the slope
`2` of the step `1/2`; the slope at `1/4` is `-5`, which fails the curvature condition.  `LineSearchACSE.run` turns this
into an error because `1/4` is not the first step with that energy. -/
theorem C43_stale_slope :
    (search staleCfg 1).map (fun r => (r.alp, r.f, r.gs, r.err)) = some (1/4, -1/4, 2, false) ∧
    (staleCfg.dphi (1/4)).2 < staleCfg.c2 * staleCfg.gzed ∧
    (run staleCfg 1).map (·.err) = some true := by decide +kernel

/-- At the iteration limit of the main loop the error answer pairs the energy of one step with another step: here the
energy `-2` at step `2` is returned with step `4`. -/
theorem C43_limit_mismatch :
    (search (⟨fun t => -t, fun _ => ((), -1), fun x => x, 1/10000, 9/10, 2, 25, 0, -1⟩ : Cfg ℚ Unit) 1).map
      (fun r => (r.alp, r.f, r.err)) = some (4, -2, true) := by decide +kernel

/-- With the default limits a function that keeps decreasing with slope `-1` makes the search reach `alp_max` twice and
stop on a division by zero instead of reporting an error. -/
theorem C43_alp_max_exception :
    (search (⟨fun t => -t, fun _ => ((), -1), fun x => x, 1/10000, 9/10, 10, 25, 0, -1⟩ : Cfg ℚ Unit) 1).isNone
      = true := by decide +kernel

/-- **C44** (quadratic).  If a parabola with positive curvature has value `fl` and slope `gl` at `l` and value `fh` at
`h`, the quadratic interpolation returns its minimiser. -/
theorem C44_quadratic (A B D l h fl fh gl : F) (hA : 0 < A) (hl : l ≠ h)
    (e1 : A * l ^ 2 + B * l + D = fl) (e2 : 2 * A * l + B = gl) (e3 : A * h ^ 2 + B * h + D = fh) :
    ∃ x, quadInterp l h fl fh gl = some x ∧
      ∀ t, t ≠ x → A * x ^ 2 + B * x + D < A * t ^ 2 + B * t + D := by
  have hd : h - l ≠ 0 := sub_ne_zero.mpr hl.symm
  have ha : (fh - gl * (h - l) - fl) / (h - l) ^ 2 = A := by
    rw [div_eq_iff (pow_ne_zero 2 hd), ← e1, ← e2, ← e3]; ring
  refine ⟨-gl / (2 * A) + l, ?_, fun t ht => ?_⟩
  · simp only [quadInterp, hd, if_false, ha, hA.ne']
  · set x := -gl / (2 * A) + l with hx
    have hx' : 2 * A * x + B = 0 := by
      have h2 : 2 * A ≠ 0 := mul_ne_zero two_ne_zero hA.ne'
      have : 2 * A * (-gl / (2 * A)) = -gl := mul_div_cancel₀ _ h2
      rw [hx, mul_add, this, ← e2]; ring
    have : A * t ^ 2 + B * t + D - (A * x ^ 2 + B * x + D) = A * (t - x) ^ 2 := by
      linear_combination (t - x) * hx'
    have h3 : 0 < A * (t - x) ^ 2 := mul_pos hA (pow_pos_iff_sq.mpr (sub_ne_zero.mpr ht))
    linarith
where
  pow_pos_iff_sq {y : F} : 0 < y ^ 2 ↔ y ≠ 0 := by
    constructor
    · rintro h rfl; simp at h
    · intro h; positivity

example : quadInterp (0 : ℚ) 1 0 0 (-1) = some (1/2) := by decide +kernel

theorem cubicCoef_eq {a b c d l h m fl fh fm gl : F} (hlh : l ≠ h) (hlm : l ≠ m) (hhm : h ≠ m)
    (e1 : a * l ^ 3 + b * l ^ 2 + c * l + d = fl) (e2 : 3 * a * l ^ 2 + 2 * b * l + c = gl)
    (e3 : a * h ^ 3 + b * h ^ 2 + c * h + d = fh) (e4 : a * m ^ 3 + b * m ^ 2 + c * m + d = fm) :
    cubicCoef l h m fl fh fm gl = some (a, b + 3 * a * l) := by
  have hA : h - l ≠ 0 := sub_ne_zero.mpr hlh.symm
  have hB : m - l ≠ 0 := sub_ne_zero.mpr hlm.symm
  have hAB : h - m ≠ 0 := sub_ne_zero.mpr hhm
  have hdet : (h - l) ^ 3 * (m - l) ^ 2 - (h - l) ^ 2 * (m - l) ^ 3 ≠ 0 := by
    have : (h - l) ^ 3 * (m - l) ^ 2 - (h - l) ^ 2 * (m - l) ^ 3 = (h - l) ^ 2 * (m - l) ^ 2 * (h - m) := by ring
    rw [this]
    exact mul_ne_zero (mul_ne_zero (pow_ne_zero 2 hA) (pow_ne_zero 2 hB)) hAB
  simp only [cubicCoef, hdet, if_false, Option.some.injEq, Prod.mk.injEq]
  constructor
  · rw [div_eq_iff hdet, ← e1, ← e2, ← e3, ← e4]; ring
  · rw [div_eq_iff hdet, ← e1, ← e2, ← e3, ← e4]; ring

/-- The two candidate roots the code forms from the derivative `3a t^2 + 2b t + c`. -/
theorem cubicInterp_eq {a b c d l h m fl fh fm gl : ℝ} (ha : a ≠ 0) (hlh : l ≠ h) (hlm : l ≠ m) (hhm : h ≠ m)
    (e1 : a * l ^ 3 + b * l ^ 2 + c * l + d = fl) (e2 : 3 * a * l ^ 2 + 2 * b * l + c = gl)
    (e3 : a * h ^ 3 + b * h ^ 2 + c * h + d = fh) (e4 : a * m ^ 3 + b * m ^ 2 + c * m + d = fm) :
    cubicInterp Real.sqrt l h m fl fh fm gl =
      if (2 * b) ^ 2 - 4 * (3 * a) * c < 0 then none else
      if -(2 * b) / (2 * (3 * a)) + √((2 * b) ^ 2 - 4 * (3 * a) * c) / (2 * (3 * a)) > l ∧
         -(2 * b) / (2 * (3 * a)) + √((2 * b) ^ 2 - 4 * (3 * a) * c) / (2 * (3 * a)) < h
      then some (-(2 * b) / (2 * (3 * a)) + √((2 * b) ^ 2 - 4 * (3 * a) * c) / (2 * (3 * a)))
      else some (-(2 * b) / (2 * (3 * a)) - √((2 * b) ^ 2 - 4 * (3 * a) * c) / (2 * (3 * a))) := by
  have hq : 3 * a ≠ 0 := mul_ne_zero three_ne_zero ha
  have h1 : 2 * (b + 3 * a * l) - 6 * l * a = 2 * b := by ring
  have h2 : 3 * l ^ 2 * a - 2 * (b + 3 * a * l) * l + gl = c := by rw [← e2]; ring
  simp only [cubicInterp, cubicCoef_eq hlh hlm hhm e1 e2 e3 e4, Option.bind_some, h1, h2, hq, if_false]

theorem root_plus {a b c : ℝ} (ha : a ≠ 0) (hD : 0 ≤ (2 * b) ^ 2 - 4 * (3 * a) * c) (σ : ℝ) (hσ : σ ^ 2 = 1) :
    let x := -(2 * b) / (2 * (3 * a)) + σ * (√((2 * b) ^ 2 - 4 * (3 * a) * c) / (2 * (3 * a)))
    3 * a * x ^ 2 + 2 * b * x + c = 0 ∧ 6 * a * x + 2 * b = σ * √((2 * b) ^ 2 - 4 * (3 * a) * c) := by
  intro x
  have hs := Real.sq_sqrt hD
  set s := √((2 * b) ^ 2 - 4 * (3 * a) * c)
  have h6' : ∀ s : ℝ, 6 * a * (-(2 * b) / (2 * (3 * a)) + σ * (s / (2 * (3 * a)))) = -(2 * b) + σ * s := by
    intro s; field_simp; ring
  have h6 : 6 * a * x = -(2 * b) + σ * s := h6' s
  refine ⟨?_, by linarith⟩
  have : 12 * a * (3 * a * x ^ 2 + 2 * b * x + c) = 0 := by
    have e : 12 * a * (3 * a * x ^ 2 + 2 * b * x + c) = (6 * a * x) ^ 2 + 2 * (2 * b) * (6 * a * x) + 12 * a * c := by
      ring
    rw [e, h6]
    linear_combination s ^ 2 * hσ + hs
  rcases mul_eq_zero.mp this with h | h
  · exact absurd h (mul_ne_zero (by norm_num) ha)
  · exact h

/-- **C44** (cubic).  If a genuine cubic has value `fl` and slope `gl` at `l`, and values `fh`, `fm` at two further
points, the cubic interpolation returns one of its stationary points, when it has any. -/
theorem C44_cubic (a b c d l h m fl fh fm gl : ℝ) (ha : a ≠ 0) (hlh : l ≠ h) (hlm : l ≠ m) (hhm : h ≠ m)
    (e1 : a * l ^ 3 + b * l ^ 2 + c * l + d = fl) (e2 : 3 * a * l ^ 2 + 2 * b * l + c = gl)
    (e3 : a * h ^ 3 + b * h ^ 2 + c * h + d = fh) (e4 : a * m ^ 3 + b * m ^ 2 + c * m + d = fm)
    (y : ℝ) (hy : 3 * a * y ^ 2 + 2 * b * y + c = 0) :
    ∃ x, cubicInterp Real.sqrt l h m fl fh fm gl = some x ∧ 3 * a * x ^ 2 + 2 * b * x + c = 0 := by
  have hD : 0 ≤ (2 * b) ^ 2 - 4 * (3 * a) * c := by
    have : (2 * b) ^ 2 - 4 * (3 * a) * c = (6 * a * y + 2 * b) ^ 2 := by linear_combination (-12 * a) * hy
    rw [this]; positivity
  rw [cubicInterp_eq ha hlh hlm hhm e1 e2 e3 e4, if_neg (not_lt.mpr hD)]
  split_ifs
  · refine ⟨_, rfl, ?_⟩
    have := (root_plus (b := b) (c := c) ha hD 1 (by norm_num)).1
    simpa only [one_mul] using this
  · refine ⟨_, rfl, ?_⟩
    have := (root_plus (b := b) (c := c) ha hD (-1) (by norm_num)).1
    simpa only [neg_one_mul, ← sub_eq_add_neg] using this

/-- **C66**, in part.  With the bracket ordered (`l < h`), the cubic interpolation returns the minimiser of the cubic
whenever that lies strictly inside the bracket.  Missing: reversed brackets, see `C66_reversed`. -/
theorem C66_minimiser_partial (a b c d l h m fl fh fm gl : ℝ) (ha : a ≠ 0) (hlm : l ≠ m) (hhm : h ≠ m)
    (e1 : a * l ^ 3 + b * l ^ 2 + c * l + d = fl) (e2 : 3 * a * l ^ 2 + 2 * b * l + c = gl)
    (e3 : a * h ^ 3 + b * h ^ 2 + c * h + d = fh) (e4 : a * m ^ 3 + b * m ^ 2 + c * m + d = fm)
    (y : ℝ) (hy : 3 * a * y ^ 2 + 2 * b * y + c = 0) (hmin : 0 < 6 * a * y + 2 * b) (hyl : l < y) (hyh : y < h) :
    cubicInterp Real.sqrt l h m fl fh fm gl = some y := by
  have hD' : (2 * b) ^ 2 - 4 * (3 * a) * c = (6 * a * y + 2 * b) ^ 2 := by linear_combination (-12 * a) * hy
  have hD : 0 ≤ (2 * b) ^ 2 - 4 * (3 * a) * c := by rw [hD']; positivity
  rw [cubicInterp_eq ha (hyl.trans hyh).ne hlm hhm e1 e2 e3 e4, if_neg (not_lt.mpr hD)]
  have e : -(2 * b) / (2 * (3 * a)) + √((2 * b) ^ 2 - 4 * (3 * a) * c) / (2 * (3 * a)) = y := by
    rw [hD', Real.sqrt_sq hmin.le]; field_simp; ring
  rw [e, if_pos ⟨hyl, hyh⟩]

/-- **C66** fails for reversed brackets: when `h < l` the cubic interpolation never returns a strict minimiser (it always
takes the other root). -/
theorem C66_reversed (a b c d l h m fl fh fm gl : ℝ) (ha : a ≠ 0) (hhl : h < l) (hlm : l ≠ m) (hhm : h ≠ m)
    (e1 : a * l ^ 3 + b * l ^ 2 + c * l + d = fl) (e2 : 3 * a * l ^ 2 + 2 * b * l + c = gl)
    (e3 : a * h ^ 3 + b * h ^ 2 + c * h + d = fh) (e4 : a * m ^ 3 + b * m ^ 2 + c * m + d = fm)
    (x : ℝ) (hx : cubicInterp Real.sqrt l h m fl fh fm gl = some x) : 6 * a * x + 2 * b ≤ 0 := by
  rw [cubicInterp_eq ha hhl.ne' hlm hhm e1 e2 e3 e4] at hx
  split_ifs at hx with hD h2
  · exact absurd (h2.1.trans h2.2) (not_lt.mpr hhl.le)
  · rw [← Option.some.inj hx]
    have := (root_plus (b := b) (c := c) ha (not_lt.mp hD) (-1) (by norm_num)).2
    simp only [neg_one_mul, ← sub_eq_add_neg] at this
    rw [this, neg_nonpos]
    exact Real.sqrt_nonneg _

/-- `t^3 - 3t` has its minimum at 1, inside the bracket from 2 down to 0; the interpolation returns the maximum at -1. -/
example : cubicInterp (fun x : ℚ => if x = 36 then 6 else 0) 2 0 3 2 0 18 9 = some (-1) ∧
    cubicInterp (fun x : ℚ => if x = 36 then 6 else 0) 0 2 3 0 2 18 (-3) = some 1 := by decide +kernel

end HQCA.Props
