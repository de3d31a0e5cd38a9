import Verif.Model.Optim
import Mathlib.Analysis.Calculus.Deriv.Basic
import Mathlib.Analysis.SpecificLimits.Basic
import Mathlib.Tactic.Linarith
import Mathlib.Tactic.Ring
import Mathlib.Tactic.NormNum

/-!
# C46, C48, C55: the optimizer line searches and the optimizer driver
-/

set_option linter.unusedSectionVars false
namespace HQCA.Props
open HQCA HQCA.Optim
variable {F : Type} [Field F] [LinearOrder F] [IsStrictOrderedRing F]

/-! ## C48 -/

/-- The Armijo test at a step. -/
def Armijo (B : BT F) (a : F) : Prop := B.phi a ≤ B.f0 + B.c * a * B.y

theorem btTest_pos {B : BT F} {a : F} (h : Armijo B a) : btTest B a = ⟨a, B.phi a, 0⟩ := if_pos h
theorem btTest_neg {B : BT F} {a : F} (h : ¬ Armijo B a) : btTest B a = ⟨a * B.rho, B.phi a, 1⟩ := if_neg h

theorem btRun_spec (B : BT F) (n : ℕ) :
    (∃ k ≤ n, btRun B n = ⟨B.rho ^ k, B.phi (B.rho ^ k), 0⟩ ∧ Armijo B (B.rho ^ k) ∧
      ∀ j < k, ¬ Armijo B (B.rho ^ j)) ∨
    (btRun B n = ⟨B.rho ^ (n + 1), B.phi (B.rho ^ n), 1⟩ ∧ ∀ j ≤ n, ¬ Armijo B (B.rho ^ j)) := by
  induction n with
  | zero =>
    by_cases h : Armijo B 1
    · left
      refine ⟨0, le_rfl, ?_, by simpa using h, by simp⟩
      rw [btRun, btTest_pos h]; simp
    · right
      refine ⟨?_, by simpa using h⟩
      rw [btRun, btTest_neg h]; simp
  | succ n ih =>
    rcases ih with ⟨k, hk, e, ha, hlt⟩ | ⟨e, hn⟩
    · left
      refine ⟨k, by omega, ?_, ha, hlt⟩
      rw [btRun, e]; exact btTest_pos ha
    · by_cases h : Armijo B (B.rho ^ (n + 1))
      · left
        refine ⟨n + 1, le_rfl, ?_, h, fun j hj => hn j (by omega)⟩
        rw [btRun, e]; exact btTest_pos h
      · right
        refine ⟨?_, ?_⟩
        · rw [btRun, e, pow_succ B.rho (n + 1)]; exact btTest_neg h
        · intro j hj
          rcases Nat.lt_or_ge j (n + 1) with h1 | h1
          · exact hn j (by omega)
          · rw [show j = n + 1 by omega]; exact h

/-- **C48** (backtracking).  Whenever the backtracking search reports convergence (criterion zero), its step satisfies
the Armijo test, its value is the objective there, and the step is the first of `1, rho, rho^2, ...` to do so. -/
theorem C48_backtracking (B : BT F) (n : ℕ) (h : (btRun B n).crit = 0) :
    (btRun B n).f1 = B.phi (btRun B n).alpha ∧
    B.phi (btRun B n).alpha ≤ B.f0 + B.c * (btRun B n).alpha * B.y ∧
    ∃ k ≤ n, (btRun B n).alpha = B.rho ^ k ∧ ∀ j < k, B.f0 + B.c * B.rho ^ j * B.y < B.phi (B.rho ^ j) := by
  rcases btRun_spec B n with ⟨k, hk, e, ha, hlt⟩ | ⟨e, -⟩
  · rw [e]
    exact ⟨rfl, ha, k, hk, rfl, fun j hj => not_le.mp (hlt j hj)⟩
  · rw [e] at h; simp at h

/-- Steps below a threshold pass the Armijo test when the objective has slope `y < 0` at zero and `c < 1`. -/
theorem armijo_small (B : BT ℝ) (hd : HasDerivAt B.phi B.y 0) (h0 : B.phi 0 = B.f0) (hy : B.y < 0) (hc : B.c < 1) :
    ∃ δ > 0, ∀ a, 0 < a → a < δ → Armijo B a := by
  have h1 : B.y < B.c * B.y := by nlinarith
  have ho := (hasDerivAt_iff_isLittleO.mp hd).def (c := B.c * B.y - B.y) (by linarith)
  obtain ⟨δ, hδ, hball⟩ := Metric.eventually_nhds_iff.mp ho
  refine ⟨δ, hδ, fun a ha hlt => ?_⟩
  have := hball (y := a) (by rw [Real.dist_eq, sub_zero, abs_of_pos ha]; exact hlt)
  simp only [sub_zero, smul_eq_mul, Real.norm_eq_abs, abs_of_pos ha] at this
  have h2 := le_of_abs_le this
  unfold Armijo
  rw [← h0]
  nlinarith

/-- **C48** (backtracking ends).  For a differentiable objective and a descent direction the search converges, and stays
converged. -/
theorem C48_backtracking_ends (B : BT ℝ) (hd : HasDerivAt B.phi B.y 0) (h0 : B.phi 0 = B.f0) (hy : B.y < 0)
    (hc : B.c < 1) (hr0 : 0 < B.rho) (hr1 : B.rho < 1) : ∃ n, ∀ m ≥ n, (btRun B m).crit = 0 := by
  obtain ⟨δ, hδ, hs⟩ := armijo_small B hd h0 hy hc
  obtain ⟨n, hn⟩ := exists_pow_lt_of_lt_one hδ hr1
  refine ⟨n, fun m hm => ?_⟩
  rcases btRun_spec B m with ⟨k, -, e, -, -⟩ | ⟨-, h⟩
  · rw [e]
  · exact absurd (hs _ (pow_pos hr0 n) hn) (h n hm)

/-- **C48** (the backtracking loop of BFGS).  When the loop ends, the step satisfies the Armijo test, and it ends for a
differentiable objective and a descent direction. -/
theorem C48_bfgs_backtracking (B : BT F) (n : ℕ) (h : (btLoop B n).2.2 = true) :
    (btLoop B n).2.1 = B.phi (btLoop B n).1 ∧ B.phi (btLoop B n).1 ≤ B.f0 + B.c * (btLoop B n).1 * B.y := by
  induction n with
  | zero => exact ⟨rfl, of_decide_eq_true h⟩
  | succ n ih =>
    rw [btLoop] at h ⊢
    dsimp only at h ⊢
    split_ifs at h ⊢ with h1
    · exact ih h1
    · exact ⟨rfl, of_decide_eq_true h⟩

theorem btLoop_spec (B : BT F) (n : ℕ) : (btLoop B n).2.2 = true ∨
    ((btLoop B n).1 = B.rho ^ n ∧ ∀ j ≤ n, ¬ Armijo B (B.rho ^ j)) := by
  induction n with
  | zero =>
    by_cases h : Armijo B 1
    · left; exact decide_eq_true h
    · right; simpa [btLoop] using h
  | succ n ih =>
    rw [btLoop]
    dsimp only
    rcases ih with h | ⟨e, hn⟩
    · left; rw [if_pos h]; exact h
    · split_ifs with h1
      · exact .inl h1
      · rw [e, ← pow_succ]
        by_cases h : Armijo B (B.rho ^ (n + 1))
        · exact .inl (decide_eq_true h)
        · refine .inr ⟨rfl, fun j hj => ?_⟩
          rcases Nat.lt_or_ge j (n + 1) with h1 | h1
          · exact hn j (by omega)
          · rw [show j = n + 1 by omega]; exact h

theorem C48_bfgs_backtracking_ends (B : BT ℝ) (hd : HasDerivAt B.phi B.y 0) (h0 : B.phi 0 = B.f0) (hy : B.y < 0)
    (hc : B.c < 1) (hr0 : 0 < B.rho) (hr1 : B.rho < 1) : ∃ n, (btLoop B n).2.2 = true := by
  obtain ⟨δ, hδ, hs⟩ := armijo_small B hd h0 hy hc
  obtain ⟨n, hn⟩ := exists_pow_lt_of_lt_one hδ hr1
  refine ⟨n, ?_⟩
  rcases btLoop_spec B n with h | ⟨-, h⟩
  · exact h
  · exact absurd (hs _ (pow_pos hr0 n) hn) (h n le_rfl)

/-- `(t-1/4)^2` with slope `-1/2`: three halvings. -/
example : (let r := btRun (⟨fun t => (t - 1/4)^2, 1/16, -1/2, 1/2, 1/2⟩ : BT ℚ) 5
    (r.alpha, r.f1, r.crit)) = (1/4, 0, 0) := by decide +kernel

/-- **C48** (bisection).  Each step of the bisecting search keeps or lowers the value at the left end, halves the
bracket, keeps the cached values those of the ends, and keeps the left value at most the right one. -/
theorem C48_bisect (phi : F → F) (s : BS F) (hl : s.fl = phi s.al) (hr : s.fr = phi s.ar) (hle : s.fl ≤ s.fr) :
    (bsStep phi s).fl ≤ s.fl ∧ bsCrit (bsStep phi s) = bsCrit s / 2 ∧
    (bsStep phi s).fl = phi (bsStep phi s).al ∧ (bsStep phi s).fr = phi (bsStep phi s).ar ∧
    (bsStep phi s).fl ≤ (bsStep phi s).fr ∧
    (bsBest (bsStep phi s)).1 = (bsStep phi s).fl ∧
    phi (bsBest (bsStep phi s)).2 = (bsBest (bsStep phi s)).1 := by
  have hbest : ∀ b : BS F, b.fl = phi b.al → b.fr = phi b.ar → b.fl ≤ b.fr →
      (bsBest b).1 = b.fl ∧ phi (bsBest b).2 = (bsBest b).1 := by
    intro b h1 h2 h3
    unfold bsBest
    split_ifs with h
    · exact ⟨rfl, h1.symm⟩
    · exact ⟨le_antisymm (not_lt.mp h) h3, h2.symm⟩
  have h2 : (0 : F) < 2 := by norm_num
  unfold bsStep
  dsimp only
  split_ifs with h
  · refine ⟨h.le, ?_, rfl, hr, h.le.trans hle, ?_⟩
    · simp only [bsCrit]
      rw [show 1 / 2 * (s.al + s.ar) - s.ar = (s.al - s.ar) / 2 by ring, abs_div, abs_of_pos h2]
    · exact hbest _ rfl hr (h.le.trans hle)
  · refine ⟨le_rfl, ?_, hl, rfl, not_lt.mp h, ?_⟩
    · simp only [bsCrit]
      rw [show s.al - 1 / 2 * (s.al + s.ar) = (s.al - s.ar) / 2 by ring, abs_div, abs_of_pos h2]
    · exact hbest _ hl rfl (not_lt.mp h)

/-- The bracket found by `initialize` meets the hypotheses of `C48_bisect`, and its left value is at most the first. -/
theorem C48_bisect_init (phi : F → F) (al ar : F) (n : ℕ) (b : BS F) (h : bsInit phi (phi al) al ar n = .inl b) :
    b.fl = phi b.al ∧ b.fr = phi b.ar ∧ b.fl ≤ b.fr ∧ b.fl ≤ phi al := by
  have key : ∀ n, (∀ b, bsInit phi (phi al) al ar n = .inl b →
        b.fl = phi b.al ∧ b.fr = phi b.ar ∧ b.fl ≤ b.fr ∧ b.fl ≤ phi al) ∧
      (∀ x, bsInit phi (phi al) al ar n = .inr x → x.2.1 = phi x.1 ∧ x.2.1 ≤ phi al) := by
    intro n
    induction n with
    | zero => simp [bsInit]
    | succ n ih =>
      rw [bsInit]
      cases hb : bsInit phi (phi al) al ar n with
      | inl b => exact ⟨fun b' hb' => ih.1 b' (by rw [hb, ← hb']), by simp⟩
      | inr x =>
        obtain ⟨x1, x2, x3⟩ := x
        have := ih.2 _ hb
        dsimp only at this ⊢
        split_ifs with hx
        · exact ⟨by simp, fun y hy => by
            rw [← Sum.inr.inj hy]; exact ⟨rfl, hx.le.trans this.2⟩⟩
        · exact ⟨fun b hb => by rw [← Sum.inl.inj hb]; exact ⟨this.1, rfl, not_lt.mp hx, this.2⟩, by simp⟩
  exact (key n).1 b h

/-- The bracketing loop of `initialize` has no limit: on an unbounded objective it never ends. -/
theorem C48_bisect_endless (n : ℕ) :
    bsInit (fun t : ℚ => -t) 0 0 1 n = .inr (if n = 0 then 0 else 2 ^ (n - 1), if n = 0 then 0 else -2 ^ (n - 1), 2 ^ n)
    := by
  induction n with
  | zero => simp [bsInit]
  | succ n ih =>
    rw [bsInit, ih]
    have h2 : (0 : ℚ) < 2 ^ n := by positivity
    have : -(2 : ℚ) ^ n < if n = 0 then 0 else -2 ^ (n - 1) := by
      split_ifs with h
      · subst h; norm_num
      · obtain ⟨k, rfl⟩ := Nat.exists_eq_succ_of_ne_zero h
        have : (0 : ℚ) < 2 ^ k := by positivity
        simp only [Nat.succ_eq_add_one, Nat.add_sub_cancel, pow_succ]; linarith
    simp only [this, if_true, Nat.add_sub_cancel, Nat.succ_ne_zero, if_false, pow_succ]

example : bsStep (fun t : ℚ => (t - 1)^2) ⟨0, 4, 1, 9⟩ = ⟨0, 2, 1, 1⟩ := by
  norm_num [bsStep]

/-! ## C46 -/

theorem wZoom_spec (W : WLS F) : ∀ (n : ℕ) (al ah fl a f : F), wZoom W n al ah fl = some (a, f) →
    f = W.phi a ∧ f ≤ W.fz + W.c1 * a * W.gz ∧ |W.dphi a| ≤ -W.c2 * W.gz := by
  intro n
  induction n with
  | zero => intro al ah fl a f h; simp [wZoom] at h
  | succ n ih =>
    intro al ah fl a f h
    rw [wZoom] at h
    dsimp only at h
    split_ifs at h with h1 h2 h3 h4
    · exact ih _ _ _ _ _ h
    · rw [Option.some.injEq, Prod.mk.injEq] at h
      obtain ⟨rfl, rfl⟩ := h
      push Not at h1
      exact ⟨rfl, h1.1, h2⟩
    · exact ih _ _ _ _ _ h
    · exact ih _ _ _ _ _ h

/-- **C46** (Wolfe conditions).  Any step the BFGS line search returns satisfies the strong Wolfe conditions it tests,
and the value it records is the objective there. -/
theorem C46_wolfe (W : WLS F) (n : ℕ) (a f : F) (h : wRun W n = .ended (some (a, f))) :
    f = W.phi a ∧ f ≤ W.fz + W.c1 * a * W.gz ∧ |W.dphi a| ≤ -W.c2 * W.gz := by
  induction n with
  | zero => simp [wRun] at h
  | succ n ih =>
    rw [wRun] at h
    cases hs : wRun W n with
    | ended r => rw [hs, wPass] at h; exact ih (by rw [hs, h])
    | running a0 f0 a1 =>
      rw [hs, wPass] at h
      dsimp only at h
      split_ifs at h with h1 h2 h3
      · exact wZoom_spec W _ _ _ _ _ _ (WSt.ended.inj h)
      · simp only [WSt.ended.injEq, Option.some.injEq, Prod.mk.injEq] at h
        obtain ⟨rfl, rfl⟩ := h
        exact ⟨rfl, not_lt.mp h1, h2⟩
      · exact wZoom_spec W _ _ _ _ _ _ (WSt.ended.inj h)

theorem wZoom_between (W : WLS F) : ∀ (n : ℕ) (al ah fl a f : F), al ≠ ah → wZoom W n al ah fl = some (a, f) →
    min al ah < a ∧ a < max al ah ∧ f < fl := by
  intro n
  induction n with
  | zero => intro al ah fl a f _ h; simp [wZoom] at h
  | succ n ih =>
    intro al ah fl a f hne h
    rw [wZoom] at h
    dsimp only at h
    have hmid : min al ah < 1 / 2 * (al + ah) ∧ 1 / 2 * (al + ah) < max al ah := by
      rcases lt_or_gt_of_ne hne with hl | hl
      · rw [min_eq_left hl.le, max_eq_right hl.le]
        exact ⟨by linarith, by linarith⟩
      · rw [min_eq_right hl.le, max_eq_left hl.le]
        exact ⟨by linarith, by linarith⟩
    have hal : min al ah ≤ al ∧ al ≤ max al ah := ⟨min_le_left _ _, le_max_left _ _⟩
    have hah : min al ah ≤ ah ∧ ah ≤ max al ah := ⟨min_le_right _ _, le_max_right _ _⟩
    have hn1 : al ≠ 1 / 2 * (al + ah) := fun e => hne (by linarith)
    have hn2 : 1 / 2 * (al + ah) ≠ ah := fun e => hne (by linarith)
    split_ifs at h with h1 h2 h3 h4
    · obtain ⟨b1, b2, b3⟩ := ih _ _ _ _ _ hn1 h
      exact ⟨lt_of_le_of_lt (le_min hal.1 hmid.1.le) b1, lt_of_lt_of_le b2 (max_le hal.2 hmid.2.le), b3⟩
    · rw [Option.some.injEq, Prod.mk.injEq] at h
      obtain ⟨rfl, rfl⟩ := h
      push Not at h1
      exact ⟨hmid.1, hmid.2, h1.2⟩
    · push Not at h1
      obtain ⟨b1, b2, b3⟩ := ih _ _ _ _ _ hn1.symm h
      exact ⟨lt_of_le_of_lt (le_min hmid.1.le hal.1) b1, lt_of_lt_of_le b2 (max_le hmid.2.le hal.2), b3.trans h1.2⟩
    · push Not at h1
      obtain ⟨b1, b2, b3⟩ := ih _ _ _ _ _ hn2 h
      exact ⟨lt_of_le_of_lt (le_min hmid.1.le hah.1) b1, lt_of_lt_of_le b2 (max_le hmid.2.le hah.2), b3.trans h1.2⟩

theorem wRun_order (W : WLS F) (n : ℕ) (a0 f0 a1 : F) (h : wRun W n = .running a0 f0 a1) : 0 ≤ a0 ∧ a0 < a1 ∧ a1 < 5 := by
  induction n generalizing a0 f0 a1 with
  | zero =>
    simp only [wRun, WSt.running.injEq] at h
    obtain ⟨rfl, rfl, rfl⟩ := h
    norm_num
  | succ n ih =>
    rw [wRun] at h
    cases hs : wRun W n with
    | ended r => rw [hs, wPass] at h; simp at h
    | running b0 g0 b1 =>
      obtain ⟨i1, i2, i3⟩ := ih _ _ _ hs
      rw [hs, wPass] at h
      dsimp only at h
      split_ifs at h
      simp only [WSt.running.injEq] at h
      obtain ⟨rfl, rfl, rfl⟩ := h
      exact ⟨by linarith, by linarith, by linarith⟩

/-- **C46** (range).  The step returned is a positive one below 5, the upper end of the search interval. -/
theorem C46_range (W : WLS F) (n : ℕ) (a f : F) (h : wRun W n = .ended (some (a, f))) : 0 < a ∧ a < 5 := by
  induction n with
  | zero => simp [wRun] at h
  | succ n ih =>
    rw [wRun] at h
    cases hs : wRun W n with
    | ended r => rw [hs, wPass] at h; exact ih (by rw [hs, h])
    | running a0 f0 a1 =>
      obtain ⟨i1, i2, i3⟩ := wRun_order W n _ _ _ hs
      have hz : ∀ m, wZoom W m a0 a1 f0 = some (a, f) → 0 < a ∧ a < 5 := by
        intro m hm
        obtain ⟨b1, b2, -⟩ := wZoom_between W _ _ _ _ _ _ i2.ne hm
        rw [min_eq_left i2.le] at b1
        rw [max_eq_right i2.le] at b2
        exact ⟨by linarith, by linarith⟩
      rw [hs, wPass] at h
      dsimp only at h
      split_ifs at h with h1 h2 h3
      · exact hz _ (WSt.ended.inj h)
      · simp only [WSt.ended.injEq, Option.some.injEq, Prod.mk.injEq] at h
        obtain ⟨rfl, rfl⟩ := h
        exact ⟨by linarith, i3⟩
      · exact hz _ (WSt.ended.inj h)

/-- The `k`-th trial step of the main loop: 1, 3, 4, 4.5, ... -/
def probe (k : ℕ) : F := 5 - 4 / 2 ^ k

/-- The main loop leaves at its `k`-th trial step: the decrease fails there, or the slope is not steeply negative. -/
def Leaves (W : WLS F) (k : ℕ) : Prop :=
  W.fz + W.c1 * probe k * W.gz < W.phi (probe k) ∨ |W.dphi (probe k)| ≤ -W.c2 * W.gz ∨ 0 ≤ W.dphi (probe k)

theorem wRun_running (W : WLS F) (n : ℕ) :
    (∃ a0 f0, wRun W n = .running a0 f0 (probe n)) ∧ (∀ k < n, ¬ Leaves W k) ∨
    (∃ r, wRun W n = .ended r) ∧ ∃ k < n, Leaves W k := by
  induction n with
  | zero => left; exact ⟨⟨0, W.fz, by rw [wRun, probe]; norm_num⟩, by simp⟩
  | succ n ih =>
    rcases ih with ⟨⟨a0, f0, e⟩, hk⟩ | ⟨⟨r, e⟩, k, hk, hl⟩
    · by_cases hl : Leaves W n
      · right
        refine ⟨?_, n, by omega, hl⟩
        rw [wRun, e, wPass]
        dsimp only
        rcases hl with hl | hl | hl
        · exact ⟨_, by rw [if_pos hl]⟩
        · split_ifs
          exacts [⟨_, rfl⟩, ⟨_, rfl⟩]
        · split_ifs
          exacts [⟨_, rfl⟩, ⟨_, rfl⟩, ⟨_, rfl⟩]
      · left
        refine ⟨⟨probe n, W.phi (probe n), ?_⟩, ?_⟩
        · rw [wRun, e, wPass]
          dsimp only
          unfold Leaves at hl
          push Not at hl
          rw [if_neg (not_lt.mpr hl.1), if_neg (not_le.mpr hl.2.1), if_neg (not_le.mpr hl.2.2)]
          congr 1
          simp only [probe, pow_succ]
          have : (2 : F) ^ n ≠ 0 := by positivity
          field_simp
          ring
        · intro k hk'
          rcases Nat.lt_or_ge k n with h | h
          · exact hk k h
          · rw [show k = n by omega]; exact hl
    · right
      refine ⟨⟨r, by rw [wRun, e, wPass]⟩, k, by omega, hl⟩

/-- **C46** (termination), in part: the line search ends within `n` passes (with a step or with an error) exactly when one
of its first `n` trial steps `1, 3, 4, 4.5, ...` fails the decrease test or has a slope that is not steeply negative.
Missing: nothing forces this to happen, see `C46_endless`. -/
theorem C46_ends_partial (W : WLS F) (n : ℕ) :
    (∃ r, wRun W n = .ended r) ↔ ∃ k < n, Leaves W k := by
  rcases wRun_running W n with ⟨⟨a0, f0, e⟩, hk⟩ | ⟨h1, h2⟩
  · constructor
    · rintro ⟨r, hr⟩; rw [hr] at e; simp at e
    · rintro ⟨k, hk', hl⟩; exact absurd hl (hk k hk')
  · exact ⟨fun _ => h2, fun _ => h1⟩

/-- **C46** fails: with the constants of the code, on `f(t) = -t` the line search never ends. -/
theorem C46_endless (n : ℕ) (r : Option (ℚ × ℚ)) :
    wRun (⟨fun t => -t, fun _ => -1, 0, -1, 6/10, 9/10⟩ : WLS ℚ) n ≠ .ended r := by
  intro h
  obtain ⟨k, -, hl⟩ := (C46_ends_partial _ n).mp ⟨r, h⟩
  have hp : (1 : ℚ) ≤ probe k := by
    have h1 : (1 : ℚ) ≤ 2 ^ k := one_le_pow₀ (by norm_num)
    have h2 : 4 / 2 ^ k ≤ (4 : ℚ) := div_le_self (by norm_num) h1
    simp only [probe]; linarith
  rcases hl with hl | hl | hl
  · simp only at hl; linarith
  · norm_num at hl
  · norm_num at hl

/-- A search that ends in `zoom`. -/
example : (match wRun (⟨fun t => (t - 1/5)^2, fun t => 2 * (t - 1/5), 1/25, -2/5, 1/10, 9/10⟩ : WLS ℚ) 1 with
    | .ended r => r
    | _ => none) = some (1/4, 1/400) := by decide +kernel

/-! ## C55 -/

/-- The loop of the driver has run `n` passes and its last call of the optimizer raised. -/
theorem dCheck_error {S : Type} (I : Inst S F) (d : DSt S) (h : d.error = true) :
    (dCheck I d).done = true ∧ (dCheck I d).err = true := by
  unfold dCheck
  split
  · split_ifs <;> simp [h]
  · rw [if_pos h]; exact ⟨rfl, rfl⟩

/-- States reached by the driver: an error is never pending at the head of the loop. -/
theorem dRun_inv {S : Type} (I : Inst S F) (v : Bool) (s : S) : ∀ (n : ℕ) (d : DSt S), dRun I v s n = some d →
    (d.error = true → d.done = true ∧ d.err = true) ∧ (d.err = true → d.error = true) ∧
    (d.done = true → d.error = false →
      ∃ c b, I.crit d.inst = some c ∧ I.bestF d.inst = some b ∧ |c| ≤ |I.thresh|) := by
  intro n
  induction n with
  | zero => intro d h; simp only [dRun, Option.some.injEq] at h; subst h; simp
  | succ n ih =>
    intro d h
    rw [dRun] at h
    obtain ⟨d0, h0, h⟩ := Option.bind_eq_some_iff.mp h
    obtain ⟨i1, i2, i3⟩ := ih d0 h0
    split_ifs at h with hd
    · rw [← Option.some.inj h]; exact ⟨i1, i2, i3⟩
    · obtain ⟨d1, h1, rfl⟩ := Option.map_eq_some_iff.mp h
      have herr0 : d0.err = false := by
        cases he : d0.err with
        | false => rfl
        | true => exact absurd (i1 (i2 he)).1 hd
      have hd1 : d1.done = false ∧ d1.err = false := by
        unfold dNext at h1
        dsimp only at h1
        split_ifs at h1
        rw [← Option.some.inj h1]
        exact ⟨by simpa using hd, herr0⟩
      have hE : (dCheck I d1).error = d1.error ∧ (dCheck I d1).inst = d1.inst := by
        unfold dCheck
        split
        · split_ifs <;> exact ⟨rfl, rfl⟩
        · split_ifs <;> exact ⟨rfl, rfl⟩
      refine ⟨fun he => dCheck_error I d1 (hE.1 ▸ he), fun he => ?_, fun hdone hno => ?_⟩
      · rw [hE.1]
        unfold dCheck at he
        split at he
        · split_ifs at he with a b
          · simpa [hd1.2] using he
          · exact b
          · simp [hd1.2] at he
        · split_ifs at he with a
          · exact a
          · simp [hd1.2] at he
      · rw [hE.1] at hno
        rw [hE.2]
        unfold dCheck at hdone
        split at hdone
        · rename_i c b hc hb
          split_ifs at hdone with a b'
          · exact ⟨c, b, hc, hb, a⟩
          · rw [hno] at b'; exact absurd b' (by simp)
        · rw [if_neg (by rw [hno]; simp), hd1.1] at hdone
          exact absurd hdone (by simp)

/-- **C55** (errors end the run).  If the call of the optimizer in a pass raises, the driver has stopped after that
pass, reporting an error (or the message of the verbose mode raised). -/
theorem C55_error_ends {S : Type} (I : Inst S F) (v : Bool) (s : S) (n : ℕ) (d d' : DSt S)
    (h : dRun I v s n = some d) (hd : d.done = false) (hstep : (I.step d.inst).2 ≠ .ok)
    (h' : dRun I v s (n + 1) = some d') : d'.done = true ∧ d'.err = true := by
  rw [dRun, h, Option.bind_some, if_neg (by simp [hd])] at h'
  obtain ⟨d1, h1, rfl⟩ := Option.map_eq_some_iff.mp h'
  apply dCheck_error
  unfold dNext at h1
  dsimp only at h1
  split_ifs at h1
  rw [← Option.some.inj h1]
  simp [hstep]

/-- **C55** (defined status).  When the run has stopped, either an error was raised and is reported, or none was reported
and the criterion of the optimizer is within its threshold. -/
theorem C55_status {S : Type} (I : Inst S F) (v : Bool) (s : S) (n : ℕ) (d : DSt S) (h : dRun I v s n = some d)
    (hd : d.done = true) :
    (d.error = true ∧ d.err = true) ∨
    (d.error = false ∧ d.err = false ∧ ∃ c, I.crit d.inst = some c ∧ |c| ≤ |I.thresh|) := by
  obtain ⟨i1, i2, i3⟩ := dRun_inv I v s n d h
  cases he : d.error with
  | true => exact .inl ⟨rfl, (i1 he).2⟩
  | false =>
    obtain ⟨c, -, hc, -, hle⟩ := i3 hd he
    refine .inr ⟨rfl, ?_, c, hc, hle⟩
    cases h2 : d.err with
    | false => rfl
    | true => rw [i2 h2] at he; exact absurd he (by simp)

/-- **C55**, in part: if after `n` error-free calls the optimizer's criterion is within its threshold and its best value
is set, the run has ended by then.  Missing: a limit on the number of iterations, and optimizers that never set a best
value; see below. -/
theorem C55_converged_partial {S : Type} (I : Inst S F) (v : Bool) (s : S) (n : ℕ) (d d' : DSt S)
    (h : dRun I v s n = some d) (h' : dRun I v s (n + 1) = some d') (c b : F)
    (hc : I.crit d'.inst = some c) (hb : I.bestF d'.inst = some b) (hle : |c| ≤ |I.thresh|) : d'.done = true := by
  rw [dRun, h, Option.bind_some] at h'
  split_ifs at h' with hd
  · rw [← Option.some.inj h']; exact hd
  · obtain ⟨d1, h1, rfl⟩ := Option.map_eq_some_iff.mp h'
    have hE : (dCheck I d1).inst = d1.inst := by
      unfold dCheck
      split
      · split_ifs <;> rfl
      · split_ifs <;> rfl
    rw [hE] at hc hb
    unfold dCheck
    rw [hc, hb]
    simp [hle]

/-- **C55** fails: there is no iteration limit, so an optimizer that neither converges nor raises is called forever. -/
theorem C55_no_limit (n : ℕ) :
    dRun (⟨fun s => (s, .ok), fun _ => some 1, fun _ => some 0, 1/1000000⟩ : Inst Unit ℚ) true () n =
      some ⟨(), false, n, false, false⟩ := by
  induction n with
  | zero => rfl
  | succ n ih =>
    rw [dRun, ih, Option.bind_some]
    norm_num [dNext, dCheck]

/-- The backtracking search as the driver sees it: it sets `crit` but never `best_f`; the threshold is zero. -/
def btInst (B : BT F) : Inst (BTSt F) F :=
  ⟨fun s => (btTest B s.alpha, .ok), fun s => some s.crit, fun _ => none, 0⟩

/-- **C55** fails for the backtracking search: run by the driver (without messages) it never ends, converged or not. -/
theorem C55_backtracking_endless (B : BT F) (s : BTSt F) (n : ℕ) :
    ∃ d, dRun (btInst B) false s n = some d ∧ d.done = false := by
  have : ∀ n, ∃ d, dRun (btInst B) false s n = some d ∧ d.done = false ∧ d.error = false := by
    intro n
    induction n with
    | zero => exact ⟨_, rfl, rfl, rfl⟩
    | succ n ih =>
      obtain ⟨d, h, h1, h2⟩ := ih
      rw [dRun, h, Option.bind_some]
      simp [h1, h2, dNext, dCheck, btInst]
  obtain ⟨d, h1, h2, -⟩ := this n
  exact ⟨d, h1, h2⟩

/-- A run of four passes: the third call raises, and the driver stops with an error. -/
example : (dRun (⟨fun s => (s + 1, if s = 2 then .other else .ok), fun _ => some 1, fun _ => some 0, 0⟩ : Inst ℕ ℚ)
    true 0 4).map (fun d => (d.inst, d.iter, d.done, d.err)) = some (3, 3, true, true) := by decide +kernel

/-- **C55, definedness.** Without messages the driver raises no exception of its own, whatever the optimizer does; with messages it is enough that the optimizer
has set its criterion and its best value. -/
theorem C55_defined {S : Type} (I : Inst S F) (v : Bool) (s : S) (n : ℕ)
    (h : v = true → ∀ t, (I.crit t).isSome = true ∧ (I.bestF t).isSome = true) : ∃ d, dRun I v s n = some d := by
  induction n with
  | zero => exact ⟨_, rfl⟩
  | succ n ih =>
    obtain ⟨d, hd⟩ := ih
    rw [dRun, hd, Option.bind_some]
    split
    · exact ⟨_, rfl⟩
    · cases v with
      | false => simp [dNext]
      | true =>
        obtain ⟨h1, h2⟩ := h rfl (I.step d.inst).1
        rw [Option.isSome_iff_exists] at h1 h2
        obtain ⟨a, ha⟩ := h1
        obtain ⟨b, hb⟩ := h2
        simp [dNext, ha, hb]

end HQCA.Props
