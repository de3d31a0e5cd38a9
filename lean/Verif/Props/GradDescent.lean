import Verif.Model.GradDescent
import Verif.Props.NelderMead
import Verif.Props.Optim
import Mathlib.Tactic.Ring
import Mathlib.Tactic.FieldSimp

/-!
# C99 (gradient descent) and C100 (Lagarias simplex)
-/

set_option linter.unusedSectionVars false
namespace HQCA.Props
open HQCA

/-! ## C99 -/

section
open HQCA.GD HQCA.Optim

/-- `f` has the gradient `g` in the sense of the descent inequality with constant `L`. -/
def SmoothL {n : ℕ} (f : (Fin n → ℝ) → ℝ) (g : (Fin n → ℝ) → Fin n → ℝ) (L : ℝ) : Prop :=
  ∀ x y, f y ≤ f x + g x ⬝ᵥ (y - x) + L / 2 * ((y - x) ⬝ᵥ (y - x))

/-- The points of gradient descent with step `γ` from `x`. -/
def gdPath {n : ℕ} (g : (Fin n → ℝ) → Fin n → ℝ) (γ : ℝ) (x : Fin n → ℝ) : ℕ → Fin n → ℝ
  | 0 => x
  | k + 1 => gdPath g γ x k - γ • g (gdPath g γ x k)

theorem gd_drop {n : ℕ} (f : (Fin n → ℝ) → ℝ) (g : (Fin n → ℝ) → Fin n → ℝ) (L γ : ℝ) (h : SmoothL f g L)
    (x : Fin n → ℝ) : f (x - γ • g x) ≤ f x - γ * (1 - L * γ / 2) * (g x ⬝ᵥ g x) := by
  have e : x - γ • g x - x = -(γ • g x) := by abel
  have := h x (x - γ • g x)
  rw [e, dotProduct_neg, neg_dotProduct_neg, dotProduct_smul, smul_dotProduct, dotProduct_smul, smul_eq_mul,
    smul_eq_mul] at this
  nlinarith

theorem dot_self {n : ℕ} (v : Fin n → ℝ) : v ⬝ᵥ v = ∑ i, v i ^ 2 :=
  Finset.sum_congr rfl fun i _ => by rw [pow_two]

theorem dot_self_nonneg {n : ℕ} (v : Fin n → ℝ) : 0 ≤ v ⬝ᵥ v := by
  rw [dot_self]; exact Finset.sum_nonneg fun i _ => sq_nonneg _

/-- The state after `k` steps. -/
noncomputable def gdState {n : ℕ} (P : Prob n) (start shift : Fin n → ℝ) : ℕ → GD.St n
  | 0 => GD.init P start shift
  | k + 1 => (GD.step P (gdState P start shift k)).1

theorem gdState_spec {n : ℕ} (P : Prob n) (hP : P.numpy = true) (start shift : Fin n → ℝ) (k : ℕ) :
    (gdState P start shift k).f0x = gdPath P.g P.gamma (start + shift) k ∧
    (gdState P start shift k).f1x = gdPath P.g P.gamma (start + shift) (k + 1) := by
  induction k with
  | zero => exact ⟨rfl, rfl⟩
  | succ k ih =>
    have : gdState P start shift (k + 1) = (GD.step P (gdState P start shift k)).1 := rfl
    rw [this, GD.step, if_pos hP]
    exact ⟨ih.2, by dsimp only; rw [ih.2]; rfl⟩

/-- **C99** (iterates).  With an objective returning numpy numbers the `k`-th step reports the `(k+1)`-st point of
gradient descent from the shifted start, the objective at that point, and as criterion the norm of the gradient at the
point before it. -/
theorem C99_iterates {n : ℕ} (P : Prob n) (hP : P.numpy = true) (start shift : Fin n → ℝ) (k : ℕ) :
    (GD.step P (gdState P start shift k)).2 = .ok ∧
    (gdState P start shift (k + 1)).best = some (P.f (gdPath P.g P.gamma (start + shift) (k + 2)),
      gdPath P.g P.gamma (start + shift) (k + 2)) ∧
    (gdState P start shift (k + 1)).crit =
      Real.sqrt (∑ i, P.g (gdPath P.g P.gamma (start + shift) (k + 1)) i ^ 2) := by
  have : gdState P start shift (k + 1) = (GD.step P (gdState P start shift k)).1 := rfl
  rw [this, GD.step, if_pos hP]
  refine ⟨rfl, ?_, ?_⟩
  · dsimp only; rw [(gdState_spec P hP start shift k).2]; rfl
  · dsimp only; rw [(gdState_spec P hP start shift k).2]

/-- **C99** (descent), in part: when the objective satisfies the descent inequality with constant `L` and
`0 ≤ gamma ≤ 2/L`, the reported best value never increases and is at most the objective at the start.  Missing: larger
steps, see `C99_fails_best`. -/
theorem C99_descent_partial {n : ℕ} (P : Prob n) (hP : P.numpy = true) (L : ℝ) (h : SmoothL P.f P.g L)
    (h0 : 0 ≤ P.gamma) (h2 : L * P.gamma ≤ 2) (start shift : Fin n → ℝ) (k l : ℕ) (hkl : k ≤ l) (fk fl : ℝ)
    (xk xl : Fin n → ℝ) (ek : (gdState P start shift (k + 1)).best = some (fk, xk))
    (el : (gdState P start shift (l + 1)).best = some (fl, xl)) : fl ≤ fk ∧ fk ≤ P.f (start + shift) := by
  have mono : ∀ i, P.f (gdPath P.g P.gamma (start + shift) (i + 1)) ≤ P.f (gdPath P.g P.gamma (start + shift) i) := by
    intro i
    have := gd_drop P.f P.g L P.gamma h (gdPath P.g P.gamma (start + shift) i)
    have hn := dot_self_nonneg (P.g (gdPath P.g P.gamma (start + shift) i))
    have hc : 0 ≤ P.gamma * (1 - L * P.gamma / 2) := mul_nonneg h0 (by linarith)
    have := mul_nonneg hc hn
    show P.f (gdPath P.g P.gamma (start + shift) i - P.gamma • P.g (gdPath P.g P.gamma (start + shift) i)) ≤ _
    linarith
  have anti : Antitone fun i => P.f (gdPath P.g P.gamma (start + shift) i) := antitone_nat_of_succ_le mono
  rw [(C99_iterates P hP start shift k).2.1] at ek
  rw [(C99_iterates P hP start shift l).2.1] at el
  obtain ⟨rfl, rfl⟩ := Prod.mk.injEq .. ▸ Option.some.inj ek
  obtain ⟨rfl, rfl⟩ := Prod.mk.injEq .. ▸ Option.some.inj el
  exact ⟨anti (by omega), anti (Nat.zero_le _)⟩

theorem gd_budget {n : ℕ} (f : (Fin n → ℝ) → ℝ) (g : (Fin n → ℝ) → Fin n → ℝ) (L γ ε : ℝ) (h : SmoothL f g L)
    (hc : 0 < γ * (1 - L * γ / 2)) (x : Fin n → ℝ) (N : ℕ)
    (hbig : ∀ k, 1 ≤ k → k ≤ N → ε ^ 2 < g (gdPath g γ x k) ⬝ᵥ g (gdPath g γ x k)) :
    f (gdPath g γ x (N + 1)) ≤ f x - N * (γ * (1 - L * γ / 2)) * ε ^ 2 := by
  induction N with
  | zero =>
    have := gd_drop f g L γ h x
    have hn := mul_nonneg hc.le (dot_self_nonneg (g x))
    show f (x - γ • g x) ≤ _
    push_cast
    linarith
  | succ N ih =>
    have i := ih fun k h1 h2 => hbig k h1 (by omega)
    have := gd_drop f g L γ h (gdPath g γ x (N + 1))
    have hb := mul_lt_mul_of_pos_left (hbig (N + 1) (by omega) le_rfl) hc
    show f (gdPath g γ x (N + 1) - γ • g (gdPath g γ x (N + 1))) ≤ _
    push_cast
    linarith

/-- **C99** (the run ends), in part: for an objective returning numpy numbers that satisfies the descent inequality with
constant `L` and is bounded below by `m`, a step `0 < gamma` with `L gamma < 2`, and a threshold `ε ≠ 0`, the driver
ends without error after at most `N` steps as soon as `N gamma (1 - L gamma/2) ε² ≥ f(start) - m`; the gradient at the
point before the reported one is at most the threshold and the reported value is the objective at the reported point,
not above the start.  Missing: other steps and objectives, see `C99_fails_best` and `C99_fails_float`. -/
theorem C99_converges_partial {n : ℕ} (P : Prob n) (hP : P.numpy = true) (L m ε : ℝ) (h : SmoothL P.f P.g L)
    (hm : ∀ x, m ≤ P.f x) (h0 : 0 < P.gamma) (h2 : L * P.gamma < 2) (start shift : Fin n → ℝ) (v : Bool) (N : ℕ)
    (hN1 : 1 ≤ N) (hN : P.f (start + shift) - m ≤ N * (P.gamma * (1 - L * P.gamma / 2)) * ε ^ 2) :
    ∃ d, dRun (GD.inst P ε) v (GD.init P start shift) N = some d ∧ d.done = true ∧ d.err = false ∧
      ∃ x : Fin n → ℝ, Real.sqrt (∑ i, P.g x i ^ 2) ≤ |ε| ∧
        d.inst.best = some (P.f (x - P.gamma • P.g x), x - P.gamma • P.g x) ∧
        P.f (x - P.gamma • P.g x) ≤ P.f (start + shift) := by
  have hc : 0 < P.gamma * (1 - L * P.gamma / 2) := mul_pos h0 (by linarith)
  set x0 := start + shift with hx0
  -- the states of the driver
  have key : ∀ k, ∃ d, dRun (GD.inst P ε) v (GD.init P start shift) k = some d ∧ d.error = false ∧ d.err = false ∧
      ((d.done = false ∧ d.inst = gdState P start shift k ∧
          ∀ j, 1 ≤ j → j ≤ k → |ε| < (gdState P start shift j).crit) ∨
        (d.done = true ∧ ∃ j, j + 1 ≤ k ∧ d.inst = gdState P start shift (j + 1) ∧
          (gdState P start shift (j + 1)).crit ≤ |ε|)) := by
    intro k
    induction k with
    | zero => exact ⟨_, rfl, rfl, rfl, .inl ⟨rfl, rfl, fun j h1 h2 => by omega⟩⟩
    | succ k ih =>
      obtain ⟨d, hd, he, herr, hcase⟩ := ih
      rw [dRun, hd, Option.bind_some]
      rcases hcase with ⟨hdone, hin, hall⟩ | ⟨hdone, j, hj, hin, hle⟩
      · rw [if_neg (by simp [hdone])]
        have hst := C99_iterates P hP start shift k
        have e1 : (GD.inst P ε).step d.inst = (gdState P start shift (k + 1), .ok) := by
          rw [hin]
          exact Prod.ext rfl hst.1
        have eb : ((GD.inst P ε).bestF (gdState P start shift (k + 1))) =
            some (P.f (gdPath P.g P.gamma x0 (k + 2))) := by
          show Option.map Prod.fst _ = _
          rw [hst.2.1]; rfl
        have ec : (GD.inst P ε).crit (gdState P start shift (k + 1)) = some (gdState P start shift (k + 1)).crit := rfl
        have hnn : 0 ≤ (gdState P start shift (k + 1)).crit := by rw [hst.2.2]; exact Real.sqrt_nonneg _
        have e2 : dNext (GD.inst P ε) v d = some { d with inst := gdState P start shift (k + 1), iter := d.iter + 1 } := by
          unfold dNext
          simp only [e1, eb, ec, Option.isNone_some, Bool.or_self, Bool.and_false, he]
          simp
        rw [e2, Option.map_some]
        unfold dCheck
        dsimp only
        rw [ec, eb]
        dsimp only
        have et : (GD.inst P ε).thresh = ε := rfl
        rw [et, abs_of_nonneg hnn]
        by_cases hle : (gdState P start shift (k + 1)).crit ≤ |ε|
        · rw [if_pos hle]
          exact ⟨_, rfl, he, by simp [he, herr], .inr ⟨rfl, k, le_rfl, rfl, hle⟩⟩
        · rw [if_neg hle, if_neg (by simp [he])]
          refine ⟨_, rfl, he, herr, .inl ⟨rfl, rfl, ?_⟩⟩
          intro j h1 h2
          rcases Nat.lt_or_ge j (k + 1) with hlt | hge
          · exact hall j h1 (by omega)
          · have : j = k + 1 := by omega
            subst this; exact not_le.mp hle
      · rw [if_pos hdone]
        exact ⟨d, rfl, he, herr, .inr ⟨hdone, j, by omega, hin, hle⟩⟩
  obtain ⟨d, hd, -, herr, hcase⟩ := key N
  refine ⟨d, hd, ?_⟩
  rcases hcase with ⟨hdone, hin, hall⟩ | ⟨hdone, j, hj, hin, hle⟩
  · exfalso
    have hbig : ∀ k, 1 ≤ k → k ≤ N → ε ^ 2 < P.g (gdPath P.g P.gamma x0 k) ⬝ᵥ P.g (gdPath P.g P.gamma x0 k) := by
      intro k h1 h2
      obtain ⟨j, rfl⟩ : ∃ j, k = j + 1 := ⟨k - 1, by omega⟩
      have := hall (j + 1) h1 h2
      rw [(C99_iterates P hP start shift j).2.2, Real.lt_sqrt (abs_nonneg _), sq_abs] at this
      rw [dot_self]; exact this
    obtain ⟨M, rfl⟩ : ∃ M, N = M + 1 := ⟨N - 1, by omega⟩
    have := gd_budget P.f P.g L P.gamma ε h hc x0 M fun k h1 h2 => hbig k h1 (by omega)
    have last := gd_drop P.f P.g L P.gamma h (gdPath P.g P.gamma x0 (M + 1))
    have hb := mul_lt_mul_of_pos_left (hbig (M + 1) (by omega) le_rfl) hc
    have := hm (gdPath P.g P.gamma x0 (M + 1) - P.gamma • P.g (gdPath P.g P.gamma x0 (M + 1)))
    push_cast at hN
    linarith
  · refine ⟨hdone, herr, gdPath P.g P.gamma x0 (j + 1), ?_, ?_, ?_⟩
    · rw [← (C99_iterates P hP start shift j).2.2]; exact hle
    · rw [hin, (C99_iterates P hP start shift j).2.1]; rfl
    · exact (C99_descent_partial P hP L h h0.le h2.le start shift j j le_rfl _ _ _ _
        (C99_iterates P hP start shift j).2.1 (C99_iterates P hP start shift j).2.1).2

/-- **C99** (rate).  When in addition the squared gradient is at least `2 mu` times the height above the lower bound, the
height above the bound falls geometrically. -/
theorem C99_rate {n : ℕ} (P : Prob n) (hP : P.numpy = true) (L m mu : ℝ) (h : SmoothL P.f P.g L)
    (hmu : ∀ x, 2 * mu * (P.f x - m) ≤ P.g x ⬝ᵥ P.g x) (h0 : 0 < P.gamma) (h2 : L * P.gamma < 2)
    (hq : 2 * mu * (P.gamma * (1 - L * P.gamma / 2)) ≤ 1) (start shift : Fin n → ℝ) (k : ℕ) :
    ∃ fk xk, (gdState P start shift (k + 1)).best = some (fk, xk) ∧ fk = P.f xk ∧
      fk - m ≤ (1 - 2 * mu * (P.gamma * (1 - L * P.gamma / 2))) ^ (k + 2) * (P.f (start + shift) - m) := by
  refine ⟨_, _, (C99_iterates P hP start shift k).2.1, rfl, ?_⟩
  have hc : 0 < P.gamma * (1 - L * P.gamma / 2) := mul_pos h0 (by linarith)
  have : ∀ j, P.f (gdPath P.g P.gamma (start + shift) j) - m ≤
      (1 - 2 * mu * (P.gamma * (1 - L * P.gamma / 2))) ^ j * (P.f (start + shift) - m) := by
    intro j
    induction j with
    | zero => simp [gdPath]
    | succ j ih =>
      have d := gd_drop P.f P.g L P.gamma h (gdPath P.g P.gamma (start + shift) j)
      have g := mul_le_mul_of_nonneg_left (hmu (gdPath P.g P.gamma (start + shift) j)) hc.le
      have i := mul_le_mul_of_nonneg_left ih (sub_nonneg.mpr hq)
      rw [pow_succ]
      show P.f (gdPath P.g P.gamma (start + shift) j - P.gamma • P.g (gdPath P.g P.gamma (start + shift) j)) - m ≤ _
      nlinarith
  exact this (k + 2)

/-- `f x = x²` with gradient `2x` satisfies the descent inequality with constant 2, is bounded below by 0, and its squared
gradient is four times its height. -/
example : SmoothL (fun x : Fin 1 → ℝ => x 0 ^ 2) (fun x _ => 2 * x 0) 2 ∧ (∀ x : Fin 1 → ℝ, 0 ≤ x 0 ^ 2) ∧
    ∀ x : Fin 1 → ℝ, 2 * 2 * (x 0 ^ 2 - 0) ≤ (fun _ : Fin 1 => 2 * x 0) ⬝ᵥ (fun _ => 2 * x 0) := by
  refine ⟨fun x y => ?_, fun x => sq_nonneg _, fun x => ?_⟩
  · simp [dotProduct]; nlinarith
  · simp [dotProduct]; nlinarith

/-- The quadratic `200 x²` with the default step 0.01. -/
noncomputable def steep : Prob 1 := ⟨fun x => 200 * x 0 ^ 2, fun x _ => 400 * x 0, 1 / 100, true⟩

theorem steep_path (k : ℕ) : gdPath steep.g steep.gamma ((fun _ => 1) + 0) k 0 = (-3) ^ k := by
  induction k with
  | zero => simp [gdPath]
  | succ k ih =>
    simp only [gdPath, Pi.sub_apply, Pi.smul_apply, smul_eq_mul]
    have : steep.g (gdPath steep.g steep.gamma ((fun _ => 1) + 0) k) 0 = 400 * (-3) ^ k := by
      show 400 * gdPath steep.g steep.gamma ((fun _ => 1) + 0) k 0 = _
      rw [ih]
    rw [this, ih, pow_succ]
    show _ - 1 / 100 * _ = _
    ring

/-- **C99** (best value) fails for a convex quadratic with the default step: the reported best value grows at every
step, above the value at the start. -/
theorem C99_fails_best (k : ℕ) : ∃ fk xk fl xl, (gdState steep (fun _ => 1) 0 (k + 1)).best = some (fk, xk) ∧
    (gdState steep (fun _ => 1) 0 (k + 2)).best = some (fl, xl) ∧ steep.f (fun _ => 1) < fk ∧ fk < fl := by
  refine ⟨_, _, _, _, (C99_iterates steep rfl _ _ k).2.1, (C99_iterates steep rfl _ _ (k + 1)).2.1, ?_⟩
  have e : ∀ j, steep.f (gdPath steep.g steep.gamma ((fun _ => 1) + 0) j) = 200 * 9 ^ j := by
    intro j
    show 200 * gdPath steep.g steep.gamma ((fun _ => 1) + 0) j 0 ^ 2 = _
    rw [steep_path, ← pow_mul, mul_comm j 2, pow_mul]
    norm_num
  rw [e, e]
  constructor
  · show 200 * (1 : ℝ) ^ 2 < _
    have : (1 : ℝ) < 9 ^ (k + 2) := one_lt_pow₀ (by norm_num) (by omega)
    linarith
  · have : (9 : ℝ) ^ (k + 2) < 9 ^ (k + 1 + 2) := pow_lt_pow_right₀ (by norm_num) (by omega)
    linarith

/-- **C99** fails for every objective that returns a plain float: the first step raises, so the driver raises when it
prints and otherwise ends with an error and no best value. -/
theorem C99_fails_float {n : ℕ} (P : Prob n) (hP : P.numpy = false) (thresh : ℝ) (start shift : Fin n → ℝ) (k : ℕ) :
    dRun (GD.inst P thresh) true (GD.init P start shift) (k + 1) = none ∧
    ∃ d, dRun (GD.inst P thresh) false (GD.init P start shift) (k + 1) = some d ∧ d.done = true ∧ d.err = true ∧
      d.inst.best = none := by
  have e : GD.step P (GD.init P start shift) =
      (⟨(GD.init P start shift).f1x, (GD.init P start shift).f1x - P.gamma • P.g (GD.init P start shift).f1x, 1, none⟩,
        .other) := by
    unfold GD.step
    rw [if_neg (by simp [hP])]
    rfl
  constructor
  · induction k with
    | zero =>
      simp only [dRun, Option.bind_some, dNext, GD.inst, e]
      simp
    | succ k ih => rw [dRun, ih]; rfl
  · induction k with
    | zero =>
      simp only [dRun, Option.bind_some, dNext, GD.inst, e]
      simp [dCheck]
    | succ k ih =>
      obtain ⟨d, hd, h1, h2⟩ := ih
      rw [dRun, hd, Option.bind_some, if_pos h1]
      exact ⟨d, rfl, h1, h2⟩

end

/-! ## C100 -/

section
open HQCA.NM
variable {F : Type} [Field F] [LinearOrder F] [IsStrictOrderedRing F] {n : ℕ}

theorem moveL_spec (P : Par F) (f : (Fin (n + 1) → F) → F) (s s' : Simplex F n) (R : Fin (n + 1) → F) (h : Cached f s)
    (hs : moveL P f s R = some s') : Cached f s' ∧ s'.f 0 = s.f 0 := by
  have hsh : Cached f (shrink P f s) ∧ (shrink P f s).f 0 = s.f 0 := by
    refine ⟨fun i => ?_, by simp [shrink]⟩
    by_cases hi : i = 0
    · subst hi; simp only [shrink, if_true]; exact h 0
    · simp only [shrink, hi, if_false]
  unfold moveL at hs
  dsimp only at hs
  split_ifs at hs <;> first
    | (rw [← Option.some.inj hs]; exact ⟨cached_replaceLast h _, replaceLast_zero _ _ _⟩)
    | (rw [← Option.some.inj hs]; exact hsh)

theorem stepL_ready (P : Par F) (f : (Fin (n + 1) → F) → F) (t : St F n) (ρ : F) (h : Ready f t.s) :
    Ready f (stepL P f t ρ).1.s ∧ bestF (stepL P f t ρ).1.s ≤ bestF t.s := by
  unfold stepL
  dsimp only
  cases hm : moveL P f t.s (reflect P ρ t).1 with
  | none => exact ⟨h, le_rfl⟩
  | some s =>
    obtain ⟨h1, h2⟩ := moveL_spec P f t.s s _ h.1 hm
    refine ⟨ready_order h1, ?_⟩
    have := C47_order_best s 0
    rw [h2] at this
    exact this

theorem foldL_ready (P : Par F) (f : (Fin (n + 1) → F) → F) (ρs : List F) (t : St F n) (h : Ready f t.s) :
    Ready f (ρs.foldl (fun t ρ => (stepL P f t ρ).1) t).s ∧
    bestF (ρs.foldl (fun t ρ => (stepL P f t ρ).1) t).s ≤ bestF t.s := by
  induction ρs generalizing t with
  | nil => exact ⟨h, le_rfl⟩
  | cons ρ ρs ih =>
    rw [List.foldl_cons]
    obtain ⟨h1, h2⟩ := stepL_ready P f t ρ h
    exact ⟨(ih _ h1).1, (ih _ h1).2.trans h2⟩

/-- **C100** (bookkeeping).  Along any run of the Lagarias variant, with any random numbers and also across steps that
raise, every value of the simplex is the objective at its point, the best value is the lowest, at most the objective at
every point of the initial simplex, and never increases. -/
theorem C100_bookkeeping (P : Par F) (f : (Fin (n + 1) → F) → F) (x : Fin (n + 2) → Fin (n + 1) → F) (ρs more : List F) :
    (∀ i, (runL P f x ρs).s.f i = f ((runL P f x ρs).s.x i)) ∧
    (∀ i, bestF (runL P f x ρs).s ≤ f ((runL P f x ρs).s.x i)) ∧
    (∀ i, bestF (runL P f x ρs).s ≤ f (x i)) ∧
    bestF (runL P f x (ρs ++ more)).s ≤ bestF (runL P f x ρs).s := by
  have h0 : Ready f (NM.init f x).s := ready_order fun i => rfl
  obtain ⟨h1, h2⟩ := foldL_ready P f ρs _ h0
  refine ⟨h1.1, fun i => h1.1 i ▸ h1.2 i, fun i => h2.trans (C47_order_best ⟨x, fun i => f (x i)⟩ i), ?_⟩
  unfold runL
  rw [List.foldl_append]
  exact (foldL_ready P f more _ h1).2

/-- **C100** (progress), in part: a step that returns either brings a point with value at most the second worst, below
the old worst or below the reflected value into the simplex in place of the worst, or shrinks the simplex towards the
best point; it raises exactly when the reflected point is at least as good as the best and the extended point is not better
than the best.  Missing: that branch, see `C100_fails_raise`, and the side of the contraction, see `C100_fails_side`. -/
theorem C100_step_partial (P : Par F) (f : (Fin (n + 1) → F) → F) (t : St F n) (ρ : F) (h : Ready f t.s) :
    let R := (reflect P ρ t).1
    ((stepL P f t ρ).2 = false ↔ f R ≤ bestF t.s ∧ bestF t.s ≤ f (R + P.beta • (R - centroid t.s))) ∧
    ((stepL P f t ρ).2 = true → ∃ σ : Equiv.Perm (Fin (n + 2)),
      (∃ y, (f y ≤ secondF t.s ∨ f y < worstF t.s ∨ f y < f R ∧ f R ≤ worstF t.s) ∧
        ∀ i, (stepL P f t ρ).1.s.x i = if σ i = Fin.last (n + 1) then y else t.s.x (σ i)) ∨
      (∀ i, (stepL P f t ρ).1.s.x i = t.s.x 0 + (if σ i = 0 then 0 else P.delta • (t.s.x (σ i) - t.s.x 0)))) := by
  intro R
  have hbs : bestF t.s ≤ secondF t.s := h.2 _
  have perm : ∀ s, ∃ σ : Equiv.Perm (Fin (n + 2)), (orderPoints s : Simplex F n).x = s.x ∘ σ := fun s => by
    obtain ⟨σ, hσ⟩ := C47_order_permutes s
    exact ⟨σ, by rw [hσ]⟩
  have repl : ∀ (y : Fin (n + 1) → F) (fy : F) (i : Fin (n + 2)),
      (replaceLast t.s y fy).x i = if i = Fin.last (n + 1) then y else t.s.x i := by
    intro y fy i
    simp only [replaceLast, Function.update_apply]
  have shr : ∀ i, (shrink P f t.s).x i = t.s.x 0 + (if i = 0 then 0 else P.delta • (t.s.x i - t.s.x 0)) := by
    intro i
    simp only [shrink, bestX]
    split_ifs <;> simp
  unfold stepL
  dsimp only
  show ((match moveL P f t.s R with | some s => _ | none => _ : St F n × Bool).2 = false ↔ _) ∧ _
  unfold moveL
  dsimp only
  constructor
  · split_ifs with h1 h2 h3 h4 h5 h6
    · simp only [Bool.true_eq_false, false_iff]; exact fun hc => absurd hc.1 (not_le.mpr h2)
    · simp only [Bool.true_eq_false, false_iff]; exact fun hc => absurd hc.2 (not_le.mpr h3)
    · simp only [true_iff]; exact ⟨not_lt.mp h2, not_lt.mp h3⟩
    all_goals
      simp only [Bool.true_eq_false, false_iff]
      exact fun hc => absurd (hc.1.trans hbs) h1
  · show (match moveL P f t.s R with | some s => _ | none => _ : St F n × Bool).2 = true → _
    unfold moveL
    dsimp only
    split_ifs with h1 h2 h3 h4 h5 h6
    · intro _
      obtain ⟨σ, hσ⟩ := perm (replaceLast t.s R (f R))
      refine ⟨σ, .inl ⟨R, .inl h1, fun i => ?_⟩⟩
      dsimp only
      rw [hσ]; exact repl _ _ _
    · intro _
      obtain ⟨σ, hσ⟩ := perm (replaceLast t.s (R + P.beta • (R - centroid t.s)) (f (R + P.beta • (R - centroid t.s))))
      refine ⟨σ, .inl ⟨_, .inl (h3.le.trans hbs), fun i => ?_⟩⟩
      dsimp only
      rw [hσ]; exact repl _ _ _
    · intro hc; simp at hc
    · intro _
      obtain ⟨σ, hσ⟩ := perm (replaceLast t.s (centroid t.s + P.gamma • (R - centroid t.s))
        (f (centroid t.s + P.gamma • (R - centroid t.s))))
      refine ⟨σ, .inl ⟨_, .inr (.inl h5), fun i => ?_⟩⟩
      dsimp only
      rw [hσ]; exact repl _ _ _
    · intro _
      obtain ⟨σ, hσ⟩ := perm (shrink P f t.s)
      refine ⟨σ, .inr fun i => ?_⟩
      dsimp only
      rw [hσ]; exact shr _
    · intro _
      obtain ⟨σ, hσ⟩ := perm (replaceLast t.s (centroid t.s - P.gamma • (R - centroid t.s))
        (f (centroid t.s - P.gamma • (R - centroid t.s))))
      refine ⟨σ, .inl ⟨_, .inr (.inr ⟨h6, not_lt.mp h4⟩), fun i => ?_⟩⟩
      dsimp only
      rw [hσ]; exact repl _ _ _
    · intro _
      obtain ⟨σ, hσ⟩ := perm (shrink P f t.s)
      refine ⟨σ, .inr fun i => ?_⟩
      dsimp only
      rw [hσ]; exact shr _

/-- **C100** fails for `x²` with the points 1 and 2: the reflected point 0 is the minimum and the first step raises, so
the driver stops with the best value 1. -/
theorem C100_fails_raise :
    let t := NM.init (n := 0) (fun v : Fin 1 → ℚ => v 0 ^ 2) (fun i _ => (i : ℕ) + 1)
    (stepL ⟨1, 2, 1/2, 1/2⟩ (fun v : Fin 1 → ℚ => v 0 ^ 2) t 0).2 = false ∧
    bestF (stepL ⟨1, 2, 1/2, 1/2⟩ (fun v : Fin 1 → ℚ => v 0 ^ 2) t 0).1.s = 1 := by decide +kernel

/-- The objective `x² + 4(y - 1/4)²` and the points (-1,0), (1,0), (0,1). -/
def bowl (v : Fin 2 → ℚ) : ℚ := v 0 ^ 2 + 4 * (v 1 - 1/4) ^ 2
def bowlPts (i : Fin 3) (k : Fin 2) : ℚ := if i = 0 then (if k = 0 then -1 else 0) else
  if i = 1 then (if k = 0 then 1 else 0) else (if k = 0 then 0 else 1)

/-- **C100** (contraction side) fails for a convex quadratic: the reflected point is worse than the worst, so the method of
Lagarias et al. contracts inside, to (0, 1/2), which is better than the best point; the step tries the point outside and
shrinks the simplex instead. -/
theorem C100_fails_side :
    let t := NM.init (n := 1) bowl bowlPts
    let P : Par ℚ := ⟨1, 2, 1/2, 1/2⟩
    let C := centroid t.s + P.gamma • (worstX t.s - centroid t.s)
    bowl (reflect P 0 t).1 > worstF t.s ∧ C 0 = 0 ∧ C 1 = 1/2 ∧ bowl C < bestF t.s ∧
      (stepL P bowl t 0).2 = true ∧ ∀ i, ¬ ((stepL P bowl t 0).1.s.x i 0 = C 0 ∧ (stepL P bowl t 0).1.s.x i 1 = C 1) := by
  decide +kernel

/-- A run whose steps return: `(x-10)²` from 0 and 1. -/
example :
    let t := NM.init (n := 0) (fun v : Fin 1 → ℚ => (v 0 - 10) ^ 2) (fun i _ => (i : ℕ))
    (stepL ⟨1, 2, 1/2, 1/2⟩ (fun v : Fin 1 → ℚ => (v 0 - 10) ^ 2) t 0).2 = true ∧
    bestF (stepL ⟨1, 2, 1/2, 1/2⟩ (fun v : Fin 1 → ℚ => (v 0 - 10) ^ 2) t 0).1.s = 36 := by decide +kernel

end
end HQCA.Props
