import Mathlib.Tactic.Linarith
import Mathlib.Tactic.FieldSimp
import Mathlib.Tactic.NormNum
import Mathlib.Tactic.Positivity
import Mathlib.Tactic.Module
import Mathlib.Data.Fin.VecNotation
import Verif.Model.CG
import Verif.Props.BFGS

/-!
# Property theorems: conjugate-gradient (C84) and limited-memory (C85) directions of the ACSE
-/

namespace HQCA.Props
open HQCA Matrix
variable {F : Type} [Field F] [LinearOrder F] [IsStrictOrderedRing F] {n : ℕ}

theorem dot_self_pos {v : Fin n → F} (hv : v ≠ 0) : 0 < v ⬝ᵥ v := by
  obtain ⟨i, hi⟩ := Function.ne_iff.mp hv
  exact Finset.sum_pos' (fun j _ => mul_self_nonneg _) ⟨i, Finset.mem_univ i, mul_self_pos.mpr hi⟩

/-- The product `beta * (g1 . p)` is at most `3/5` of `g1 . g1` when the gradients overlap little. -/
theorem beta_bound (u : CG.Update) (g0 g1 p : Fin n → F) (h0 : 0 < g0 ⬝ᵥ g0) (h1 : 0 < g1 ⬝ᵥ g1)
    (hp : -(8 / 5) * (g0 ⬝ᵥ g0) ≤ g0 ⬝ᵥ p) (hd : g0 ⬝ᵥ p < 0)
    (hw : |g1 ⬝ᵥ p| ≤ 1 / 4 * |g0 ⬝ᵥ p|) (ho : |g1 ⬝ᵥ g0| ≤ 1 / 2 * (g1 ⬝ᵥ g1)) :
    |CG.beta u g0 g1 p * (g1 ⬝ᵥ p)| ≤ 3 / 5 * (g1 ⬝ᵥ g1) := by
  have ey : g1 ⬝ᵥ (g1 - g0) = g1 ⬝ᵥ g1 - g1 ⬝ᵥ g0 := dotProduct_sub _ _ _
  have ep : p ⬝ᵥ (g1 - g0) = g1 ⬝ᵥ p - g0 ⬝ᵥ p := by
    rw [dotProduct_sub, dotProduct_comm p g1, dotProduct_comm p g0]
  have key : ∀ c : F, |c| ≤ 3 / 2 * (g1 ⬝ᵥ g1) → |c / (g0 ⬝ᵥ g0) * (g1 ⬝ᵥ p)| ≤ 3 / 5 * (g1 ⬝ᵥ g1) := by
    intro c hc
    rw [abs_mul, abs_div, abs_of_pos h0, div_mul_eq_mul_div, div_le_iff₀ h0]
    rw [abs_of_neg hd] at hw
    have : |g1 ⬝ᵥ p| ≤ 2 / 5 * (g0 ⬝ᵥ g0) := by linarith
    calc |c| * |g1 ⬝ᵥ p| ≤ (3 / 2 * (g1 ⬝ᵥ g1)) * (2 / 5 * (g0 ⬝ᵥ g0)) :=
          mul_le_mul hc this (abs_nonneg _) (by positivity)
      _ = 3 / 5 * (g1 ⬝ᵥ g1) * (g0 ⬝ᵥ g0) := by ring
  have hc : |g1 ⬝ᵥ g1 - g1 ⬝ᵥ g0| ≤ 3 / 2 * (g1 ⬝ᵥ g1) := by
    have := abs_le.mp ho
    rw [abs_le]; constructor <;> linarith
  cases u with
  | FR => exact key _ (by rw [abs_of_pos h1]; linarith)
  | PR => simp only [CG.beta]; rw [ey]; exact key _ hc
  | PRplus =>
    simp only [CG.beta]
    rw [ey]
    rcases max_choice ((g1 ⬝ᵥ g1 - g1 ⬝ᵥ g0) / (g0 ⬝ᵥ g0)) 0 with h | h
    · rw [h]; exact key _ hc
    · rw [h, zero_mul, abs_zero]; positivity
  | HZ => simp only [CG.beta]; rw [zero_mul, abs_zero]; positivity
  | HS =>
    simp only [CG.beta]
    rw [ey, ep]
    rw [abs_of_neg hd] at hw
    have ht := abs_le.mp hw
    have hden : 0 < g1 ⬝ᵥ p - g0 ⬝ᵥ p := by linarith
    rw [abs_mul, abs_div, abs_of_pos hden, div_mul_eq_mul_div, div_le_iff₀ hden]
    have h3 : |g1 ⬝ᵥ p| ≤ 1 / 3 * (g1 ⬝ᵥ p - g0 ⬝ᵥ p) := by linarith
    calc |g1 ⬝ᵥ g1 - g1 ⬝ᵥ g0| * |g1 ⬝ᵥ p| ≤ (3 / 2 * (g1 ⬝ᵥ g1)) * (1 / 3 * (g1 ⬝ᵥ p - g0 ⬝ᵥ p)) :=
          mul_le_mul hc h3 (abs_nonneg _) (by positivity)
      _ ≤ 3 / 5 * (g1 ⬝ᵥ g1) * (g1 ⬝ᵥ p - g0 ⬝ᵥ p) := by nlinarith [mul_pos h1 hden]

/-- One step: if the current direction is downhill with bounded slope and the line search met the strong curvature
condition with `c2 = 1/4` (the value used by the code, `_conjugate_acse.py:73`), so is the next one. -/
theorem next_slope (u : CG.Update) (g0 g1 p : Fin n → F) (h0 : g0 ≠ 0) (h1 : g1 ≠ 0)
    (hp : -(8 / 5) * (g0 ⬝ᵥ g0) ≤ g0 ⬝ᵥ p) (hd : g0 ⬝ᵥ p < 0) (hw : |g1 ⬝ᵥ p| ≤ 1 / 4 * |g0 ⬝ᵥ p|) :
    -(8 / 5) * (g1 ⬝ᵥ g1) ≤ g1 ⬝ᵥ CG.next u g0 g1 p ∧ g1 ⬝ᵥ CG.next u g0 g1 p ≤ -(2 / 5) * (g1 ⬝ᵥ g1) := by
  have p0 := dot_self_pos h0
  have p1 := dot_self_pos h1
  have e : ∀ b : F, g1 ⬝ᵥ (b • p - g1) = b * (g1 ⬝ᵥ p) - g1 ⬝ᵥ g1 := by
    intro b; rw [dotProduct_sub, dotProduct_smul, smul_eq_mul]
  simp only [CG.next]
  rw [e]
  split_ifs with h
  · constructor <;> linarith
  · have ho : |g1 ⬝ᵥ g0| ≤ 1 / 2 * (g1 ⬝ᵥ g1) := by
      rw [gt_iff_lt, not_lt, div_le_iff₀ p1] at h; exact h
    have := abs_le.mp (beta_bound u g0 g1 p p0 p1 hp hd hw ho)
    constructor <;> linarith

/-- **C84.**  For each accepted value of `cg_update`: along any run (nonzero gradients `g k`, first direction `-g 0`,
each direction computed by the code from the last two gradients and the last direction, each step ending where the line
search's strong curvature condition holds) every search direction goes downhill, with a slope of at least two fifths of
the squared gradient norm.

Missing: the truncation of the direction between the steps must leave it alone, and the line search must not have ended
by its relaxed test at the iteration limit (`C84_relaxed_uphill`). -/
theorem C84_descent_partial (u : CG.Update) (g p : ℕ → Fin n → F) (k : ℕ) (hg : ∀ j ≤ k, g j ≠ 0) (hp0 : p 0 = -g 0)
    (hp : ∀ j < k, p (j + 1) = CG.next u (g j) (g (j + 1)) (p j))
    (hw : ∀ j < k, |g (j + 1) ⬝ᵥ p j| ≤ 1 / 4 * |g j ⬝ᵥ p j|) :
    g k ⬝ᵥ p k ≤ -(2 / 5) * (g k ⬝ᵥ g k) ∧ g k ⬝ᵥ p k < 0 := by
  have key : ∀ j ≤ k, -(8 / 5) * (g j ⬝ᵥ g j) ≤ g j ⬝ᵥ p j ∧ g j ⬝ᵥ p j ≤ -(2 / 5) * (g j ⬝ᵥ g j) := by
    intro j
    induction j with
    | zero =>
      intro _
      have := dot_self_pos (hg 0 (by omega))
      rw [hp0, dotProduct_neg]
      constructor <;> linarith
    | succ j ih =>
      intro hj
      have ih := ih (by omega)
      have := dot_self_pos (hg j (by omega))
      rw [hp j (by omega)]
      exact next_slope u _ _ _ (hg j (by omega)) (hg (j + 1) hj) ih.1 (by linarith [ih.2]) (hw j (by omega))
  have := dot_self_pos (hg k le_rfl)
  exact ⟨(key k le_rfl).2, by linarith [(key k le_rfl).2]⟩

/-- **C84** for the Hestenes-Stiefel update, with no assumption on how the previous direction was obtained (so also
after truncation): it is enough that it was downhill. -/
theorem C84_hs_descent (g0 g1 p : Fin n → F) (h1 : g1 ≠ 0) (hd : g0 ⬝ᵥ p < 0)
    (hw : |g1 ⬝ᵥ p| ≤ 1 / 4 * |g0 ⬝ᵥ p|) : g1 ⬝ᵥ CG.next .HS g0 g1 p < 0 := by
  have p1 := dot_self_pos h1
  have e : ∀ b : F, g1 ⬝ᵥ (b • p - g1) = b * (g1 ⬝ᵥ p) - g1 ⬝ᵥ g1 := by
    intro b; rw [dotProduct_sub, dotProduct_smul, smul_eq_mul]
  simp only [CG.next]
  rw [e]
  split_ifs with h
  · linarith
  · have ho : |g1 ⬝ᵥ g0| ≤ 1 / 2 * (g1 ⬝ᵥ g1) := by
      rw [gt_iff_lt, not_lt, div_le_iff₀ p1] at h; exact h
    have ey : g1 ⬝ᵥ (g1 - g0) = g1 ⬝ᵥ g1 - g1 ⬝ᵥ g0 := dotProduct_sub _ _ _
    have ep : p ⬝ᵥ (g1 - g0) = g1 ⬝ᵥ p - g0 ⬝ᵥ p := by
      rw [dotProduct_sub, dotProduct_comm p g1, dotProduct_comm p g0]
    simp only [CG.beta]
    rw [ey, ep]
    rw [abs_of_neg hd] at hw
    have ht := abs_le.mp hw
    have hoo := abs_le.mp ho
    have hden : 0 < g1 ⬝ᵥ p - g0 ⬝ᵥ p := by linarith
    rw [sub_neg, div_mul_eq_mul_div, div_lt_iff₀ hden]
    nlinarith [mul_pos p1 hden]

/-- The update formulas by their usual names, for nonzero denominators and gradients that do not trigger the reset:
Fletcher-Reeves, Hestenes-Stiefel, Polak-Ribiere and its nonnegative variant. -/
theorem C84_formulas_partial (g0 g1 p : Fin n → F) (h1 : g1 ≠ 0) (ho : |g1 ⬝ᵥ g0| ≤ 1 / 2 * (g1 ⬝ᵥ g1)) :
    CG.next .FR g0 g1 p + g1 = ((g1 ⬝ᵥ g1) / (g0 ⬝ᵥ g0)) • p ∧
    CG.next .HS g0 g1 p + g1 = ((g1 ⬝ᵥ g1 - g1 ⬝ᵥ g0) / (g1 ⬝ᵥ p - g0 ⬝ᵥ p)) • p ∧
    CG.next .PR g0 g1 p + g1 = ((g1 ⬝ᵥ g1 - g1 ⬝ᵥ g0) / (g0 ⬝ᵥ g0)) • p ∧
    CG.next .PRplus g0 g1 p + g1 = (max 0 ((g1 ⬝ᵥ g1 - g1 ⬝ᵥ g0) / (g0 ⬝ᵥ g0))) • p := by
  have p1 := dot_self_pos h1
  have ep : p ⬝ᵥ (g1 - g0) = g1 ⬝ᵥ p - g0 ⬝ᵥ p := by
    rw [dotProduct_sub, dotProduct_comm p g1, dotProduct_comm p g0]
  have h : ¬ |g1 ⬝ᵥ g0| / (g1 ⬝ᵥ g1) > 1 / 2 := by rw [gt_iff_lt, not_lt, div_le_iff₀ p1]; exact ho
  simp only [CG.next, if_neg h, CG.beta, sub_add_cancel, dotProduct_sub g1, ep, true_and]
  rw [max_comm]

/-- **C84 violated** for `cg_update='HZ'`: no direction other than steepest descent is ever produced. -/
theorem C84_hz_is_steepest (g0 g1 p : Fin n → F) : CG.next .HZ g0 g1 p = -g1 := by
  simp [CG.next, CG.beta]

/-- The Hager-Zhang direction, for comparison. -/
def hagerZhang (g0 g1 p : Fin n → F) : Fin n → F :=
  let y := g1 - g0
  ((1 / (p ⬝ᵥ y)) * ((y - (2 * ((y ⬝ᵥ y) / (p ⬝ᵥ y))) • p) ⬝ᵥ g1)) • p - g1

theorem C84_hz_violated :
    CG.next (F := ℚ) (n := 2) .HZ ![1, 0] ![0, 1] ![-1, 0] ≠ hagerZhang ![1, 0] ![0, 1] ![-1, 0] := by
  intro h
  have := congrFun h 0
  revert this
  decide +kernel

/-- **C84 violated** after the relaxed ending of the line search: it reports success when only `g1.p ≥ c2 g0.p` holds.
Here `g0 = (1,0)`, `p = -g0`, `g1 = (-2,4)`: the Fletcher-Reeves direction goes uphill. -/
theorem C84_relaxed_uphill :
    let g0 : Fin 2 → ℚ := ![1, 0]
    let g1 : Fin 2 → ℚ := ![-2, 4]
    g1 ⬝ᵥ (-g0) ≥ 1 / 4 * (g0 ⬝ᵥ (-g0)) ∧ 0 < g1 ⬝ᵥ CG.next .FR g0 g1 (-g0) ∧
      0 < g1 ⬝ᵥ CG.next .PRplus g0 g1 (-g0) := by decide +kernel

/-- A concrete step meeting the hypotheses: `g0 = (1,0)`, `p = -g0`, `g1 = (1/8, 1)`. -/
example : ((![1, 0] : Fin 2 → ℚ) ≠ 0) ∧ |(![1 / 8, 1] : Fin 2 → ℚ) ⬝ᵥ -![1, 0]| ≤ 1 / 4 * |(![1, 0] : Fin 2 → ℚ) ⬝ᵥ -![1, 0]| ∧
    CG.next .FR (![1, 0] : Fin 2 → ℚ) ![1 / 8, 1] (-![1, 0]) = ![-73 / 64, -1] := by
  refine ⟨?_, by decide +kernel, by decide +kernel⟩
  intro h; have := congrFun h 0; revert this; decide +kernel

/-! ### C85: limited-memory BFGS -/

open LBFGS BFGS

/-- Specification: the matrix obtained from `gamma 1` by the inverse BFGS update with each stored pair, oldest first. -/
def lbfgsMatrix (gamma : F) (ts : List (Pair F n)) : Matrix (Fin n) (Fin n) F :=
  ts.foldl (fun H t => (1 - (1 / (t.y ⬝ᵥ t.s)) • vecMulVec t.s t.y) * H * (1 - (1 / (t.y ⬝ᵥ t.s)) • vecMulVec t.y t.s) +
    (1 / (t.y ⬝ᵥ t.s)) • vecMulVec t.s t.s) (gamma • 1)

/-- The first loop with the right `y` in every pass. -/
def downY : List (Pair F n) → (Fin n → F) → (Fin n → F) × List F
  | [], q => (q, [])
  | t :: ts, q =>
    let a := t.rho * (t.s ⬝ᵥ q)
    let r := downY ts (q - a • t.y)
    (r.1, r.2 ++ [a])

theorem downY_length (ts : List (Pair F n)) (q : Fin n → F) : (downY ts q).2.length = ts.length := by
  induction ts generalizing q with
  | nil => rfl
  | cons t ts ih => simp [downY, ih]

theorem up_append (ts : List (Pair F n)) (as : List F) (t : Pair F n) (a : F) (r : Fin n → F)
    (h : as.length = ts.length) :
    up (ts ++ [t]) (as ++ [a]) r = up ts as r + (a - t.rho * (t.y ⬝ᵥ up ts as r)) • t.s := by
  induction ts generalizing as r with
  | nil =>
    have : as = [] := List.length_eq_zero_iff.mp h
    subst this
    simp [up]
  | cons t' ts ih =>
    cases as with
    | nil => simp at h
    | cons b as => simp only [List.cons_append, up]; exact ih as _ (by simpa using h)

theorem two_loop_correct (ts : List (Pair F n)) (hrho : ∀ t ∈ ts, t.rho = 1 / (t.y ⬝ᵥ t.s)) (gamma : F) (g : Fin n → F) :
    up ts (downY ts.reverse g).2 (gamma • (downY ts.reverse g).1) = lbfgsMatrix gamma ts *ᵥ g := by
  induction ts using List.reverseRecOn generalizing g with
  | nil => simp [up, downY, lbfgsMatrix, smul_mulVec]
  | append_singleton ts t ih =>
    have hr := hrho t (by simp)
    rw [List.reverse_append, List.reverse_singleton, List.singleton_append]
    simp only [downY]
    rw [up_append _ _ _ _ _ (by simp [downY_length]), ih (fun t' h => hrho t' (by simp [h]))]
    have e : lbfgsMatrix gamma (ts ++ [t]) = invWith (t.y ⬝ᵥ t.s) (lbfgsMatrix gamma ts) t.s t.y := by
      simp [lbfgsMatrix, invWith]
    rw [e, invWith_mulVec, hr]
    module

theorem down_eq (yl : Fin n → F) (ts : List (Pair F n)) (h : ∀ t ∈ ts, t.y = yl) (q : Fin n → F) :
    down yl ts q = downY ts q := by
  induction ts generalizing q with
  | nil => rfl
  | cons t ts ih =>
    simp only [down, downY]
    rw [h t (by simp), ih (fun t' h' => h t' (by simp [h']))]

/-- **C85.**  The direction of the limited-memory variant is minus the inverse-Hessian approximation of the stored pairs
applied to the gradient, when all stored pairs have the same `y` (in particular with at most one stored pair).

Missing: two or more pairs with different `y` (`C85_two_pairs_wrong`), and the newest pair is not used
(`C85_newest_ignored`). -/
theorem C85_two_loop_partial (ts : List (Pair F n)) (hrho : ∀ t ∈ ts, t.rho = 1 / (t.y ⬝ᵥ t.s)) (gamma : F)
    (g : Fin n → F) (hy : ∀ t ∈ ts, ∀ t' ∈ ts, t.y = t'.y) :
    twoLoop ts gamma g = lbfgsMatrix gamma ts *ᵥ g := by
  rw [← two_loop_correct ts hrho, twoLoop]
  have : down ((ts.getLast?.map Pair.y).getD 0) ts.reverse g = downY ts.reverse g := by
    apply down_eq
    intro t ht
    have ht : t ∈ ts := by simpa using ht
    obtain ⟨l, hl⟩ : ∃ l, ts.getLast? = some l :=
      ⟨_, List.getLast?_eq_some_getLast (List.ne_nil_of_mem ht)⟩
    rw [hl]
    exact hy t ht l (List.mem_of_getLast? hl)
  rw [this]

/-- A concrete case: one stored pair with `s = (1,0)`, `y = (1,1)`. -/
example : (⟨![1, 0], ![1, 1], 1⟩ : Pair ℚ 2).rho = 1 / ((![1, 1] : Fin 2 → ℚ) ⬝ᵥ ![1, 0]) ∧
    twoLoop [(⟨![1, 0], ![1, 1], 1⟩ : Pair ℚ 2)] (1 / 2) ![0, 1] = ![-1 / 2, 1 / 2] := by
  refine ⟨by decide +kernel, ?_⟩
  ext i; fin_cases i <;> decide +kernel

theorem lbfgsMatrix_posDef (gamma : F) (hg : 0 < gamma) (ts : List (Pair F n)) (hs : ∀ t ∈ ts, 0 < t.y ⬝ᵥ t.s) :
    PosDefSym (lbfgsMatrix gamma ts) := by
  induction ts using List.reverseRecOn with
  | nil =>
    refine ⟨by simp [lbfgsMatrix], fun x hx => ?_⟩
    simp only [lbfgsMatrix, List.foldl_nil, smul_mulVec, one_mulVec, dotProduct_smul, smul_eq_mul]
    exact mul_pos hg (dot_self_pos hx)
  | append_singleton ts t ih =>
    have e : lbfgsMatrix gamma (ts ++ [t]) = acseInv false (lbfgsMatrix gamma ts) t.s t.y := by
      simp [lbfgsMatrix, acseInv, invWith]
    rw [e]
    have ih := ih (fun t' h => hs t' (by simp [h]))
    exact (C45_posDef _ _ _ _ ih ih (hs t (by simp)) false).2.2.2

/-- **C85.**  With a memory of one pair (`bfgs_limited=1`) every direction of a run is downhill, provided each step had
positive curvature `y.s > 0` (which the Wolfe conditions give) and the truncation leaves directions alone.  `g`, `p`,
`alp`, `st` are the gradients, directions, step lengths and memories along the run. -/
theorem C85_memory_one_partial (g p : ℕ → Fin n → F) (alp : ℕ → F) (st : ℕ → St F n) (k : ℕ) (hg : ∀ j ≤ k, g j ≠ 0)
    (h0 : (st 0).ts = []) (hp : ∀ j ≤ k, p j = direction (st j) (g j))
    (hst : ∀ j < k, st (j + 1) = step 1 (st j) (g j) (g (j + 1)) (p j) (alp j))
    (hc : ∀ j < k, 0 < (g (j + 1) - g j) ⬝ᵥ (alp j • p j)) : g k ⬝ᵥ p k < 0 := by
  have inv : ∀ j ≤ k, (st j).ts.length ≤ 1 ∧ (∀ t ∈ (st j).ts, t.rho = 1 / (t.y ⬝ᵥ t.s) ∧ 0 < t.y ⬝ᵥ t.s) := by
    intro j
    induction j with
    | zero => intro _; rw [h0]; simp
    | succ j ih =>
      intro hj
      have ih := ih (by omega)
      rw [hst j (by omega)]
      simp only [step]
      refine ⟨by simp, fun t ht => ?_⟩
      rw [if_neg one_ne_zero] at ht
      have ht := List.mem_of_mem_drop ht
      rw [List.mem_append, List.mem_singleton] at ht
      rcases ht with ht | ht
      · exact ih.2 t ht
      · rw [ht]; exact ⟨rfl, hc j (by omega)⟩
  rw [hp k le_rfl, direction]
  split_ifs with h
  · have := dot_self_pos (hg k le_rfl)
    rw [dotProduct_neg]; linarith
  · cases k with
    | zero => exact absurd h0 h
    | succ j =>
      obtain ⟨l1, l2⟩ := inv j (by omega)
      have hcj := hc j (by omega)
      have hr : (st (j + 1)).r = twoLoop (st j).ts
          (1 / (1 / ((alp j • p j) ⬝ᵥ (g (j + 1) - g j)) * ((g (j + 1) - g j) ⬝ᵥ (g (j + 1) - g j)))) (g (j + 1)) := by
        rw [hst j (by omega)]; rfl
      have hy : ∀ t ∈ (st j).ts, ∀ t' ∈ (st j).ts, t.y = t'.y := by
        intro t ht t' ht'
        match hts : (st j).ts, l1, ht, ht' with
        | [a], _, ht, ht' => simp at ht ht'; rw [ht, ht']
      rw [hr, C85_two_loop_partial _ (fun t ht => (l2 t ht).1) _ _ hy, dotProduct_neg, neg_lt_zero]
      refine (lbfgsMatrix_posDef _ ?_ _ fun t ht => (l2 t ht).2).2 _ (hg _ le_rfl)
      have hy0 : g (j + 1) - g j ≠ 0 := by rintro h0; rw [h0] at hcj; simp at hcj
      have := dot_self_pos hy0
      rw [dotProduct_comm] at hcj
      positivity

/-- **C85 violated** with two stored pairs: for the convex quadratic with Hessian `((1,-1),(-1,2))` and the pairs of the
steps `(1,0)` and `(0,2)`, the direction at the gradient `(-1,0)` goes uphill (the right one does not). -/
theorem C85_two_pairs_wrong :
    let ts : List (Pair ℚ 2) := [⟨![1, 0], ![1, -1], 1⟩, ⟨![0, 2], ![-2, 4], 1 / 8⟩]
    let g : Fin 2 → ℚ := ![-1, 0]
    (∀ t ∈ ts, t.y = !![1, -1; -1, 2] *ᵥ t.s ∧ t.rho = 1 / (t.y ⬝ᵥ t.s) ∧ 0 < t.y ⬝ᵥ t.s) ∧
    g ⬝ᵥ (-twoLoop ts (2 / 5) g) = 3 / 5 ∧ g ⬝ᵥ (-(lbfgsMatrix (2 / 5) ts *ᵥ g)) < 0 := by
  refine ⟨?_, by decide +kernel, by decide +kernel⟩
  intro t ht
  simp only [List.mem_cons, List.not_mem_nil, or_false] at ht
  rcases ht with rfl | rfl <;> refine ⟨?_, by decide +kernel, by decide +kernel⟩ <;> ext i <;> fin_cases i <;>
    decide +kernel

/-- **C85 violated** from the first update on: the pair of the step just made is stored only after the direction was
computed, so after one step the direction is still a multiple of the gradient. -/
theorem C85_newest_ignored (limited : ℕ) (g0 g1 p : Fin n → F) (alp : F) :
    ∃ c : F, (step limited ⟨[], 0⟩ g0 g1 p alp).r = c • g1 := ⟨_, rfl⟩

/-- … which differs from the direction for the stored pair. -/
theorem C85_newest_wrong :
    let st := step (F := ℚ) (n := 2) 3 ⟨[], 0⟩ ![-1, 0] ![0, 1] ![1, 0] 1
    direction st ![0, 1] = ![0, -1 / 2] ∧ st.ts.length = 1 ∧ -(lbfgsMatrix (1 / 2) st.ts *ᵥ ![0, 1]) = ![1 / 2, -1 / 2] := by
  refine ⟨?_, by decide +kernel, ?_⟩
  · rw [direction, if_neg (by intro h; exact absurd (congrArg List.length h) (by decide +kernel))]
    ext i; fin_cases i <;> decide +kernel
  · ext i; fin_cases i <;> decide +kernel

end HQCA.Props
