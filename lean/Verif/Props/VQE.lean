import Mathlib.Tactic.Linarith
import Mathlib.Tactic.Ring
import Mathlib.Tactic.FieldSimp
import Mathlib.Tactic.NormNum
import Mathlib.Algebra.Order.Field.Rat
import Mathlib.Algebra.BigOperators.Fin
import Mathlib.Data.Fintype.BigOperators
import Verif.Model.VQE
import Verif.Props.NelderMead

/-!
# The VQE driver (C49, C70) and the measurement filter (C53)
-/

namespace HQCA
namespace Props
open VQE

variable {F : Type} [Field F] [LinearOrder F] [IsStrictOrderedRing F]

theorem foldl_evalOne_keeps (l : List F) : ∀ s : VQE.St F,
    (l.foldl evalOne s).iter = s.iter ∧ (l.foldl evalOne s).done = s.done := by
  induction l with
  | nil => intro s; exact ⟨rfl, rfl⟩
  | cons e l ih =>
    intro s
    have h := ih (evalOne s e)
    have : (evalOne s e).iter = s.iter ∧ (evalOne s e).done = s.done := by
      unfold evalOne; split <;> exact ⟨rfl, rfl⟩
    rw [List.foldl_cons, h.1, h.2]; exact this

/-- There is no limit on the number of iterations: whatever `max_iter` was requested, and however many iterations are
made, the driver goes on as long as the optimizer neither converges nor fails. -/
theorem C49_no_limit (P : VQE.Par F) (os : List (VQE.Obs F)) (s : VQE.St F) (hs : s.done = false) (hi : s.iter = 0)
    (ho : ∀ o ∈ os, o.error = false ∧ |P.thresh| < |o.crit| ∧ P.crit ≤ o.crit) :
    (VQE.run P os s).done = false ∧ (VQE.run P os s).logE.length = s.logE.length + os.length := by
  have hlog : ∀ (l : List F) (s : VQE.St F), (l.foldl evalOne s).logE = s.logE := by
    intro l
    induction l with
    | nil => intro s; rfl
    | cons e l ih =>
      intro s
      rw [List.foldl_cons, ih]
      unfold evalOne; split <;> rfl
  induction os generalizing s with
  | nil => exact ⟨hs, rfl⟩
  | cons o os ih =>
    obtain ⟨h1, h2, h3⟩ := ho o (by simp)
    rw [VQE.run, hs, if_neg (by simp)]
    have hk := foldl_evalOne_keeps o.evals s
    have hp : (pass P s o).done = false ∧ (pass P s o).iter = 0 := by
      unfold pass check
      refine ⟨?_, by simp only [hk.1, hi]⟩
      simp only [hk.1, hi, maxIter]
      rw [if_neg (by norm_num), if_neg (not_lt.mpr h3), h1]
      simpa using h2
    have hl : (pass P s o).logE.length = s.logE.length + 1 := by
      unfold pass check; simp [hlog]
    obtain ⟨h4, h5⟩ := ih (pass P s o) hp.1 hp.2 (fun o' h' => ho o' (by simp [h']))
    refine ⟨h4, ?_⟩
    rw [h5, hl, List.length_cons]; ring

/-- The reported best energy is the one of the optimizer after the last iteration made. -/
theorem C49_best_is_optimizer (P : VQE.Par F) : ∀ (os : List (VQE.Obs F)) (s : VQE.St F), s.done = false → os ≠ [] →
    ∃ k, 0 < k ∧ k ≤ os.length ∧ ∃ o ∈ os.take k, (os.take k).getLast? = some o ∧ (VQE.run P os s).best = o.bestF ∧
      ((VQE.run P os s).done = false → k = os.length)
  | [], _, _, h => absurd rfl h
  | o :: os, s, hs, _ => by
    rw [VQE.run, hs, if_neg (by simp)]
    by_cases hd : (pass P s o).done = true
    · have hr : VQE.run P os (pass P s o) = pass P s o := by
        cases os with
        | nil => rfl
        | cons o' os => rw [VQE.run, if_pos hd]
      exact ⟨1, by simp, by simp, o, by simp, by simp, by rw [hr]; rfl, fun h => by rw [hr, hd] at h; cases h⟩
    · have hd : (pass P s o).done = false := by simpa using hd
      by_cases ho : os = []
      · subst ho
        exact ⟨1, by simp, by simp, o, by simp, by simp, rfl, fun _ => rfl⟩
      · obtain ⟨k, h1, h2, o', h3, h4, h5, h6⟩ := C49_best_is_optimizer P os _ hd ho
        refine ⟨k + 1, by omega, by simpa using h2, o', by simp [h3], ?_, h5, fun h => by simp [h6 h]⟩
        rw [List.take_succ_cons, List.getLast?_cons, h4]; rfl

/-- If after every iteration the optimizer's best energy is the lowest of all energies it has evaluated so far, then so is
the energy reported by the driver.  (`before` are the energies evaluated earlier.)  Missing for the full claim: the
optimizer need not report the lowest energy evaluated, see `C49_best_lost`; and the iteration limit is not enforced, see
`C49_no_limit`. -/
theorem C49_best_partial (P : VQE.Par F) : ∀ (os : List (VQE.Obs F)) (before : List F) (s : VQE.St F),
    s.done = false → os ≠ [] →
    (∀ k, 0 < k → k ≤ os.length → ∀ o, (os.take k).getLast? = some o →
      o.bestF ∈ before ++ (os.take k).flatMap VQE.Obs.evals ∧
      ∀ x ∈ before ++ (os.take k).flatMap VQE.Obs.evals, o.bestF ≤ x) →
    ∃ k, 0 < k ∧ k ≤ os.length ∧ ((VQE.run P os s).done = false → k = os.length) ∧
      (VQE.run P os s).best ∈ before ++ (os.take k).flatMap VQE.Obs.evals ∧
      ∀ x ∈ before ++ (os.take k).flatMap VQE.Obs.evals, (VQE.run P os s).best ≤ x := by
  intro os before s hs hne H
  obtain ⟨k, h1, h2, o, _, h4, h5, h6⟩ := C49_best_is_optimizer P os s hs hne
  obtain ⟨h7, h8⟩ := H k h1 h2 o h4
  exact ⟨k, h1, h2, h6, by rw [h5]; exact h7, by rw [h5]; exact h8⟩

/-- An optimizer that ends its step, as the quasi-Newton one does, by evaluating the finite-difference gradient at the new
point and reporting the energy there: if one of the displaced points is lower, the reported best energy is not the lowest
energy evaluated. -/
theorem C49_best_lost {n : ℕ} (P : VQE.Par F) (s : VQE.St F) (f : (Fin n → F) → F) (x : Fin n → F) (h : F) (pre : List F)
    (crit : F) (err : Bool) (i : Fin n) (hi : f (Function.update x i (x i + h)) < f x) :
    let o : VQE.Obs F := ⟨pre ++ ((gradPoints true h x).map f ++ [f x]), f x, crit, err⟩
    (pass P s o).best = f x ∧ ∃ e ∈ o.evals, e < (pass P s o).best := by
  refine ⟨rfl, f (Function.update x i (x i + h)), ?_, hi⟩
  simp [gradPoints]

/-- If no energy below zero is evaluated before the first check, no density matrix is stored, although a best energy is
reported. -/
theorem C49_nothing_stored (evals : List F) (b c : F) (he : ∀ e ∈ evals, 0 ≤ e) (s : VQE.St F)
    (hb : build evals (some b) (some c) = some s) (P : VQE.Par F) (o : VQE.Obs F) (ho : ∀ e ∈ o.evals, 0 ≤ e) :
    s.stored = none ∧ (pass P s o).stored = none := by
  have key : ∀ (l : List F) (t : VQE.St F), t.best = 0 → (∀ e ∈ l, 0 ≤ e) → l.foldl evalOne t = t := by
    intro l
    induction l with
    | nil => intros; rfl
    | cons e l ih =>
      intro t ht hl
      have : evalOne t e = t := by
        unfold evalOne; rw [if_neg]; rw [ht]; exact not_lt.mpr (hl e (by simp))
      rw [List.foldl_cons, this]; exact ih t ht (fun e h => hl e (by simp [h]))
  simp only [build, Option.some.injEq] at hb
  rw [key evals _ rfl he] at hb
  subst hb
  refine ⟨rfl, ?_⟩
  unfold pass check
  simp only
  rw [key o.evals _ rfl ho]

/-- The driver can be built only with the quasi-Newton optimizer: the other two have not set one of the attributes it
reads. -/
theorem C70_build_iff (k : Kind) (e : F) (es : List F) (c : F) :
    (build (e :: es) (afterInit k e es c).1 (afterInit k e es c).2).isSome ↔ k = .bfgs := by
  cases k <;> simp [build, afterInit]

/-- With that optimizer the driver starts unfinished, with the energy of the start point logged and no energy evaluated
lower than the one of the density matrix it stored (or than zero if it stored none). -/
theorem C70_build_partial (e : F) (es : List F) (c : F) :
    ∃ s, build (e :: es) (afterInit .bfgs e es c).1 (afterInit .bfgs e es c).2 = some s ∧ s.done = false ∧ s.iter = 0 ∧
      s.logE = [e] ∧ (∀ x ∈ e :: es, s.best ≤ x) ∧ (s.stored = some s.best ∧ s.best ∈ e :: es ∨ s.stored = none ∧ s.best = 0) := by
  have key : ∀ (l : List F) (t : VQE.St F), (t.stored = some t.best ∨ t.stored = none ∧ t.best = 0) →
      (l.foldl evalOne t).best ≤ t.best ∧ (∀ x ∈ l, (l.foldl evalOne t).best ≤ x) ∧
      (l.foldl evalOne t = t ∨ (l.foldl evalOne t).best ∈ l ∧ (l.foldl evalOne t).stored = some (l.foldl evalOne t).best)
      := by
    intro l
    induction l with
    | nil => intro t _; simp
    | cons x l ih =>
      intro t ht
      rw [List.foldl_cons]
      by_cases hx : x < t.best
      · have h1 : evalOne t x = { t with stored := some x, best := x } := if_pos hx
        obtain ⟨h2, h3, h4⟩ := ih (evalOne t x) (Or.inl (by rw [h1]))
        have h5 : (evalOne t x).best = x := by rw [h1]
        rw [h5] at h2
        refine ⟨by linarith, ?_, Or.inr ?_⟩
        · intro y hy
          rcases List.mem_cons.mp hy with rfl | hy
          · exact h2
          · exact h3 y hy
        · rcases h4 with h4 | ⟨h4, h6⟩
          · rw [h4, h1]; simp
          · exact ⟨by simp [h4], h6⟩
      · have h1 : evalOne t x = t := if_neg hx
        obtain ⟨h2, h3, h4⟩ := ih t ht
        rw [h1]
        refine ⟨h2, ?_, ?_⟩
        · intro y hy
          rcases List.mem_cons.mp hy with rfl | hy
          · exact le_trans h2 (not_lt.mp hx)
          · exact h3 y hy
        · rcases h4 with h4 | ⟨h4, h6⟩
          · exact Or.inl h4
          · exact Or.inr ⟨by simp [h4], h6⟩
  have h := foldl_evalOne_keeps (e :: es) (⟨0, false, 0, none, []⟩ : VQE.St F)
  obtain ⟨_, h3, h4⟩ := key (e :: es) ⟨0, false, 0, none, []⟩ (Or.inr ⟨rfl, rfl⟩)
  refine ⟨_, rfl, h.2, h.1, rfl, h3, ?_⟩
  rcases h4 with h4 | ⟨h4, h6⟩
  · right; exact ⟨by simp only; rw [h4], by simp only; rw [h4]⟩
  · left; exact ⟨h6, h4⟩

example : (VQE.run (⟨3, 1/100, 1/100⟩ : VQE.Par ℚ) (List.replicate 80 ⟨[-1, -2], -2, 1, false⟩)
    ⟨0, false, -1, none, [-1]⟩).logE.length = 81 := by decide +kernel

/-! ### C71: the finite-difference gradient -/

/-- The energy is affine in parameter `i`: the forward difference is its slope. -/
theorem C71_forward_affine {n : ℕ} (f : (Fin n → F) → F) (x : Fin n → F) (i : Fin n) (h a b : F) (hh : h ≠ 0)
    (hf : ∀ t, f (Function.update x i t) = a + b * t) : VQE.grad f true h x i = b := by
  have h0 : f x = a + b * x i := by rw [← hf, Function.update_eq_self]
  simp only [VQE.grad, if_true, hf, h0]
  field_simp
  ring

/-- The energy is a quadratic polynomial in parameter `i`: the central difference is its derivative, and the forward
difference is off by the step times half the second derivative. -/
theorem C71_quadratic {n : ℕ} (f : (Fin n → F) → F) (x : Fin n → F) (i : Fin n) (h a b c : F) (hh : h ≠ 0)
    (hf : ∀ t, f (Function.update x i t) = a + b * t + c * t ^ 2) :
    VQE.grad f false h x i = b + 2 * c * x i ∧ VQE.grad f true h x i = (b + 2 * c * x i) + c * h := by
  have h0 : f x = a + b * x i + c * x i ^ 2 := by rw [← hf, Function.update_eq_self]
  have h2 : (2 : F) ≠ 0 := two_ne_zero
  constructor
  · simp only [VQE.grad, Bool.false_eq_true, if_false, hf]
    field_simp
    ring
  · simp only [VQE.grad, if_true, hf, h0]
    field_simp
    ring

/-- Every component is computed from energies evaluated at the listed points, and these points differ from the argument
in one parameter at most, by the step. -/
theorem C71_points {n : ℕ} (forward : Bool) (h : F) (x y : Fin n → F) (hy : y ∈ gradPoints forward h x) :
    y = x ∨ ∃ i, (∀ j, j ≠ i → y j = x j) ∧ (y i = x i + h ∨ y i = x i - h) := by
  unfold gradPoints at hy
  split at hy
  · rcases List.mem_cons.mp hy with rfl | hy
    · exact Or.inl rfl
    · obtain ⟨i, _, rfl⟩ := List.mem_map.mp hy
      exact Or.inr ⟨i, fun j hj => Function.update_of_ne hj _ _, Or.inl (Function.update_self _ _ _)⟩
  · obtain ⟨i, _, hy⟩ := List.mem_flatMap.mp hy
    rcases List.mem_cons.mp hy with rfl | hy
    · exact Or.inr ⟨i, fun j hj => Function.update_of_ne hj _ _, Or.inr (Function.update_self _ _ _)⟩
    · rw [List.mem_singleton] at hy
      subst hy
      exact Or.inr ⟨i, fun j hj => Function.update_of_ne hj _ _, Or.inl (Function.update_self _ _ _)⟩

example : VQE.grad (fun x : Fin 2 → ℚ => x 0 ^ 2 + 3 * x 0 * x 1) false (1/10) ![1, 2] 0 = 8 := by
  norm_num [VQE.grad, Function.update]

/-! ### C53: the measurement filter -/

theorem Filter.after_spec (f : ℤ) (hf : 1 ≤ f) (k : ℕ) :
    (Filter.after f k).freq = f ∧ ∃ q r : ℕ, k = q * f.toNat + r ∧ r < f.toNat ∧
      (Filter.after f k).n = f - 1 - r ∧ (Filter.after f k).cal = q + 1 := by
  induction k with
  | zero =>
    refine ⟨rfl, 0, 0, by simp, by omega, ?_, rfl⟩
    simp [Filter.after, Filter.setup, Filter.calibrate]
  | succ k ih =>
    obtain ⟨h1, q, r, h2, h3, h4, h5⟩ := ih
    simp only [Filter.after, Filter.use]
    by_cases h : (Filter.after f k).n = 0
    · rw [if_pos h]
      have hr : r + 1 = f.toNat := by omega
      refine ⟨h1, q + 1, 0, ?_, by omega, ?_, ?_⟩
      · rw [h2, Nat.add_mul, ← hr]; ring
      · simp [Filter.calibrate, h1]
      · simp [Filter.calibrate, h5]
    · rw [if_neg h]
      refine ⟨h1, q, r + 1, by omega, by omega, ?_, h5⟩
      simp only [h4]; push_cast; ring

/-- With refresh frequency `f ≥ 1`, the use number `k ≥ 1` (the set-up, which calibrates, counting as use 0) recalibrates
exactly when `f` divides `k`, and the filter returned is the one of the latest calibration. -/
theorem C53_refresh (f : ℤ) (hf : 1 ≤ f) (k : ℕ) :
    let s := Filter.after f k
    ((Filter.use s).1.cal = s.cal + 1 ↔ f.toNat ∣ k + 1) ∧ ((Filter.use s).1.cal = s.cal ↔ ¬ f.toNat ∣ k + 1) ∧
      (Filter.use s).2 = (Filter.use s).1.cal ∧ (Filter.use s).2 = (k + 1) / f.toNat + 1 := by
  intro s
  have hpos : 0 < f.toNat := by omega
  obtain ⟨_, q, r, h2, h3, _, h5⟩ := Filter.after_spec f hf k
  obtain ⟨_, q', r', h2', h3', _, h5'⟩ := Filter.after_spec f hf (k + 1)
  have e0 : k / f.toNat = q := by rw [h2, Nat.add_comm, Nat.add_mul_div_right _ _ hpos, Nat.div_eq_of_lt h3]; omega
  have e1 : (k + 1) / f.toNat = q' := by
    rw [h2', Nat.add_comm, Nat.add_mul_div_right _ _ hpos, Nat.div_eq_of_lt h3']; omega
  have hs : (Filter.use s).1.cal = q' + 1 := h5'
  have hs0 : s.cal = q + 1 := h5
  have hdiv := Nat.succ_div (a := k) (b := f.toNat)
  rw [e0, e1] at hdiv
  have hret : (Filter.use s).2 = (Filter.use s).1.cal := rfl
  refine ⟨?_, ?_, hret, by rw [hret, hs, e1]⟩
  · rw [hs, hs0]
    by_cases h : f.toNat ∣ k + 1
    · simp [h] at hdiv; simp [h, hdiv]
    · simp [h] at hdiv; simp [h, hdiv]
  · rw [hs, hs0]
    by_cases h : f.toNat ∣ k + 1
    · simp [h] at hdiv; simp [h, hdiv]
    · simp [h] at hdiv; simp [h, hdiv]

example : ((List.range 7).map fun k => (Filter.use (Filter.after 3 k)).2) = [1, 1, 2, 2, 2, 3, 3] := by decide +kernel

end Props
end HQCA
