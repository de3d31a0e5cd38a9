import Verif.Model.NMCrit
import Verif.Props.NelderMead
import Verif.Props.Optim
import Mathlib.Analysis.InnerProductSpace.PiL2

/-!
# C143: what a converged simplex run guarantees
-/

namespace HQCA.Props
open HQCA HQCA.NM HQCA.Optim
noncomputable section
variable {n : ℕ}

theorem std_sq {m : ℕ} (hm : 0 < m) (v : Fin m → ℝ) : ∑ i, (v i - (∑ j, v j) / m) ^ 2 = m * std v ^ 2 := by
  have h0 : (0 : ℝ) ≤ (∑ i, (v i - (∑ j, v j) / m) ^ 2) / m := div_nonneg (Finset.sum_nonneg fun i _ => sq_nonneg _) (Nat.cast_nonneg m)
  have hm' : (m : ℝ) ≠ 0 := by exact_mod_cast hm.ne'
  unfold std
  rw [Real.sq_sqrt h0, mul_div_cancel₀ _ hm']

/-- A small deviation bounds every difference. -/
theorem std_spread {m : ℕ} (v : Fin m → ℝ) (τ : ℝ) (h : std v ≤ τ) (i j : Fin m) : |v i - v j| ≤ τ * Real.sqrt (2 * m) := by
  have hm : 0 < m := i.pos
  have hs : 0 ≤ std v := Real.sqrt_nonneg _
  have hτ : 0 ≤ τ := hs.trans h
  rcases eq_or_ne i j with rfl | hij
  · rw [sub_self, abs_zero]; positivity
  have key : (v i - v j) ^ 2 ≤ 2 * m * std v ^ 2 := by
    set μ := (∑ j, v j) / m
    have h1 : (v i - μ) ^ 2 + (v j - μ) ^ 2 ≤ ∑ k, (v k - μ) ^ 2 := by
      rw [← Finset.sum_pair (f := fun k => (v k - μ) ^ 2) hij]
      exact Finset.sum_le_sum_of_subset_of_nonneg (Finset.subset_univ _) fun k _ _ => sq_nonneg _
    rw [std_sq hm v] at h1
    nlinarith [sq_nonneg ((v i - μ) + (v j - μ))]
  rw [show τ * Real.sqrt (2 * m) = Real.sqrt (τ ^ 2 * (2 * m)) by rw [Real.sqrt_mul (sq_nonneg τ), Real.sqrt_sq hτ]]
  apply Real.abs_le_sqrt
  have : std v ^ 2 ≤ τ ^ 2 := by gcongr
  have h2 : (0 : ℝ) ≤ 2 * m := by positivity
  nlinarith

/-- Small differences bound the deviation. -/
theorem std_of_spread {m : ℕ} (hm : 0 < m) (v : Fin m → ℝ) (δ : ℝ) (h : ∀ i j, |v i - v j| ≤ δ) : std v ≤ δ := by
  have hδ : 0 ≤ δ := (abs_nonneg _).trans (h ⟨0, hm⟩ ⟨0, hm⟩)
  have hm' : (0 : ℝ) < m := by exact_mod_cast hm
  unfold std
  rw [Real.sqrt_le_left hδ, div_le_iff₀ hm']
  have each : ∀ i, (v i - (∑ j, v j) / m) ^ 2 ≤ δ ^ 2 := by
    intro i
    rw [← sq_abs]
    gcongr
    have e : v i - (∑ j, v j) / m = (∑ j, (v i - v j)) / m := by
      rw [Finset.sum_sub_distrib, Finset.sum_const, Finset.card_univ, Fintype.card_fin, nsmul_eq_mul]
      field_simp
    rw [e, abs_div, abs_of_pos hm', div_le_iff₀ hm']
    refine (Finset.abs_sum_le_sum_abs _ _).trans ((Finset.sum_le_sum fun j _ => h i j).trans (le_of_eq ?_))
    rw [Finset.sum_const, Finset.card_univ, Fintype.card_fin, nsmul_eq_mul]
    ring
  refine (Finset.sum_le_sum fun i _ => each i).trans (le_of_eq ?_)
  rw [Finset.sum_const, Finset.card_univ, Fintype.card_fin, nsmul_eq_mul]
  ring

/-- The state under the driver is that of a plain run. -/
theorem nm_dRun (P : Par ℝ) (f : (Fin (n + 1) → ℝ) → ℝ) (energy v : Bool) (thresh : ℝ) (ρ : ℕ → ℝ) (x : Fin (n + 2) → Fin (n + 1) → ℝ) (k : ℕ)
    (d : DSt (St ℝ n × ℕ)) (h : dRun (inst P f energy thresh ρ) v (init f x, 0) k = some d) :
    d.error = false ∧ d.inst.1 = run P f x ((List.range d.inst.2).map ρ) := by
  induction k generalizing d with
  | zero => cases h; exact ⟨rfl, rfl⟩
  | succ k ih =>
    rw [dRun] at h
    obtain ⟨d0, h0, h⟩ := Option.bind_eq_some_iff.1 h
    obtain ⟨e1, e2⟩ := ih d0 h0
    split at h
    · cases h; exact ⟨e1, e2⟩
    · obtain ⟨d1, h1, rfl⟩ := Option.map_eq_some_iff.1 h
      have hd1 : d1.error = false ∧ d1.inst.1 = run P f x ((List.range d1.inst.2).map ρ) := by
        unfold dNext at h1
        dsimp only at h1
        split at h1
        · cases h1
        · cases h1
          refine ⟨by simp [e1, inst], ?_⟩
          simp only [inst, e2]
          unfold run
          rw [List.range_succ, List.map_append, List.foldl_append]
          rfl
      have : (dCheck (inst P f energy thresh ρ) d1).inst = d1.inst ∧ (dCheck (inst P f energy thresh ρ) d1).error = d1.error := by
        unfold dCheck
        split <;> (try split) <;> (try split) <;> exact ⟨rfl, rfl⟩
      rw [this.1, this.2]
      exact hd1

/-- A finished run has met its criterion. -/
theorem nm_done (P : Par ℝ) (f : (Fin (n + 1) → ℝ) → ℝ) (energy v : Bool) (thresh : ℝ) (ρ : ℕ → ℝ) (x : Fin (n + 2) → Fin (n + 1) → ℝ) (k : ℕ)
    (d : DSt (St ℝ n × ℕ)) (h : dRun (inst P f energy thresh ρ) v (init f x, 0) k = some d) (hd : d.done = true) :
    crit energy d.inst.1.s ≤ |thresh| := by
  obtain ⟨e1, -⟩ := nm_dRun P f energy v thresh ρ x k d h
  rcases C55_status _ v _ k d h hd with ⟨e, -⟩ | ⟨-, -, c, hc, hle⟩
  · rw [e1] at e; cases e
  · simp only [inst] at hc hle
    split at hc
    · cases hc
    · cases hc
      exact (le_abs_self _).trans hle

/-- **C143, values.**  A run with the criterion on the values that has ended: the objective at any two points of the simplex differs by at most the threshold times the root
of twice the number of points, and what is reported is the least of them. -/
theorem C143_values (P : Par ℝ) (f : (Fin (n + 1) → ℝ) → ℝ) (v : Bool) (thresh : ℝ) (ρ : ℕ → ℝ) (x : Fin (n + 2) → Fin (n + 1) → ℝ) (k : ℕ)
    (d : DSt (St ℝ n × ℕ)) (h : dRun (inst P f true thresh ρ) v (init f x, 0) k = some d) (hd : d.done = true) (i : Fin (n + 2)) :
    ∃ b, (inst P f true thresh ρ).bestF d.inst = some b ∧ b = f (bestX d.inst.1.s) ∧ b ≤ f (d.inst.1.s.x i) ∧
      f (d.inst.1.s.x i) ≤ b + |thresh| * Real.sqrt (2 * (n + 2)) := by
  have hc := nm_done P f true v thresh ρ x k d h hd
  obtain ⟨-, e2⟩ := nm_dRun P f true v thresh ρ x k d h
  have hcache := C47_cached P f x ((List.range d.inst.2).map ρ)
  rw [← e2] at hcache
  refine ⟨_, rfl, hcache.2.1, hcache.2.2 i, ?_⟩
  have := std_spread d.inst.1.s.f _ hc i 0
  rw [hcache.1 i] at this
  have h2 := (abs_le.1 this).2
  push_cast at h2
  unfold bestF
  linarith

/-- **C143, default criterion.**  What it guarantees: the distances of the points from the origin agree. -/
theorem C143_norms_partial (P : Par ℝ) (f : (Fin (n + 1) → ℝ) → ℝ) (v : Bool) (thresh : ℝ) (ρ : ℕ → ℝ) (x : Fin (n + 2) → Fin (n + 1) → ℝ) (k : ℕ)
    (d : DSt (St ℝ n × ℕ)) (h : dRun (inst P f false thresh ρ) v (init f x, 0) k = some d) (hd : d.done = true) (i j : Fin (n + 2)) :
    |‖WithLp.toLp 2 (d.inst.1.s.x i)‖ - ‖WithLp.toLp 2 (d.inst.1.s.x j)‖| ≤ |thresh| * Real.sqrt (2 * (n + 2)) := by
  have := std_spread (norms d.inst.1.s) _ (nm_done P f false v thresh ρ x k d h hd) i j
  simp only [norms] at this
  simp only [EuclideanSpace.norm_eq, Real.norm_eq_abs, sq_abs]
  push_cast at this
  exact this

/-- **C143, a collapsed simplex is recognised.**  When the points are within the threshold of each other after a step, the run ends there. -/
theorem C143_collapsed (P : Par ℝ) (f : (Fin (n + 1) → ℝ) → ℝ) (v : Bool) (thresh : ℝ) (ρ : ℕ → ℝ) (x : Fin (n + 2) → Fin (n + 1) → ℝ) (k : ℕ)
    (d d' : DSt (St ℝ n × ℕ)) (h : dRun (inst P f false thresh ρ) v (init f x, 0) k = some d)
    (h' : dRun (inst P f false thresh ρ) v (init f x, 0) (k + 1) = some d')
    (hx : ∀ i j, ‖WithLp.toLp 2 (d'.inst.1.s.x i) - WithLp.toLp 2 (d'.inst.1.s.x j)‖ ≤ |thresh|) : d'.done = true := by
  by_contra hnd
  rw [dRun, h, Option.bind_some] at h'
  split at h'
  · rename_i hd; cases h'; exact hnd hd
  · obtain ⟨d1, h1, rfl⟩ := Option.map_eq_some_iff.1 h'
    have hi : (dCheck (inst P f false thresh ρ) d1).inst = d1.inst := by
      unfold dCheck
      split <;> (try split) <;> (try split) <;> rfl
    rw [hi] at hx
    have hpos : d1.inst.2 ≠ 0 := by
      unfold dNext at h1
      dsimp only at h1
      split at h1
      · cases h1
      · cases h1; simp [inst]
    have hc : crit false d1.inst.1.s ≤ |thresh| := by
      refine std_of_spread (by omega) (norms d1.inst.1.s) _ fun i j => ?_
      have e : ∀ i, norms d1.inst.1.s i = ‖WithLp.toLp 2 (d1.inst.1.s.x i)‖ := by
        intro i
        simp only [norms, EuclideanSpace.norm_eq, Real.norm_eq_abs, sq_abs]
      rw [e, e]
      exact (abs_norm_sub_norm_le _ _).trans (hx i j)
    have h0 : 0 ≤ crit false d1.inst.1.s := Real.sqrt_nonneg _
    apply hnd
    unfold dCheck
    simp only [inst, if_neg hpos, abs_of_nonneg h0, if_pos hc]

/-- `order_points` on two points. -/
theorem order_two (f : Fin 2 → ℝ) (h : f 0 ≤ f 1) : order f = id := by
  have h1 : scan f id (0 : Fin 2) = (0, f 0) := by
    simp [scan, List.finRange, not_lt.mpr h]
  have h2 : scan f id (1 : Fin 2) = (1, f 1) := by
    simp [scan, List.finRange]
  have p0 : pass f id (0 : Fin 2) = id := by simp [pass, h1]
  have p1 : pass f id (1 : Fin 2) = id := by simp [pass, h2]
  unfold order
  simp [List.finRange, p0, p1]

/-- **C143 fails** for both criteria: minimising the square of one parameter, started (default simplex) at half the length of the first edge, the run ends after one step as
converged, whatever the threshold: the two points are the start and its mirror image.  Nothing was improved. -/
theorem C143_mirror_fails (unity : ℝ) (hu : 1 / 10 ^ 9 ≤ unity) (energy : Bool) (thresh : ℝ) (ρ : ℕ → ℝ) (v : Bool) :
    ∃ d, dRun (inst ⟨1, 2, 1 / 2, 1 / 2⟩ (fun y : Fin (0 + 1) → ℝ => y 0 ^ 2) energy thresh ρ) v
        (init (fun y => y 0 ^ 2) (oldSimplex (fun _ => 99 / 200 * unity) 0 unity), 0) 1 = some d ∧
      d.done = true ∧ d.err = false ∧ bestF d.inst.1.s = (99 / 200 * unity) ^ 2 ∧ |d.inst.1.s.x 0 0 - d.inst.1.s.x 1 0| = 99 / 100 * unity := by
  set a := 99 / 200 * unity with ha
  have ha0 : 0 < a := by rw [ha]; linarith [show (0 : ℝ) < 1 / 10 ^ 9 by positivity]
  set f : (Fin (0 + 1) → ℝ) → ℝ := fun y => y 0 ^ 2 with hf
  have h3 : a + 99 / 100 * unity = 3 * a := by rw [ha]; ring
  have x0 : oldSimplex (n := 0) (fun _ => a) 0 unity 0 = fun _ => a := by
    funext k; simp [oldSimplex]
  have x1 : oldSimplex (n := 0) (fun _ => a) 0 unity 1 = fun _ => 3 * a := by
    funext k
    have : k = 0 := Fin.ext (by omega)
    subst this
    simp [oldSimplex, h3]
  generalize oldSimplex (n := 0) (fun _ => a) 0 unity = X at x0 x1
  have hinit : init f X = ⟨⟨X, fun i => f (X i)⟩, fun _ _ => 0, 0⟩ := by
    unfold init orderPoints
    rw [order_two _ (by simp only [hf, x0, x1]; nlinarith)]
    rfl
  have hM : centroid (⟨X, fun i => f (X i)⟩ : Simplex ℝ 0) = fun _ => a := by
    funext k
    simp [centroid, x0]
  have hW : worstX (⟨X, fun i => f (X i)⟩ : Simplex ℝ 0) = fun _ => 3 * a := x1
  have hB : bestF (⟨X, fun i => f (X i)⟩ : Simplex ℝ 0) = a ^ 2 := by simp [bestF, hf, x0]
  have hS : secondF (⟨X, fun i => f (X i)⟩ : Simplex ℝ 0) = a ^ 2 := by simp [secondF, hf, x0]
  have hR : (reflect ⟨1, 2, 1 / 2, 1 / 2⟩ (ρ 0) (⟨⟨X, fun i => f (X i)⟩, fun _ _ => 0, 0⟩ : St ℝ 0)).1 = fun _ => -a := by
    unfold reflect
    dsimp only
    rw [hM, hW]
    have e : ((fun _ => a) + (1 : ℝ) • ((fun _ => a) - fun _ => 3 * a) : Fin (0 + 1) → ℝ) = fun _ => -a := by
      funext k; simp; ring
    rw [e, if_neg]
    rw [not_lt]
    have h10 : (1 : ℝ) / 10 ^ 10 ≤ a := by rw [ha]; norm_num at hu ⊢; linarith
    have : (1 / 10 ^ 10 : ℝ) ^ 2 ≤ a ^ 2 := by gcongr
    simpa using this
  have hmove : move ⟨1, 2, 1 / 2, 1 / 2⟩ f (⟨X, fun i => f (X i)⟩ : Simplex ℝ 0) (fun _ => -a) =
      replaceLast ⟨X, fun i => f (X i)⟩ (fun _ => -a) (a ^ 2) := by
    have fR : f (fun _ => -a) = a ^ 2 := by simp [hf]
    unfold move
    dsimp only
    rw [fR, hS, hB, hM, if_pos le_rfl, if_neg (lt_irrefl _)]
    have fE : f ((fun _ => -a) + (2 : ℝ) • ((fun _ => -a) - fun _ => a)) = 25 * a ^ 2 := by simp [hf]; ring
    rw [fE, if_neg (by nlinarith)]
  have hstep : (step ⟨1, 2, 1 / 2, 1 / 2⟩ f (init f X) (ρ 0)).s = replaceLast ⟨X, fun i => f (X i)⟩ (fun _ => -a) (a ^ 2) := by
    rw [hinit]
    unfold step
    dsimp only
    rw [hR, hmove]
    unfold orderPoints
    rw [order_two _ (by simp [replaceLast, hf, x0, Function.update])]
    rfl
  have hcrit : crit energy (replaceLast ⟨X, fun i => f (X i)⟩ (fun _ => -a) (a ^ 2) : Simplex ℝ 0) ≤ 0 := by
    have he : std (replaceLast ⟨X, fun i => f (X i)⟩ (fun _ => -a) (a ^ 2) : Simplex ℝ 0).f ≤ 0 := by
      refine std_of_spread (by omega) _ _ fun i j => ?_
      have : ∀ i, (replaceLast ⟨X, fun i => f (X i)⟩ (fun _ => -a) (a ^ 2) : Simplex ℝ 0).f i = a ^ 2 := by
        intro i
        fin_cases i
        · simp [replaceLast, hf, x0, Function.update]
        · simp [replaceLast, Function.update]
      rw [this, this, sub_self, abs_zero]
    cases energy
    swap
    · exact he
    refine std_of_spread (by omega) _ _ fun i j => ?_
    have : ∀ i, norms (replaceLast ⟨X, fun i => f (X i)⟩ (fun _ => -a) (a ^ 2) : Simplex ℝ 0) i = a := by
      intro i
      fin_cases i
      · simp [norms, replaceLast, x0, Function.update, Real.sqrt_sq ha0.le]
      · simp [norms, replaceLast, Function.update, Real.sqrt_sq ha0.le]
    rw [this, this, sub_self, abs_zero]
  have hc0 : crit energy (replaceLast ⟨X, fun i => f (X i)⟩ (fun _ => -a) (a ^ 2) : Simplex ℝ 0) = 0 := le_antisymm hcrit (by cases energy <;> exact Real.sqrt_nonneg _)
  refine ⟨⟨(step ⟨1, 2, 1 / 2, 1 / 2⟩ f (init f X) (ρ 0), 1), false, 1, true, false⟩, ?_, rfl, rfl, ?_, ?_⟩
  · have hc1 : |crit energy (step ⟨1, 2, 1 / 2, 1 / 2⟩ f (init f X) (ρ 0)).s| ≤ |thresh| := by
      rw [hstep, hc0, abs_zero]; exact abs_nonneg _
    rw [one_div] at hc1 ⊢
    simp [dRun, dNext, dCheck, inst, hc1]
  · simp only [hstep]
    simp [bestF, replaceLast, hf, x0, Function.update]
  · simp only [hstep]
    rw [show (99 : ℝ) / 100 * unity = a + a by rw [ha]; ring]
    simp [replaceLast, x0, Function.update]
    linarith

/-- The hypotheses of the other theorems: these runs. -/
example (energy : Bool) : ∃ d, dRun (inst ⟨1, 2, 1 / 2, 1 / 2⟩ (fun y : Fin (0 + 1) → ℝ => y 0 ^ 2) energy (1 / 10 ^ 6) fun _ => 0) true
    (init (fun y => y 0 ^ 2) (oldSimplex (fun _ => 99 / 200 * 6) 0 6), 0) 1 = some d ∧ d.done = true :=
  let ⟨d, h, hd, _⟩ := C143_mirror_fails 6 (by norm_num) energy (1 / 10 ^ 6) (fun _ => 0) true
  ⟨d, h, hd⟩

end
end HQCA.Props
