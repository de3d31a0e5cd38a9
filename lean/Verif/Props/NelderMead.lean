import Verif.Model.NelderMead
import Mathlib.Logic.Equiv.Basic
import Mathlib.Data.Fintype.Basic
import Mathlib.Tactic.Linarith
import Mathlib.Tactic.NormNum
import Mathlib.Tactic.FinCases

/-!
# C47: Nelder-Mead
-/

set_option linter.unusedSectionVars false
namespace HQCA.Props
open HQCA HQCA.NM
variable {F : Type} [Field F] [LinearOrder F] [IsStrictOrderedRing F] {n : ℕ}

theorem pass_eq_swap {m : ℕ} (f : Fin m → F) (ind : Fin m → Fin m) (i : Fin m) :
    pass f ind i = ind ∘ Equiv.swap i (scan f ind i).1 := by
  funext k
  unfold pass
  dsimp only [Function.comp]
  by_cases h1 : k = (scan f ind i).1
  · rw [h1, Function.update_self, Equiv.swap_apply_right]
  · rw [Function.update_of_ne h1]
    by_cases h2 : k = i
    · rw [h2, Function.update_self, Equiv.swap_apply_left]
    · rw [Function.update_of_ne h2, Equiv.swap_apply_of_ne_of_ne h2 h1]

theorem foldl_pass_bij {m : ℕ} (f : Fin m → F) (l : List (Fin m)) (ind : Fin m → Fin m) (h : Function.Bijective ind) :
    Function.Bijective (l.foldl (pass f) ind) := by
  induction l generalizing ind with
  | nil => exact h
  | cons i l ih =>
    rw [List.foldl_cons]
    apply ih
    rw [pass_eq_swap]
    exact h.comp (Equiv.bijective _)

/-- **C47** (ordering permutes).  Ordering the simplex permutes its rows: every point keeps its value, none is lost
or duplicated. -/
theorem C47_order_permutes (s : Simplex F n) :
    ∃ σ : Equiv.Perm (Fin (n + 2)), orderPoints s = ⟨s.x ∘ σ, s.f ∘ σ⟩ :=
  ⟨Equiv.ofBijective _ (foldl_pass_bij s.f _ id Function.bijective_id), rfl⟩

theorem scan_fold_ge {m : ℕ} (f : Fin m → F) (ind : Fin m → Fin m) (i : Fin m) (l : List (Fin m)) (a : Fin m × F)
    (ha : i ≤ a.1) :
    i ≤ (l.foldl (fun a j => if i < j ∧ a.2 > f (ind j) then (j, f j) else a) a).1 := by
  induction l generalizing a with
  | nil => exact ha
  | cons j l ih =>
    rw [List.foldl_cons]
    apply ih
    split_ifs with h
    · exact h.1.le
    · exact ha

theorem scan_ge {m : ℕ} (f : Fin m → F) (ind : Fin m → Fin m) (i : Fin m) : i ≤ (scan f ind i).1 :=
  scan_fold_ge f ind i _ _ le_rfl

/-- Scanning from the identity permutation finds a lowest value. -/
theorem scan_fold_min {m : ℕ} [NeZero m] (f : Fin m → F) (l : List (Fin m)) (a : Fin m × F) (ha : a.2 = f a.1) :
    let r := l.foldl (fun a j => if (0 : Fin m) < j ∧ a.2 > f (id j) then (j, f j) else a) a
    r.2 = f r.1 ∧ r.2 ≤ a.2 ∧ ∀ j ∈ l, 0 < j → r.2 ≤ f j := by
  induction l generalizing a with
  | nil => exact ⟨ha, le_rfl, by simp⟩
  | cons j l ih =>
    rw [List.foldl_cons]
    by_cases h : (0 : Fin m) < j ∧ a.2 > f (id j)
    · rw [if_pos h]
      obtain ⟨h1, h2, h3⟩ := ih (j, f j) rfl
      refine ⟨h1, h2.trans h.2.le, ?_⟩
      intro k hk hk0
      rcases List.mem_cons.mp hk with rfl | hk
      · exact h2
      · exact h3 k hk hk0
    · rw [if_neg h]
      obtain ⟨h1, h2, h3⟩ := ih a ha
      refine ⟨h1, h2, ?_⟩
      intro k hk hk0
      rcases List.mem_cons.mp hk with rfl | hk
      · have : ¬ a.2 > f k := fun hc => h ⟨hk0, hc⟩
        exact h2.trans (not_lt.mp this)
      · exact h3 k hk hk0

theorem scan_zero_min {m : ℕ} [NeZero m] (f : Fin m → F) (j : Fin m) : f (scan f id 0).1 ≤ f j := by
  obtain ⟨h1, h2, h3⟩ := scan_fold_min f (List.finRange m) (0, f (id 0)) rfl
  have e : (scan f id 0).2 = f (scan f id 0).1 := h1
  rw [← e]
  by_cases hj : (0 : Fin m) < j
  · exact h3 j (List.mem_finRange j) hj
  · have : j = 0 := by
      by_contra hne
      exact hj (Fin.pos_iff_ne_zero.mpr hne)
    rw [this]; exact h2

theorem foldl_pass_zero {m : ℕ} [NeZero m] (f : Fin m → F) (l : List (Fin m)) (hl : ∀ i ∈ l, 0 < i)
    (ind : Fin m → Fin m) : l.foldl (pass f) ind 0 = ind 0 := by
  induction l generalizing ind with
  | nil => rfl
  | cons i l ih =>
    have hi : 0 < i := hl i (by simp)
    rw [List.foldl_cons, ih (fun k hk => hl k (by simp [hk])), pass_eq_swap, Function.comp,
      Equiv.swap_apply_of_ne_of_ne hi.ne (lt_of_lt_of_le hi (scan_ge f ind i)).ne]

theorem order_zero_min {m : ℕ} (f : Fin (m + 1) → F) (j : Fin (m + 1)) : f (order f 0) ≤ f j := by
  have : order f 0 = (scan f id 0).1 := by
    unfold order
    rw [List.finRange_succ, List.foldl_cons, foldl_pass_zero]
    · rw [pass_eq_swap]; simp
    · intro i hi
      obtain ⟨k, -, rfl⟩ := List.mem_map.mp hi
      exact Fin.succ_pos k
  rw [this]
  exact scan_zero_min f j

/-- **C47** (best point).  After ordering, the first value is the lowest of the simplex. -/
theorem C47_order_best (s : Simplex F n) (i : Fin (n + 2)) : bestF (orderPoints s) ≤ s.f i :=
  order_zero_min s.f i

/-- The values are those of the objective at the points. -/
def Cached (f : (Fin (n + 1) → F) → F) (s : Simplex F n) : Prop := ∀ i, s.f i = f (s.x i)

theorem Cached.order {f : (Fin (n + 1) → F) → F} {s : Simplex F n} (h : Cached f s) : Cached f (orderPoints s) :=
  fun i => h (NM.order s.f i)

theorem cached_replaceLast {f : (Fin (n + 1) → F) → F} {s : Simplex F n} (h : Cached f s) (x : Fin (n + 1) → F) :
    Cached f (replaceLast s x (f x)) := by
  intro i
  by_cases hi : i = Fin.last (n + 1)
  · subst hi; simp [replaceLast]
  · simp only [replaceLast, Function.update_of_ne hi]; exact h i

theorem replaceLast_zero (s : Simplex F n) (x : Fin (n + 1) → F) (fx : F) : (replaceLast s x fx).f 0 = s.f 0 := by
  have : (0 : Fin (n + 2)) ≠ Fin.last (n + 1) := (Fin.last_pos).ne
  simp only [replaceLast, Function.update_of_ne this]

theorem contract_eq (P : Par F) (f : (Fin (n + 1) → F) → F) (s : Simplex F n) (R : Fin (n + 1) → F) :
    (contract P f s R).2 = f (contract P f s R).1 := by
  unfold contract; dsimp only; split_ifs <;> rfl

theorem move_spec (P : Par F) (f : (Fin (n + 1) → F) → F) (s : Simplex F n) (R : Fin (n + 1) → F) (h : Cached f s) :
    Cached f (move P f s R) ∧ (move P f s R).f 0 = s.f 0 := by
  unfold move
  dsimp only
  split_ifs
  · exact ⟨cached_replaceLast h _, replaceLast_zero _ _ _⟩
  · exact ⟨cached_replaceLast h _, replaceLast_zero _ _ _⟩
  · exact ⟨cached_replaceLast h _, replaceLast_zero _ _ _⟩
  · rw [contract_eq]
    exact ⟨cached_replaceLast h _, replaceLast_zero _ _ _⟩
  · refine ⟨fun i => ?_, by simp [shrink]⟩
    by_cases hi : i = 0
    · subst hi; simp only [shrink, if_true]; exact h 0
    · simp only [shrink, hi, if_false]

/-- A simplex as it is between steps: values cached, first value lowest. -/
def Ready (f : (Fin (n + 1) → F) → F) (s : Simplex F n) : Prop := Cached f s ∧ ∀ i, bestF s ≤ s.f i

theorem ready_order {f : (Fin (n + 1) → F) → F} {s : Simplex F n} (h : Cached f s) : Ready f (orderPoints s) :=
  ⟨h.order, fun i => C47_order_best s (NM.order s.f i)⟩

theorem run_ready (P : Par F) (f : (Fin (n + 1) → F) → F) (x : Fin (n + 2) → Fin (n + 1) → F) (ρs : List F) :
    Ready f (run P f x ρs).s := by
  have : ∀ (t : St F n), Ready f t.s → Ready f (ρs.foldl (step P f) t).s := by
    induction ρs with
    | nil => intro t h; exact h
    | cons ρ ρs ih =>
      intro t h
      rw [List.foldl_cons]
      exact ih _ (ready_order (move_spec P f t.s _ h.1).1)
  exact this _ (ready_order fun i => rfl)

/-- **C47** (cached values).  Along any run, with any random numbers drawn, every value of the simplex is the objective
at its point and the best value is the lowest of them. -/
theorem C47_cached (P : Par F) (f : (Fin (n + 1) → F) → F) (x : Fin (n + 2) → Fin (n + 1) → F) (ρs : List F) :
    (∀ i, (run P f x ρs).s.f i = f ((run P f x ρs).s.x i)) ∧
    bestF (run P f x ρs).s = f (bestX (run P f x ρs).s) ∧
    ∀ i, bestF (run P f x ρs).s ≤ f ((run P f x ρs).s.x i) := by
  obtain ⟨h1, h2⟩ := run_ready P f x ρs
  exact ⟨h1, h1 0, fun i => h1 i ▸ h2 i⟩

/-- **C47** (what a step does to the simplex).  Either the last point alone is replaced, by the reflected, expanded or one of the two
contracted points, whose value is at most the second-worst or below the worst; or every point moves to the best one by the factor
`delta`, and this only when the reflected point is above the second-worst and neither contracted point is below the worst. -/
theorem C47_step_kinds (P : Par F) (f : (Fin (n + 1) → F) → F) (s : Simplex F n) (R : Fin (n + 1) → F) :
    (∃ y, (y = R ∨ y = R + P.beta • (R - centroid s) ∨ y = centroid s + P.gamma • (R - centroid s) ∨
        y = worstX s + P.gamma • (centroid s - worstX s)) ∧
      (f y ≤ secondF s ∨ f y < worstF s ∨ f y < bestF s) ∧ (move P f s R).x (Fin.last (n + 1)) = y ∧
      ∀ i, i ≠ Fin.last (n + 1) → (move P f s R).x i = s.x i) ∨
    (secondF s < f R ∧ worstF s ≤ f (centroid s + P.gamma • (R - centroid s)) ∧
      worstF s ≤ f (worstX s + P.gamma • (centroid s - worstX s)) ∧
      ∀ i, (move P f s R).x i = bestX s + P.delta • (s.x i - bestX s)) := by
  have hr : ∀ y v, (replaceLast s y v).x (Fin.last (n + 1)) = y ∧ ∀ i, i ≠ Fin.last (n + 1) → (replaceLast s y v).x i = s.x i :=
    fun y v => ⟨by simp [replaceLast], fun i hi => by simp [replaceLast, Function.update_of_ne hi]⟩
  unfold move
  dsimp only
  split_ifs with h1 h2 h3 h4
  · exact Or.inl ⟨R, Or.inl rfl, Or.inl h1, hr _ _⟩
  · exact Or.inl ⟨_, Or.inr (Or.inl rfl), Or.inr (Or.inr h3), hr _ _⟩
  · exact Or.inl ⟨R, Or.inl rfl, Or.inl h1, hr _ _⟩
  · left
    rw [contract_eq] at h4
    refine ⟨_, ?_, Or.inr (Or.inl h4), hr _ _⟩
    unfold contract
    dsimp only
    split_ifs
    · exact Or.inr (Or.inr (Or.inl rfl))
    · exact Or.inr (Or.inr (Or.inr rfl))
  · right
    refine ⟨not_le.mp h1, ?_, ?_, fun i => ?_⟩
    · unfold contract at h4
      dsimp only at h4
      split_ifs at h4 with h5
      · exact not_lt.mp h4
      · exact (not_lt.mp h4).trans (not_le.mp h5).le
    · unfold contract at h4
      dsimp only at h4
      split_ifs at h4 with h5
      · exact (not_lt.mp h4).trans h5
      · exact not_lt.mp h4
    · by_cases hi : i = 0
      · subst hi; funext k; simp [shrink, bestX]
      · simp [shrink, hi]

/-- **C47** (monotone best).  Along any run the best value never increases, and it is at most the objective at every
point of the initial simplex. -/
theorem C47_monotone (P : Par F) (f : (Fin (n + 1) → F) → F) (x : Fin (n + 2) → Fin (n + 1) → F) (ρs more : List F) :
    bestF (run P f x (ρs ++ more)).s ≤ bestF (run P f x ρs).s ∧ ∀ i, bestF (run P f x ρs).s ≤ f (x i) := by
  have one : ∀ (t : St F n) (ρ : F), Ready f t.s → bestF (step P f t ρ).s ≤ bestF t.s := by
    intro t ρ h
    have := C47_order_best (move P f t.s (reflect P ρ t).1) 0
    rw [(move_spec P f t.s _ h.1).2] at this
    exact this
  have many : ∀ (l : List F) (t : St F n), Ready f t.s → bestF (l.foldl (step P f) t).s ≤ bestF t.s := by
    intro l
    induction l with
    | nil => intro t _; exact le_rfl
    | cons ρ l ih =>
      intro t h
      rw [List.foldl_cons]
      exact (ih _ (ready_order (move_spec P f t.s _ h.1).1)).trans (one t ρ h)
  constructor
  · unfold run
    rw [List.foldl_append]
    exact many more _ (run_ready P f x ρs)
  · intro i
    exact (many ρs _ (ready_order fun i => rfl)).trans (C47_order_best ⟨x, fun i => f (x i)⟩ i)

/-- **C47** (sorting), in part: in one and two dimensions (two or three points) the ordered values are sorted.  Missing:
higher dimensions, see `C47_not_sorted`. -/
theorem C47_sorted_one_partial (s : Simplex F 0) : (orderPoints s).f 0 ≤ (orderPoints s).f 1 :=
  C47_order_best s _

theorem C47_sorted_two_partial (s : Simplex F 1) :
    (orderPoints s).f 0 ≤ (orderPoints s).f 1 ∧ (orderPoints s).f 1 ≤ (orderPoints s).f 2 := by
  refine ⟨C47_order_best s _, ?_⟩
  show s.f (order s.f 1) ≤ s.f (order s.f 2)
  have hfin : List.finRange 3 = [0, 1, 2] := by decide
  have key : ∀ ind : Fin 3 → Fin 3, s.f (pass s.f (pass s.f ind 1) 2 1) ≤ s.f (pass s.f (pass s.f ind 1) 2 2) := by
    intro ind
    have h2 : ∀ ind : Fin 3 → Fin 3, pass s.f ind 2 = ind := by
      intro ind
      rw [pass_eq_swap]
      have : (scan s.f ind 2).1 = 2 := le_antisymm (Fin.le_last _) (scan_ge s.f ind 2)
      rw [this, Equiv.swap_self]; rfl
    rw [h2, pass_eq_swap]
    have hscan : scan s.f ind 1 = if s.f (ind 1) > s.f (ind 2) then (2, s.f 2) else (1, s.f (ind 1)) := by
      unfold scan
      rw [hfin]
      simp only [List.foldl_cons, List.foldl_nil]
      have a0 : ¬ ((1 : Fin 3) < 0) := by decide
      have a1 : ¬ ((1 : Fin 3) < 1) := by decide
      have a2 : ((1 : Fin 3) < 2) := by decide
      simp only [a0, a1, a2, false_and, if_false, true_and]
    rw [hscan]
    split_ifs with h
    · simp only [Function.comp, Equiv.swap_apply_left, Equiv.swap_apply_right]; exact h.le
    · simp only [Equiv.swap_self]; exact not_lt.mp h
  unfold order
  rw [hfin]
  exact key (pass s.f id 0)

/-- **C47** (sorting) fails in three dimensions: the values 1, 2, 0, 0 are "ordered" as 0, 1, 0, 2. -/
theorem C47_not_sorted :
    (List.finRange 4).map ((fun i : Fin 4 => ([1, 2, 0, 0] : List ℚ).getD i 0) ∘
      order (fun i : Fin 4 => ([1, 2, 0, 0] : List ℚ).getD i 0)) = [0, 1, 0, 2] := by decide +kernel

/-- Two steps on `x^2 + y^2` from a unit simplex at (1, 1): the best value drops. -/
example : bestF (run (⟨1, 2, 1/2, 1/2⟩ : Par ℚ) (fun v : Fin 2 → ℚ => v 0 ^ 2 + v 1 ^ 2)
    (fun i k => if i = 0 then 1 else if (i : ℕ) = k + 1 then 2 else 1) [0, 0]).s <
    bestF (init (fun v : Fin 2 → ℚ => v 0 ^ 2 + v 1 ^ 2)
    (fun i k => if i = 0 then 1 else if (i : ℕ) = k + 1 then 2 else 1)).s := by decide +kernel

end HQCA.Props
