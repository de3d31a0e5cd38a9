import Verif.Proofs.GInt

/-!
# Transforms of operators with dyadic coefficients are exact
-/

set_option linter.unusedSectionVars false

namespace HQCA

section
variable {K : Type} [Coef K]

theorem sortLoop_length (fermi : Bool) (n : ℕ) (c : K) (l : List (ℕ × FL)) :
    (Fermi.sortLoop fermi n c l).2.length = l.length ∧
      ((Fermi.sortLoop fermi n c l).1 = c ∨ (Fermi.sortLoop fermi n c l).1 = -c) := by
  induction n generalizing c l with
  | zero => simp [Fermi.sortLoop]
  | succ n ih =>
    unfold Fermi.sortLoop
    rcases hs : Fermi.sortStep fermi l with _ | ⟨f, l'⟩
    · simp
    · simp only
      have hp := (sortStep_perm fermi l l' f hs).1
      obtain ⟨h1, h2⟩ := ih (if f then -c else c) l'
      refine ⟨by rw [h1, hp.length_eq], ?_⟩
      cases f
      · simpa using h2
      · simp only [if_true, neg_neg] at h2
        exact h2.symm

theorem contractLoop_length (n : ℕ) (l l' : List (ℕ × FL)) (h : Fermi.contractLoop n l = some (some l')) :
    l'.length ≤ l.length := by
  induction n generalizing l with
  | zero => simp [Fermi.contractLoop] at h; rw [h]
  | succ n ih =>
    unfold Fermi.contractLoop at h
    rcases hs : Fermi.contractStep l with _ | _ | _ | l1
    · simp [hs] at h; rw [h]
    · simp [hs] at h
    · simp [hs] at h
    · simp only [hs] at h
      have := (contractStep_next l l1 hs).1
      have := ih l1 h
      omega

theorem nLetters_append (s t : FStr) : Transform.nLetters (s ++ t) = Transform.nLetters s + Transform.nLetters t := by
  simp [Transform.nLetters]

theorem nLetters_replicate (n : ℕ) : Transform.nLetters (List.replicate n .i) = 0 := by
  simp [Transform.nLetters]

theorem nLetters_cons (x : FL) (s : FStr) : Transform.nLetters (x :: s) ≤ Transform.nLetters s + 1 := by
  unfold Transform.nLetters
  rw [List.filter_cons]
  split <;> simp

theorem nLetters_buildRest (N : ℕ) (a : ℕ × FL) (l : List (ℕ × FL)) :
    Transform.nLetters (Fermi.buildRest N a l) ≤ l.length + 1 := by
  induction l generalizing a with
  | nil =>
    have := nLetters_cons a.2 (List.replicate (N - a.1 - 1) .i)
    rw [nLetters_replicate] at this
    simpa [Fermi.buildRest] using this
  | cons b l ih =>
    have := nLetters_cons a.2 (List.replicate (b.1 - a.1 - 1) .i ++ Fermi.buildRest N b l)
    rw [nLetters_append, nLetters_replicate] at this
    have := ih b
    simp only [Fermi.buildRest, List.length_cons]
    omega

/-- A fermionic string built from a word has no more letters than the word, and coefficient `±c` or `0`. -/
theorem generate_size (c : K) (l : List (ℕ × FL)) (N : ℕ) (r : Term FStr K) (h : Fermi.generate true c l N = some r) :
    Transform.nLetters r.1 ≤ l.length ∧ (r.2 = c ∨ r.2 = -c ∨ r.2 = 0) := by
  unfold Fermi.generate at h
  split at h
  · simp only [Option.some.injEq] at h
    subst h
    exact ⟨by rw [nLetters_replicate]; omega, Or.inl rfl⟩
  · unfold Fermi.generateCore at h
    obtain ⟨h1, h2⟩ := sortLoop_length true (l.length * l.length) c l
    simp only at h
    generalize hr : Fermi.sortLoop true (l.length * l.length) c l = sr at h h1 h2
    have hb : ∀ l2, l2.length ≤ l.length → ∀ s, Fermi.build N l2 = some s → Transform.nLetters s ≤ l.length := by
      intro l2 hl2 s hs
      cases l2 with
      | nil => simp [Fermi.build] at hs
      | cons a l2 =>
        simp only [Fermi.build, Option.some.injEq] at hs
        subst hs
        rw [nLetters_append, nLetters_replicate]
        have := nLetters_buildRest N a l2
        simp at hl2
        omega
    generalize hcr : (if (sr.2.map (·.1)).dedup.length = sr.2.length then some (some sr.2)
      else Fermi.contractLoop sr.2.length sr.2) = cr at h
    match cr, hcr, h with
    | some none, _, h =>
      simp only [Option.some.injEq] at h
      subst h
      exact ⟨by rw [nLetters_replicate]; omega, Or.inr (Or.inr rfl)⟩
    | some (some l2), hcr, h =>
      have hl2 : l2.length ≤ l.length := by
        split at hcr
        · simp at hcr; rw [← hcr, h1]
        · rw [← h1]; exact contractLoop_length _ _ _ hcr
      simp only at h
      split at h
      · simp only [Option.some.injEq] at h
        subst h
        exact ⟨by rw [nLetters_replicate]; omega, by tauto⟩
      · rcases hs : Fermi.build N l2 with _ | s
        · simp [hs] at h
        · simp only [hs, Option.map_some, Option.some.injEq] at h
          subst h
          exact ⟨hb l2 hl2 s hs, by tauto⟩

end

namespace Transform

theorem GI_I_zpow (m : ℤ) : GI ((I : ℂ) ^ m) := by
  have hI : (I : ℂ) ≠ 0 := I_ne_zero
  have hinv : GI ((I : ℂ)⁻¹) := by
    have : ((I : ℂ)⁻¹) = -I := by
      rw [inv_eq_iff_eq_inv, eq_comm, inv_eq_of_mul_eq_one_right]
      have := I_mul_I (K := ℂ)
      linear_combination -this
    rw [this]; exact GI.I.neg
  induction m using Int.induction_on with
  | zero => simpa using GI.one
  | succ i ih => rw [zpow_add_one₀ hI]; exact ih.mul GI.I
  | pred i ih => rw [zpow_sub_one₀ hI]; exact ih.mul hinv

theorem GI_natCast (n : ℕ) : GI (n : ℂ) := ⟨n, 0, by simp⟩

/-- One string of such an operator: the result is a Gaussian-integer multiple of `c / 2^m`. -/
theorem Spec.one_scale (T : Term FStr ℂ → Option (POp ℂ)) (R : Oper ℂ) (t : Term FStr ℂ) (hT : Spec T t R)
    (m : ℕ) (c : ℂ) (hM : small (c / 2 ^ m) = false) (hn : nLetters t.1 ≤ m) (hA : ∃ z, GI z ∧ t.2 = z * c) :
    ∃ r, T t = some r ∧ UniqueKeys r ∧ (∀ u ∈ r, u.1.length = t.1.length) ∧ GIop (c / 2 ^ m) r ∧
      denPO r = t.2 • R := by
  obtain ⟨z, hz, hz2⟩ := hA
  set M : ℂ := c / 2 ^ m with hMd
  have scale : ∀ n, n ≤ m → ∃ w, GI w ∧ t.2 / 2 ^ n = w * M := by
    intro n hn
    refine ⟨z * ((2 ^ (m - n) : ℕ) : ℂ), hz.mul (GI_natCast _), ?_⟩
    rw [hz2, hMd]
    have : (2 : ℂ) ^ m = 2 ^ (m - n) * 2 ^ n := by rw [← pow_add]; congr 1; omega
    rw [this]
    have h2 : ∀ k : ℕ, (2 : ℂ) ^ k ≠ 0 := fun k => pow_ne_zero _ two_ne_zero
    push_cast
    field_simp [h2]
  obtain ⟨w, hw, hw2⟩ := scale (nLetters t.1) hn
  by_cases h : nLetters t.1 = 0 ∨ small (t.2 / 2 ^ nLetters t.1) = false
  · obtain ⟨r, e1, e2, e3, _, e5, e6⟩ := hT.above h
    refine ⟨r, e1, e2, fun u hu => by rw [e3 u hu], ?_, e6⟩
    intro u hu
    obtain ⟨e, he⟩ := e5 u hu
    exact ⟨w * I ^ e, hw.mul (GI_I_zpow e), by rw [he, hw2]; ring⟩
  · push Not at h
    have hs : small (t.2 / 2 ^ nLetters t.1) = true := by simpa using h.2
    have h0 : t.2 = 0 := by
      by_contra h0
      have hw0 : w ≠ 0 := by
        rintro rfl
        rw [zero_mul, div_eq_zero_iff] at hw2
        exact hw2.elim h0 (pow_ne_zero _ two_ne_zero)
      have h1 := hw.norm hw0
      rw [hw2] at hs
      have h3 := (small_complex _).mp hs
      have h4 : ¬ ‖M‖ ≤ (1e-12 : ℝ) := fun h => by
        have := (small_complex _).mpr h
        rw [hM] at this; cases this
      rw [norm_mul] at h3
      apply h4
      have := norm_nonneg M
      nlinarith
    exact ⟨[], hT.below h.1 hs, OpD.uniqueKeys_nil, by simp, GIop.nil M, by rw [h0, zero_smul]; rfl⟩

/-- Adding up exact results of the strings is exact. -/
theorem transform_fold {α : Type} (T : Term α ℂ → Option (POp ℂ)) (R : Term α ℂ → Oper ℂ) (M : ℂ) (hM : small M = false)
    (N : ℕ) (A : OpD α ℂ) (h : ∀ t ∈ A, ∃ r, T t = some r ∧ UniqueKeys r ∧ (∀ u ∈ r, u.1.length = N) ∧ GIop M r ∧
      denPO r = R t) :
    ∃ C : POp ℂ, OpD.transform T A = some C ∧ UniqueKeys C ∧ denPO C = (A.map R).sum ∧ (∀ u ∈ C, u.1.length = N) ∧
      GIop M C := by
  have fold : ∀ (A : OpD α ℂ), (∀ t ∈ A, ∃ r, T t = some r ∧ UniqueKeys r ∧ (∀ u ∈ r, u.1.length = N) ∧ GIop M r ∧
      denPO r = R t) → ∃ rs : List (POp ℂ), A.mapM T = some rs ∧
      ∀ B : POp ℂ, UniqueKeys B → GIop M B → (∀ u ∈ B, u.1.length = N) →
        UniqueKeys (rs.foldl OpD.add B) ∧ denPO (rs.foldl OpD.add B) = denPO B + (A.map R).sum ∧
        (∀ u ∈ rs.foldl OpD.add B, u.1.length = N) ∧ GIop M (rs.foldl OpD.add B) := by
    intro A
    induction A with
    | nil => intro _; exact ⟨[], by simp, fun B h1 h2 h3 => ⟨h1, by rw [List.foldl_nil, List.map_nil, List.sum_nil, add_zero], h3, h2⟩⟩
    | cons t A ih =>
      intro h
      obtain ⟨rs, i1, i2⟩ := ih (fun u hu => h u (List.mem_cons_of_mem _ hu))
      obtain ⟨r, e1, e2, e3, e4, e5⟩ := h t List.mem_cons_self
      refine ⟨r :: rs, by rw [List.mapM_cons, e1, i1]; rfl, ?_⟩
      intro B hB hBg hBn
      have hg : GIop M (r.foldl OpD.addStr B) := hBg.foldl r e4
      have hlen : ∀ u ∈ OpD.add B r, u.1.length = N := by
        intro u hu
        have hu' : u ∈ r.foldl OpD.addStr B := List.mem_of_mem_filter hu
        have hk : u.1 ∈ (r.foldl OpD.addStr B).map (·.1) := List.mem_map_of_mem hu'
        rcases (OpD.mem_keys_foldl_addStr r B u.1).mp hk with hk | hk
        · obtain ⟨v, hv, he⟩ := List.mem_map.mp hk
          rw [← he]; exact hBn v hv
        · obtain ⟨v, hv, he⟩ := List.mem_map.mp hk
          rw [← he]; exact e3 v hv
      obtain ⟨j1, j2, j3⟩ := i2 (OpD.add B r) (OpD.add_unique B r hB) hg.clean hlen
      refine ⟨j1, ?_, j3⟩
      rw [List.foldl_cons, j2, List.map_cons, List.sum_cons]
      have : denPO (OpD.add B r) = (denPO B + denPO r : Oper ℂ) := by
        unfold OpD.add denPO
        rw [hg.clean_den hM, OpD.denD_foldl_addStr _ _ _ hB]
      rw [this, e5, add_assoc]
  obtain ⟨rs, h1, h2⟩ := fold A h
  obtain ⟨h3, h4, h5, h6⟩ := h2 [] OpD.uniqueKeys_nil (GIop.nil M) (by simp)
  refine ⟨rs.foldl OpD.add [], by unfold OpD.transform; rw [h1]; rfl, h3, ?_, h5, h6⟩
  rw [h4]
  show (0 : Oper ℂ) + _ = _
  rw [zero_add]

/-- `A.transform(T)` is exact when all coefficients are Gaussian-integer multiples of `c`, every string has at
most `m` letters, and `c / 2^m` is above the threshold. -/
theorem transform_exact_scale (T : Term FStr ℂ → Option (POp ℂ)) (R : FStr → Oper ℂ) (hT : ∀ t, Spec T t (R t.1))
    (m : ℕ) (c : ℂ) (hM : small (c / 2 ^ m) = false) (A : OpD FStr ℂ) (N : ℕ) (hN : ∀ t ∈ A, t.1.length = N)
    (hA : ∀ t ∈ A, nLetters t.1 ≤ m ∧ ∃ z, GI z ∧ t.2 = z * c) :
    ∃ C : POp ℂ, OpD.transform T A = some C ∧ UniqueKeys C ∧ denPO C = denD R A ∧ ∀ u ∈ C, u.1.length = N := by
  obtain ⟨C, c1, c2, c3, c4, _⟩ := transform_fold T (fun t => t.2 • R t.1) (c / 2 ^ m) hM N A (by
    intro t ht
    obtain ⟨r, e1, e2, e3, e4, e5⟩ := Spec.one_scale T (R t.1) t (hT t) m c hM (hA t ht).1 (hA t ht).2
    exact ⟨r, e1, e2, fun u hu => by rw [e3 u hu, hN t ht], e4, e5⟩)
  exact ⟨C, c1, c2, c3, c4⟩

/-- `A.transform(T)` is exact when all coefficients are Gaussian-integer multiples of `2^-j`, every string has at
most `m` letters, and `2^-(m+j)` is above the threshold. -/
theorem transform_exact (T : Term FStr ℂ → Option (POp ℂ)) (R : FStr → Oper ℂ) (hT : ∀ t, Spec T t (R t.1))
    (m j : ℕ) (hm : m + j ≤ 39) (A : OpD FStr ℂ) (N : ℕ) (hN : ∀ t ∈ A, t.1.length = N)
    (hA : ∀ t ∈ A, nLetters t.1 ≤ m ∧ ∃ z, GI z ∧ t.2 = z * (1 / 2 ^ j)) :
    ∃ C : POp ℂ, OpD.transform T A = some C ∧ UniqueKeys C ∧ denPO C = denD R A ∧ ∀ u ∈ C, u.1.length = N := by
  refine transform_exact_scale T R hT m (1 / 2 ^ j) ?_ A N hN hA
  rw [div_div, ← pow_add, ← Bool.not_eq_true, small_complex, norm_div, norm_one, norm_pow]
  have h2 : ‖(2 : ℂ)‖ = 2 := by simp
  rw [h2, not_le, lt_div_iff₀ (by positivity)]
  have : (2 : ℝ) ^ (j + m) ≤ 2 ^ 39 := pow_le_pow_right₀ (by norm_num) (by omega)
  have h39 : (2 : ℝ) ^ 39 * 1e-12 < 1 := by norm_num
  nlinarith

end Transform
end HQCA
