import Verif.Proofs.TransformAll

set_option linter.unusedSectionVars false

namespace HQCA

theorem small_complex (c : ℂ) : small c = true ↔ ‖c‖ ≤ (1e-12 : ℝ) := by
  show decide (‖c‖ ≤ (1e-12 : ℝ)) = true ↔ _
  simp

theorem norm_I_zpow (e : ℤ) : ‖(I : ℂ) ^ e‖ = 1 := by
  show ‖(Complex.I) ^ e‖ = 1
  rw [norm_zpow, Complex.norm_I, one_zpow]

section
variable {α : Type} [DecidableEq α]

theorem coef_append {K : Type} [Coef K] (A B : OpD α K) (s : α) : coef (A ++ B) s = coef A s + coef B s := by
  simp [coef]

theorem coef_nil {K : Type} [Coef K] (s : α) : coef ([] : OpD α K) s = 0 := rfl

theorem coef_smul {K : Type} [Coef K] (A : OpD α K) (c : K) (s : α) :
    coef (A.map (fun t => (t.1, c * t.2))) s = c * coef A s := by
  rw [OpD.coef_eq_sum, OpD.coef_eq_sum]
  induction A with
  | nil => simp
  | cons t A ih =>
    simp only [List.map_cons, List.sum_cons, ih, mul_add]
    split <;> simp

theorem coef_norm_le (A : OpD α ℂ) (h : UniqueKeys A) (ε : ℝ) (hε : 0 ≤ ε) (hm : ∀ u ∈ A, ‖u.2‖ ≤ ε) (s : α) :
    ‖coef A s‖ ≤ ε := by
  by_cases hs : s ∈ A.map (·.1)
  · obtain ⟨t, ht, rfl⟩ := List.mem_map.mp hs
    rw [OpD.coef_of_mem A h t ht]; exact hm t ht
  · rw [OpD.coef_of_not_mem A s hs, norm_zero]; exact hε

/-- No entry below the threshold. -/
def IsClean {K : Type} [Coef K] (A : OpD α K) : Prop := ∀ t ∈ A, small t.2 = false

theorem clean_isClean {K : Type} [Coef K] (A : OpD α K) : IsClean (OpD.clean A) := by
  intro t ht
  have := (List.mem_filter.mp ht).2
  simpa using this

theorem clean_of_isClean {K : Type} [Coef K] (A : OpD α K) (h : IsClean A) : OpD.clean A = A := by
  unfold OpD.clean
  rw [List.filter_eq_self]
  intro t ht
  simp [h t ht]

/-- Accumulating operators with `+=`, each within `1e-12` (or dropped when small) of an exact one. -/
theorem foldl_add_error (rs Es : List (OpD α ℂ)) 
    (h : List.Forall₂ (fun r E => UniqueKeys r ∧ (r = E ∨ (r = [] ∧ ∀ s, ‖coef E s‖ ≤ (1e-12 : ℝ)))) rs Es)
    (A : OpD α ℂ) (hA : UniqueKeys A) (hc : IsClean A) (s : α) :
    UniqueKeys (rs.foldl OpD.add A) ∧ IsClean (rs.foldl OpD.add A) ∧
    ‖coef (rs.foldl OpD.add A) s - (coef A s + coef Es.flatten s)‖ ≤ rs.length * (1e-12 : ℝ) := by
  induction h generalizing A with
  | nil => exact ⟨hA, hc, by simp [coef_nil]⟩
  | @cons r E rs Es h1 _ ih =>
    obtain ⟨h2, h3⟩ := h1
    obtain ⟨i1, i2, i3⟩ := ih (OpD.add A r) (OpD.add_unique A r hA) (clean_isClean _)
    refine ⟨i1, i2, ?_⟩
    rw [List.foldl_cons, List.flatten_cons, coef_append, List.length_cons]
    have step : ‖coef (OpD.add A r) s - (coef A s + coef E s)‖ ≤ (1e-12 : ℝ) := by
      rcases h3 with h3 | ⟨h3, h4⟩
      · subst h3
        unfold OpD.add
        rw [OpD.coef_clean _ (OpD.foldl_addStr_unique r A hA), OpD.coef_foldl_addStr r A hA]
        split
        · rename_i hs
          rw [zero_sub, norm_neg]
          exact (small_complex _).mp hs
        · rw [sub_self, norm_zero]; norm_num
      · subst h3
        unfold OpD.add
        rw [List.foldl_nil, clean_of_isClean A hc]
        rw [sub_add_cancel_left, norm_neg]; exact h4 s
    have e : coef (rs.foldl OpD.add (OpD.add A r)) s - (coef A s + (coef E s + coef Es.flatten s)) =
        (coef (rs.foldl OpD.add (OpD.add A r)) s - (coef (OpD.add A r) s + coef Es.flatten s)) +
        (coef (OpD.add A r) s - (coef A s + coef E s)) := by ring
    rw [e]
    refine (norm_add_le _ _).trans ?_
    push_cast
    linarith

end

namespace Transform

theorem one_not_small {K : Type} [Coef K] : small (1 : K) = false := by
  rcases h : small (1 : K)
  · rfl
  · have := Coef.small_half _ h
    rw [Coef.half_not_small] at this; cases this

/-- Every string has an exact Pauli expansion from which the transform differs only by dropping everything
when its scale is below threshold. -/
theorem Spec.exact (T : Term FStr ℂ → Option (POp ℂ)) (R : FStr → Oper ℂ)
    (hT : ∀ t, Spec T t (R t.1)) (t : Term FStr ℂ) :
    ∃ r E : POp ℂ, T t = some r ∧ UniqueKeys r ∧ (∀ u ∈ r, u.1.length = t.1.length) ∧
      denPO E = t.2 • R t.1 ∧ (∀ u ∈ E, u.1.length = t.1.length) ∧
      (r = E ∨ (r = [] ∧ ∀ s, ‖coef E s‖ ≤ (1e-12 : ℝ))) := by
  by_cases h : nLetters t.1 = 0 ∨ small (t.2 / 2 ^ nLetters t.1) = false
  · obtain ⟨r, e1, e2, e3, _, _, e6⟩ := (hT t).above h
    exact ⟨r, r, e1, e2, e3, e6, e3, Or.inl rfl⟩
  · push Not at h
    have hs : small (t.2 / 2 ^ nLetters t.1) = true := by simpa using h.2
    have e1 := (hT t).below h.1 hs
    have h2 : (2 : ℂ) ^ nLetters t.1 / 2 ^ nLetters t.1 = 1 := div_self (pow_ne_zero _ two_ne_zero)
    obtain ⟨E, _, f2, f3, _, f5, f6⟩ := (hT (t.1, 2 ^ nLetters t.1)).above (Or.inr (by
      simp only [h2]; exact one_not_small))
    simp only [h2, one_mul] at f5 f6
    refine ⟨[], E.map (fun u => (u.1, t.2 / 2 ^ nLetters t.1 * u.2)), e1, OpD.uniqueKeys_nil, by simp, ?_, ?_,
      Or.inr ⟨rfl, ?_⟩⟩
    · have : (denPO (E.map (fun u => (u.1, t.2 / 2 ^ nLetters t.1 * u.2))) : Oper ℂ) =
          (t.2 / 2 ^ nLetters t.1) • denPO E := by
        unfold denPO denD
        rw [List.map_map, List.smul_sum, List.map_map]
        congr 1
        apply List.map_congr_left
        intro u _
        simp only [Function.comp, mul_smul]
      rw [this, f6, smul_smul, div_mul_cancel₀ _ (pow_ne_zero _ two_ne_zero)]
    · intro u hu
      obtain ⟨v, hv, rfl⟩ := List.mem_map.mp hu
      exact f3 v hv
    · intro s
      rw [coef_smul, norm_mul]
      have h3 : ‖coef E s‖ ≤ 1 := by
        apply coef_norm_le E f2 1 (by norm_num)
        intro u hu
        obtain ⟨e, he⟩ := f5 u hu
        rw [he, norm_I_zpow]
      have h4 := (small_complex _).mp hs
      have h5 := norm_nonneg (t.2 / 2 ^ nLetters t.1)
      have h6 := norm_nonneg (coef E s)
      calc _ ≤ ‖t.2 / 2 ^ nLetters t.1‖ * 1 := by gcongr
        _ ≤ _ := by linarith

theorem transform_error (T : Term FStr ℂ → Option (POp ℂ)) (R : FStr → Oper ℂ)
    (hT : ∀ t, Spec T t (R t.1)) (A : OpD FStr ℂ) (N : ℕ) (hN : ∀ t ∈ A, t.1.length = N) :
    ∃ (C E : POp ℂ), OpD.transform T A = some C ∧ UniqueKeys C ∧ (∀ u ∈ C, small u.2 = false) ∧
      denPO E = denD R A ∧ (∀ u ∈ E, u.1.length = N) ∧
      ∀ s, ‖coef C s - coef E s‖ ≤ A.length * (1e-12 : ℝ) := by
  have key : ∃ rs Es : List (POp ℂ), A.mapM T = some rs ∧ rs.length = A.length ∧
      List.Forall₂ (fun r E => UniqueKeys r ∧ (r = E ∨ (r = [] ∧ ∀ s, ‖coef E s‖ ≤ (1e-12 : ℝ)))) rs Es ∧
      denPO Es.flatten = denD R A ∧ (∀ u ∈ Es.flatten, u.1.length = N) := by
    induction A with
    | nil => exact ⟨[], [], by simp, rfl, .nil, rfl, by simp⟩
    | cons t A ih =>
      obtain ⟨rs, Es, h1, h2, h3, h4, h5⟩ := ih (fun u hu => hN u (List.mem_cons_of_mem _ hu))
      obtain ⟨r, E, e1, e2, e3, e4, e5, e6⟩ := Spec.exact T R hT t
      refine ⟨r :: rs, E :: Es, by rw [List.mapM_cons, e1, h1]; rfl, by simp [h2], .cons ⟨e2, e6⟩ h3, ?_, ?_⟩
      · rw [List.flatten_cons, denPO, OpD.denD_append, ← denPO, ← denPO, e4, h4, OpD.denD_cons]
      · intro u hu
        rw [List.flatten_cons, List.mem_append] at hu
        rcases hu with hu | hu
        · rw [e5 u hu]; exact hN t List.mem_cons_self
        · exact h5 u hu
  obtain ⟨rs, Es, h1, h2, h3, h4, h5⟩ := key
  have hf := fun s => foldl_add_error rs Es h3 [] OpD.uniqueKeys_nil (by intro t ht; cases ht) s
  refine ⟨rs.foldl OpD.add [], Es.flatten, ?_, (hf []).1, (hf []).2.1, h4, h5, ?_⟩
  · unfold OpD.transform; rw [h1]; rfl
  · intro s
    have := (hf s).2.2
    rwa [coef_nil, zero_add, h2] at this

end Transform
end HQCA
