import Verif.Proofs.TransformErr
import Verif.Proofs.FermiStr

/-!
# Coefficients that are Gaussian-integer multiples of one number are never rounded away
-/

set_option linter.unusedSectionVars false

namespace HQCA

/-- Gaussian integers inside `ℂ`. -/
def GI (z : ℂ) : Prop := ∃ a b : ℤ, z = a + b * Complex.I

theorem GI.add {z w : ℂ} (hz : GI z) (hw : GI w) : GI (z + w) := by
  obtain ⟨a, b, rfl⟩ := hz; obtain ⟨c, d, rfl⟩ := hw
  exact ⟨a + c, b + d, by push_cast; ring⟩

theorem GI.mul {z w : ℂ} (hz : GI z) (hw : GI w) : GI (z * w) := by
  obtain ⟨a, b, rfl⟩ := hz; obtain ⟨c, d, rfl⟩ := hw
  refine ⟨a * c - b * d, a * d + b * c, ?_⟩
  push_cast
  linear_combination (b * d : ℂ) * Complex.I_mul_I

theorem GI.zero : GI 0 := ⟨0, 0, by simp⟩
theorem GI.one : GI 1 := ⟨1, 0, by simp⟩
theorem GI.neg_one : GI (-1) := ⟨-1, 0, by simp⟩
theorem GI.I : GI (HQCA.I : ℂ) := ⟨0, 1, by simp [HQCA.I]⟩
theorem GI.neg {z : ℂ} (hz : GI z) : GI (-z) := by have := GI.neg_one.mul hz; simpa using this

theorem GI.norm {z : ℂ} (hz : GI z) (h0 : z ≠ 0) : 1 ≤ ‖z‖ := by
  obtain ⟨a, b, rfl⟩ := hz
  have hne : a ≠ 0 ∨ b ≠ 0 := by
    by_contra h
    push Not at h
    apply h0
    rw [h.1, h.2]; simp
  have h1 : (1 : ℝ) ≤ (a : ℝ) * a + b * b := by
    have h2 : (1 : ℤ) ≤ a * a + b * b := by
      rcases hne with h | h
      · have : 0 < a * a := mul_self_pos.mpr h
        have : 0 ≤ b * b := mul_self_nonneg b
        omega
      · have : 0 < b * b := mul_self_pos.mpr h
        have : 0 ≤ a * a := mul_self_nonneg a
        omega
    exact_mod_cast h2
  have h3 : ‖(a + b * Complex.I : ℂ)‖ ^ 2 = (a : ℝ) * a + b * b := by
    rw [← Complex.normSq_eq_norm_sq, Complex.normSq_apply]
    simp
  nlinarith [norm_nonneg (a + b * Complex.I : ℂ)]

/-- All coefficients are Gaussian-integer multiples of `c`. -/
def GIop {α : Type} (c : ℂ) (A : OpD α ℂ) : Prop := ∀ t ∈ A, ∃ z, GI z ∧ t.2 = z * c

variable {α : Type} [DecidableEq α]

theorem GIop.nil (c : ℂ) : GIop c ([] : OpD α ℂ) := fun t ht => by simp at ht

theorem GIop.addStr {c : ℂ} {A : OpD α ℂ} (hA : GIop c A) {t : Term α ℂ} (ht : ∃ z, GI z ∧ t.2 = z * c) :
    GIop c (A.addStr t) := by
  intro u hu
  unfold OpD.addStr at hu
  split at hu
  · obtain ⟨v, hv, rfl⟩ := List.mem_map.mp hu
    obtain ⟨z, hz, hz2⟩ := hA v hv
    obtain ⟨w, hw, hw2⟩ := ht
    split
    · exact ⟨z + w, hz.add hw, by simp only [hz2, hw2]; ring⟩
    · exact ⟨z, hz, hz2⟩
  · rcases List.mem_append.mp hu with h | h
    · exact hA u h
    · simp only [List.mem_singleton] at h; rw [h]; exact ht

theorem GIop.foldl {c : ℂ} (l : List (Term α ℂ)) {A : OpD α ℂ} (hA : GIop c A) (hl : GIop c l) :
    GIop c (l.foldl OpD.addStr A) := by
  induction l generalizing A with
  | nil => exact hA
  | cons t l ih => exact ih (hA.addStr (hl t (by simp))) (fun u hu => hl u (by simp [hu]))

theorem GIop.clean {c : ℂ} {A : OpD α ℂ} (hA : GIop c A) : GIop c (OpD.clean A) :=
  fun t ht => hA t (List.mem_of_mem_filter ht)

/-- Cleaning such an operator removes only zero terms. -/
theorem GIop.clean_den {c : ℂ} (hc : small c = false) {A : OpD α ℂ} (hA : GIop c A) (d : α → Oper ℂ) :
    denD d (OpD.clean A) = denD d A := by
  apply OpD.denD_clean_exact
  intro t ht hs
  obtain ⟨z, hz, h2⟩ := hA t ht
  by_contra h0
  have hz0 : z ≠ 0 := by rintro rfl; exact h0 (by rw [h2, zero_mul])
  have h1 := hz.norm hz0
  rw [h2] at hs
  have h3 : ‖z * c‖ ≤ (1e-12 : ℝ) := by simpa [small] using hs
  have h4 : ¬ ‖c‖ ≤ (1e-12 : ℝ) := by simpa [small] using hc
  rw [norm_mul] at h3
  apply h4
  have := norm_nonneg c
  nlinarith

/-- A product of such operators is computed exactly. -/
theorem GIop.mul' (d : α → Oper ℂ) (sm : Term α ℂ → Term α ℂ → Option (Term α ℂ)) {a c : ℂ}
    (hc : small (a * c) = false) {A B C : OpD α ℂ} (hA : GIop a A) (hB : GIop c B)
    (hsm : ∀ s ∈ A, ∀ t ∈ B, ∀ u, sm s t = some u → u.2 • d u.1 = (s.2 • d s.1) * (t.2 • d t.1))
    (hcf : ∀ s ∈ A, ∀ t ∈ B, ∀ u, sm s t = some u → ∃ e, GI e ∧ u.2 = e * (s.2 * t.2))
    (h : OpD.mul sm A B = some C) :
    GIop (a * c) C ∧ denD d C = denD d A * denD d B ∧ UniqueKeys C := by
  refine ⟨?_, ?_, OpD.mul_unique sm A B C h⟩ <;>
  · unfold OpD.mul at h
    rcases hl : (OpD.mulPairs A B).mapM (fun p => sm p.1 p.2) with _ | l
    · simp [hl] at h
    · simp only [hl, Option.map_some, Option.some.injEq] at h
      have hgl : GIop (a * c) l := by
        intro u hu
        rw [OpD.mapM_option] at hl
        obtain ⟨i, hi, rfl⟩ := List.getElem_of_mem hu
        have hlen := hl.length_eq
        have := (List.forall₂_iff_get.mp hl).2 i (by omega) hi
        simp only [List.get_eq_getElem] at this
        have hm := (OpD.mem_mulPairs A B _).mp (List.getElem_mem (by omega : i < (OpD.mulPairs A B).length))
        obtain ⟨e, he, h2⟩ := hcf _ hm.1 _ hm.2 _ this
        obtain ⟨z, hz, hz2⟩ := hA _ hm.1
        obtain ⟨w, hw, hw2⟩ := hB _ hm.2
        exact ⟨e * (z * w), he.mul (hz.mul hw), by rw [h2, hz2, hw2]; ring⟩
      have hg := (GIop.nil (a * c)).foldl l hgl
      subst h
      first
      | exact hg.clean
      | rw [hg.clean_den hc, OpD.denD_foldl_addStr d l [] OpD.uniqueKeys_nil, OpD.denD_nil, zero_add,
          OpD.denD_products d sm A B hsm l hl]

theorem GIop.mul (d : α → Oper ℂ) (sm : Term α ℂ → Term α ℂ → Option (Term α ℂ)) {c : ℂ}
    (hc : small c = false) {A B C : OpD α ℂ} (hA : GIop 1 A) (hB : GIop c B)
    (hsm : ∀ s ∈ A, ∀ t ∈ B, ∀ u, sm s t = some u → u.2 • d u.1 = (s.2 • d s.1) * (t.2 • d t.1))
    (hcf : ∀ s ∈ A, ∀ t ∈ B, ∀ u, sm s t = some u → ∃ e, GI e ∧ u.2 = e * (s.2 * t.2))
    (h : OpD.mul sm A B = some C) :
    GIop c C ∧ denD d C = denD d A * denD d B ∧ UniqueKeys C := by
  have := GIop.mul' d sm (a := 1) (c := c) (by rw [one_mul]; exact hc) hA hB hsm hcf h
  rwa [one_mul] at this

/-! ### Coefficients of fermionic products -/

theorem sortLoop_coef (fermi : Bool) (n : ℕ) (c : ℂ) (l : List (ℕ × FL)) :
    (Fermi.sortLoop fermi n c l).1 = c ∨ (Fermi.sortLoop fermi n c l).1 = -c := by
  induction n generalizing c l with
  | zero => exact Or.inl rfl
  | succ n ih =>
    unfold Fermi.sortLoop
    split
    · exact Or.inl rfl
    · rename_i f l' _
      rcases ih (if f then -c else c) l' with h | h <;> rw [h] <;> cases f <;> simp

theorem fermi_mul_coef (A B u : Term FStr ℂ) (h : Fermi.mul A B = some u) :
    ∃ e, GI e ∧ u.2 = e * (A.2 * B.2) := by
  unfold Fermi.mul Fermi.generate at h
  split at h
  · simp only [Option.some.injEq] at h
    exact ⟨1, GI.one, by rw [← h]; simp⟩
  · unfold Fermi.generateCore at h
    simp only at h
    have hs : ∀ l : List (ℕ × FL), ∃ e, GI e ∧
        (Fermi.sortLoop true (l.length * l.length) (A.2 * B.2) l).1 = e * (A.2 * B.2) := by
      intro l
      rcases sortLoop_coef true (l.length * l.length) (A.2 * B.2) l with h | h
      · exact ⟨1, GI.one, by rw [h]; ring⟩
      · exact ⟨-1, GI.neg_one, by rw [h]; ring⟩
    split at h
    · simp at h
    · simp only [Option.some.injEq] at h
      exact ⟨0, GI.zero, by rw [← h]; simp⟩
    · split at h
      · simp only [Option.some.injEq] at h
        rw [← h]; exact hs _
      · obtain ⟨s, _, h2⟩ := Option.map_eq_some_iff.mp h
        rw [← h2]; exact hs _

end HQCA
