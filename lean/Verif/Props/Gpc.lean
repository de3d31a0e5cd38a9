import Verif.Model.Gpc
import Mathlib.Tactic.NormNum
import Mathlib.Tactic.Linarith
import Mathlib.Tactic.Ring
import Mathlib.Tactic.FieldSimp

/-!
# C156: projection of occupation numbers
-/

namespace HQCA.Props
open HQCA.Gpc
noncomputable section

/-- Spec: the plane through three points. -/
def InPlane (A B C q : Fin 3 → ℝ) : Prop := ∃ s t : ℝ, ∀ i, q i = A i + s * (B i - A i) + t * (C i - A i)

/-- Spec: square of the distance. -/
def dist2 (p q : Fin 3 → ℝ) : ℝ := (p 0 - q 0) ^ 2 + (p 1 - q 1) ^ 2 + (p 2 - q 2) ^ 2

/-- The points the plane is given by. -/
def ptA : Fin 3 → ℝ := ![1, 1, 1]
def ptB : Fin 3 → ℝ := ![0.5, 0.5, 0.5]
def ptC : Fin 3 → ℝ := ![1, 0.5, 0.5]

theorem projectToPlane_eq (v : Fin 3 → ℝ) : projectToPlane v = ![v 0, (v 1 + v 2) / 2, (v 1 + v 2) / 2] := by
  have hc : cross (![1, 1, 1] - ![0.5, 0.5, 0.5]) (![0.5, 0.5, 0.5] - ![1, 0.5, 0.5]) = ![0, -(1 / 4), 1 / 4] := by
    funext i
    fin_cases i <;> simp [cross] <;> norm_num
  have hs : Real.sqrt (1 / 8) ^ 2 = 1 / 8 := Real.sq_sqrt (by norm_num)
  have hs0 : Real.sqrt (1 / 8) ≠ 0 := by
    intro h; rw [h] at hs; norm_num at hs
  unfold projectToPlane
  simp only
  rw [hc]
  have hd : dot ![0, -(1 / 4), 1 / 4] ![0, -(1 / 4), 1 / 4] = 1 / 8 := by simp [dot]; norm_num
  rw [hd]
  funext i
  have hi : (Real.sqrt (1 / 8))⁻¹ ^ 2 = 8 := by rw [inv_pow, hs]; norm_num
  generalize Real.sqrt (1 / 8) = w at *
  fin_cases i
  · simp [dot]
  · simp only [dot, Pi.sub_apply, Fin.mk_one, Matrix.cons_val_one, Matrix.cons_val_zero, Matrix.cons_val, div_eq_mul_inv]
    linear_combination (1 / 16 * (v 2 - v 1)) * hi
  · simp only [dot, Pi.sub_apply, Fin.reduceFinMk, Matrix.cons_val_one, Matrix.cons_val_zero, Matrix.cons_val, div_eq_mul_inv]
    linear_combination (-(1 / 16) * (v 2 - v 1)) * hi

/-- **C156.** The projection lies in the plane through the three points, every other point of the plane is further away, and the points of the plane stay where they are. -/
theorem C156_projection (v : Fin 3 → ℝ) :
    InPlane ptA ptB ptC (projectToPlane v) ∧ (∀ q, InPlane ptA ptB ptC q → q ≠ projectToPlane v → dist2 v (projectToPlane v) < dist2 v q) ∧
      (InPlane ptA ptB ptC v → projectToPlane v = v) := by
  have key : ∀ q, InPlane ptA ptB ptC q → q 1 = q 2 := by
    rintro q ⟨s, t, h⟩
    rw [h 1, h 2]
    simp [ptA, ptB, ptC]
  rw [projectToPlane_eq]
  refine ⟨⟨-2 * (v 0 - 1), 2 * (v 0 - 1) - 2 * ((v 1 + v 2) / 2 - 1), fun i => ?_⟩, fun q hq hne => ?_, fun h => ?_⟩
  · fin_cases i <;> simp [ptA, ptB, ptC] <;> ring
  · have h12 := key q hq
    have hne' : q 0 ≠ v 0 ∨ q 1 ≠ (v 1 + v 2) / 2 := by
      by_contra hc
      push_neg at hc
      apply hne
      funext i
      fin_cases i
      · exact hc.1
      · exact hc.2
      · exact h12.symm.trans hc.2
    have hp : 0 < (q 0 - v 0) ^ 2 + 2 * (q 1 - (v 1 + v 2) / 2) ^ 2 := by
      rcases hne' with h | h
      · have := pow_pos (abs_pos.mpr (sub_ne_zero.mpr h)) 2
        rw [sq_abs] at this
        positivity
      · have := pow_pos (abs_pos.mpr (sub_ne_zero.mpr h)) 2
        rw [sq_abs] at this
        positivity
    simp only [dist2, Matrix.cons_val_one, Matrix.cons_val_zero, Matrix.cons_val]
    rw [← h12]
    nlinarith
  · have h12 := key v h
    funext i
    fin_cases i
    · rfl
    · show (v 1 + v 2) / 2 = v 1
      rw [h12]; ring
    · show (v 1 + v 2) / 2 = v 2
      rw [h12]; ring

/-- Spec: the occupation number of an orbital in a wave function given by determinants. -/
def occupation (wf : List (List Bool × ℂ)) (k : ℕ) : ℝ := (wf.map fun t => if t.1.getD k false then Complex.normSq t.2 else 0).sum

/-- Spec: the three largest occupation numbers lie on the plane where the generalised Pauli constraint of three electrons in six orbitals is an equality. -/
def OnGpc (n : Fin 3 → ℝ) : Prop := n 0 + n 1 - n 2 = 1

/-- The Borland-Dennis wave function: three electrons in every determinant, the occupation numbers pair up to the norm, and for a normalised one the constraint is an equality. -/
theorem C156_borland_dennis (α β γ : ℂ) :
    (∀ t ∈ wfBD α β γ, t.1.length = 6 ∧ t.1.count true = 3) ∧
    (∀ k < 3, occupation (wfBD α β γ) k + occupation (wfBD α β γ) (5 - k) = Complex.normSq α + Complex.normSq β + Complex.normSq γ) ∧
    (Complex.normSq α + Complex.normSq β + Complex.normSq γ = 1 →
      OnGpc fun i => occupation (wfBD α β γ) i.val) := by
  refine ⟨?_, ?_, ?_⟩
  · intro t ht
    simp only [wfBD, List.mem_cons, List.not_mem_nil, or_false] at ht
    rcases ht with rfl | rfl | rfl <;> exact ⟨rfl, rfl⟩
  · intro k hk
    have : k = 0 ∨ k = 1 ∨ k = 2 := by omega
    rcases this with rfl | rfl | rfl <;> simp [occupation, wfBD] <;> ring
  · intro h
    unfold OnGpc
    simp [occupation, wfBD]
    linarith

/-- **C156, partial** (the generalised Pauli constraint): the plane of `project_to_plane` is not the one of the constraint: occupation numbers on the constraint are moved off it, and those with one half
everywhere stay although they violate the equality.  The function for the constraint itself, `project_gpc`, raises on every input. -/
theorem C156_not_gpc_partial : (∃ n : Fin 3 → ℝ, OnGpc n ∧ ¬ OnGpc (projectToPlane n)) ∧ (∃ n : Fin 3 → ℝ, ¬ OnGpc n ∧ projectToPlane n = n) ∧
    ∀ rdm s1 s2 s3, projectGpc rdm s1 s2 s3 = none := by
  refine ⟨⟨![0.9, 0.8, 0.7], ?_, ?_⟩, ⟨![0.5, 0.5, 0.5], ?_, ?_⟩, fun _ _ _ _ => rfl⟩
  · simp [OnGpc]; norm_num
  · rw [projectToPlane_eq]; simp [OnGpc]; norm_num
  · simp [OnGpc]; norm_num
  · rw [projectToPlane_eq]; funext i; fin_cases i <;> simp

end
end HQCA.Props
