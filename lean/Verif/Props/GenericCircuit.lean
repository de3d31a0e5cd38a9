import Verif.Model.GenericCircuit
import Verif.Proofs.Primitives
import Verif.Props.Gadget

/-!
# C80: circuit objects
-/

set_option linter.unusedSectionVars false

namespace HQCA
namespace Props
open GCirc Prim Real

/-- The unitary a user expects of a method (specification): the gate named by the method. -/
noncomputable def named : Call → Oper ℂ
  | .h q => site q (mat2 r2 r2 r2 (-r2))
  | .s q => site q (mat2 1 0 0 Complex.I)
  | .sx q => site q (mat2 ((1 + Complex.I) / 2) ((1 - Complex.I) / 2) ((1 - Complex.I) / 2) ((1 + Complex.I) / 2))
  | .si q => site q (mat2 1 0 0 (-Complex.I))
  | .Cx q p => ctlOp [q] (site p mX)
  | .Cz q p => ctlOp [q] (site p mZ)
  | .Rx q v => site q (mat2 (cos (v / 2) : ℝ) (-Complex.I * (sin (v / 2) : ℝ)) (-Complex.I * (sin (v / 2) : ℝ)) (cos (v / 2) : ℝ))
  | .Ry q v => site q (mat2 (cos (v / 2) : ℝ) (-(sin (v / 2) : ℝ)) (sin (v / 2) : ℝ) (cos (v / 2) : ℝ))
  | .Rz q v => site q (mat2 (Complex.exp (-Complex.I * (v / 2 : ℝ))) 0 0 (Complex.exp (Complex.I * (v / 2 : ℝ))))
  | .x q => site q mX
  | .y q => site q mY
  | .z q => site q mZ
  | .Sw q p =>
    { toFun := fun ψ b => ψ (Function.update (Function.update b q (b p)) p (b q)), map_add' := fun _ _ => rfl,
      map_smul' := fun _ _ => rfl }

theorem exp_quarter : Complex.exp (Complex.I * (π / 2 / 2 : ℝ)) = r2 * (1 + Complex.I) := by
  have h : Complex.I * ((π / 2 / 2 : ℝ) : ℂ) = ((π / 4 : ℝ) : ℂ) * Complex.I := by push_cast; ring
  rw [h, Complex.exp_mul_I, ← Complex.ofReal_cos, ← Complex.ofReal_sin, cos_pi_div_four, sin_pi_div_four]
  have : (√2 / 2 : ℝ) = 1 / √2 := by
    rw [div_eq_div_iff (by norm_num) (by positivity), Real.mul_self_sqrt (by norm_num)]; norm_num
  rw [this]
  unfold r2
  ring

theorem exp_quarter_neg : Complex.exp (-Complex.I * (π / 2 / 2 : ℝ)) = r2 * (1 - Complex.I) := by
  have h := exp_quarter
  have h1 : Complex.exp (-Complex.I * (π / 2 / 2 : ℝ)) * Complex.exp (Complex.I * (π / 2 / 2 : ℝ)) = 1 := by
    rw [← Complex.exp_add]; simp
  have h2 : (r2 * (1 - Complex.I)) * (r2 * (1 + Complex.I)) = 1 := by
    have := r2_sq
    have := Complex.I_mul_I
    linear_combination (1 - Complex.I * Complex.I) * r2_sq - (1 / 2) * this
  rw [← h] at h2
  exact mul_right_cancel₀ (Complex.exp_ne_zero _) (h1.trans h2.symm)

theorem norm_r2 : ‖r2‖ * √2 = 1 := by
  unfold r2
  rw [Complex.norm_real, Real.norm_of_nonneg (by positivity)]
  field_simp

/-- **C80, gates.** Every method except `Sw` appends the gate it names, up to a global phase. Missing: `Sw`, see `C80_swap_fails`. -/
theorem C80_gates_partial (c : Call) (hc : ∀ q p, c ≠ .Sw q p) : UpToPhase (circOp (gates c)) (named c) := by
  have i2 : Complex.I ^ 2 = -1 := Complex.I_sq
  have i3 : Complex.I ^ 3 = -Complex.I := by rw [pow_succ, i2]; ring
  have hr : r2 ^ 2 = 1 / 2 := by rw [sq, r2_sq]
  have one : ∀ U : Oper ℂ, UpToPhase U U := fun U => ⟨1, by simp, by simp⟩
  have hz : ∀ q, opQ (.rz (π / 2) q) = (r2 * (1 - Complex.I)) • site q (mat2 1 0 0 Complex.I) := by
    intro q
    rw [opQ, exp_quarter, exp_quarter_neg, ← site_smul]
    congr 1
    apply M2.ext <;> simp [mat2] <;> ring_nf <;> simp only [i2] <;> ring_nf
  have hz' : ∀ q, opQ (.rz (-π / 2) q) = (r2 * (1 + Complex.I)) • site q (mat2 1 0 0 (-Complex.I)) := by
    intro q
    have e1 : -Complex.I * ((-π / 2 / 2 : ℝ) : ℂ) = Complex.I * ((π / 2 / 2 : ℝ) : ℂ) := by push_cast; ring
    have e2 : Complex.I * ((-π / 2 / 2 : ℝ) : ℂ) = -Complex.I * ((π / 2 / 2 : ℝ) : ℂ) := by push_cast; ring
    rw [opQ, e1, e2, exp_quarter, exp_quarter_neg, ← site_smul]
    congr 1
    apply M2.ext <;> simp [mat2] <;> ring_nf <;> simp only [i2] <;> ring_nf
  have n1 : ‖r2 * (1 - Complex.I)‖ = 1 := by rw [← exp_quarter_neg, Complex.norm_exp]; simp
  have n2 : ‖r2 * (1 + Complex.I)‖ = 1 := by rw [← exp_quarter, Complex.norm_exp]; simp
  cases c with
  | Sw q p => exact absurd rfl (hc q p)
  | h q =>
    refine ⟨r2 * (1 + Complex.I), n2, ?_⟩
    simp only [gates, circOp, opQ, named, one_mul, ← site_mul, ← site_smul]
    congr 1
    simp only [mat2_mul]
    apply M2.ext <;> simp [mat2] <;> ring_nf <;> simp only [i2, i3, hr] <;> ring_nf
  | s q => exact ⟨_, n1, by rw [gates, circOp_single, hz]; rfl⟩
  | si q => exact ⟨_, n2, by rw [gates, circOp_single, hz']; rfl⟩
  | y q =>
    refine ⟨1, by simp, ?_⟩
    simp only [gates, circOp, one_mul, hz, hz', named, one_smul, smul_mul_assoc, mul_smul_comm, smul_smul]
    have : r2 * (1 - Complex.I) * (r2 * (1 + Complex.I)) = 1 := by
      linear_combination (1 - Complex.I * Complex.I) * r2_sq - (1 / 2) * Complex.I_mul_I
    have t : r2 * (1 + Complex.I) * (r2 * (1 - Complex.I)) = 1 := by rw [mul_comm]; exact this
    first
      | rw [this, one_smul]
      | rw [t, one_smul]
    simp only [opQ, ← site_mul]
    congr 1
    rw [mX_eq, mY_eq, mat2_mul, mat2_mul]
    apply M2.ext <;> simp [mat2]
  | z q =>
    refine ⟨-Complex.I, by simp, ?_⟩
    rw [gates, circOp_single]
    have e1 : Complex.exp (Complex.I * ((π / 2 : ℝ) : ℂ)) = Complex.I := by
      rw [mul_comm, Complex.exp_mul_I, ← Complex.ofReal_cos, ← Complex.ofReal_sin]; simp
    have e2 : Complex.exp (-Complex.I * ((π / 2 : ℝ) : ℂ)) = -Complex.I := by
      rw [neg_mul, Complex.exp_neg, e1, Complex.inv_I]
    simp only [opQ, named, e1, e2, ← site_smul]
    congr 1
    rw [mZ_eq]
    apply M2.ext <;> simp [mat2]
  | sx q => rw [gates, circOp_single]; exact one _
  | Cx q p => rw [gates, circOp_single]; exact one _
  | Cz q p => rw [gates, circOp_single]; exact one _
  | Rx q v => rw [gates, circOp_single]; exact one _
  | Ry q v => rw [gates, circOp_single]; exact one _
  | Rz q v => rw [gates, circOp_single]; exact one _
  | x q => rw [gates, circOp_single]; exact one _

/-- **C80 is violated** by `Sw`: nothing is appended, so for any two qubits the circuit does not exchange them. -/
theorem C80_swap_fails (q p : ℕ) (h : q ≠ p) : ¬ UpToPhase (circOp (gates (.Sw q p))) (named (.Sw q p)) := by
  rintro ⟨c, _, e⟩
  have e1 := congrFun (LinearMap.congr_fun e (fun b => if b q then 1 else 0)) (fun j => decide (j = q))
  have e2 : named (.Sw q p) (fun b => if b q then (1 : ℂ) else 0) (fun j => decide (j = q)) = 0 := by
    show (if Function.update (Function.update (fun j => decide (j = q)) q (decide (p = q))) p (decide (q = q)) q
      then (1 : ℂ) else 0) = 0
    rw [Function.update_of_ne h, Function.update_self, if_neg (by simp [h.symm])]
  rw [LinearMap.smul_apply, Pi.smul_apply, e2] at e1
  simp [gates, circOp] at e1

/-- **C80 is violated** by the callers: the keyword they pass is not a parameter of the constructor, so preparing any nonempty list of
circuits raises, whatever the backend and the rest of the loop. -/
theorem C80_set_raises {C R : Type} (sv : Bool) (body : C → Option R) (c : C) (l : List C) : setLoop sv body 0 (c :: l) = none := by
  have : construct callerKw = false := by decide +kernel
  rw [setLoop, this]
  simp

/-- What would be accepted: the keyword `quantstore`, optionally the others, each once. -/
theorem C80_constructor (kw : List String) : construct kw = true ↔
    "quantstore" ∈ kw ∧ kw.Nodup ∧ ∀ k ∈ kw, k = "quantstore" ∨ k = "Nq" ∨ k = "_name" := by
  simp only [construct, binds, Bool.and_eq_true, List.all_eq_true, decide_eq_true_eq, List.mem_cons, List.not_mem_nil, or_false]
  constructor
  · rintro ⟨⟨h1, h2⟩, h3⟩; exact ⟨h2 _ rfl, h3, h1⟩
  · rintro ⟨h1, h2, h3⟩; exact ⟨⟨h3, fun x hx => hx ▸ h1⟩, h2⟩

end Props
end HQCA
