import Verif.Model.Instructions
import Verif.Props.Gadget

/-!
# The circuits of `PauliSet` (C76)
-/

namespace HQCA
namespace Props
open Instr Prim
noncomputable section

theorem all_I (s : PStr) (h : ¬ ∃ p ∈ s, p ≠ PL.I) : s = List.replicate s.length PL.I := by
  rw [List.eq_replicate_iff]
  exact ⟨rfl, fun p hp => by_contra fun hn => h ⟨p, hp, hn⟩⟩

/-- One gadget is the exponential up to a phase. -/
theorem gadget_phase (v : ℝ) (s : PStr) :
    ∃ ph : ℂ, ‖ph‖ = 1 ∧ IsExp ((Complex.I * v) • (denP 0 s : Oper ℂ)) (ph • circOp (gadget v s)) := by
  by_cases h : ∃ p ∈ s, p ≠ PL.I
  · exact ⟨1, norm_one, by rw [one_smul]; exact C37_gadget v s h⟩
  · refine ⟨Complex.exp (Complex.I * v), ?_, ?_⟩
    · rw [mul_comm]; exact Complex.norm_exp_ofReal_mul_I v
    · have := C37_identity v s.length
      rwa [← all_I s h] at this

/-- A list of gates is the ordered product of exponentials, up to a phase. -/
theorem gates_product (gs : List (ℝ × PStr)) :
    ∃ (Us : List (Oper ℂ)) (ph : ℂ), List.Forall₂ (fun g U => IsExp ((Complex.I * (g.1 : ℝ)) • (denP 0 g.2 : Oper ℂ)) U) gs Us ∧
      ‖ph‖ = 1 ∧ ph • circOp (gatesOf gs) = Us.reverse.prod := by
  induction gs with
  | nil => exact ⟨[], 1, .nil, norm_one, by simp [gatesOf, circOp]⟩
  | cons g gs ih =>
    obtain ⟨Us, ph, h1, h2, h3⟩ := ih
    obtain ⟨q, q1, q2⟩ := gadget_phase g.1 g.2
    refine ⟨(q • circOp (gadget g.1 g.2)) :: Us, q * ph, .cons q2 h1, by rw [norm_mul, h2, q1, one_mul], ?_⟩
    rw [List.reverse_cons, List.prod_append, ← h3]
    unfold gatesOf
    rw [List.flatMap_cons, circOp_append]
    simp only [List.prod_cons, List.prod_nil, mul_one, smul_mul_assoc, mul_smul_comm, smul_smul]

/-- **C76, partial.** For an operator whose coefficients are imaginary and larger than `1e-14`, the emitted circuit is the
product of the exponentials of its terms in order (the first acts first), up to a global phase.  Missing: terms with a
real part (`C76_real_coefficient`, `C76_mixed_reuses`). -/
theorem C76_circuit_partial (op : List (PStr × ℂ)) (h : ∀ t ∈ op, t.2.re = 0 ∧ (1e-14 : ℝ) < |t.2.im|) :
    ∃ (gs : List (ℝ × PStr)) (Us : List (Oper ℂ)) (ph : ℂ), applyOp 1 none op = some gs ∧
      List.Forall₂ (fun t U => IsExp (t.2 • (denP 0 t.1 : Oper ℂ)) U) op Us ∧ ‖ph‖ = 1 ∧
      ph • circOp (gatesOf gs) = Us.reverse.prod := by
  have hop : ∀ (prev : Option ℝ), applyOp 1 prev op = some (op.map fun t => (t.2.im, t.1)) := by
    induction op with
    | nil => exact fun _ => rfl
    | cons t op ih =>
      intro prev
      obtain ⟨h1, h2⟩ := h t (by simp)
      have ha : angleOf prev t.2 = some t.2.im := by
        unfold angleOf
        rw [if_neg (not_lt.mpr (le_of_lt h2)), if_pos (by rw [h1, abs_zero]; norm_num)]
      unfold applyOp
      rw [ha]
      dsimp only
      rw [if_pos h2, ih (fun u hu => h u (by simp [hu])) (some t.2.im)]
      simp
  obtain ⟨Us, ph, h1, h2, h3⟩ := gates_product (op.map fun t => (t.2.im, t.1))
  refine ⟨_, Us, ph, hop none, ?_, h2, h3⟩
  rw [List.forall₂_map_left_iff] at h1
  have hz : ∀ t ∈ op, t.2 = Complex.I * (t.2.im : ℝ) := by
    intro t ht
    apply Complex.ext <;> simp [(h t ht).1]
  clear h2 h3 hop
  induction h1 with
  | nil => exact .nil
  | cons a _ ih =>
    refine .cons ?_ (ih (fun t ht => h t (by simp [ht])) (fun t ht => hz t (by simp [ht])))
    rw [hz _ (by simp)]
    exact a

example : ∀ t ∈ [([PL.X, PL.Y], Complex.I / 2), ([PL.Y, PL.X], -Complex.I / 2)], t.2.re = 0 ∧ (1e-14 : ℝ) < |t.2.im| := by
  intro t ht
  fin_cases ht <;> simp <;> norm_num [abs_of_pos]

/-- **C76 fails for real coefficients**: a term `x P` with real `x` is treated like `i x P`. -/
theorem C76_real_coefficient (x : ℝ) (hx : (1e-14 : ℝ) < |x|) (s : PStr) (h : ∃ p ∈ s, p ≠ PL.I) (prev : Option ℝ) :
    applyOp 1 prev [(s, (x : ℂ))] = applyOp 1 none [(s, Complex.I * (x : ℂ))] ∧
      ∃ gs, applyOp 1 prev [(s, (x : ℂ))] = some gs ∧ IsExp ((Complex.I * x) • (denP 0 s : Oper ℂ)) (circOp (gatesOf gs)) := by
  have h0 : |(0 : ℝ)| < 1e-14 := by rw [abs_zero]; norm_num
  have e1 : applyOp 1 prev [(s, (x : ℂ))] = some [(x, s)] := by
    simp only [applyOp, angleOf, Complex.ofReal_im, if_pos h0, Complex.ofReal_re, if_pos hx]
    simp
  have e2 : applyOp 1 none [(s, Complex.I * (x : ℂ))] = some [(x, s)] := by
    have a1 : (Complex.I * (x : ℂ)).im = x := by simp
    have a2 : (Complex.I * (x : ℂ)).re = 0 := by simp
    simp only [applyOp, angleOf, a1, a2, if_neg (not_lt.mpr (le_of_lt hx)), if_pos h0, if_pos hx]
    simp
  refine ⟨e1.trans e2.symm, [(x, s)], e1, ?_⟩
  unfold gatesOf
  rw [List.flatMap_cons, List.flatMap_nil, List.append_nil]
  exact C37_gadget x s h

/-- The circuit of the Hermitian term `x Z`, `x ≠ 0`, is not its exponential. -/
theorem C76_real_fails (x : ℝ) (hx : (1e-14 : ℝ) < |x|) :
    ∃ gs, applyOp 1 none [([PL.Z], (x : ℂ))] = some gs ∧
      ¬ IsExp ((x : ℂ) • (denP 0 [PL.Z] : Oper ℂ)) (circOp (gatesOf gs)) := by
  obtain ⟨_, gs, e1, e2⟩ := C76_real_coefficient x hx [PL.Z] ⟨.Z, by simp, by simp⟩ none
  refine ⟨gs, e1, fun h => ?_⟩
  have hZ : ∀ k : ℕ, ((denP 0 [PL.Z] : Oper ℂ) ^ k) (fun _ => 1) (fun _ => false) = 1 := by
    have hZ1 : ∀ ψ : Cfg → ℂ, (denP 0 [PL.Z] : Oper ℂ) ψ (fun _ => false) = ψ (fun _ => false) := by
      intro ψ
      simp [denP, pmat, mZ, site]
    intro k
    induction k with
    | zero => rfl
    | succ k ih => rw [pow_succ', Module.End.mul_apply, hZ1, ih]
  have key : ∀ z : ℂ, ∀ U : Oper ℂ, IsExp (z • (denP 0 [PL.Z] : Oper ℂ)) U → U (fun _ => 1) (fun _ => false) = Complex.exp z := by
    intro z U hU
    have h1 := hU (fun _ => 1) (fun _ => false)
    have h2 : HasSum (fun k : ℕ => ((Nat.factorial k : ℂ))⁻¹ * z ^ k) (Complex.exp z) := by
      have := NormedSpace.expSeries_div_hasSum_exp z
      rw [← Complex.exp_eq_exp_ℂ] at this
      have e : (fun k : ℕ => ((Nat.factorial k : ℂ))⁻¹ * z ^ k) = fun k : ℕ => z ^ k / (Nat.factorial k : ℂ) := by
        funext k; rw [div_eq_mul_inv, mul_comm]
      rw [e]
      exact this
    refine h1.unique ?_
    simpa [smul_pow, hZ] using h2
  have a := key _ _ h
  have b := key _ _ e2
  rw [a] at b
  have hn := congrArg norm b
  rw [mul_comm Complex.I, Complex.norm_exp_ofReal_mul_I, Complex.norm_exp_ofReal, Real.exp_eq_one_iff] at hn
  rw [hn, abs_zero] at hx
  norm_num at hx

/-- **C76 fails for mixed coefficients**: a coefficient with a real and an imaginary part of more than `1e-14` contributes
the angle of the term before it, whatever its value; at the front of the operator it ends the program. -/
theorem C76_mixed_reuses (z : ℂ) (h1 : (1e-14 : ℝ) ≤ |z.im|) (h2 : (1e-14 : ℝ) ≤ |z.re|) (s : PStr) (rest : List (PStr × ℂ))
    (v : ℝ) (hv : (1e-14 : ℝ) < |v|) :
    applyOp 1 none ((s, z) :: rest) = none ∧
      applyOp 1 (some v) ((s, z) :: rest) = (applyOp 1 (some v) rest).map ((v, s) :: ·) := by
  have ha : ∀ prev, angleOf prev z = prev := by
    intro prev
    unfold angleOf
    rw [if_neg (not_lt.mpr h1), if_neg (not_lt.mpr h2)]
  constructor
  · rw [applyOp, ha]
  · rw [applyOp, ha]
    dsimp only
    rw [if_pos hv, div_one]

example : (1e-14 : ℝ) ≤ |(1 + Complex.I : ℂ).im| ∧ (1e-14 : ℝ) ≤ |(1 + Complex.I : ℂ).re| := by
  constructor <;> simp <;> norm_num

end
end Props
end HQCA
