import Verif.Model.Primitives
import Verif.Proofs.Pauli
import Mathlib.Analysis.SpecialFunctions.Trigonometric.Series
import Mathlib.Topology.Algebra.InfiniteSum.NatInt

/-!
# Proofs about the circuit primitives
-/

set_option linter.unusedSectionVars false

namespace HQCA
namespace Prim
noncomputable section
open Real

theorem mat2_mul {K : Type} [Field K] (a b c d a' b' c' d' : K) : mat2 a b c d * mat2 a' b' c' d' =
    mat2 (a * a' + b * c') (a * b' + b * d') (c * a' + d * c') (c * b' + d * d') := by
  apply M2.ext <;> simp [Matrix.mul_apply, mat2, add_comm]

theorem one_eq : (1 : M2 ℂ) = mat2 1 0 0 1 := by apply M2.ext <;> simp [mat2]
theorem mX_eq : (mX : M2 ℂ) = mat2 0 1 1 0 := by apply M2.ext <;> simp [mat2, mX]
theorem mY_eq : (mY : M2 ℂ) = mat2 0 (-Complex.I) Complex.I 0 := by
  apply M2.ext <;> simp [mat2, mY] <;> rfl
theorem mZ_eq : (mZ : M2 ℂ) = mat2 1 0 0 (-1) := by apply M2.ext <;> simp [mat2, mZ]

theorem r2_sq : r2 * r2 = 1 / 2 := by
  unfold r2
  rw [← Complex.ofReal_mul, div_mul_div_comm, Real.mul_self_sqrt (by norm_num)]
  norm_num

theorem circOp_append (p q : List QG) : circOp (p ++ q) = circOp q * circOp p := by
  induction p with
  | nil => simp [circOp]
  | cons g p ih => rw [List.cons_append, circOp, ih, circOp, mul_assoc]

theorem circOp_single (g : QG) : circOp [g] = opQ g := by simp [circOp]

/-! ### The basis layer -/

/-- Single-qubit matrix of `pauliOp`. -/
def vm : PL → M2 ℂ
  | .I => 1
  | .Z => 1
  | .X => mat2 r2 r2 r2 (-r2)
  | .Y => mat2 r2 r2 r2 (-r2) * mat2 1 0 0 (-Complex.I)

/-- Single-qubit matrix of `pauliOp` with `inv`. -/
def wm : PL → M2 ℂ
  | .I => 1
  | .Z => 1
  | .X => mat2 r2 r2 r2 (-r2)
  | .Y => mat2 1 0 0 Complex.I * mat2 r2 r2 r2 (-r2)

/-- `Z` where a string is not `I`. -/
def zl : PL → PL
  | .I => .I
  | _ => .Z

theorem circOp_pauliOp (n : ℕ) (p : PL) : circOp (pauliOp n p false) = site n (vm p) := by
  cases p <;> simp [pauliOp, vm, circOp, site_one, opQ, site_mul]

theorem circOp_pauliOp_inv (n : ℕ) (p : PL) : circOp (pauliOp n p true) = site n (wm p) := by
  cases p <;> simp [pauliOp, wm, circOp, site_one, opQ, site_mul]

theorem wm_vm (p : PL) : wm p * vm p = 1 := by
  have h := r2_sq
  have hI := Complex.I_mul_I
  cases p
  · simp [wm, vm]
  · simp only [wm, vm]; rw [mat2_mul, one_eq]; congr 1
    all_goals first | ring1 | linear_combination 2 * h
  · simp only [wm, vm]; rw [mat2_mul, mat2_mul, mat2_mul, one_eq]; congr 1
    all_goals first | ring1 | linear_combination 2 * h | linear_combination (-2 * Complex.I * Complex.I) * h - hI
  · simp [wm, vm]

theorem wm_z_vm (p : PL) : wm p * pmat (zl p) * vm p = pmat p := by
  have h := r2_sq
  have hI := Complex.I_mul_I
  cases p
  · simp [wm, vm, zl, pmat]
  · simp only [wm, vm, zl, pmat]; rw [mZ_eq, mX_eq, mat2_mul, mat2_mul]; congr 1
    all_goals first | ring1 | linear_combination 2 * h
  · simp only [wm, vm, zl, pmat]; rw [mZ_eq, mY_eq]; simp only [mat2_mul]; congr 1
    all_goals first | ring1 | linear_combination (2 * Complex.I) * h | linear_combination (-2 * Complex.I) * h
  · simp [wm, vm, zl, pmat]

/-- `site k m` commutes with everything a measurement layer does on later qubits. -/
theorem site_measFrom (j k : ℕ) (h : j < k) (m : M2 ℂ) (s : PStr) :
    site j m * circOp (measFrom k s) = circOp (measFrom k s) * site j m := by
  induction s generalizing k with
  | nil => simp [measFrom, circOp]
  | cons p s ih =>
    rw [measFrom, circOp_append, circOp_pauliOp, ← mul_assoc, ih (k + 1) (by omega), mul_assoc,
      site_comm (by omega : j ≠ k), mul_assoc]

/-- The layer with `inv`. -/
def invFrom (k : ℕ) : PStr → List QG
  | [] => []
  | p :: s => pauliOp k p true ++ invFrom (k + 1) s

theorem site_invFrom (j k : ℕ) (h : j < k) (m : M2 ℂ) (s : PStr) :
    site j m * circOp (invFrom k s) = circOp (invFrom k s) * site j m := by
  induction s generalizing k with
  | nil => simp [invFrom, circOp]
  | cons p s ih =>
    rw [invFrom, circOp_append, circOp_pauliOp_inv, ← mul_assoc, ih (k + 1) (by omega), mul_assoc,
      site_comm (by omega : j ≠ k), mul_assoc]

/-- Undoing a layer around `Z`s of a string compatible with the layer's basis gives the string. -/
theorem conj_layer (s b : PStr) (hl : s.length = b.length) (h : ∀ p ∈ s.zip b, p.1 = .I ∨ p.1 = p.2) (k : ℕ) :
    circOp (invFrom k b) * denP k (s.map zl) * circOp (measFrom k b) = denP k s := by
  induction s generalizing b k with
  | nil =>
    have : b = [] := List.length_eq_zero_iff.mp hl.symm
    subst this
    simp [invFrom, measFrom, circOp, denP]
  | cons p s ih =>
    cases b with
    | nil => simp at hl
    | cons q b =>
      have hl' : s.length = b.length := by simpa using hl
      have hr := ih b hl' (fun x hx => h x (by simp [hx])) (k + 1)
      have hpq := h (p, q) (by simp)
      have hm : wm q * pmat (zl p) * vm q = pmat p := by
        rcases hpq with h1 | h1
        · simp only at h1; subst h1; simp only [zl, pmat, mul_one]; exact wm_vm q
        · simp only at h1; subst h1; exact wm_z_vm p
      rw [invFrom, measFrom, circOp_append, circOp_append, circOp_pauliOp, circOp_pauliOp_inv, List.map_cons, denP,
        denP]
      calc circOp (invFrom (k + 1) b) * site k (wm q) * (site k (pmat (zl p)) * denP (k + 1) (s.map zl)) *
            (circOp (measFrom (k + 1) b) * site k (vm q))
          = circOp (invFrom (k + 1) b) * (site k (wm q) * site k (pmat (zl p))) * denP (k + 1) (s.map zl) *
            (site k (vm q) * circOp (measFrom (k + 1) b)) := by
              rw [site_measFrom k (k + 1) (by omega)]; simp only [mul_assoc]
        _ = circOp (invFrom (k + 1) b) * (site k (wm q) * site k (pmat (zl p))) *
            (site k (vm q) * denP (k + 1) (s.map zl)) * circOp (measFrom (k + 1) b) := by
              rw [denP_site_lt (Nat.lt_succ_self k)]; simp only [mul_assoc]
        _ = circOp (invFrom (k + 1) b) * site k (wm q * pmat (zl p) * vm q) *
            denP (k + 1) (s.map zl) * circOp (measFrom (k + 1) b) := by
              simp only [site_mul, mul_assoc]
        _ = _ := by
              rw [hm, ← site_invFrom k (k + 1) (by omega), mul_assoc, mul_assoc, ← mul_assoc _ (denP _ _), hr]

theorem inv_meas (b : PStr) (k : ℕ) : circOp (invFrom k b) * circOp (measFrom k b) = 1 := by
  have := conj_layer (b.map (fun _ => PL.I)) b (by simp) (by
    intro p hp
    left
    have := (List.of_mem_zip hp).1
    obtain ⟨_, _, e⟩ := List.mem_map.mp this
    exact e.symm) k
  have hd : ∀ (c : PStr) (k : ℕ), (denP k (c.map (fun _ => PL.I)) : Oper ℂ) = 1 := by
    intro c
    induction c with
    | nil => intro k; rfl
    | cons a c ih => intro k; rw [List.map_cons, denP, ih]; simp [pmat, site_one]
  rw [List.map_map, show (zl ∘ fun _ : PL => PL.I) = fun _ => PL.I from rfl, hd, mul_one] at this
  exact this

theorem flatMap_meas (k : ℕ) (s : PStr) : (nonI k s).flatMap (fun x => pauliOp x.1 x.2 false) = measFrom k s := by
  induction s generalizing k with
  | nil => rfl
  | cons p s ih =>
    unfold nonI measFrom
    split
    · rename_i h; subst h; rw [ih]; rfl
    · rw [List.flatMap_cons, ih]

theorem flatMap_inv (k : ℕ) (s : PStr) : (nonI k s).flatMap (fun x => pauliOp x.1 x.2 true) = invFrom k s := by
  induction s generalizing k with
  | nil => rfl
  | cons p s ih =>
    unfold nonI invFrom
    split
    · rename_i h; subst h; rw [ih]; rfl
    · rw [List.flatMap_cons, ih]

/-! ### The ladder -/

/-- Product of `Z`s. -/
def zprod : List ℕ → Oper ℂ
  | [] => 1
  | i :: l => site i mZ * zprod l

theorem zprod_nonI (k : ℕ) (s : PStr) : zprod ((nonI k s).map (·.1)) = denP k (s.map zl) := by
  induction s generalizing k with
  | nil => rfl
  | cons p s ih =>
    rw [List.map_cons, denP]
    unfold nonI
    split
    · rename_i h; subst h; rw [ih]; simp [zl, pmat, site_one]
    · rename_i h
      rw [List.map_cons, zprod, ih]
      have : zl p = .Z := by cases p <;> simp_all [zl]
      rw [this]; rfl

theorem nonI_ge (k : ℕ) (s : PStr) : ∀ x ∈ (nonI k s).map (·.1), k ≤ x := by
  induction s generalizing k with
  | nil => simp [nonI]
  | cons p s ih =>
    intro x hx
    unfold nonI at hx
    split at hx
    · have := ih (k + 1) x hx; omega
    · rw [List.map_cons, List.mem_cons] at hx
      rcases hx with rfl | hx
      · exact le_refl _
      · have := ih (k + 1) x hx; omega

theorem nonI_nodup (k : ℕ) (s : PStr) : ((nonI k s).map (·.1)).Nodup := by
  induction s generalizing k with
  | nil => simp [nonI]
  | cons p s ih =>
    unfold nonI
    split
    · exact ih (k + 1)
    · rw [List.map_cons, List.nodup_cons]
      refine ⟨fun h => ?_, ih (k + 1)⟩
      have := nonI_ge (k + 1) s k h
      omega

theorem cx_apply (i j : ℕ) (ψ : Cfg → ℂ) (b : Cfg) :
    opQ (.cx i j) ψ b = if b i then ψ (Function.update b j (!b j)) else ψ b := by
  show (ctlOp [i] (site j mX) : Oper ℂ) ψ b = _
  simp only [ctlOp, LinearMap.coe_mk, AddHom.coe_mk, List.mem_singleton, forall_eq, site_apply, mX]
  cases b i <;> cases b j <;> simp

theorem mZ_apply (i : ℕ) (ψ : Cfg → ℂ) (b : Cfg) : (site i mZ : Oper ℂ) ψ b = if b i then -ψ b else ψ b := by
  rw [site_apply]
  cases h : b i
  · have : Function.update b i false = b := by rw [← h]; exact Function.update_eq_self i b
    simp [mZ, this]
  · have : Function.update b i true = b := by rw [← h]; exact Function.update_eq_self i b
    simp [mZ, this]

theorem cx_cx (i j : ℕ) (h : i ≠ j) : opQ (.cx i j) * opQ (.cx i j) = 1 := by
  ext ψ b
  simp only [Module.End.mul_apply, cx_apply, Module.End.one_apply, Function.update_of_ne h, Function.update_self,
    Function.update_idem, Bool.not_not, Function.update_eq_self]
  cases b i <;> simp

theorem cx_z (i j : ℕ) (h : i ≠ j) : opQ (.cx i j) * site j mZ * opQ (.cx i j) = site i mZ * site j mZ := by
  ext ψ b
  simp only [Module.End.mul_apply, cx_apply, mZ_apply, Function.update_of_ne h, Function.update_self,
    Function.update_idem, Bool.not_not, Function.update_eq_self]
  cases b i <;> cases b j <;> simp

theorem cx_comm_z (i j k : ℕ) (h : k ≠ j) : opQ (.cx i j) * site k mZ = site k mZ * opQ (.cx i j) := by
  ext ψ b
  simp only [Module.End.mul_apply, cx_apply, mZ_apply, Function.update_of_ne h]
  cases b i <;> cases b k <;> simp

theorem cx_comm_zprod (i j : ℕ) (l : List ℕ) (h : j ∉ l) : opQ (.cx i j) * zprod l = zprod l * opQ (.cx i j) := by
  induction l with
  | nil => simp [zprod]
  | cons k l ih =>
    rw [List.mem_cons, not_or] at h
    rw [zprod, ← mul_assoc, cx_comm_z i j k (Ne.symm h.1), mul_assoc, ih h.2, mul_assoc]

theorem ladder_cons (i j : ℕ) (l : List ℕ) : ladder (i :: j :: l) = .cx i j :: ladder (j :: l) := by
  unfold ladder
  rw [show (i :: j :: l).length - 1 = ((j :: l).length - 1) + 1 by simp, List.range_succ_eq_map, List.map_cons,
    List.map_map]
  congr 1

theorem ladder_single (i : ℕ) : ladder [i] = [] := rfl

theorem ladder_conj (i : ℕ) (l : List ℕ) (h : (i :: l).Nodup) :
    circOp (ladder (i :: l)).reverse * circOp (ladder (i :: l)) = 1 ∧
    circOp (ladder (i :: l)).reverse * site ((i :: l).getLastD 0) mZ * circOp (ladder (i :: l)) = zprod (i :: l) := by
  induction l generalizing i with
  | nil => simp [ladder_single, circOp, zprod]
  | cons j l ih =>
    have hij : i ≠ j := by simp at h; tauto
    have hjl : j ∉ l := by simp at h; tauto
    obtain ⟨h1, h2⟩ := ih j (by simp at h ⊢; tauto)
    have hlast : (i :: j :: l).getLastD 0 = (j :: l).getLastD 0 := by simp
    rw [ladder_cons, List.reverse_cons, circOp_append, circOp_single, circOp, hlast]
    constructor
    · rw [mul_assoc, ← mul_assoc _ _ (opQ (.cx i j)), h1, one_mul, cx_cx i j hij]
    · calc _ = opQ (.cx i j) * (circOp (ladder (j :: l)).reverse * site ((j :: l).getLastD 0) mZ *
            circOp (ladder (j :: l))) * opQ (.cx i j) := by simp only [mul_assoc]
        _ = opQ (.cx i j) * zprod (j :: l) * opQ (.cx i j) := by rw [h2]
        _ = opQ (.cx i j) * site j mZ * (zprod l * opQ (.cx i j)) := by rw [zprod]; simp only [mul_assoc]
        _ = opQ (.cx i j) * site j mZ * opQ (.cx i j) * zprod l := by
            rw [← cx_comm_zprod i j l hjl]; simp only [mul_assoc]
        _ = _ := by rw [cx_z i j hij, zprod, zprod, mul_assoc]

/-- `rz(-2 v)` is `exp(i v Z)`. -/
theorem rz_eq (v : ℝ) (i : ℕ) : opQ (.rz (v * (-2)) i) =
    ((cos v : ℝ) : ℂ) • (1 : Oper ℂ) + (Complex.I * (sin v : ℝ)) • (site i mZ : Oper ℂ) := by
  rw [← site_one i, ← site_smul, ← site_smul, ← site_add]
  show site i _ = _
  congr 1
  rw [one_eq, mZ_eq]
  have e1 : Complex.exp (-Complex.I * ((v * (-2) / 2 : ℝ) : ℂ)) = Complex.cos v + Complex.sin v * Complex.I := by
    rw [← Complex.exp_mul_I]; congr 1; push_cast; ring
  have e2 : Complex.exp (Complex.I * ((v * (-2) / 2 : ℝ) : ℂ)) = Complex.cos v - Complex.sin v * Complex.I := by
    have := Complex.exp_mul_I (-v)
    rw [Complex.cos_neg, Complex.sin_neg] at this
    rw [show Complex.cos (v : ℂ) - Complex.sin v * Complex.I = Complex.cos v + -Complex.sin v * Complex.I by ring,
      ← this]
    congr 1; push_cast; ring
  rw [e1, e2]
  push_cast
  apply M2.ext <;> simp [mat2] <;> ring

end
end Prim
end HQCA
