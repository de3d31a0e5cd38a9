import Mathlib.LinearAlgebra.Matrix.NonsingularInverse
import Mathlib.Tactic.Linarith
import Mathlib.Tactic.FieldSimp
import Mathlib.Tactic.NormNum
import Mathlib.Tactic.Positivity
import Mathlib.Tactic.Module
import Mathlib.Tactic.NoncommRing
import Verif.Model.BFGS

/-!
# Property theorems: quasi-Newton updates (C45)
-/

namespace HQCA.Props
open HQCA BFGS Matrix
variable {F : Type} [Field F] [LinearOrder F] [IsStrictOrderedRing F] {n : ℕ}

/-- Symmetric and positive on every nonzero vector. -/
def PosDefSym (M : Matrix (Fin n) (Fin n) F) : Prop := Mᵀ = M ∧ ∀ x : Fin n → F, x ≠ 0 → 0 < x ⬝ᵥ (M *ᵥ x)

theorem clamp_pos {x : F} (h : 0 < x) : 0 < clamp x := by
  unfold clamp
  split_ifs with h1 h2
  · linarith
  · positivity
  · exact h

theorem clampLe_ge {x : F} (h : 0 < x) : x ≤ clampLe x ∧ 0 < clampLe x := by
  unfold clampLe
  split_ifs with h1 h2
  · linarith
  · rw [abs_of_pos h] at h1
    exact ⟨h1, by positivity⟩
  · exact ⟨le_refl _, h⟩

theorem clamp_ge {x : F} (h : 0 < x) : x ≤ clamp x ∧ 0 < clamp x := by
  unfold clamp
  split_ifs with h1 h2
  · linarith
  · rw [abs_of_pos h] at h1
    exact ⟨h1.le, by positivity⟩
  · exact ⟨le_refl _, h⟩

theorem clamp_eq {x : F} (h : 1 / 10 ^ 30 ≤ |x|) : clamp x = x := by
  unfold clamp; rw [if_neg (not_lt.mpr h)]

theorem clampLe_eq {x : F} (h : 1 / 10 ^ 30 < |x|) : clampLe x = x := by
  unfold clampLe; rw [if_neg (not_le.mpr h)]

theorem ne_of_abs {x : F} (h : 1 / 10 ^ 30 ≤ |x|) : x ≠ 0 := by
  rintro rfl
  rw [abs_zero] at h
  have : (0 : F) < 1 / 10 ^ 30 := by positivity
  linarith

theorem sandwich_mulVec (B : Matrix (Fin n) (Fin n) F) (s x : Fin n → F) (hB : Bᵀ = B) :
    (B * vecMulVec s s * Bᵀ) *ᵥ x = (s ⬝ᵥ (B *ᵥ x)) • (B *ᵥ s) := by
  rw [hB, ← mulVec_mulVec, ← mulVec_mulVec, vecMulVec_mulVec, op_smul_eq_smul, mulVec_smul]

theorem hessWith_mulVec (d : F) (B : Matrix (Fin n) (Fin n) F) (s y x : Fin n → F) (hB : Bᵀ = B) :
    hessWith d B s y *ᵥ x = B *ᵥ x + (1 / clamp (y ⬝ᵥ s) * (y ⬝ᵥ x)) • y -
      (1 / d * (s ⬝ᵥ (B *ᵥ x))) • (B *ᵥ s) := by
  rw [hessWith, sub_mulVec, add_mulVec, smul_mulVec, smul_mulVec, sandwich_mulVec B s x hB, vecMulVec_mulVec,
    op_smul_eq_smul, smul_smul, smul_smul]

theorem invWith_mulVec (c : F) (H : Matrix (Fin n) (Fin n) F) (s y x : Fin n → F) :
    invWith c H s y *ᵥ x =
      H *ᵥ (x - (1 / c * (s ⬝ᵥ x)) • y) - (1 / c * (y ⬝ᵥ (H *ᵥ (x - (1 / c * (s ⬝ᵥ x)) • y)))) • s +
        (1 / c * (s ⬝ᵥ x)) • s := by
  have e : (1 - (1 / c) • vecMulVec y s) *ᵥ x = x - (1 / c * (s ⬝ᵥ x)) • y := by
    rw [sub_mulVec, one_mulVec, smul_mulVec, vecMulVec_mulVec, op_smul_eq_smul, smul_smul]
  rw [invWith, add_mulVec, ← mulVec_mulVec, ← mulVec_mulVec, e, sub_mulVec, one_mulVec, smul_mulVec, vecMulVec_mulVec,
    op_smul_eq_smul, smul_smul, smul_mulVec, vecMulVec_mulVec, op_smul_eq_smul, smul_smul]

/-- **C45 (secant equation).** Away from the guarded denominators both updates satisfy it: `B₁ s = y`. -/
theorem C45_secant_partial (B : Matrix (Fin n) (Fin n) F) (s y : Fin n → F) (hB : Bᵀ = B)
    (h1 : 1 / 10 ^ 30 ≤ |y ⬝ᵥ s|) (h2 : 1 / 10 ^ 30 < |s ⬝ᵥ (B *ᵥ s)|) :
    hess B s y *ᵥ s = y ∧ hessInit B s y *ᵥ s = y := by
  have n1 := ne_of_abs h1
  have n2 := ne_of_abs h2.le
  constructor
  · rw [hess, hessWith_mulVec _ _ _ _ _ hB, clamp_eq h1, clampLe_eq h2, one_div_mul_cancel n1, one_div_mul_cancel n2]
    module
  · rw [hessInit, hessWith_mulVec _ _ _ _ _ hB, clamp_eq h1, clamp_eq h2.le, one_div_mul_cancel n1,
      one_div_mul_cancel n2]
    module

/-- **C45 (secant equation, inverse).** `H₁ y = s`. -/
theorem C45_secant_inv_partial (H : Matrix (Fin n) (Fin n) F) (s y : Fin n → F) (h1 : 1 / 10 ^ 30 ≤ |y ⬝ᵥ s|) :
    inv H s y *ᵥ y = s := by
  have n1 := ne_of_abs h1
  rw [BFGS.inv, invWith_mulVec, clamp_eq h1, dotProduct_comm s y, one_div_mul_cancel n1, one_smul, sub_self, mulVec_zero,
    dotProduct_zero]
  module

/-- **C45 (secant equation, ACSE).** No guard there: any nonzero `y·s` will do. -/
theorem C45_secant_acse (first : Bool) (H : Matrix (Fin n) (Fin n) F) (s y : Fin n → F) (h1 : y ⬝ᵥ s ≠ 0) :
    acseInv first H s y *ᵥ y = s := by
  rw [acseInv, invWith_mulVec, dotProduct_comm s y, one_div_mul_cancel h1, one_smul, sub_self, mulVec_zero,
    dotProduct_zero]
  module

/-- **C45 violated** by the guard: for `s·y = 1e-32 > 0` the updated matrix does not map `s` to `y`. -/
theorem C45_secant_guarded :
    inv (F := ℚ) (n := 1) 1 (fun _ => 1 / 10 ^ 16) (fun _ => 1 / 10 ^ 16) *ᵥ (fun _ => 1 / 10 ^ 16) ≠
      fun _ => 1 / 10 ^ 16 := by
  intro h
  have := congrFun h 0
  revert this
  decide +kernel

theorem vecMulVec_transpose' (s y : Fin n → F) : (vecMulVec s y)ᵀ = vecMulVec y s := by
  ext i j; simp [vecMulVec_apply, mul_comm]

/-- **C45.** The updates keep symmetry, for every step. -/
theorem C45_symmetric (B H : Matrix (Fin n) (Fin n) F) (s y : Fin n → F) (hB : Bᵀ = B) (hH : Hᵀ = H) (first : Bool) :
    (hess B s y)ᵀ = hess B s y ∧ (hessInit B s y)ᵀ = hessInit B s y ∧ (inv H s y)ᵀ = inv H s y ∧
      (acseInv first H s y)ᵀ = acseInv first H s y := by
  have hh : ∀ d : F, (hessWith d B s y)ᵀ = hessWith d B s y := by
    intro d
    simp only [hessWith, transpose_sub, transpose_add, transpose_smul, transpose_mul, vecMulVec_transpose',
      transpose_transpose, hB]
    rw [Matrix.mul_assoc]
  have hi : ∀ (c : F) (G : Matrix (Fin n) (Fin n) F), Gᵀ = G → (invWith c G s y)ᵀ = invWith c G s y := by
    intro c G hG
    simp only [invWith, transpose_sub, transpose_add, transpose_smul, transpose_mul, vecMulVec_transpose',
      transpose_one, hG]
    rw [Matrix.mul_assoc]
  refine ⟨hh _, hh _, hi _ _ hH, hi _ _ ?_⟩
  split_ifs
  · simp
  · exact hH

/-- **C45.** The two matrices stay inverse to each other, away from the guarded denominators. -/
theorem C45_inverse_partial (B H : Matrix (Fin n) (Fin n) F) (s y : Fin n → F) (hB : Bᵀ = B) (hBH : B * H = 1)
    (h1 : 1 / 10 ^ 30 ≤ |y ⬝ᵥ s|) (h2 : 1 / 10 ^ 30 < |s ⬝ᵥ (B *ᵥ s)|) :
    hess B s y * inv H s y = 1 ∧ inv H s y * hess B s y = 1 := by
  have n1 := ne_of_abs h1
  have n2 := ne_of_abs h2.le
  have hHB : H * B = 1 := mul_eq_one_comm.mp hBH
  have key : hess B s y * inv H s y = 1 := by
    have : ∀ x, (hess B s y * inv H s y) *ᵥ x = (1 : Matrix (Fin n) (Fin n) F) *ᵥ x := by
      intro x
      rw [one_mulVec, ← mulVec_mulVec, BFGS.inv, clamp_eq h1, invWith_mulVec]
      set u := x - (1 / (y ⬝ᵥ s) * (s ⬝ᵥ x)) • y with hu
      have hBHu : B *ᵥ (H *ᵥ u) = u := by rw [mulVec_mulVec, hBH, one_mulVec]
      have hsu : s ⬝ᵥ u = 0 := by
        rw [hu, dotProduct_sub, dotProduct_smul, smul_eq_mul, dotProduct_comm s y]
        field_simp
        ring
      rw [mulVec_add, mulVec_sub, mulVec_smul, mulVec_smul, (C45_secant_partial B s y hB h1 h2).1, hess,
        hessWith_mulVec _ _ _ _ _ hB, hBHu, hsu, clamp_eq h1]
      rw [hu]
      module
    exact Matrix.ext_of_mulVec_single (fun i => this _)
  exact ⟨key, mul_eq_one_comm.mp key⟩

theorem quad_hess (d : F) (B : Matrix (Fin n) (Fin n) F) (s y x : Fin n → F) (hB : Bᵀ = B) :
    x ⬝ᵥ (hessWith d B s y *ᵥ x) =
      x ⬝ᵥ (B *ᵥ x) + 1 / clamp (y ⬝ᵥ s) * (y ⬝ᵥ x) ^ 2 - 1 / d * (s ⬝ᵥ (B *ᵥ x)) ^ 2 := by
  have hs : x ⬝ᵥ (B *ᵥ s) = s ⬝ᵥ (B *ᵥ x) := by
    rw [dotProduct_mulVec, ← mulVec_transpose, hB, dotProduct_comm]
  rw [hessWith_mulVec _ _ _ _ _ hB, dotProduct_sub, dotProduct_add, dotProduct_smul, dotProduct_smul, hs,
    dotProduct_comm x y, smul_eq_mul, smul_eq_mul]
  ring

theorem hessWith_posDef (d : F) (B : Matrix (Fin n) (Fin n) F) (s y : Fin n → F) (hB : PosDefSym B)
    (hsy : 0 < y ⬝ᵥ s) (hd : s ⬝ᵥ (B *ᵥ s) ≤ d) (x : Fin n → F) (hx : x ≠ 0) :
    0 < x ⬝ᵥ (hessWith d B s y *ᵥ x) := by
  have hs0 : s ≠ 0 := by rintro rfl; simp at hsy
  have hq := hB.2 s hs0
  have hd0 : 0 < d := lt_of_lt_of_le hq hd
  rw [quad_hess d B s y x hB.1]
  set q := s ⬝ᵥ (B *ᵥ s) with hqd
  set r := s ⬝ᵥ (B *ᵥ x) with hr
  have hc := clamp_pos hsy
  set z := x - (r / q) • s with hz
  have hzz : z ⬝ᵥ (B *ᵥ z) = x ⬝ᵥ (B *ᵥ x) - r ^ 2 / q := by
    have hs : x ⬝ᵥ (B *ᵥ s) = r := by
      rw [hr, dotProduct_mulVec, ← mulVec_transpose, hB.1, dotProduct_comm]
    rw [hz, mulVec_sub, mulVec_smul, sub_dotProduct, dotProduct_sub, dotProduct_sub, smul_dotProduct, smul_dotProduct,
      dotProduct_smul, dotProduct_smul, hs, ← hr, ← hqd]
    simp only [smul_eq_mul]
    field_simp
    ring
  have hle : 1 / d * r ^ 2 ≤ r ^ 2 / q := by
    rw [div_eq_mul_one_div (r ^ 2) q, mul_comm]
    exact mul_le_mul_of_nonneg_left (one_div_le_one_div_of_le hq hd) (sq_nonneg r)
  have hy2 : 0 ≤ 1 / clamp (y ⬝ᵥ s) * (y ⬝ᵥ x) ^ 2 := by positivity
  by_cases h0 : z = 0
  · have hxs : x = (r / q) • s := by rw [hz, sub_eq_zero] at h0; exact h0
    have hrq : r / q ≠ 0 := by
      intro h; rw [h, zero_smul] at hxs; exact hx hxs
    have hyx : y ⬝ᵥ x ≠ 0 := by
      rw [hxs, dotProduct_smul, smul_eq_mul]; exact mul_ne_zero hrq hsy.ne'
    have : 0 < 1 / clamp (y ⬝ᵥ s) * (y ⬝ᵥ x) ^ 2 := by positivity
    rw [h0, zero_dotProduct] at hzz
    linarith
  · have := hB.2 z h0
    linarith

theorem invWith_posDef (c : F) (hc : 0 < c) (H : Matrix (Fin n) (Fin n) F) (s y : Fin n → F) (hH : PosDefSym H)
    (x : Fin n → F) (hx : x ≠ 0) : 0 < x ⬝ᵥ (invWith c H s y *ᵥ x) := by
  have e : x ⬝ᵥ (invWith c H s y *ᵥ x) =
      (x - (1 / c * (s ⬝ᵥ x)) • y) ⬝ᵥ (H *ᵥ (x - (1 / c * (s ⬝ᵥ x)) • y)) + 1 / c * (s ⬝ᵥ x) ^ 2 := by
    rw [invWith_mulVec]
    set u := x - (1 / c * (s ⬝ᵥ x)) • y with hu
    rw [dotProduct_add, dotProduct_sub, dotProduct_smul, dotProduct_smul, dotProduct_comm x s, smul_eq_mul, smul_eq_mul]
    have : u ⬝ᵥ (H *ᵥ u) = x ⬝ᵥ (H *ᵥ u) - 1 / c * (s ⬝ᵥ x) * (y ⬝ᵥ (H *ᵥ u)) := by
      conv_lhs => rw [hu, sub_dotProduct, smul_dotProduct, smul_eq_mul, ← hu]
    rw [this]; ring
  rw [e]
  have h2 : 0 ≤ 1 / c * (s ⬝ᵥ x) ^ 2 := by positivity
  by_cases h0 : x - (1 / c * (s ⬝ᵥ x)) • y = 0
  · have : s ⬝ᵥ x ≠ 0 := by
      intro h; rw [h, mul_zero, zero_smul, sub_zero] at h0; exact hx h0
    have : 0 < 1 / c * (s ⬝ᵥ x) ^ 2 := by positivity
    rw [h0, zero_dotProduct]; linarith
  · have := hH.2 _ h0
    linarith

/-- **C45.** Both updates keep positive definiteness whenever `s·y > 0`, guarded denominators included. -/
theorem C45_posDef (B H : Matrix (Fin n) (Fin n) F) (s y : Fin n → F) (hB : PosDefSym B) (hH : PosDefSym H)
    (hsy : 0 < y ⬝ᵥ s) (first : Bool) :
    PosDefSym (hess B s y) ∧ PosDefSym (hessInit B s y) ∧ PosDefSym (inv H s y) ∧ PosDefSym (acseInv first H s y) := by
  obtain ⟨t1, t2, t3, t4⟩ := C45_symmetric B H s y hB.1 hH.1 first
  have hs0 : s ≠ 0 := by rintro rfl; simp at hsy
  have hy0 : y ≠ 0 := by rintro rfl; simp at hsy
  have hq := hB.2 s hs0
  refine ⟨⟨t1, hessWith_posDef _ B s y hB hsy (clampLe_ge hq).1⟩, ⟨t2, hessWith_posDef _ B s y hB hsy (clamp_ge hq).1⟩,
    ⟨t3, invWith_posDef _ (clamp_pos hsy) H s y hH⟩, ⟨t4, invWith_posDef _ hsy _ s y ?_⟩⟩
  split_ifs
  · refine ⟨by simp, fun x hx => ?_⟩
    have pos : ∀ v : Fin n → F, v ≠ 0 → 0 < v ⬝ᵥ v := by
      intro v hv
      obtain ⟨i, hi⟩ := Function.ne_iff.mp hv
      refine Finset.sum_pos' (fun j _ => mul_self_nonneg _) ⟨i, Finset.mem_univ i, mul_self_pos.mpr hi⟩
    rw [smul_mulVec, one_mulVec, dotProduct_smul, smul_eq_mul]
    exact mul_pos (div_pos hsy (pos y hy0)) (pos x hx)
  · exact hH

/-- A step in two dimensions with `s·y > 0` from the identity: hypotheses met. -/
example : (0 : ℚ) < (![3, 1] : Fin 2 → ℚ) ⬝ᵥ ![1, 2] ∧ (1 / 10 ^ 30 : ℚ) ≤ |(![3, 1] : Fin 2 → ℚ) ⬝ᵥ ![1, 2]| ∧
    inv (F := ℚ) 1 ![1, 2] ![3, 1] *ᵥ ![3, 1] = ![1, 2] := by decide +kernel

end HQCA.Props
