import Verif.Spec.Site

/-!
# Fock-space lemmas

The ladder operators of `Verif.Spec.Site` satisfy the canonical anticommutation relations.  These are
facts about the specification, used by the proofs about the modelled code.
-/

namespace HQCA

section
variable {K : Type} [Coef K]

@[simp] theorem mX_ff : (mX : M2 K) false false = 0 := rfl
@[simp] theorem mX_ft : (mX : M2 K) false true = 1 := rfl
@[simp] theorem mX_tf : (mX : M2 K) true false = 1 := rfl
@[simp] theorem mX_tt : (mX : M2 K) true true = 0 := rfl
@[simp] theorem mZ_ff : (mZ : M2 K) false false = 1 := rfl
@[simp] theorem mZ_ft : (mZ : M2 K) false true = 0 := rfl
@[simp] theorem mZ_tf : (mZ : M2 K) true false = 0 := rfl
@[simp] theorem mZ_tt : (mZ : M2 K) true true = -1 := rfl
@[simp] theorem mY_ff : (mY : M2 K) false false = 0 := rfl
@[simp] theorem mY_ft : (mY : M2 K) false true = -I := rfl
@[simp] theorem mY_tf : (mY : M2 K) true false = I := rfl
@[simp] theorem mY_tt : (mY : M2 K) true true = 0 := rfl
@[simp] theorem mLow_ff : (mLow : M2 K) false false = 0 := rfl
@[simp] theorem mLow_ft : (mLow : M2 K) false true = 1 := rfl
@[simp] theorem mLow_tf : (mLow : M2 K) true false = 0 := rfl
@[simp] theorem mLow_tt : (mLow : M2 K) true true = 0 := rfl
@[simp] theorem mRaise_ff : (mRaise : M2 K) false false = 0 := rfl
@[simp] theorem mRaise_ft : (mRaise : M2 K) false true = 0 := rfl
@[simp] theorem mRaise_tf : (mRaise : M2 K) true false = 1 := rfl
@[simp] theorem mRaise_tt : (mRaise : M2 K) true true = 0 := rfl
@[simp] theorem mOcc_ff : (mOcc : M2 K) false false = 0 := rfl
@[simp] theorem mOcc_ft : (mOcc : M2 K) false true = 0 := rfl
@[simp] theorem mOcc_tf : (mOcc : M2 K) true false = 0 := rfl
@[simp] theorem mOcc_tt : (mOcc : M2 K) true true = 1 := rfl
@[simp] theorem mEmp_ff : (mEmp : M2 K) false false = 1 := rfl
@[simp] theorem mEmp_ft : (mEmp : M2 K) false true = 0 := rfl
@[simp] theorem mEmp_tf : (mEmp : M2 K) true false = 0 := rfl
@[simp] theorem mEmp_tt : (mEmp : M2 K) true true = 0 := rfl

@[simp] theorem I_mul_I : (I : K) * I = -1 := Coef.I_mul_I

@[simp] theorem one_ff : (1 : M2 K) false false = 1 := rfl
@[simp] theorem one_ft : (1 : M2 K) false true = 0 := rfl
@[simp] theorem one_tf : (1 : M2 K) true false = 0 := rfl
@[simp] theorem one_tt : (1 : M2 K) true true = 1 := rfl

theorem I_ne_zero : (I : K) ≠ 0 := by
  intro h
  have := I_mul_I (K := K)
  rw [h] at this
  simp at this

/-- Solve an identity between `2 × 2` letter matrices entrywise. -/
macro "m2" : tactic => `(tactic|
  (apply M2.ext <;> simp [Matrix.mul_apply, Fintype.sum_bool] <;> (try ring)))

theorem mZ_mul_mZ : (mZ : M2 K) * mZ = 1 := by m2
theorem mX_mul_mX : (mX : M2 K) * mX = 1 := by m2
theorem mY_mul_mY : (mY : M2 K) * mY = 1 := by m2
theorem mX_mul_mZ : (mX : M2 K) * mZ = (-I : K) • (mY : M2 K) := by m2
theorem mZ_mul_mX : (mZ : M2 K) * mX = (I : K) • (mY : M2 K) := by m2
theorem mX_mul_mY : (mX : M2 K) * mY = (I : K) • (mZ : M2 K) := by m2
theorem mY_mul_mX : (mY : M2 K) * mX = (-I : K) • (mZ : M2 K) := by m2
theorem mY_mul_mZ : (mY : M2 K) * mZ = (I : K) • (mX : M2 K) := by m2
theorem mZ_mul_mY : (mZ : M2 K) * mY = (-I : K) • (mX : M2 K) := by m2

/-- The Z string `Z_0 Z_1 … Z_{k-1}`. -/
def zstr : ℕ → Oper K
  | 0 => 1
  | k+1 => zstr k * site k mZ

theorem fsign_succ (b : Cfg) (k : ℕ) :
    (fsign b (k+1) : K) = fsign b k * (if b k then -1 else 1) := by
  unfold fsign
  rw [Finset.range_add_one, Finset.filter_insert]
  by_cases h : b k
  · simp [h, pow_succ]
  · simp [h]

theorem site_mZ_apply (k : ℕ) (ψ : Cfg → K) (b : Cfg) :
    site k mZ ψ b = (if b k then -1 else 1) * ψ b := by
  simp only [site_apply]
  rcases h : b k
  · have : Function.update b k false = b := by rw [← h]; exact Function.update_eq_self k b
    simp [this]
  · have : Function.update b k true = b := by rw [← h]; exact Function.update_eq_self k b
    simp [this]

theorem zstr_apply (k : ℕ) (ψ : Cfg → K) (b : Cfg) : zstr k ψ b = fsign b k * ψ b := by
  induction k generalizing ψ with
  | zero => simp [zstr, fsign]
  | succ k ih =>
    simp only [zstr, Module.End.mul_apply]
    rw [ih, site_mZ_apply, fsign_succ]; ring

theorem fsign_update (b : Cfg) (k : ℕ) (x : Bool) :
    (fsign (Function.update b k x) k : K) = fsign b k := by
  unfold fsign
  congr 2
  apply Finset.filter_congr
  intro j hj
  have : j ≠ k := by have := Finset.mem_range.mp hj; omega
  simp [Function.update_of_ne this]

theorem ann_eq (k : ℕ) : (ann k : Oper K) = zstr k * site k mLow := by
  ext ψ b
  simp only [Module.End.mul_apply, zstr_apply, site_apply]
  show (if b k then 0 else fsign b k * ψ (Function.update b k true)) = _
  rcases h : b k <;> simp

theorem cre_eq (k : ℕ) : (cre k : Oper K) = zstr k * site k mRaise := by
  ext ψ b
  simp only [Module.End.mul_apply, zstr_apply, site_apply]
  show (if b k then fsign b k * ψ (Function.update b k false) else 0) = _
  rcases h : b k <;> simp

theorem zstr_site_ge {j k : ℕ} (h : j ≤ k) (m : M2 K) : zstr j * site k m = site k m * zstr j := by
  induction j with
  | zero => simp [zstr]
  | succ j ih =>
    simp only [zstr]
    rw [mul_assoc, site_comm (by omega : j ≠ k), ← mul_assoc, ih (by omega), mul_assoc]

theorem zstr_site_lt {j k : ℕ} (h : k < j) (m : M2 K) :
    zstr j * site k m = site k (mZ * m * mZ) * zstr j := by
  induction j with
  | zero => omega
  | succ j ih =>
    simp only [zstr]
    rcases Nat.lt_or_ge k j with hk | hk
    · rw [mul_assoc, site_comm (by omega : j ≠ k), ← mul_assoc, ih hk, mul_assoc]
    · have : k = j := by omega
      subst this
      have e : mZ * m * mZ * mZ = mZ * m := by rw [mul_assoc, mZ_mul_mZ, mul_one]
      rw [mul_assoc, ← site_mul, zstr_site_ge le_rfl, zstr_site_ge le_rfl, ← mul_assoc, ← site_mul, e]

theorem zstr_mul_self (k : ℕ) : (zstr k : Oper K) * zstr k = 1 := by
  induction k with
  | zero => simp [zstr]
  | succ k ih =>
    simp only [zstr]
    rw [mul_assoc, ← mul_assoc (site k mZ), ← zstr_site_ge le_rfl, mul_assoc, ← site_mul, mZ_mul_mZ,
      site_one, mul_one, ih]

theorem zstr_comm (j k : ℕ) : (zstr j : Oper K) * zstr k = zstr k * zstr j := by
  ext ψ b
  simp only [Module.End.mul_apply, zstr_apply]
  ring

end

end HQCA
