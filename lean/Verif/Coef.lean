import Mathlib.Analysis.Complex.Basic
import Mathlib.Tactic.Ring
import Mathlib.Tactic.FieldSimp
import Mathlib.Tactic.NormNum
import Mathlib.Tactic.Linarith

/-!
# Coefficients

The repository uses Python `complex` (or sympy) coefficients.  `Coef K` is what the modelled code
needs from them: field arithmetic, the imaginary unit `1j`, and the test `abs(c) <= 1e-12`
(`hqca/operators/_operator.py:164`).  Floating point rounding is not modelled.
-/

namespace HQCA

/-- Coefficient domain: a field with an imaginary unit `1j`, complex conjugation (`c.real-1j*c.imag`,
`_fermi_string.py:55`), the test `coeff==0` (`_fermi_string.py:261`) and the smallness test of
`hqca/operators/_operator.py:164` (`abs(n.c)<=1e-12`). -/
class Coef (K : Type) extends Field K where
  I : K
  I_mul_I : I * I = -1
  two_ne_zero' : (2 : K) ≠ 0
  conj : K → K
  conj_add : ∀ a b, conj (a + b) = conj a + conj b
  conj_mul : ∀ a b, conj (a * b) = conj a * conj b
  conj_conj : ∀ a, conj (conj a) = a
  conj_I : conj I = -I
  isZero : K → Bool
  isZero_iff : ∀ c, isZero c = true ↔ c = 0
  small : K → Bool
  small_zero : small 0 = true
  small_neg : ∀ c, small (-c) = small c
  small_I : ∀ c, small (I * c) = small c
  small_half : ∀ c, small c = true → small (c / 2) = true
  half_not_small : small (1 / 2) = false

export Coef (I small conj isZero)

/-- The complex numbers with the repository's threshold `1e-12`. -/
noncomputable instance : Coef ℂ where
  I := Complex.I
  I_mul_I := Complex.I_mul_I
  two_ne_zero' := two_ne_zero
  conj := starRingEnd ℂ
  conj_add := map_add _
  conj_mul := map_mul _
  conj_conj := Complex.conj_conj
  conj_I := Complex.conj_I
  isZero c := decide (c = 0)
  isZero_iff c := by simp
  small c := decide (‖c‖ ≤ (1e-12 : ℝ))
  small_zero := by simp; norm_num
  small_neg c := by simp
  small_I c := by simp
  small_half c h := by
    simp only [decide_eq_true_eq, norm_div] at h ⊢
    have h2 : ‖(2 : ℂ)‖ = 2 := by simp
    rw [h2]
    have := norm_nonneg c
    linarith
  half_not_small := by
    have h2 : ‖(1 / 2 : ℂ)‖ = 1 / 2 := by rw [norm_div]; simp
    simp only [decide_eq_false_iff_not, h2]
    norm_num

/-- Gaussian rationals: the computable instance used for concrete cases. -/
@[ext] structure GQ where
  re : ℚ
  im : ℚ
deriving DecidableEq

namespace GQ

instance : Zero GQ := ⟨⟨0, 0⟩⟩
instance : One GQ := ⟨⟨1, 0⟩⟩
instance : Add GQ := ⟨fun a b => ⟨a.re + b.re, a.im + b.im⟩⟩
instance : Neg GQ := ⟨fun a => ⟨-a.re, -a.im⟩⟩
instance : Sub GQ := ⟨fun a b => ⟨a.re - b.re, a.im - b.im⟩⟩
instance : Mul GQ := ⟨fun a b => ⟨a.re * b.re - a.im * b.im, a.re * b.im + a.im * b.re⟩⟩
instance : Inv GQ :=
  ⟨fun a => ⟨a.re / (a.re * a.re + a.im * a.im), -a.im / (a.re * a.re + a.im * a.im)⟩⟩

@[simp] theorem zero_re : (0 : GQ).re = 0 := rfl
@[simp] theorem zero_im : (0 : GQ).im = 0 := rfl
@[simp] theorem one_re : (1 : GQ).re = 1 := rfl
@[simp] theorem one_im : (1 : GQ).im = 0 := rfl
@[simp] theorem add_re (a b : GQ) : (a + b).re = a.re + b.re := rfl
@[simp] theorem add_im (a b : GQ) : (a + b).im = a.im + b.im := rfl
@[simp] theorem neg_re (a : GQ) : (-a).re = -a.re := rfl
@[simp] theorem neg_im (a : GQ) : (-a).im = -a.im := rfl
@[simp] theorem sub_re (a b : GQ) : (a - b).re = a.re - b.re := rfl
@[simp] theorem sub_im (a b : GQ) : (a - b).im = a.im - b.im := rfl
@[simp] theorem mul_re (a b : GQ) : (a * b).re = a.re * b.re - a.im * b.im := rfl
@[simp] theorem mul_im (a b : GQ) : (a * b).im = a.re * b.im + a.im * b.re := rfl
@[simp] theorem inv_re (a : GQ) : (a⁻¹).re = a.re / (a.re * a.re + a.im * a.im) := rfl
@[simp] theorem inv_im (a : GQ) : (a⁻¹).im = -a.im / (a.re * a.re + a.im * a.im) := rfl

instance : CommRing GQ where
  add_assoc a b c := by ext <;> simp <;> ring
  zero_add a := by ext <;> simp
  add_zero a := by ext <;> simp
  add_comm a b := by ext <;> simp <;> ring
  mul_assoc a b c := by ext <;> simp <;> ring
  one_mul a := by ext <;> simp
  mul_one a := by ext <;> simp
  left_distrib a b c := by ext <;> simp <;> ring
  right_distrib a b c := by ext <;> simp <;> ring
  zero_mul a := by ext <;> simp
  mul_zero a := by ext <;> simp
  mul_comm a b := by ext <;> simp <;> ring
  neg_add_cancel a := by ext <;> simp
  sub_eq_add_neg a b := by ext <;> simp <;> ring
  nsmul := nsmulRec
  zsmul := zsmulRec

theorem normSq_ne_zero {a : GQ} (h : a ≠ 0) : a.re * a.re + a.im * a.im ≠ 0 := by
  intro h0
  apply h
  have h1 : a.re * a.re ≥ 0 := mul_self_nonneg _
  have h2 : a.im * a.im ≥ 0 := mul_self_nonneg _
  have h3 : a.re * a.re = 0 := by linarith
  have h4 : a.im * a.im = 0 := by linarith
  ext
  · simpa using h3
  · simpa using h4

instance : Field GQ where
  inv := Inv.inv
  exists_pair_ne := ⟨0, 1, by decide⟩
  mul_inv_cancel a h := by
    have hn := normSq_ne_zero h
    ext
    · simp only [mul_re, inv_re, inv_im, one_re]
      rw [mul_div_assoc', mul_div_assoc', ← sub_div, div_eq_one_iff_eq hn]; ring
    · simp only [mul_im, inv_re, inv_im, one_im]; ring
  inv_zero := by ext <;> simp
  nnqsmul := _
  nnqsmul_def := fun _ _ => rfl
  qsmul := _
  qsmul_def := fun _ _ => rfl

theorem two_eq : (2 : GQ) = ⟨2, 0⟩ := by
  have : (2 : GQ) = 1 + 1 := by norm_num
  rw [this]; ext <;> simp; norm_num

theorem div_two (a : GQ) : a / 2 = ⟨a.re / 2, a.im / 2⟩ := by
  rw [div_eq_mul_inv, two_eq]
  ext
  · simp; ring
  · simp; ring

instance : Coef GQ where
  I := ⟨0, 1⟩
  I_mul_I := by ext <;> simp
  two_ne_zero' := by rw [two_eq]; decide
  conj a := ⟨a.re, -a.im⟩
  conj_add a b := by ext <;> simp; ring
  conj_mul a b := by ext <;> simp; ring
  conj_conj a := by ext <;> simp
  conj_I := by ext <;> simp
  isZero c := decide (c = 0)
  isZero_iff c := by simp
  small c := decide (c.re * c.re + c.im * c.im ≤ 1 / 10 ^ 24)
  small_zero := by simp
  small_neg c := by simp
  small_I c := by simp [add_comm]
  small_half c h := by
    rw [div_two]
    simp only [decide_eq_true_eq] at h ⊢
    have h1 : c.re * c.re ≥ 0 := mul_self_nonneg _
    have h2 : c.im * c.im ≥ 0 := mul_self_nonneg _
    nlinarith
  half_not_small := by
    rw [div_two]
    simp only [decide_eq_false_iff_not, one_re, one_im]
    norm_num

end GQ

end HQCA
