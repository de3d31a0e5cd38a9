import Verif.Model.ExactUnitary
import Verif.Props.Gadget

/-!
# C81, C82: exponentials on one qubit
-/

set_option linter.unusedSectionVars false

namespace HQCA
namespace Props
open Exact Prim Real

/-- `x X + y Y + z Z` on qubit 0 (specification). -/
noncomputable def spin (v : PL → ℝ) : Oper ℂ :=
  site 0 ((v .X : ℂ) • mX + (v .Y : ℂ) • mY + (v .Z : ℂ) • mZ)

theorem rotM_entries (v : PL → ℝ) (s : ℝ) : rotM v s =
    mat2 (cos (len v * s) - Complex.I * ((sin (len v * s) / len v * v .Z : ℝ) : ℂ))
      (-Complex.I * ((sin (len v * s) / len v * v .X : ℝ) : ℂ) - ((sin (len v * s) / len v * v .Y : ℝ) : ℂ))
      (-Complex.I * ((sin (len v * s) / len v * v .X : ℝ) : ℂ) + ((sin (len v * s) / len v * v .Y : ℝ) : ℂ))
      (cos (len v * s) + Complex.I * ((sin (len v * s) / len v * v .Z : ℝ) : ℂ)) := by
  have h : 2 * len v * s / 2 = len v * s := by ring
  have i2 : Complex.I ^ 2 = -1 := Complex.I_sq
  unfold rotM
  simp only [h]
  apply M2.ext <;> simp [mat2] <;> ring_nf <;> simp only [i2] <;> ring_nf


theorem len_nonneg (v : PL → ℝ) : 0 ≤ len v := Real.sqrt_nonneg _

theorem len_sq (v : PL → ℝ) : len v ^ 2 = v .X ^ 2 + v .Y ^ 2 + v .Z ^ 2 := by
  unfold len
  rw [Real.sq_sqrt (by nlinarith [sq_nonneg (v .X), sq_nonneg (v .Y), sq_nonneg (v .Z)])]
  ring

theorem len_zero {v : PL → ℝ} (h : len v = 0) : v .X = 0 ∧ v .Y = 0 ∧ v .Z = 0 := by
  have := len_sq v
  rw [h] at this
  refine ⟨?_, ?_, ?_⟩ <;> nlinarith [sq_nonneg (v .X), sq_nonneg (v .Y), sq_nonneg (v .Z)]

theorem spin_sq (v : PL → ℝ) (h : len v ≠ 0) :
    ((len v : ℂ)⁻¹ • spin v) * ((len v : ℂ)⁻¹ • spin v) = 1 := by
  have hl : (len v : ℂ) ≠ 0 := by exact_mod_cast h
  have i2 : Complex.I ^ 2 = -1 := Complex.I_sq
  have e : ((v .X : ℂ) • (mX : M2 ℂ) + (v .Y : ℂ) • mY + (v .Z : ℂ) • mZ) =
      mat2 (v .Z : ℂ) (v .X - Complex.I * v .Y) (v .X + Complex.I * v .Y) (-v .Z) := by
    rw [mX_eq, mY_eq, mZ_eq]
    apply M2.ext <;> simp [mat2] <;> ring
  have hs : (len v : ℂ) ^ 2 = (v .X : ℂ) ^ 2 + (v .Y : ℂ) ^ 2 + (v .Z : ℂ) ^ 2 := by exact_mod_cast len_sq v
  unfold spin
  rw [e, smul_mul_smul_comm, ← site_mul, mat2_mul, ← site_smul, ← site_one (K := ℂ) 0, one_eq]
  congr 1
  have hk : (len v : ℂ)⁻¹ * (len v : ℂ)⁻¹ * ((v .X : ℂ) ^ 2 + (v .Y : ℂ) ^ 2 + (v .Z : ℂ) ^ 2) = 1 := by
    rw [← hs]; field_simp
  generalize (len v : ℂ)⁻¹ = r at *
  apply M2.ext <;> simp [mat2]
  · linear_combination hk - r * r * (v .Y : ℂ) ^ 2 * i2
  · ring_nf; simp
  · ring_nf; simp
  · linear_combination hk - r * r * (v .Y : ℂ) ^ 2 * i2

/-- The matrix `new` of the code is the exponential of `-i scale (x X + y Y + z Z)`. -/
theorem rot_isExp (v : PL → ℝ) (s : ℝ) : IsExp ((-Complex.I * s) • spin v) (site 0 (rotM v s)) := by
  by_cases h : len v = 0
  · obtain ⟨h1, h2, h3⟩ := len_zero h
    have e : rotM v s = 1 := by
      rw [rotM_entries, h, one_eq, h1, h2, h3]; simp
    have e2 : spin v = 0 := by
      unfold spin; rw [h1, h2, h3]; ext ψ b; simp [site_apply]
    rw [e, e2, site_one, smul_zero]
    have := isExp_of_sq (1 : Oper ℂ) (one_mul 1) 0
    simpa using this
  · have hl : (len v : ℂ) ≠ 0 := by exact_mod_cast h
    have := isExp_of_sq _ (spin_sq v h) (-(len v * s))
    have e1 : (Complex.I * ((-(len v * s) : ℝ) : ℂ)) • ((len v : ℂ)⁻¹ • spin v) = (-Complex.I * s) • spin v := by
      rw [smul_smul]; congr 1; push_cast; field_simp
    rw [e1] at this
    convert this using 1
    rw [cos_neg, sin_neg]
    unfold spin
    rw [← site_one (K := ℂ) 0, ← site_smul, ← site_smul, ← site_smul, ← site_add]
    congr 1
    rw [rotM_entries, one_eq, mX_eq, mY_eq, mZ_eq]
    have i2 : Complex.I ^ 2 = -1 := Complex.I_sq
    apply M2.ext <;> simp [mat2] <;> ring_nf <;> simp only [i2] <;> ring_nf

/-! ### Combination -/

theorem vals_ofVec (x y z : ℝ) :
    vals (ofVec x y z) .X = x ∧ vals (ofVec x y z) .Y = y ∧ vals (ofVec x y z) .Z = z := by
  have ht : ∀ r : ℝ, termVal (r : ℂ) = r := by
    intro r; unfold termVal; rw [if_pos (by simp; norm_num)]; simp
  refine ⟨?_, ?_, ?_⟩ <;> simp [vals, ofVec, ht]

/-- The exponential of `-i s (v·σ)` in terms of a vector `t = sin(|v| s) v/|v|` and the cosine. -/
noncomputable def quat (c x y z : ℝ) : M2 ℂ :=
  mat2 (c - Complex.I * (z : ℂ)) (-Complex.I * (x : ℂ) - (y : ℂ)) (-Complex.I * (x : ℂ) + (y : ℂ)) (c + Complex.I * (z : ℂ))

theorem quat_mul (c x y z c' x' y' z' : ℝ) : quat c' x' y' z' * quat c x y z =
    quat (c' * c - (x' * x + y' * y + z' * z)) (c' * x + c * x' + (y' * z - z' * y)) (c' * y + c * y' + (z' * x - x' * z))
      (c' * z + c * z' + (x' * y - y' * x)) := by
  have i2 : Complex.I ^ 2 = -1 := Complex.I_sq
  unfold quat
  rw [mat2_mul]
  apply M2.ext <;> simp [mat2] <;> ring_nf <;> simp only [i2] <;> ring_nf

theorem rotM_quat (v : PL → ℝ) (s : ℝ) : rotM v s = quat (cos (len v * s)) (sin (len v * s) / len v * v .X)
    (sin (len v * s) / len v * v .Y) (sin (len v * s) / len v * v .Z) := rotM_entries v s

theorem len_smul (v : PL → ℝ) (x y z s : ℝ) (op : List (PL × ℂ)) (hop : op = ofVec x y z)
    (hx : x = v .X * s) (hy : y = v .Y * s) (hz : z = v .Z * s) : rotM (vals op) 1 = rotM v s := by
  obtain ⟨e1, e2, e3⟩ := vals_ofVec x y z
  subst hop
  have hl : len (vals (ofVec x y z)) = len v * |s| := by
    have : len (vals (ofVec x y z)) ^ 2 = (len v * |s|) ^ 2 := by
      rw [len_sq, mul_pow, len_sq, sq_abs, e1, e2, e3, hx, hy, hz]; ring
    exact (pow_left_inj₀ (len_nonneg _) (mul_nonneg (len_nonneg v) (abs_nonneg s)) (by norm_num)).mp this
  rw [rotM_quat, rotM_quat, hl, e1, e2, e3, hx, hy, hz, mul_one]
  by_cases h0 : len v = 0
  · obtain ⟨a, b, c⟩ := len_zero h0
    simp [a, b, c, h0]
  by_cases hs : s = 0
  · subst hs; simp
  rcases abs_cases s with ⟨h, h'⟩ | ⟨h, h'⟩
  · rw [h]
    congr 1 <;> field_simp
  · rw [h]
    have : len v * -s = -(len v * s) := by ring
    rw [this, cos_neg, sin_neg]
    congr 1 <;> field_simp

theorem rot_of_unit (C T1 T2 T3 : ℝ) (hT : C ^ 2 + T1 ^ 2 + T2 ^ 2 + T3 ^ 2 = 1) (hs : sin (arccos C) ≠ 0) :
    rotM (vals (ofVec (1 / sin (arccos C) * T1 * arccos C) (1 / sin (arccos C) * T2 * arccos C)
      (1 / sin (arccos C) * T3 * arccos C))) 1 = quat C T1 T2 T3 := by
  obtain ⟨e1, e2, e3⟩ := vals_ofVec (1 / sin (arccos C) * T1 * arccos C) (1 / sin (arccos C) * T2 * arccos C)
      (1 / sin (arccos C) * T3 * arccos C)
  have hC : cos (arccos C) = C := Real.cos_arccos (by nlinarith [sq_nonneg T1, sq_nonneg T2, sq_nonneg T3])
    (by nlinarith [sq_nonneg T1, sq_nonneg T2, sq_nonneg T3])
  have hS := Real.sin_sq_add_cos_sq (arccos C)
  have h0 := Real.arccos_nonneg C
  have hc : arccos C ≠ 0 := by intro h; rw [h] at hs; simp at hs
  rw [hC] at hS
  have hl : len (vals (ofVec (1 / sin (arccos C) * T1 * arccos C) (1 / sin (arccos C) * T2 * arccos C)
      (1 / sin (arccos C) * T3 * arccos C))) = arccos C := by
    refine (pow_left_inj₀ (len_nonneg _) h0 (n := 2) (by norm_num)).mp ?_
    rw [len_sq, e1, e2, e3]
    field_simp
    nlinarith
  rw [rotM_quat, hl, e1, e2, e3, mul_one, hC]
  congr 1 <;> field_simp

/-- **C81.** Whenever the combination of two exponents succeeds — and neither vector is shorter than `1e-14` without being zero — its result is the exponent of the
product of the two exponentials, the first operator applied first. -/
theorem C81_combine (op1 op2 op3 : List (PL × ℂ)) (s1 s2 : ℝ) (h : combine op1 op2 s1 s2 = some op3)
    (h1 : len (vals op1) = 0 ∨ 1e-14 ≤ len (vals op1)) (h2 : len (vals op2) = 0 ∨ 1e-14 ≤ len (vals op2)) :
    ∃ E1 E2 : Oper ℂ, IsExp ((-Complex.I * s1) • spin (vals op1)) E1 ∧ IsExp ((-Complex.I * s2) • spin (vals op2)) E2 ∧
      IsExp (-Complex.I • spin (vals op3)) (E2 * E1) := by
  refine ⟨_, _, rot_isExp _ s1, rot_isExp _ s2, ?_⟩
  have key : rotM (vals op3) 1 = rotM (vals op2) s2 * rotM (vals op1) s1 := by
    unfold combine at h
    simp only [] at h
    split_ifs at h with g0 g1 g2 g3
    · have hz : len (vals op1) = 0 := by
        rcases h1 with h1 | h1
        · exact h1
        · rw [abs_of_nonneg (len_nonneg _)] at g1; linarith
      have e : rotM (vals op1) s1 = 1 := by
        obtain ⟨a, b, c⟩ := len_zero hz
        rw [rotM_entries, hz, one_eq, a, b, c]; simp
      rw [e, mul_one]
      exact len_smul _ _ _ _ _ _ (Option.some.inj h).symm rfl rfl rfl
    · have hz : len (vals op2) = 0 := by
        rcases h2 with h2 | h2
        · exact h2
        · rw [abs_of_nonneg (len_nonneg _)] at g2; linarith
      have e : rotM (vals op2) s2 = 1 := by
        obtain ⟨a, b, c⟩ := len_zero hz
        rw [rotM_entries, hz, one_eq, a, b, c]; simp
      rw [e, one_mul]
      exact len_smul _ _ _ _ _ _ (Option.some.inj h).symm rfl rfl rfl
    · have hn : len (vals op1) ≠ 0 := by
        intro hz; rw [hz] at g1; norm_num at g1
      have hm : len (vals op2) ≠ 0 := by
        intro hz; rw [hz] at g2; norm_num at g2
      have q1 := len_sq (vals op1)
      have q2 := len_sq (vals op2)
      simp only [abs_of_nonneg (len_nonneg _)] at h g3
      have h := (Option.some.inj h).symm
      rw [rotM_quat (vals op2), rotM_quat (vals op1), quat_mul]
      have hS1 := Real.sin_sq_add_cos_sq (len (vals op1) * s1)
      have hS2 := Real.sin_sq_add_cos_sq (len (vals op2) * s2)
      have hu : (vals op1 .X * (1 / len (vals op1))) ^ 2 + (vals op1 .Y * (1 / len (vals op1))) ^ 2 +
          (vals op1 .Z * (1 / len (vals op1))) ^ 2 = 1 := by field_simp; exact q1.symm
      have hw : (vals op2 .X * (1 / len (vals op2))) ^ 2 + (vals op2 .Y * (1 / len (vals op2))) ^ 2 +
          (vals op2 .Z * (1 / len (vals op2))) ^ 2 = 1 := by field_simp; exact q2.symm
      have d : ∀ (x y z : ℝ), x / y * z = x * (z * (1 / y)) := by intro x y z; ring
      simp only [d]
      generalize vals op1 .X * (1 / len (vals op1)) = u1 at *
      generalize vals op1 .Y * (1 / len (vals op1)) = u2 at *
      generalize vals op1 .Z * (1 / len (vals op1)) = u3 at *
      generalize vals op2 .X * (1 / len (vals op2)) = w1 at *
      generalize vals op2 .Y * (1 / len (vals op2)) = w2 at *
      generalize vals op2 .Z * (1 / len (vals op2)) = w3 at *
      generalize sin (len (vals op1) * s1) = sa at *
      generalize cos (len (vals op1) * s1) = ca at *
      generalize sin (len (vals op2) * s2) = sb at *
      generalize cos (len (vals op2) * s2) = cb at *
      rw [h, rot_of_unit _ _ _ _ _ g3]
      · congr 1 <;> ring
      · have e : ∀ C T1 T2 T3 : ℝ, C = ca * cb - (u1 * w1 + u2 * w2 + u3 * w3) * sa * sb →
            T1 = u1 * sa * cb + w1 * sb * ca - (u2 * w3 - u3 * w2) * sa * sb →
            T2 = u2 * sa * cb + w2 * sb * ca - (u3 * w1 - u1 * w3) * sa * sb →
            T3 = u3 * sa * cb + w3 * sb * ca - (u1 * w2 - u2 * w1) * sa * sb →
            C ^ 2 + T1 ^ 2 + T2 ^ 2 + T3 ^ 2 = (ca ^ 2 + sa ^ 2 * (u1 ^ 2 + u2 ^ 2 + u3 ^ 2)) *
              (cb ^ 2 + sb ^ 2 * (w1 ^ 2 + w2 ^ 2 + w3 ^ 2)) := by
          rintro C T1 T2 T3 rfl rfl rfl rfl
          ring
        rw [e _ _ _ _ rfl rfl rfl rfl, hu, hw]
        have a1 : ca ^ 2 + sa ^ 2 * 1 = 1 := by linarith
        have a2 : cb ^ 2 + sb ^ 2 * 1 = 1 := by linarith
        rw [a1, a2, one_mul]
  have := rot_isExp (vals op3) 1
  rw [key, site_mul] at this
  simpa using this

theorem quat_real {C T1 T2 T3 : ℝ} (hT : C ^ 2 + T1 ^ 2 + T2 ^ 2 + T3 ^ 2 = 1) (hs : sin (arccos C) = 0) :
    site 0 (quat C T1 T2 T3) = 1 ∨ site 0 (quat C T1 T2 T3) = -1 := by
  have hC : C ^ 2 = 1 := by
    have := Real.sin_sq_add_cos_sq (arccos C)
    rw [hs, Real.cos_arccos (by nlinarith [sq_nonneg T1, sq_nonneg T2, sq_nonneg T3])
      (by nlinarith [sq_nonneg T1, sq_nonneg T2, sq_nonneg T3])] at this
    linarith
  have z1 : T1 = 0 := by nlinarith [sq_nonneg T1, sq_nonneg T2, sq_nonneg T3]
  have z2 : T2 = 0 := by nlinarith [sq_nonneg T1, sq_nonneg T2, sq_nonneg T3]
  have z3 : T3 = 0 := by nlinarith [sq_nonneg T1, sq_nonneg T2, sq_nonneg T3]
  have hq : quat C 0 0 0 = (C : ℂ) • (1 : M2 ℂ) := by
    unfold quat; rw [one_eq]; apply M2.ext <;> simp [mat2]
  rw [z1, z2, z3, hq, site_smul, site_one]
  have h1 : C = 1 ∨ C = -1 := by
    have : (C - 1) * (C + 1) = 0 := by nlinarith
    rcases mul_eq_zero.mp this with h | h
    · left; linarith
    · right; linarith
  rcases h1 with h | h <;> rw [h]
  · left; simp
  · right
    ext ψ b
    simp

theorem quat_degenerate {sa ca sb cb u1 u2 u3 w1 w2 w3 : ℝ} (hS1 : ca ^ 2 + sa ^ 2 = 1) (hS2 : cb ^ 2 + sb ^ 2 = 1)
    (hu : u1 ^ 2 + u2 ^ 2 + u3 ^ 2 = 1) (hw : w1 ^ 2 + w2 ^ 2 + w3 ^ 2 = 1)
    (hs : sin (arccos (cb * ca - (sb * w1 * (sa * u1) + sb * w2 * (sa * u2) + sb * w3 * (sa * u3)))) = 0)
    (h1 : site 0 (quat (cb * ca - (sb * w1 * (sa * u1) + sb * w2 * (sa * u2) + sb * w3 * (sa * u3)))
      (cb * (sa * u1) + ca * (sb * w1) + (sb * w2 * (sa * u3) - sb * w3 * (sa * u2)))
      (cb * (sa * u2) + ca * (sb * w2) + (sb * w3 * (sa * u1) - sb * w1 * (sa * u3)))
      (cb * (sa * u3) + ca * (sb * w3) + (sb * w1 * (sa * u2) - sb * w2 * (sa * u1)))) ≠ 1)
    (h2 : site 0 (quat (cb * ca - (sb * w1 * (sa * u1) + sb * w2 * (sa * u2) + sb * w3 * (sa * u3)))
      (cb * (sa * u1) + ca * (sb * w1) + (sb * w2 * (sa * u3) - sb * w3 * (sa * u2)))
      (cb * (sa * u2) + ca * (sb * w2) + (sb * w3 * (sa * u1) - sb * w1 * (sa * u3)))
      (cb * (sa * u3) + ca * (sb * w3) + (sb * w1 * (sa * u2) - sb * w2 * (sa * u1)))) ≠ -1) : False := by
  refine (quat_real ?_ hs).elim h1 h2
  · have : ∀ C T1 T2 T3 : ℝ, C = cb * ca - (sb * w1 * (sa * u1) + sb * w2 * (sa * u2) + sb * w3 * (sa * u3)) →
        T1 = cb * (sa * u1) + ca * (sb * w1) + (sb * w2 * (sa * u3) - sb * w3 * (sa * u2)) →
        T2 = cb * (sa * u2) + ca * (sb * w2) + (sb * w3 * (sa * u1) - sb * w1 * (sa * u3)) →
        T3 = cb * (sa * u3) + ca * (sb * w3) + (sb * w1 * (sa * u2) - sb * w2 * (sa * u1)) →
        C ^ 2 + T1 ^ 2 + T2 ^ 2 + T3 ^ 2 = (ca ^ 2 + sa ^ 2 * (u1 ^ 2 + u2 ^ 2 + u3 ^ 2)) *
            (cb ^ 2 + sb ^ 2 * (w1 ^ 2 + w2 ^ 2 + w3 ^ 2)) := by
      rintro C T1 T2 T3 rfl rfl rfl rfl
      ring
    rw [this _ _ _ _ rfl rfl rfl rfl, hu, hw, mul_one, mul_one, hS1, hS2, one_mul]

/-- **C81, definedness.** Operators with coefficients that have an imaginary part are combined whenever the product of the two exponentials is not plus or minus
the identity. -/
theorem C81_defined (op1 op2 : List (PL × ℂ)) (s1 s2 : ℝ) (hi : ∀ t ∈ op1, 1e-12 ≤ |t.2.im|)
    (hE : ∀ E1 E2 : Oper ℂ, IsExp ((-Complex.I * s1) • spin (vals op1)) E1 → IsExp ((-Complex.I * s2) • spin (vals op2)) E2 →
      E2 * E1 ≠ 1 ∧ E2 * E1 ≠ -1) : ∃ op3, combine op1 op2 s1 s2 = some op3 := by
  have hE := hE _ _ (rot_isExp _ s1) (rot_isExp _ s2)
  rw [← site_mul] at hE
  have h0 : ¬ (op1.any (fun t => decide (|t.2.im| < 1e-12)) = true) := by
    simp only [List.any_eq_true, decide_eq_true_eq, not_exists, not_and, not_lt]
    exact hi
  unfold combine
  simp only []
  rw [if_neg h0]
  split_ifs with g1 g2 g3
  · exact ⟨_, rfl⟩
  · exact ⟨_, rfl⟩
  · exfalso
    have hn : len (vals op1) ≠ 0 := by
      intro hz; rw [hz] at g1; norm_num at g1
    have hm : len (vals op2) ≠ 0 := by
      intro hz; rw [hz] at g2; norm_num at g2
    have q1 := len_sq (vals op1)
    have q2 := len_sq (vals op2)
    simp only [abs_of_nonneg (len_nonneg _)] at g3
    rw [rotM_quat (vals op2), rotM_quat (vals op1), quat_mul] at hE
    have hS1 := Real.sin_sq_add_cos_sq (len (vals op1) * s1)
    have hS2 := Real.sin_sq_add_cos_sq (len (vals op2) * s2)
    have hu : (vals op1 .X * (1 / len (vals op1))) ^ 2 + (vals op1 .Y * (1 / len (vals op1))) ^ 2 +
        (vals op1 .Z * (1 / len (vals op1))) ^ 2 = 1 := by field_simp; exact q1.symm
    have hw : (vals op2 .X * (1 / len (vals op2))) ^ 2 + (vals op2 .Y * (1 / len (vals op2))) ^ 2 +
        (vals op2 .Z * (1 / len (vals op2))) ^ 2 = 1 := by field_simp; exact q2.symm
    have d : ∀ (x y z : ℝ), x / y * z = x * (z * (1 / y)) := by intro x y z; ring
    simp only [d] at hE
    generalize vals op1 .X * (1 / len (vals op1)) = u1 at *
    generalize vals op1 .Y * (1 / len (vals op1)) = u2 at *
    generalize vals op1 .Z * (1 / len (vals op1)) = u3 at *
    generalize vals op2 .X * (1 / len (vals op2)) = w1 at *
    generalize vals op2 .Y * (1 / len (vals op2)) = w2 at *
    generalize vals op2 .Z * (1 / len (vals op2)) = w3 at *
    generalize sin (len (vals op1) * s1) = sa at *
    generalize cos (len (vals op1) * s1) = ca at *
    generalize sin (len (vals op2) * s2) = sb at *
    generalize cos (len (vals op2) * s2) = cb at *
    exact quat_degenerate (by linarith) (by linarith) hu hw (by rw [← g3]; ring_nf) hE.1 hE.2
  · exact ⟨_, rfl⟩

/-- **C81, the exception.** A first operator with a real coefficient is never combined: the name `o` is not defined. -/
theorem C81_real_raises (op1 op2 : List (PL × ℂ)) (s1 s2 : ℝ) (t : PL × ℂ) (ht : t ∈ op1) (hr : t.2.im = 0) :
    combine op1 op2 s1 s2 = none := by
  unfold combine
  rw [if_pos]
  rw [List.any_eq_true]
  exact ⟨t, ht, by rw [hr]; norm_num⟩

/-- Combining `i X` and `i Y` succeeds, and both vectors have length one. -/
example : (∃ op3, combine [(.X, Complex.I)] [(.Y, Complex.I)] (π / 2) (π / 2) = some op3) ∧
    len (vals [(PL.X, Complex.I)]) = 1 ∧ len (vals [(PL.Y, Complex.I)]) = 1 := by
  have t : termVal Complex.I = 1 := by
    unfold termVal; rw [if_neg (by simp; norm_num)]; simp
  have l1 : len (vals [(PL.X, Complex.I)]) = 1 := by simp [len, vals, t]
  have l2 : len (vals [(PL.Y, Complex.I)]) = 1 := by simp [len, vals, t]
  refine ⟨?_, l1, l2⟩
  unfold combine
  simp only []
  rw [l1, l2, if_neg (by simp; norm_num), if_neg (by norm_num), if_neg (by norm_num)]
  simp [vals, t]

/-! ### The emitted gates -/

/-- **C82**, what is done. The circuit emitted after the test has been passed: the three rotations are performed with minus twice their angles. -/
theorem C82_emitted (b g d : ℝ) : circOp (emitted b g d) = site 0 (testM (-2 * b) (-2 * g) (-2 * d)) := by
  have i2 : Complex.I ^ 2 = -1 := Complex.I_sq
  have hz : (denP 0 [PL.Z] : Oper ℂ) = site 0 mZ := by simp [denP, pmat]
  have hy : (denP 0 [PL.Y] : Oper ℂ) = site 0 mY := by simp [denP, pmat]
  have k : ∀ x : ℝ, -2 * x / 2 = -x := by intro x; ring
  unfold emitted testM
  rw [circOp_append, circOp_append, gadget_eq _ _ ⟨PL.Z, by simp, by simp⟩, gadget_eq _ _ ⟨PL.Y, by simp, by simp⟩,
    gadget_eq _ _ ⟨PL.Z, by simp, by simp⟩, hz, hy, ← site_one (K := ℂ) 0]
  simp only [← site_smul, ← site_add, ← site_mul, k, cos_neg, sin_neg]
  congr 1
  rw [one_eq, mY_eq, mZ_eq]
  have e1 : ∀ c s : ℂ, c • mat2 (1 : ℂ) 0 0 1 + (Complex.I * s) • mat2 1 0 0 (-1) =
      mat2 (c - Complex.I * -s) 0 0 (c + Complex.I * -s) := by
    intro c s; apply M2.ext <;> simp [mat2] <;> ring
  have e2 : ∀ c s : ℂ, c • mat2 (1 : ℂ) 0 0 1 + (Complex.I * s) • mat2 0 (-Complex.I) Complex.I 0 =
      mat2 c (- -s) (-s) c := by
    intro c s; apply M2.ext <;> simp [mat2] <;> ring_nf <;> simp only [i2] <;> ring
  simp only [e1, e2]
  push_cast
  rfl

theorem isExp_unique {A U V : Oper ℂ} (h : IsExp A U) (h' : IsExp A V) : U = V := by
  ext ψ b
  exact (h ψ b).unique (h' ψ b)

/-- **C82**, the test.  Angles passing the code's (exact) test are angles of `Rz`, `Ry`, `Rz` rotations whose product is the exponential.  Missing: the
gates emitted are other ones, see `C82_gates_fail`. -/
theorem C82_test_partial (v : PL → ℝ) (s b g d : ℝ) (h : testM b g d = rotM v s) :
    IsExp ((-Complex.I * s) • spin v) (site 0 (testM b g d)) := h ▸ rot_isExp v s

theorem site_amp (m : M2 ℂ) : (site 0 m (ket fun _ => false)) (fun _ => false) = m false false := by
  have h1 : ket (fun _ => false) (Function.update (fun _ => false) 0 false) = 1 := by
    unfold ket; rw [if_pos]; funext i; simp [Function.update_apply]
  have h2 : ket (fun _ => false) (Function.update (fun _ => false) 0 true) = 0 := by
    unfold ket; rw [if_neg]; intro h; simpa using congrFun h 0
  rw [site_apply, h1, h2]; simp

theorem testM_amp (b g d : ℝ) : ‖(testM b g d) false false‖ = |cos (g / 2)| := by
  have hp : ∀ x : ℝ, ‖((cos x : ℝ) : ℂ) - Complex.I * ((sin x : ℝ) : ℂ)‖ = 1 := by
    intro x
    have : ((cos x : ℝ) : ℂ) - Complex.I * ((sin x : ℝ) : ℂ) = Complex.exp ((-x : ℝ) * Complex.I) := by
      rw [Complex.exp_mul_I, ← Complex.ofReal_cos, ← Complex.ofReal_sin, cos_neg, sin_neg]; push_cast; ring
    rw [this, Complex.norm_exp_ofReal_mul_I]
  have : (testM b g d) false false = (((cos (d / 2) : ℝ) : ℂ) - Complex.I * ((sin (d / 2) : ℝ) : ℂ)) *
      (((cos (g / 2) : ℝ) : ℂ) * (((cos (b / 2) : ℝ) : ℂ) - Complex.I * ((sin (b / 2) : ℝ) : ℂ))) := by
    unfold testM
    rw [mat2_mul, mat2_mul]
    simp [mat2]
  rw [this, norm_mul, norm_mul, hp, hp, Complex.norm_real, Real.norm_eq_abs]
  ring

theorem rotM_amp (v : PL → ℝ) (s : ℝ) : ‖(rotM v (-s)) false false‖ = ‖(rotM v s) false false‖ := by
  rw [rotM_entries, rotM_entries]
  have e : len v * -s = -(len v * s) := by ring
  simp only [mat2, e, cos_neg, sin_neg]
  have : ∀ a b : ℝ, ‖(a : ℂ) - Complex.I * (b : ℂ)‖ = √(a ^ 2 + b ^ 2) := by
    intro a b
    rw [← Complex.norm_add_mul_I a b, ← Complex.norm_conj ((a : ℂ) + b * Complex.I)]
    congr 1; simp; ring
  simp only [Matrix.of_apply, Bool.false_eq_true, if_false]
  rw [this, this]
  congr 1
  ring

/-- **C82 fails.** Whatever angles pass the test: unless the exponential leaves `|0⟩` with amplitude of modulus one or one half, the circuit emitted is
not the exponential of the operator, for either sign of the exponent and any global phase. -/
theorem C82_gates_fail (v : PL → ℝ) (s b g d : ℝ) (h : testM b g d = rotM v s) (U : Oper ℂ)
    (hU : IsExp ((-Complex.I * s) • spin v) U ∨ IsExp ((Complex.I * s) • spin v) U)
    (h1 : ‖U (ket fun _ => false) (fun _ => false)‖ ≠ 1) (h2 : ‖U (ket fun _ => false) (fun _ => false)‖ ≠ 1 / 2) :
    ¬ UpToPhase (circOp (emitted b g d)) U := by
  have hA : ‖U (ket fun _ => false) (fun _ => false)‖ = |cos (g / 2)| := by
    rw [← testM_amp b g d, h]
    rcases hU with hU | hU
    · rw [isExp_unique hU (rot_isExp v s), site_amp]
    · have := rot_isExp v (-s)
      rw [show (-Complex.I * ((-s : ℝ) : ℂ)) = Complex.I * s by push_cast; ring] at this
      rw [isExp_unique hU this, site_amp, rotM_amp]
  rintro ⟨c, hc, he⟩
  have hB : ‖(circOp (emitted b g d)) (ket fun _ => false) (fun _ => false)‖ = |cos g| := by
    rw [C82_emitted, site_amp, testM_amp, show -2 * g / 2 = -g by ring, cos_neg]
  rw [he, LinearMap.smul_apply, Pi.smul_apply, smul_eq_mul, norm_mul, hc, one_mul, hA] at hB
  rw [hA] at h1 h2
  have hd : cos g = 2 * cos (g / 2) ^ 2 - 1 := by rw [← Real.cos_two_mul]; congr 1; ring
  have hn := abs_nonneg (cos (g / 2))
  rw [← sq_abs] at hd
  generalize |cos (g / 2)| = x at *
  have h3 : x ^ 2 = (2 * x ^ 2 - 1) ^ 2 := by rw [← hd, hB, sq_abs]
  have h4 : (x - 1) * ((x + 1) * ((2 * x - 1) * (2 * x + 1))) = 0 := by linear_combination -h3
  rcases mul_eq_zero.mp h4 with h5 | h5
  · exact h1 (by linarith)
  · rcases mul_eq_zero.mp h5 with h5 | h5
    · linarith
    · rcases mul_eq_zero.mp h5 with h5 | h5
      · exact h2 (by linarith)
      · linarith

/-- A quarter turn about `Y` passes the test with the angles `0, π/2, 0`. -/
example : testM 0 (π / 2) 0 = rotM (fun p => if p = .Y then 1 else 0) (π / 4) ∧
    ‖(rotM (fun p => if p = .Y then 1 else 0) (π / 4)) false false‖ = √2 / 2 := by
  have hl : len (fun p => if p = PL.Y then 1 else 0) = 1 := by simp [len]
  have h : testM 0 (π / 2) 0 = rotM (fun p => if p = .Y then 1 else 0) (π / 4) := by
    rw [rotM_entries, hl]
    unfold testM
    rw [mat2_mul, mat2_mul, show π / 2 / 2 = π / 4 by ring]
    apply M2.ext <;> simp [mat2]
  refine ⟨h, ?_⟩
  rw [← h, testM_amp, show π / 2 / 2 = π / 4 by ring, cos_pi_div_four, abs_of_nonneg (by positivity)]

end Props
end HQCA
