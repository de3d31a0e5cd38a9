import Verif.Spec.Den

namespace HQCA
variable {K : Type} [Coef K]

theorem denP_site_lt {j k : ℕ} (h : j < k) (m : M2 K) (s : PStr) :
    site j m * denP k s = denP k s * site j m := by
  induction s generalizing k with
  | nil => simp [denP]
  | cons p ps ih =>
    simp only [denP]
    rw [← mul_assoc, site_comm (by omega : j ≠ k), mul_assoc, ih (by omega), mul_assoc]

/-- Exponent contributed by one position. -/
def posExp (p q : PL) : ℤ :=
  (b2i (p.r && q.l) - b2i (p.l && q.r)) +
    ((b2i p.l + b2i q.l) * (b2i p.r + b2i q.r) - b2i (xor p.l q.l && xor p.r q.r))

def posLetter (p q : PL) : PL := PL.ofBits (xor p.l q.l) (xor p.r q.r)

theorem I_pow_four_mul (n : ℤ) : (I : K) ^ (4 * n) = 1 := by
  have h : (I : K) ^ (4 : ℤ) = 1 := by
    have : (I : K) ^ (4 : ℤ) = (I * I) * (I * I) := by
      rw [show (4 : ℤ) = ((4 : ℕ) : ℤ) by rfl, zpow_natCast]; ring
    rw [this, I_mul_I]; ring
  rw [zpow_mul, h, one_zpow]

theorem posMat (p q : PL) :
    (pmat p * pmat q : M2 K) = (I : K) ^ posExp p q • pmat (posLetter p q) := by
  have hI2 : (I : K) ^ (2 : ℤ) = -1 := by
    rw [show (2 : ℤ) = ((2 : ℕ) : ℤ) by rfl, zpow_natCast, pow_two, I_mul_I]
  have hI3 : (I : K) ^ (3 : ℤ) = -I := by
    rw [show (3 : ℤ) = ((3 : ℕ) : ℤ) by rfl, zpow_natCast, pow_succ, pow_two, I_mul_I]; ring
  have hI4 : (I : K) ^ (4 : ℤ) = 1 := by simpa using I_pow_four_mul (K := K) 1
  have hIm : (I : K) ^ (-1 : ℤ) = -I := by
    rw [zpow_neg_one]
    apply inv_eq_of_mul_eq_one_right
    rw [mul_neg, I_mul_I, neg_neg]
  cases p <;> cases q <;>
    simp [posExp, posLetter, PL.l, PL.r, PL.ofBits, b2i, pmat, mX_mul_mX, mY_mul_mY, mZ_mul_mZ,
      mX_mul_mZ, mZ_mul_mX, mX_mul_mY, mY_mul_mX, mY_mul_mZ, mZ_mul_mY, hI3, hI4, hIm]

theorem exps_cons (p q : PL) (ps qs : PStr) :
    Pauli.exp1 ((p :: ps).map PL.l) ((p :: ps).map PL.r) ((q :: qs).map PL.l) ((q :: qs).map PL.r) +
      Pauli.exp2 ((p :: ps).map PL.l) ((p :: ps).map PL.r) ((q :: qs).map PL.l) ((q :: qs).map PL.r) =
    posExp p q + (Pauli.exp1 (ps.map PL.l) (ps.map PL.r) (qs.map PL.l) (qs.map PL.r) +
      Pauli.exp2 (ps.map PL.l) (ps.map PL.r) (qs.map PL.l) (qs.map PL.r)) := by
  simp only [Pauli.exp1, Pauli.exp2, List.map_cons, List.zipWith_cons_cons, List.sum_cons, posExp]
  ring

/-- Product of letters on the whole string. -/
theorem denP_mul (k : ℕ) (s t : PStr) (h : s.length = t.length) :
    (denP k s * denP k t : Oper K) =
      (I : K) ^ (Pauli.exp1 (s.map PL.l) (s.map PL.r) (t.map PL.l) (t.map PL.r) +
        Pauli.exp2 (s.map PL.l) (s.map PL.r) (t.map PL.l) (t.map PL.r)) •
      denP k (Pauli.construct (List.zipWith xor (s.map PL.l) (t.map PL.l))
        (List.zipWith xor (s.map PL.r) (t.map PL.r))) := by
  induction s generalizing k t with
  | nil =>
    cases t with
    | nil => simp [denP, Pauli.exp1, Pauli.exp2, Pauli.construct]
    | cons _ _ => simp at h
  | cons p ps ih =>
    cases t with
    | nil => simp at h
    | cons q qs =>
      have h' : ps.length = qs.length := by simpa using h
      rw [exps_cons, zpow_add₀ I_ne_zero]
      simp only [denP]
      have e : site k (pmat p) * denP (k+1) ps * (site k (pmat q) * denP (k+1) qs) =
          site k (pmat p * pmat q) * (denP (k+1) ps * denP (k+1) qs : Oper K) := by
        rw [site_mul, mul_assoc, mul_assoc, ← mul_assoc (denP (k+1) ps),
          ← denP_site_lt (Nat.lt_succ_self k), mul_assoc]
      rw [e, ih (k+1) qs h', posMat, site_smul, mul_smul]
      simp only [Pauli.construct, List.map_cons, List.zipWith_cons_cons, denP, posLetter,
        smul_mul_assoc, mul_smul_comm]
      rw [smul_comm]

end HQCA
