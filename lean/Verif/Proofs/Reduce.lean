import Verif.Model.Reduce
import Verif.Proofs.Pauli

namespace HQCA
namespace Reduce
variable {K : Type} [Coef K]

theorem one_ne_neg_one : (1 : K) ≠ -1 := by
  intro h
  apply Coef.two_ne_zero' (K := K)
  have : (2 : K) = 1 + 1 := by norm_num
  rw [this]
  nth_rewrite 2 [h]
  ring

/-- Letters anticommute unless one is `I` or they agree. -/
theorem letter_anti (a b : PL) (h : ¬ (a = .I ∨ b = .I)) (hab : a ≠ b) :
    (pmat a * pmat b : M2 K) = (-1 : K) • (pmat b * pmat a) := by
  cases a <;> cases b <;> simp_all [pmat,
      mX_mul_mZ, mZ_mul_mX, mX_mul_mY, mY_mul_mX, mY_mul_mZ, mZ_mul_mY]

theorem letter_comm (a b : PL) (h : (a = .I ∨ b = .I) ∨ a = b) :
    (pmat a * pmat b : M2 K) = pmat b * pmat a := by
  rcases h with (h | h) | h <;> subst h <;> simp [pmat]

theorem letter_sq (a : PL) : (pmat a * pmat a : M2 K) = 1 := by
  cases a <;> simp [pmat, mX_mul_mX, mY_mul_mY, mZ_mul_mZ]

theorem M2_one_ne_zero : (1 : M2 K) ≠ 0 := by
  intro h
  have := congrFun (congrFun h false) false
  simp at this

theorem letter_comm_iff (a b : PL) :
    (pmat a * pmat b : M2 K) = pmat b * pmat a ↔ ((a = .I ∨ b = .I) ∨ a = b) := by
  constructor
  · intro h
    by_contra hc
    push Not at hc
    have h1 := letter_anti (K := K) a b (by tauto) hc.2
    rw [h] at h1
    have h2 : (pmat b * pmat a : M2 K) * (pmat a * pmat b) = 1 := by
      rw [mul_assoc, ← mul_assoc (pmat a), letter_sq, one_mul, letter_sq]
    have h3 : (pmat b * pmat a : M2 K) = 0 := by
      have h4 : (2 : K) • (pmat b * pmat a : M2 K) = 0 := by
        rw [two_smul]
        nth_rewrite 1 [h1]
        rw [neg_smul, one_smul, neg_add_cancel]
      exact (smul_eq_zero.mp h4).resolve_left Coef.two_ne_zero'
    rw [h3, zero_mul] at h2
    exact M2_one_ne_zero h2.symm
  · exact letter_comm a b

/-- Swapping two strings costs `(-1)^k`, `k` the anticommuting positions. -/
theorem denP_swap (k : ℕ) (s t : PStr) (n : ℕ) (hn : anticount s t = some n)
    (hl : s.length = t.length) :
    (denP k s * denP k t : Oper K) = (-1 : K) ^ n • (denP k t * denP k s) := by
  have e : ∀ (k : ℕ) (p q : PL) (ps qs : PStr),
      site k (pmat p) * denP (k+1) ps * (site k (pmat q) * denP (k+1) qs) =
          site k (pmat p * pmat q) * (denP (k+1) ps * denP (k+1) qs : Oper K) := by
    intro k p q ps qs
    rw [site_mul, mul_assoc, mul_assoc, ← mul_assoc (denP (k+1) ps),
      ← denP_site_lt (Nat.lt_succ_self k), mul_assoc]
  induction s generalizing k t n with
  | nil =>
    cases t with
    | nil => simp [anticount] at hn; subst hn; simp
    | cons _ _ => simp at hl
  | cons p ps ih =>
    cases t with
    | nil => simp at hl
    | cons q qs =>
      have hl' : ps.length = qs.length := by simpa using hl
      simp only [denP]
      rw [e, e]
      unfold anticount at hn
      split at hn
      · rename_i h
        rw [ih (k+1) qs n hn hl', letter_comm p q (Or.inl h), mul_smul_comm]
      · rename_i h
        split at hn
        · rename_i h'
          rw [ih (k+1) qs n hn hl', letter_comm p q (Or.inr h'), mul_smul_comm]
        · rename_i h'
          rcases hm : anticount ps qs with _ | m
          · simp [hm] at hn
          · simp [hm] at hn
            subst hn
            rw [ih (k+1) qs m hm hl', letter_anti p q h h', site_smul, mul_smul_comm,
              smul_mul_assoc, smul_smul, pow_succ]

theorem denP_sq (k : ℕ) (s : PStr) : (denP k s * denP k s : Oper K) = 1 := by
  induction s generalizing k with
  | nil => simp [denP]
  | cons p ps ih =>
    simp only [denP]
    rw [mul_assoc, ← mul_assoc (denP (k+1) ps), ← denP_site_lt (Nat.lt_succ_self k), mul_assoc,
      ← mul_assoc (site k _), ← site_mul, letter_sq, site_one, one_mul, ih]

theorem Oper_one_ne_zero : (1 : Oper K) ≠ 0 := by
  intro h
  have := congrFun (congrArg (fun (f : Oper K) => f (fun _ => 1)) h) (fun _ => false)
  simp at this

theorem anticount_isSome (s t : PStr) (h : s.length = t.length) : ∃ n, anticount s t = some n := by
  induction s generalizing t with
  | nil => exact ⟨0, rfl⟩
  | cons p ps ih =>
    cases t with
    | nil => simp at h
    | cons q qs =>
      obtain ⟨n, hn⟩ := ih qs (by simpa using h)
      unfold anticount
      split
      · exact ⟨n, hn⟩
      · split
        · exact ⟨n, hn⟩
        · exact ⟨n+1, by simp [hn]⟩

theorem denP_comm_iff (s t : PStr) (n : ℕ) (hn : anticount s t = some n) (hl : s.length = t.length) :
    (denP 0 s * denP 0 t : Oper K) = denP 0 t * denP 0 s ↔ n % 2 = 0 := by
  have hs := denP_swap (K := K) 0 s t n hn hl
  constructor
  · intro h
    by_contra ho
    have hodd : n % 2 = 1 := by omega
    have hp : (-1 : K) ^ n = -1 := Odd.neg_one_pow (Nat.odd_iff.mpr hodd)
    rw [hp, ← h] at hs
    have h2 : (denP 0 s * denP 0 t : Oper K) * (denP 0 t * denP 0 s) = 1 := by
      rw [mul_assoc, ← mul_assoc (denP 0 t), denP_sq, one_mul, denP_sq]
    have h3 : (denP 0 s * denP 0 t : Oper K) = 0 := by
      have h4 : (2 : K) • (denP 0 s * denP 0 t : Oper K) = 0 := by
        rw [two_smul]
        nth_rewrite 1 [hs]
        rw [Oper.neg_one_smul, neg_add_cancel]
      exact (smul_eq_zero.mp h4).resolve_left Coef.two_ne_zero'
    rw [h3, zero_mul] at h2
    exact Oper_one_ne_zero h2.symm
  · intro h
    have hp : (-1 : K) ^ n = 1 := Even.neg_one_pow (Nat.even_iff.mpr h)
    rw [hs, hp, one_smul]

end Reduce
end HQCA
