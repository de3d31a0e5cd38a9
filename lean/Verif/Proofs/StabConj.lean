import Verif.Model.StabCircuit
import Verif.Proofs.StabPauli
import Verif.Proofs.Primitives
import Verif.Proofs.Act
import Verif.Proofs.SiteAdjoint
import Mathlib.Data.List.GetD

/-!
# Pauli strings behind the recorded gates
-/

namespace HQCA
namespace StabCirc
open Stab Prim

/-- The letter of two bits. -/
def lt (z x : ZMod 2) : PL := if z = 1 then (if x = 1 then .Y else .Z) else (if x = 1 then .X else .I)

theorem site_denP_I (i : ℕ) (m : M2 ℂ) (s : PStr) (k : ℕ) (h : k ≤ i → s.getD (i - k) .I = .I) :
    (site i m * denP k s : Oper ℂ) = denP k s * site i m := by
  induction s generalizing k with
  | nil => simp [denP]
  | cons p s ih =>
    have h2 := ih (k + 1) fun hk => by
      have := h (by omega)
      rw [show i - k = (i - (k + 1)) + 1 by omega, List.getD_cons_succ] at this
      exact this
    simp only [denP]
    by_cases hk : k = i
    · subst hk
      have := h le_rfl
      rw [Nat.sub_self, List.getD_cons_zero] at this
      subst this
      rw [pmat, site_one, one_mul, h2]
    · rw [← mul_assoc, site_comm (Ne.symm hk), mul_assoc, h2, mul_assoc]

theorem denP_extract (s : PStr) (i k : ℕ) (hk : k ≤ i) (hi : i - k < s.length) :
    (denP k s : Oper ℂ) = denP k (s.set (i - k) .I) * site i (pmat (s.getD (i - k) .I)) := by
  induction s generalizing k with
  | nil => simp at hi
  | cons p s ih =>
    by_cases h : k = i
    · subst h
      rw [Nat.sub_self, List.set_cons_zero, List.getD_cons_zero, denP, denP, pmat, site_one, one_mul]
      exact denP_site_lt (Nat.lt_succ_self k) _ s
    · have e : i - k = (i - (k + 1)) + 1 := by omega
      rw [e, List.set_cons_succ, List.getD_cons_succ, denP, denP, mul_assoc, ← ih (k + 1) (by omega) (by
        rw [e, List.length_cons] at hi; omega)]

theorem ctp_getD (N : ℕ) (v : Vec) (i : ℕ) (h : i < N) : (checkToPauli N v).getD i .I = lt (v i) (v (i + N)) := by
  unfold checkToPauli lt
  rw [List.getD_eq_getElem _ _ (by simpa using h)]
  simp

theorem ctp_set (N : ℕ) (v v' : Vec) (L : List ℕ) (h : ∀ j < N, j ∉ L → v' j = v j ∧ v' (j + N) = v (j + N)) :
    L.foldl (fun s i => s.set i PL.I) (checkToPauli N v') = L.foldl (fun s i => s.set i PL.I) (checkToPauli N v) := by
  have hlen : ∀ (L : List ℕ) (s : PStr), (L.foldl (fun s i => s.set i PL.I) s).length = s.length := by
    intro L
    induction L with
    | nil => simp
    | cons a L ih => intro s; rw [List.foldl_cons, ih, List.length_set]
  have hget : ∀ (L : List ℕ) (s : PStr) (j : ℕ), j < s.length → (L.foldl (fun s i => s.set i PL.I) s)[j]? = if j ∈ L then some PL.I else s[j]? := by
    intro L
    induction L with
    | nil => simp
    | cons a L ih =>
      intro s j hj
      rw [List.foldl_cons, ih _ _ (by simpa using hj), List.getElem?_set]
      by_cases h1 : j ∈ L
      · simp [h1]
      · by_cases h2 : a = j
        · subst h2; simp [hj]
        · simp [h1, h2, Ne.symm h2]
  refine List.ext_getElem? fun j => ?_
  by_cases hj : j < N
  · rw [hget _ _ _ (by rw [checkToPauli_length]; exact hj), hget _ _ _ (by rw [checkToPauli_length]; exact hj)]
    by_cases h1 : j ∈ L
    · simp [h1]
    · rw [if_neg h1, if_neg h1]
      unfold checkToPauli
      simp [hj, h j hj h1]
  · rw [List.getElem?_eq_none (by rw [hlen, checkToPauli_length]; omega), List.getElem?_eq_none (by rw [hlen, checkToPauli_length]; omega)]

/-- A gate on one qubit. -/
theorem conj_one (N i : ℕ) (hi : i < N) (v v' : Vec) (m : M2 ℂ) (h : ∀ j < N, j ≠ i → v' j = v j ∧ v' (j + N) = v (j + N))
    (hm : m * pmat (lt (v i) (v (i + N))) = pmat (lt (v' i) (v' (i + N))) * m) :
    (site i m * denP 0 (checkToPauli N v) : Oper ℂ) = denP 0 (checkToPauli N v') * site i m := by
  have hs := ctp_set N v v' [i] fun j hj hji => h j hj (by simpa using hji)
  simp only [List.foldl_cons, List.foldl_nil] at hs
  rw [denP_extract (checkToPauli N v) i 0 (Nat.zero_le i) (by rw [checkToPauli_length]; omega),
    denP_extract (checkToPauli N v') i 0 (Nat.zero_le i) (by rw [checkToPauli_length]; omega), Nat.sub_zero, hs,
    ctp_getD N v i hi, ctp_getD N v' i hi, ← mul_assoc, site_denP_I i m _ 0 (by
      intro _
      rw [Nat.sub_zero, List.getD_eq_getElem _ _ (by rw [List.length_set, checkToPauli_length]; exact hi)]
      simp), mul_assoc, mul_assoc, ← site_mul, ← site_mul, hm]

theorem cx_site (c t k : ℕ) (h1 : k ≠ c) (h2 : k ≠ t) (m : M2 ℂ) : opQ (.cx c t) * site k m = site k m * opQ (.cx c t) := by
  ext ψ b
  simp only [Module.End.mul_apply, cx_apply, site_apply, Function.update_of_ne h1.symm, Function.update_of_ne h2.symm, Function.update_of_ne h2]
  cases b c <;> simp [Function.update_comm h2]

theorem cx_denP (c t : ℕ) (s : PStr) (k : ℕ) (h1 : k ≤ c → s.getD (c - k) .I = .I) (h2 : k ≤ t → s.getD (t - k) .I = .I) :
    (opQ (.cx c t) * denP k s : Oper ℂ) = denP k s * opQ (.cx c t) := by
  induction s generalizing k with
  | nil => simp [denP]
  | cons p s ih =>
    have hc := ih (k + 1) (fun hk => by
      have := h1 (by omega)
      rw [show c - k = (c - (k + 1)) + 1 by omega, List.getD_cons_succ] at this
      exact this) (fun hk => by
      have := h2 (by omega)
      rw [show t - k = (t - (k + 1)) + 1 by omega, List.getD_cons_succ] at this
      exact this)
    simp only [denP]
    by_cases hk : k = c ∨ k = t
    · have : p = .I := by
        rcases hk with rfl | rfl
        · have := h1 le_rfl
          rwa [Nat.sub_self, List.getD_cons_zero] at this
        · have := h2 le_rfl
          rwa [Nat.sub_self, List.getD_cons_zero] at this
      subst this
      rw [pmat, site_one, one_mul, hc]
    · rw [not_or] at hk
      rw [← mul_assoc, cx_site c t k hk.1 hk.2, mul_assoc, hc, mul_assoc]

/-- Letters the controlled-not carries over without a sign: both in `I, X`, or both in `I, Z`. -/
theorem cx_letters (c t : ℕ) (hct : c ≠ t) (zc xc zt xt : ZMod 2) (h : (zc = 0 ∧ zt = 0) ∨ (xc = 0 ∧ xt = 0)) :
    (opQ (.cx c t) * (site c (pmat (lt zc xc)) * site t (pmat (lt zt xt))) : Oper ℂ) =
      (site c (pmat (lt (zc + zt) xc)) * site t (pmat (lt zt (xt + xc)))) * opQ (.cx c t) := by
  ext ψ b
  simp only [Module.End.mul_apply, cx_apply, site_pmat_apply, flipBit]
  rcases zcases zc with rfl | rfl <;> rcases zcases zt with rfl | rfl <;> rcases zcases xc with rfl | rfl <;>
    rcases zcases xt with rfl | rfl <;> simp at h <;>
    cases hc : b c <;> cases ht : b t <;>
    (have hu := Function.update_eq_self t b
     rw [ht] at hu
     simp [lt, ph, sg, PL.l, hc, ht, hct, hct.symm, CharTwo.add_self_eq_zero, Function.update_comm hct, hu])

/-- The controlled-not. -/
theorem conj_cx (N c t : ℕ) (hc : c < N) (ht : t < N) (hct : c ≠ t) (v : Vec)
    (h : (v c = 0 ∧ v t = 0) ∨ (v (c + N) = 0 ∧ v (t + N) = 0)) :
    (opQ (.cx c t) * denP 0 (checkToPauli N v) : Oper ℂ) = denP 0 (checkToPauli N (act N (.cx c t) v)) * opQ (.cx c t) := by
  set v' := act N (.cx c t) v with hv'
  have hv : ∀ j, v' j = Function.update (Function.update v c (v c + v t)) (t + N) (v (t + N) + v (c + N)) j := fun j => rfl
  have hs := ctp_set N v v' [c, t] fun j hj hji => by
    simp only [List.mem_cons, List.not_mem_nil, or_false, not_or] at hji
    rw [hv, hv, Function.update_of_ne (by omega), Function.update_of_ne hji.1, Function.update_of_ne (by omega),
      Function.update_of_ne (by omega)]
    exact ⟨rfl, rfl⟩
  simp only [List.foldl_cons, List.foldl_nil] at hs
  have ex : ∀ u : Vec, (denP 0 (checkToPauli N u) : Oper ℂ) =
      denP 0 (((checkToPauli N u).set c .I).set t .I) * (site c (pmat (lt (u c) (u (c + N)))) * site t (pmat (lt (u t) (u (t + N))))) := by
    intro u
    rw [denP_extract (checkToPauli N u) c 0 (Nat.zero_le c) (by rw [checkToPauli_length]; omega), Nat.sub_zero,
      denP_extract ((checkToPauli N u).set c .I) t 0 (Nat.zero_le t) (by rw [List.length_set, checkToPauli_length]; omega), Nat.sub_zero,
      ctp_getD N u c hc, mul_assoc, site_comm hct.symm]
    congr 4
    rw [List.getD_eq_getElem?_getD, List.getElem?_set_ne hct, ← List.getD_eq_getElem?_getD, ctp_getD N u t ht]
  have e1 : v' c = v c + v t := by rw [hv, Function.update_of_ne (by omega), Function.update_self]
  have e2 : v' (c + N) = v (c + N) := by rw [hv, Function.update_of_ne (by omega), Function.update_of_ne (by omega)]
  have e3 : v' t = v t := by rw [hv, Function.update_of_ne (by omega), Function.update_of_ne hct.symm]
  have e4 : v' (t + N) = v (t + N) + v (c + N) := by rw [hv, Function.update_self]
  rw [ex v, ex v', hs, e1, e2, e3, e4, ← mul_assoc, cx_denP c t _ 0, mul_assoc, mul_assoc, cx_letters c t hct _ _ _ _ h]
  · intro _
    rw [Nat.sub_zero, List.getD_eq_getElem?_getD, List.getElem?_set_ne hct.symm, List.getElem?_set_self (by rw [checkToPauli_length]; exact hc)]
    rfl
  · intro _
    rw [Nat.sub_zero, List.getD_eq_getElem?_getD, List.getElem?_set_self (by rw [List.length_set, checkToPauli_length]; exact ht)]
    rfl

noncomputable section

/-- Quarter turn `exp(iπ/4)`. -/
def qt : ℂ := Complex.exp (Complex.I * (Real.pi / 2 / 2 : ℝ))

theorem qt_sq : qt * qt = Complex.I := by
  unfold qt
  rw [← Complex.exp_add]
  refine Eq.trans ?_ Complex.exp_pi_div_two_mul_I
  congr 1
  push_cast
  ring

theorem qt_inv : Complex.exp (-Complex.I * (Real.pi / 2 / 2 : ℝ)) * qt = 1 := by
  unfold qt
  rw [← Complex.exp_add, neg_mul, neg_add_cancel, Complex.exp_zero]

/-- The circuit of the inverse phase gate. -/
theorem circ_si (i : ℕ) : circOp (circuit (.si i)) = site i (qt • mat2 1 0 0 (-Complex.I)) := by
  simp only [circuit, circOp, one_mul, opQ]
  congr 1
  have h1 : (-(Real.pi / 2) / 2 : ℝ) = -(Real.pi / 2 / 2) := by ring
  rw [h1]
  have h2 : Complex.exp (Complex.I * ((-(Real.pi / 2 / 2) : ℝ) : ℂ)) = qt * (-Complex.I) := by
    have := qt_inv
    have h3 := qt_sq
    rw [Complex.ofReal_neg, mul_neg, ← neg_mul]
    have hq : qt ≠ 0 := Complex.exp_ne_zero _
    refine mul_right_cancel₀ hq ?_
    rw [this]
    linear_combination Complex.I * h3 + Complex.I_mul_I
  have h4 : Complex.exp (-Complex.I * ((-(Real.pi / 2 / 2) : ℝ) : ℂ)) = qt := by
    unfold qt
    congr 1
    push_cast
    ring
  rw [h2, h4]
  ext r c
  cases r <;> cases c <;> simp [mat2]

/-- The circuit of the Hadamard gate. -/
theorem circ_h (i : ℕ) : circOp (circuit (.h i)) = site i (((1 - Complex.I) / 2) • mat2 1 1 1 (-1)) := by
  simp only [circuit, circOp, one_mul, opQ, ← site_mul]
  congr 1
  have hq := qt_sq
  have hi := qt_inv
  have e2 : Complex.exp (Complex.I * (Real.pi / 2 / 2 : ℝ)) = qt := rfl
  rw [e2]
  set a := Complex.exp (-Complex.I * (Real.pi / 2 / 2 : ℝ)) with ha
  have haa : a * a = -Complex.I := by
    have h1 : a * a * (qt * qt) = 1 := by linear_combination (a * qt + 1) * hi
    rw [hq] at h1
    linear_combination (-Complex.I) * h1 + a * a * Complex.I_mul_I
  ext r c
  cases r <;> cases c <;> simp only [Matrix.mul_apply, Fintype.sum_bool, mat2, Matrix.smul_apply, smul_eq_mul, if_true, if_false, Bool.false_eq_true]
  · linear_combination (1 + Complex.I) / 2 * haa + (-1 / 2 : ℂ) * Complex.I_mul_I
  · linear_combination (1 - Complex.I) / 2 * hi
  · linear_combination (1 - Complex.I) / 2 * hi
  · linear_combination (1 + Complex.I) / 2 * hq + (1 / 2 : ℂ) * Complex.I_mul_I

/-- Letters the inverse phase gate carries over without a sign. -/
theorem conj_si (N i : ℕ) (hi : i < N) (v : Vec) (h : v i = 0 → v (i + N) = 0) :
    (circOp (circuit (.si i)) * denP 0 (checkToPauli N v) : Oper ℂ) = denP 0 (checkToPauli N (act N (.si i) v)) * circOp (circuit (.si i)) := by
  rw [circ_si]
  refine conj_one N i hi v _ _ ?_ ?_
  · intro j hj hji
    simp only [act]
    split_ifs <;> simp [Function.update_of_ne hji, Function.update_of_ne (show j + N ≠ i by omega)]
  · rw [smul_mul_assoc, mul_smul_comm]
    congr 1
    have hne : i + N ≠ i := by omega
    unfold act
    rcases zcases (v i) with h1 | h1 <;> rcases zcases (v (i + N)) with h2 | h2
    · simp [h1, h2, lt, pmat]
    · exact absurd (h h1) (by rw [h2]; decide)
    · ext r c
      cases r <;> cases c <;> simp [h1, h2, lt, pmat, mZ, mat2, Matrix.mul_apply]
    · ext r c
      cases r <;> cases c <;> simp [h1, h2, lt, pmat, mY, mX, mat2, Matrix.mul_apply, Function.update_of_ne hne, Coef.I]

/-- Letters the Hadamard gate carries over without a sign. -/
theorem conj_h (N i : ℕ) (hi : i < N) (v : Vec) (h : v i = 0 ∨ v (i + N) = 0) :
    (circOp (circuit (.h i)) * denP 0 (checkToPauli N v) : Oper ℂ) = denP 0 (checkToPauli N (act N (.h i) v)) * circOp (circuit (.h i)) := by
  rw [circ_h]
  refine conj_one N i hi v _ _ ?_ ?_
  · intro j hj hji
    simp only [act]
    split_ifs <;> simp [Function.update_of_ne hji, Function.update_of_ne (show j + N ≠ i by omega), Function.update_of_ne (show j ≠ i + N by omega),
      Function.update_of_ne (show j + N ≠ i + N by omega)]
  · rw [smul_mul_assoc, mul_smul_comm]
    congr 1
    have hne : i + N ≠ i := by omega
    unfold act
    rcases zcases (v i) with h1 | h1 <;> rcases zcases (v (i + N)) with h2 | h2
    · simp [h1, h2, lt, pmat]
    · ext r c
      cases r <;> cases c <;> simp [h1, h2, lt, pmat, mZ, mX, mat2, Matrix.mul_apply, Function.update_of_ne hne.symm]
    · ext r c
      cases r <;> cases c <;> simp [h1, h2, lt, pmat, mZ, mX, mat2, Matrix.mul_apply, Function.update_of_ne hne.symm]
    · rw [h1, h2] at h
      simp at h

/-! ## The gates keep scalar products -/

/-- `U` keeps scalar products. -/
def Uni (U : Oper ℂ) : Prop := ∃ V : Oper ℂ, IsAdj V U ∧ V * U = 1

theorem Uni.one : Uni 1 := ⟨1, IsAdj.one, one_mul 1⟩

theorem Uni.mul {A B : Oper ℂ} (ha : Uni A) (hb : Uni B) : Uni (A * B) := by
  obtain ⟨V, h1, h2⟩ := ha
  obtain ⟨W, h3, h4⟩ := hb
  exact ⟨W * V, h3.mul h1, by rw [mul_assoc, ← mul_assoc V, h2, one_mul, h4]⟩

theorem Uni.site (i : ℕ) (m : M2 ℂ) (h : dag m * m = 1) : Uni (HQCA.site i m) := by
  refine ⟨HQCA.site i (dag m), ?_, by rw [← site_mul, h, site_one]⟩
  have := isAdj_site i (dag m)
  have e : dag (dag m) = m := by
    funext a b
    simp [dag, Coef.conj_conj]
  rwa [e] at this

theorem uni_si (i : ℕ) : Uni (circOp (circuit (.si i))) := by
  rw [circ_si]
  refine Uni.site i _ ?_
  have hq : (starRingEnd ℂ) qt * qt = 1 := by
    rw [← Complex.normSq_eq_conj_mul_self, Complex.normSq_eq_norm_sq]
    unfold qt
    rw [mul_comm Complex.I, Complex.norm_exp_ofReal_mul_I]
    simp
  ext a b
  cases a <;> cases b <;> simp [dag, mat2, Matrix.mul_apply, Coef.conj, hq]
  linear_combination hq + (-(starRingEnd ℂ) qt * qt) * Complex.I_mul_I

theorem uni_h (i : ℕ) : Uni (circOp (circuit (.h i))) := by
  rw [circ_h]
  refine Uni.site i _ ?_
  have h2 : (starRingEnd ℂ) 2 = 2 := map_ofNat _ 2
  ext a b
  cases a <;> cases b <;> simp [dag, mat2, Matrix.mul_apply, Coef.conj, h2] <;> linear_combination (-1 / 2 : ℂ) * Complex.I_mul_I

theorem uni_cx (c t : ℕ) (h : c ≠ t) : Uni (circOp (circuit (.cx c t))) := by
  have e : circOp (circuit (.cx c t)) = site c (mat2 1 0 0 0) + site c (mat2 0 0 0 1) * site t mX := by
    ext ψ b
    simp only [circuit, circOp, one_mul, cx_apply, LinearMap.add_apply, Module.End.mul_apply, Pi.add_apply, site_apply]
    cases hc : b c <;> cases ht : b t <;>
    (have hu := Function.update_eq_self c b
     rw [hc] at hu
     simp [mat2, mX, hu, hc, ht, h, h.symm])
  have d0 : dag (mat2 1 0 0 0 : M2 ℂ) = mat2 1 0 0 0 := by
    funext a b; cases a <;> cases b <;> simp [dag, mat2, Coef.conj]
  have d1 : dag (mat2 0 0 0 1 : M2 ℂ) = mat2 0 0 0 1 := by
    funext a b; cases a <;> cases b <;> simp [dag, mat2, Coef.conj]
  have d2 : dag (mX : M2 ℂ) = mX := by
    funext a b; cases a <;> cases b <;> simp [dag, mX, mat2, Coef.conj]
  refine ⟨circOp (circuit (.cx c t)), ?_, ?_⟩
  · rw [e]
    have a0 := isAdj_site c (mat2 1 0 0 0 : M2 ℂ)
    have a1 := isAdj_site c (mat2 0 0 0 1 : M2 ℂ)
    have a2 := isAdj_site t (mX : M2 ℂ)
    rw [d0] at a0
    rw [d1] at a1
    rw [d2] at a2
    have := a0.add (a1.mul a2)
    rwa [site_comm h.symm] at this
  · simp only [circuit, circOp, one_mul]
    exact cx_cx c t h

end

end StabCirc
end HQCA
