import Verif.Proofs.Gates
import Verif.Props.PTrace

/-!
# Properties C59 and C60: the gates of `Circ`
-/

namespace HQCA.Props
open Gates Circ

/-- Reads off what a sequence of multiplications does to the circuit. -/
theorem run_of_den (n : ℕ) (p : List (G ℂ)) (U : Oper ℂ) (hp : ∀ g ∈ p, Ok n g) (h : denL p = U) (m : Mat ℂ) :
    ofMat n (run n p m) = U * ofMat n m := by rw [ofMat_run n p hp, h]

theorem Isq : (HQCA.I : ℂ) * HQCA.I = -1 := Complex.I_mul_I

theorem a_sq : (((1 / √2 : ℝ) : ℂ)) * ((1 / √2 : ℝ) : ℂ) = 1 / 2 := by
  rw [← Complex.ofReal_mul, div_mul_div_comm, Real.mul_self_sqrt (by norm_num)]
  norm_num

/-- **C59, one-qubit gates.** Each acts on its qubit only, by its matrix. -/
theorem C59_single (n i : ℕ) (hi : i < n) (g : M2 ℂ) (m : Mat ℂ) :
    ofMat n (run n [.sq g i] m) = site i g * ofMat n m :=
  run_of_den n _ _ (by simp [Ok, hi]) (denL_single _) m

/-- **C59, one-qubit identities.** `x`, `y`, `z` are the Pauli matrices, `h` exchanges `X` and `Z`, `sx` is a square
root of `X`, `s` of `Z`, `t` of `s`, and `si`, `ti` are inverses. -/
theorem C59_identities (i : ℕ) :
    denL (x i) = site i mX ∧ denL (y i) = site i mY ∧ denL (z i) = site i mZ ∧
    denL (h i ++ x i ++ h i) = denL (z i) ∧ denL (h i ++ h i) = 1 ∧ denL (sx i ++ sx i) = denL (x i) ∧
    denL (s i ++ s i) = denL (z i) ∧ denL (t i ++ t i) = denL (s i) ∧ denL (si i ++ s i) = 1 ∧
    denL (ti i ++ t i) = 1 := by
  have ha := a_sq
  have hI := Isq
  have hph : ∀ α β : ℝ, (gph (Real.cos α : ℝ) (Real.sin α : ℝ) : M2 ℂ) *
      (gph (Real.cos β : ℝ) (Real.sin β : ℝ) : M2 ℂ) =
      (gph (Real.cos (α + β) : ℝ) (Real.sin (α + β) : ℝ) : M2 ℂ) := by
    intro α β
    unfold gph
    rw [arr_mul, Real.cos_add, Real.sin_add]
    push_cast
    congr 1
    all_goals first | ring1 | skip
    linear_combination (Complex.sin α * Complex.sin β) * hI
  have h1 : (gph (Real.cos 0 : ℝ) (Real.sin 0 : ℝ) : M2 ℂ) = 1 := by
    unfold gph; rw [one_eq_arr]; simp
  refine ⟨?_, ?_, ?_, ?_, ?_, ?_, ?_, ?_, ?_, ?_⟩
  · rw [x, denL_single, denG, mX_eq_arr]; rfl
  · rw [y, denL_single, denG, mY_eq_arr]; rfl
  · rw [z, denL_single, denG, mZ_eq_arr]; rfl
  · simp only [denL_append, Gates.h, x, z, denL_single, denG, ← site_mul]
    congr 1
    unfold gh gx gz
    simp only [arr_mul]
    congr 1
    all_goals first | ring1 | linear_combination 2 * ha | linear_combination -2 * ha
  · simp only [denL_append, Gates.h, denL_single, denG, ← site_mul]
    rw [← site_one i]
    congr 1
    unfold gh
    rw [arr_mul, one_eq_arr]
    congr 1
    all_goals first | ring1 | linear_combination 2 * ha | linear_combination -2 * ha
  · simp only [denL_append, sx, x, denL_single, denG, ← site_mul]
    congr 1
    unfold gsx gx
    simp only [arr_mul]
    congr 1
    all_goals first | ring1 | linear_combination (1 / 2) * hI | linear_combination -(1 / 2) * hI
  · simp only [denL_append, s, Gates.ph, z, denL_single, denG, ← site_mul]
    congr 1
    rw [hph]
    unfold gph gz
    rw [show Real.pi / 2 + Real.pi / 2 = Real.pi by ring]
    simp
  · simp only [denL_append, s, t, Gates.ph, denL_single, denG, ← site_mul]
    congr 1
    rw [hph, show Real.pi / 4 + Real.pi / 4 = Real.pi / 2 by ring]
  · simp only [denL_append, s, si, Gates.ph, denL_single, denG, ← site_mul]
    rw [← site_one i]
    congr 1
    rw [hph, show Real.pi / 2 + -Real.pi / 2 = 0 by ring, h1]
  · simp only [denL_append, t, ti, Gates.ph, denL_single, denG, ← site_mul]
    rw [← site_one i]
    congr 1
    rw [hph, show Real.pi / 4 + -Real.pi / 4 = 0 by ring, h1]

/-- **C59, controlled NOT, Toffoli and three-control Toffoli.** -/
theorem C59_controlled_not (n : ℕ) (ctl : List ℕ) (j : ℕ) (hc : ∀ i ∈ ctl, i < n) (hj : j < n) (m : Mat ℂ) :
    ofMat n (run n [.ct ctl j] m) = ctlOp ctl (site j mX) * ofMat n m :=
  run_of_den n _ _ (by simp only [List.mem_singleton, forall_eq]; exact ⟨hj, hc⟩) (denL_single _) m

section
variable (n i j : ℕ) (hi : i < n) (hj : j < n) (hij : i ≠ j) (m : Mat ℂ)
include hi hj hij

/-- **C59, controlled Z.** -/
theorem C59_Cz : ofMat n (run n (Cz i j) m) = ctlOp [i] (site j mZ) * ofMat n m := by
  refine run_of_den n _ _ (by simp [Cz, Gates.h, Cx, Ok, hi, hj]) ?_ m
  have ha := a_sq
  simp only [Cz, Gates.h, Cx, denL_append, denL_single, denG, ctl_eq_mux]
  simp only [site_eq_mux i j, mux_mul i j hij]
  rw [mX_eq_arr, mZ_eq_arr, one_eq_arr]
  unfold gh
  simp only [arr_mul]
  congr 2
  all_goals first | ring1 | linear_combination 2 * ha | linear_combination -2 * ha

/-- **C59, controlled Y.** -/
theorem C59_Cy : ofMat n (run n (Cy i j) m) = ctlOp [i] (site j mY) * ofMat n m := by
  refine run_of_den n _ _ (by simp [Cy, s, si, Gates.ph, Cx, Ok, hi, hj]) ?_ m
  have hI := Isq
  simp only [Cy, s, si, Gates.ph, Cx, denL_append, denL_single, denG, ctl_eq_mux]
  simp only [site_eq_mux i j, mux_mul i j hij]
  rw [mX_eq_arr, mY_eq_arr, one_eq_arr]
  unfold gph
  simp only [arr_mul, neg_div, Real.cos_neg, Real.sin_neg, Real.cos_pi_div_two, Real.sin_pi_div_two]
  push_cast
  congr 2
  all_goals first | ring1 | linear_combination -hI

/-- **C59, `Cxr`** flips `j` where qubit `i` is `0`. -/
theorem C59_Cxr : ofMat n (run n (Cxr i j) m) = (site i mX * ctlOp [i] (site j mX) * site i mX) * ofMat n m ∧
    ∀ ψ b, (site i mX * ctlOp [i] (site j mX) * site i mX : Oper ℂ) ψ b =
      if b i then ψ b else (site j mX : Oper ℂ) ψ b := by
  constructor
  · refine run_of_den n _ _ (by simp [Cxr, x, Cx, Ok, hi, hj]) ?_ m
    simp only [Cxr, x, Cx, denL_append, denL_single, denG, mul_assoc]
    rw [show (gx : M2 ℂ) = mX by rw [mX_eq_arr]; rfl]
  · intro ψ b
    have hx : ∀ k (φ : Cfg → ℂ) e, (site k mX : Oper ℂ) φ e = φ (flipBit e k) := by
      intro k φ e
      have := site_pmat_apply (K := ℂ) k .X φ e
      simpa [pmat, HQCA.ph, PL.l] using this
    rw [Module.End.mul_apply, Module.End.mul_apply, hx, ctlX_apply, hx]
    have e1 : flipBit b i i = !b i := by rw [flipBit, Function.update_self]
    have e2 : flipBit (flipBit b i) i = b := by
      unfold flipBit; rw [Function.update_idem, Function.update_self]; simp
    have e3 : flipBit (flipBit (flipBit b i) j) i = flipBit b j := by
      funext k
      simp only [flipBit, Function.update_apply]
      split_ifs <;> simp_all
    simp only [List.mem_singleton, forall_eq, e1, hx]
    cases b i
    · simp [e3]
    · simp [e2]

/-- **C59, controlled phase gate S.** -/
theorem C59_Cs : ofMat n (run n (Cs i j) m) = ctlOp [i] (site j (arr 1 0 0 HQCA.I)) * ofMat n m := by
  refine run_of_den n _ _ (by simp [Cs, Rz, Gates.ph, Cx, Ok, hi, hj]) ?_ m
  have hI := Isq
  simp only [Cs, Rz, Gates.ph, Cx, denL_append, denL_single, denG, ctl_eq_mux]
  unfold gph
  rw [diag_eq_mux i j]
  simp only [site_eq_mux i j, mux_mul i j hij]
  rw [mX_eq_arr, one_eq_arr]
  unfold gRz
  have hc := Real.cos_sq_add_sin_sq (Real.pi / 4 / 2)
  have h1 := Real.cos_two_mul (Real.pi / 4 / 2)
  have h2 := Real.sin_two_mul (Real.pi / 4 / 2)
  have h3 := Real.cos_sq_add_sin_sq (Real.pi / 4)
  have h4 := Real.cos_two_mul (Real.pi / 4)
  have h5 := Real.sin_two_mul (Real.pi / 4)
  rw [show 2 * (Real.pi / 4 / 2) = Real.pi / 4 by ring] at h1 h2
  rw [show 2 * (Real.pi / 4) = Real.pi / 2 by ring, Real.cos_pi_div_two] at h4
  rw [show 2 * (Real.pi / 4) = Real.pi / 2 by ring, Real.sin_pi_div_two] at h5
  simp only [arr_mul, arr_smul, neg_div, Real.cos_neg, Real.sin_neg]
  generalize Real.cos (Real.pi / 4 / 2) = c at *
  generalize Real.sin (Real.pi / 4 / 2) = s at *
  generalize Real.cos (Real.pi / 4) = C at *
  generalize Real.sin (Real.pi / 4) = S at *
  have hc : (c : ℂ) ^ 2 + (s : ℂ) ^ 2 = 1 := by exact_mod_cast hc
  have h1 : (C : ℂ) = 2 * (c : ℂ) ^ 2 - 1 := by exact_mod_cast h1
  have h2 : (S : ℂ) = 2 * (s : ℂ) * c := by exact_mod_cast h2
  have h3 : (C : ℂ) ^ 2 + (S : ℂ) ^ 2 = 1 := by exact_mod_cast h3
  have h4 : 0 = 2 * (C : ℂ) ^ 2 - 1 := by exact_mod_cast h4
  have h5 : 1 = 2 * (S : ℂ) * C := by exact_mod_cast h5
  push_cast
  congr 2
  all_goals first | ring1 | skip
  · linear_combination hc - (s : ℂ) ^ 2 * hI
  · linear_combination hc - (s : ℂ) ^ 2 * hI
  · have e : ((c : ℂ) - HQCA.I * s) * (c - HQCA.I * s) = C - HQCA.I * S := by
      rw [h1, h2]; linear_combination (s : ℂ) ^ 2 * hI - hc
    have e' : ((C : ℂ) + HQCA.I * S) * (C - HQCA.I * S) = 1 := by
      linear_combination h3 - (S : ℂ) ^ 2 * hI
    linear_combination ((C : ℂ) + HQCA.I * S) * e + e'
  · have e : ((c : ℂ) + HQCA.I * s) * (c + HQCA.I * s) = C + HQCA.I * S := by
      rw [h1, h2]; linear_combination (s : ℂ) ^ 2 * hI - hc
    have e' : ((C : ℂ) + HQCA.I * S) * (C + HQCA.I * S) = HQCA.I := by
      linear_combination (S : ℂ) ^ 2 * hI - h3 - h4 - HQCA.I * h5
    linear_combination ((C : ℂ) + HQCA.I * S) * e + e'

/-- **C59, controlled rotation.** -/
theorem C59_CRy (θ : ℝ) : ofMat n (run n (CRy i j θ) m) =
    ctlOp [i] (site j (gRy (Real.cos (θ / 2) : ℝ) (Real.sin (θ / 2) : ℝ) : M2 ℂ)) * ofMat n m := by
  refine run_of_den n _ _ (by simp [CRy, Ry, Cx, Ok, hi, hj]) ?_ m
  simp only [CRy, Ry, Cx, denL_append, denL_single, denG, ctl_eq_mux]
  simp only [site_eq_mux i j, mux_mul i j hij]
  rw [mX_eq_arr, one_eq_arr]
  unfold gRy
  have hc := Real.cos_sq_add_sin_sq (θ / 2 / 2)
  have h1 := Real.cos_two_mul (θ / 2 / 2)
  have h2 := Real.sin_two_mul (θ / 2 / 2)
  rw [show 2 * (θ / 2 / 2) = θ / 2 by ring] at h1 h2
  simp only [arr_mul, neg_div, Real.cos_neg, Real.sin_neg, h1, h2]
  generalize Real.cos (θ / 2 / 2) = c at *
  generalize Real.sin (θ / 2 / 2) = s at *
  have hc : (c : ℂ) ^ 2 + (s : ℂ) ^ 2 = 1 := by exact_mod_cast hc
  push_cast
  congr 2
  all_goals first | ring1 | linear_combination hc | linear_combination -hc

/-- **C59, controlled Hadamard** in the version with one controlled NOT. -/
theorem C59_Ch1 : ofMat n (run n (Ch1 i j) m) =
    ctlOp [i] (site j (gh ((1 / √2 : ℝ) : ℂ))) * ofMat n m := by
  refine run_of_den n _ _ (by simp [Ch1, Ry, Cx, Ok, hi, hj]) ?_ m
  simp only [Ch1, Ry, Cx, denL_append, denL_single, denG, ctl_eq_mux]
  simp only [site_eq_mux i j, mux_mul i j hij]
  rw [mX_eq_arr, one_eq_arr]
  unfold gRy gh
  have hc := Real.cos_sq_add_sin_sq (Real.pi / 4 / 2)
  have h1 := Real.cos_two_mul (Real.pi / 4 / 2)
  have h2 := Real.sin_two_mul (Real.pi / 4 / 2)
  rw [show 2 * (Real.pi / 4 / 2) = Real.pi / 4 by ring] at h1 h2
  rw [Real.cos_pi_div_four] at h1
  rw [Real.sin_pi_div_four] at h2
  have ha : (1 / √2 : ℝ) = √2 / 2 := by
    rw [div_eq_div_iff (by positivity) (by norm_num), Real.mul_self_sqrt (by norm_num)]; norm_num
  rw [ha]
  simp only [arr_mul, neg_div, Real.cos_neg, Real.sin_neg]
  generalize Real.cos (Real.pi / 4 / 2) = c at *
  generalize Real.sin (Real.pi / 4 / 2) = s at *
  generalize √2 / 2 = a at *
  have hc : (c : ℂ) ^ 2 + (s : ℂ) ^ 2 = 1 := by exact_mod_cast hc
  have h1 : (a : ℂ) = 2 * (c : ℂ) ^ 2 - 1 := by exact_mod_cast h1
  have h2 : (a : ℂ) = 2 * (s : ℂ) * c := by exact_mod_cast h2
  push_cast
  congr 2
  all_goals first
    | ring1 | linear_combination hc | linear_combination -h2 | linear_combination -h1 - hc
    | linear_combination -h1 + hc | linear_combination h2 | linear_combination h1 - hc | linear_combination h1 + hc

/-- **C59, controlled Hadamard** in the version with two controlled NOTs. -/
theorem C59_Ch2 : ofMat n (run n (Ch2 i j) m) =
    ctlOp [i] (site j (gh ((1 / √2 : ℝ) : ℂ))) * ofMat n m := by
  refine run_of_den n _ _ (by simp [Ch2, Ry, Rz, Gates.ph, Cx, Ok, hi, hj]) ?_ m
  simp only [Ch2, Ry, Rz, Gates.ph, Cx, denL_append, denL_single, denG, ctl_eq_mux]
  unfold gph
  rw [diag_eq_mux i j]
  simp only [site_eq_mux i j, mux_mul i j hij]
  rw [mX_eq_arr, one_eq_arr]
  unfold gRy gRz gh
  have hI := Isq
  have hc := Real.cos_sq_add_sin_sq (Real.pi / 4 / 2)
  have h1 := Real.cos_two_mul (Real.pi / 4 / 2)
  have h2 := Real.sin_two_mul (Real.pi / 4 / 2)
  rw [show 2 * (Real.pi / 4 / 2) = Real.pi / 4 by ring] at h1 h2
  rw [Real.cos_pi_div_four] at h1
  rw [Real.sin_pi_div_four] at h2
  have ha : (1 / √2 : ℝ) = √2 / 2 := by
    rw [div_eq_div_iff (by positivity) (by norm_num), Real.mul_self_sqrt (by norm_num)]; norm_num
  have ha2 : (√2 / 2) ^ 2 = 1 / 2 := by rw [div_pow, Real.sq_sqrt (by norm_num)]; norm_num
  rw [ha]
  simp only [neg_div, Real.cos_neg, Real.sin_neg, Real.cos_pi_div_two, Real.sin_pi_div_two,
    show Real.pi / 2 / 2 = Real.pi / 4 by ring, Real.cos_pi_div_four, Real.sin_pi_div_four]
  generalize Real.cos (Real.pi / 4 / 2) = c at *
  generalize Real.sin (Real.pi / 4 / 2) = s at *
  generalize √2 / 2 = a at *
  have hc : (c : ℂ) ^ 2 + (s : ℂ) ^ 2 = 1 := by exact_mod_cast hc
  have h1 : (a : ℂ) = 2 * (c : ℂ) ^ 2 - 1 := by exact_mod_cast h1
  have h2 : (a : ℂ) = 2 * (s : ℂ) * c := by exact_mod_cast h2
  have ha2 : (a : ℂ) ^ 2 = 1 / 2 := by rw [← Complex.ofReal_pow, ha2]; norm_num
  push_cast
  have hp : ((a : ℂ) - HQCA.I * -a) * (a - HQCA.I * a) = 1 := by
    linear_combination 2 * ha2 - (a : ℂ) ^ 2 * hI
  have hp2 : ((a : ℂ) - HQCA.I * -a) * (a - HQCA.I * -a) = HQCA.I := by
    linear_combination (2 * HQCA.I) * ha2 + (a : ℂ) ^ 2 * hI
  have hm2 : ((a : ℂ) + HQCA.I * -a) * (a + HQCA.I * -a) = -HQCA.I := by
    linear_combination (-2 * HQCA.I) * ha2 + (a : ℂ) ^ 2 * hI
  have hpm : ((a : ℂ) - HQCA.I * -a) * (a + HQCA.I * -a) = 1 := by
    linear_combination 2 * ha2 - (a : ℂ) ^ 2 * hI
  simp only [arr_mul, arr_smul, mul_zero, zero_mul, add_zero, zero_add, mul_one, one_mul]
  congr 2
  · linear_combination (-(HQCA.I) * (c * c + s * s)) * hp2 - (c * c + s * s) * hI + hc
  · ring
  · ring
  · linear_combination (HQCA.I * (c * c + s * s)) * hm2 - (c * c + s * s) * hI + hc
  · linear_combination (-(HQCA.I * HQCA.I) * (c * c - s * s)) * hpm - (c * c - s * s) * hI - h1 - hc
  · linear_combination ((HQCA.I * HQCA.I) * (-2 * c * s)) * hpm + (-2 * c * s) * hI - h2
  · linear_combination ((HQCA.I * HQCA.I) * (-2 * c * s)) * hpm + (-2 * c * s) * hI - h2
  · linear_combination ((HQCA.I * HQCA.I) * (c * c - s * s)) * hpm + (c * c - s * s) * hI + h1 + hc

end

/-- Three controlled NOTs with common further controls make a controlled swap. -/
theorem ctl_swap (c : List ℕ) (k l : ℕ) (hkl : k ≠ l) (hk : k ∉ c) (hl : l ∉ c) :
    (ctlOp (c ++ [l]) (site k mX) * (ctlOp (c ++ [k]) (site l mX) * ctlOp (c ++ [l]) (site k mX)) : Oper ℂ) =
      ctlOp c (swapOp k l) := by
  ext ψ b
  simp only [Module.End.mul_apply, ctlX_apply]
  show _ = if ∀ i ∈ c, b i = true then ψ (fun i => if i = k then b l else if i = l then b k else b i) else ψ b
  by_cases hc : ∀ i ∈ c, b i = true
  · have hup : ∀ (e : Cfg) (q r : ℕ), q ∉ c → ((∀ i ∈ c ++ [r], e i = true) ↔ (∀ i ∈ c, e i = true) ∧ e r = true) := by
      intro e q r _
      simp [or_imp, forall_and]
    have hf : ∀ (e : Cfg) (q : ℕ), q ∉ c → (∀ i ∈ c, e i = true) → ∀ i ∈ c, flipBit e q i = true := by
      intro e q hq he i hi
      have : i ≠ q := fun h => hq (h ▸ hi)
      rw [flipBit, Function.update_of_ne this]; exact he i hi
    rw [if_pos hc]
    congr 1
    cases hbl : b l <;> cases hbk : b k
    · have e : ∀ (e' : Cfg), e' = b → (if ∀ i ∈ c ++ [l], e' i = true then flipBit e' k else e') = b := by
        rintro e' rfl; rw [if_neg]; rw [hup _ k l hk]; simp [hbl]
      rw [e b rfl]
      have e2 : (if ∀ i ∈ c ++ [k], b i = true then flipBit b l else b) = b := by
        rw [if_neg]; rw [hup _ l k hl]; simp [hbk]
      rw [e2, e b rfl]
      funext i; split_ifs <;> simp_all
    · have e1 : (if ∀ i ∈ c ++ [l], b i = true then flipBit b k else b) = b := by
        rw [if_neg]; rw [hup _ k l hk]; simp [hbl]
      rw [e1]
      have e2 : (if ∀ i ∈ c ++ [k], b i = true then flipBit b l else b) = flipBit b l := by
        rw [if_pos]; rw [hup _ l k hl]; exact ⟨hc, hbk⟩
      rw [e2]
      have e3 : (if ∀ i ∈ c ++ [l], flipBit b l i = true then flipBit (flipBit b l) k else flipBit b l) =
          flipBit (flipBit b l) k := by
        rw [if_pos]; rw [hup _ k l hk]; exact ⟨hf b l hl hc, by simp [flipBit, hbl]⟩
      rw [e3]
      funext i
      simp only [flipBit, Function.update_apply]
      split_ifs <;> simp_all
    · have e1 : (if ∀ i ∈ c ++ [l], b i = true then flipBit b k else b) = flipBit b k := by
        rw [if_pos]; rw [hup _ k l hk]; exact ⟨hc, hbl⟩
      rw [e1]
      have e2 : (if ∀ i ∈ c ++ [k], flipBit b k i = true then flipBit (flipBit b k) l else flipBit b k) =
          flipBit (flipBit b k) l := by
        rw [if_pos]; rw [hup _ l k hl]; exact ⟨hf b k hk hc, by simp [flipBit, hbk]⟩
      rw [e2]
      have e3 : (if ∀ i ∈ c ++ [l], flipBit (flipBit b k) l i = true then flipBit (flipBit (flipBit b k) l) k
          else flipBit (flipBit b k) l) = flipBit (flipBit b k) l := by
        rw [if_neg]; rw [hup _ k l hk]
        have : flipBit (flipBit b k) l l = false := by
          simp [flipBit, Function.update_apply, hkl.symm, hbl]
        simp [this]
      rw [e3]
      funext i
      simp only [flipBit, Function.update_apply]
      split_ifs <;> simp_all
    · have e1 : (if ∀ i ∈ c ++ [l], b i = true then flipBit b k else b) = flipBit b k := by
        rw [if_pos]; rw [hup _ k l hk]; exact ⟨hc, hbl⟩
      rw [e1]
      have e2 : (if ∀ i ∈ c ++ [k], flipBit b k i = true then flipBit (flipBit b k) l else flipBit b k) =
          flipBit b k := by
        rw [if_neg]; rw [hup _ l k hl]; simp [flipBit, hbk]
      rw [e2]
      have e3 : (if ∀ i ∈ c ++ [l], flipBit b k i = true then flipBit (flipBit b k) k else flipBit b k) =
          flipBit (flipBit b k) k := by
        rw [if_pos]; rw [hup _ k l hk]
        exact ⟨hf b k hk hc, by simp [flipBit, Function.update_apply, hkl.symm, hbl]⟩
      rw [e3]
      funext i
      simp only [flipBit, Function.update_apply]
      split_ifs <;> simp_all
  · have e : ∀ (r : ℕ) (e' : Cfg), (if ∀ i ∈ c ++ [r], b i = true then e' else b) = b := by
      intro r e'
      rw [if_neg]
      intro h
      exact hc (fun i hi => h i (List.mem_append_left _ hi))
    rw [e, e, e, if_neg hc]

/-- **C59, swap.** -/
theorem C59_Sw (n i j : ℕ) (hi : i < n) (hj : j < n) (hij : i ≠ j) (m : Mat ℂ) :
    ofMat n (run n (Sw i j) m) = swapOp j i * ofMat n m := by
  refine run_of_den n _ _ (by simp [Sw, Cx, Ok, hi, hj]) ?_ m
  simp only [Sw, Cx, denL_append, denL_single, denG]
  have := ctl_swap [] j i hij.symm (by simp) (by simp)
  simp only [List.nil_append] at this
  rw [this]
  ext ψ b
  show (if ∀ k ∈ [], b k = true then (swapOp j i : Oper ℂ) ψ b else ψ b) = _
  simp

/-- **C59, Fredkin gate**: swap of `j` and `k` controlled by `i`. -/
theorem C59_Fred (n i j k : ℕ) (hi : i < n) (hj : j < n) (hk : k < n) (hij : i ≠ j) (hik : i ≠ k) (hjk : j ≠ k)
    (m : Mat ℂ) : ofMat n (run n (Fred i j k) m) = ctlOp [i] (swapOp j k) * ofMat n m := by
  refine run_of_den n _ _ (by simp [Fred, Toff, Ok, hi, hj, hk]) ?_ m
  simp only [Fred, Toff, denL_append, denL_single, denG]
  exact ctl_swap [i] j k hjk (by simpa using hij.symm) (by simpa using hik.symm)

/-- **C59, doubly controlled swap.** -/
theorem C59_CCS (n i j k l : ℕ) (hi : i < n) (hj : j < n) (hk : k < n) (hl : l < n) (hik : i ≠ k) (hil : i ≠ l)
    (hjk : j ≠ k) (hjl : j ≠ l) (hkl : k ≠ l) (m : Mat ℂ) :
    ofMat n (run n (CCS i j k l) m) = ctlOp [i, j] (swapOp k l) * ofMat n m := by
  refine run_of_den n _ _ (by simp [CCS, Toff4, Ok, hi, hj, hk, hl]) ?_ m
  simp only [CCS, Toff4, denL_append, denL_single, denG]
  exact ctl_swap [i, j] k l hkl (by simp [hik.symm, hjk.symm]) (by simp [hil.symm, hjl.symm])

/-- **C59, `SRy`** rotates `|10⟩` and `|01⟩` of qubits `i`, `j` into each other and leaves `|00⟩` and `|11⟩` alone, so
it conserves the number of ones. -/
theorem C59_SRy (n i j : ℕ) (hi : i < n) (hj : j < n) (hij : i ≠ j) (θ : ℝ) (m : Mat ℂ) :
    ofMat n (run n (SRy i j θ) m) =
      givens i j ((Real.cos (θ / 2) : ℝ) : ℂ) ((Real.sin (θ / 2) : ℝ) : ℂ) * ofMat n m := by
  refine run_of_den n _ _ (by simp [SRy, CRy, Ry, x, Cx, Ok, hi, hj]) ?_ m
  have hcry : denL (CRy i j θ) =
      ctlOp [i] (site j (gRy (Real.cos (θ / 2) : ℝ) (Real.sin (θ / 2) : ℝ) : M2 ℂ)) := by
    have h1 : ofMat n (run n (CRy i j θ) ident) = denL (CRy i j θ) := by
      rw [ofMat_run n _ (by simp [CRy, Ry, Cx, Ok, hi, hj]), ofMat_ident, mul_one]
    rw [← h1, C59_CRy n i j hi hj hij, ofMat_ident, mul_one]
  have hx : ∀ k (φ : Cfg → ℂ) e, (site k gx : Oper ℂ) φ e = φ (flipBit e k) := by
    intro k φ e
    have := site_pmat_apply (K := ℂ) k .X φ e
    rw [gx_eq]
    simpa [pmat, HQCA.ph, PL.l] using this
  simp only [SRy, denL_append, hcry, x, Cx, denL_single, denG]
  ext ψ b
  simp only [Module.End.mul_apply, hx, ctlX_apply]
  show (if ∀ k ∈ [i], _ then _ else _) = (if b i = b j then _ else if b i then _ else _)
  simp only [List.mem_singleton, forall_eq, site_apply, hx, ctlX_apply]
  have fb : ∀ v : Bool, b j = v → Function.update b j v = b := by
    rintro v rfl; exact Function.update_eq_self j b
  have sw : ∀ (u v : Bool), (fun k => if k = i then u else if k = j then v else b k) =
      Function.update (Function.update b j v) i u := by
    intro u v
    funext k
    simp only [Function.update_apply]
  cases hbi : b i <;> cases hbj : b j
  · simp [hbi, hbj, flipBit, hij, Function.update_apply, fb]
  · rw [sw]
    have e1 : Function.update (Function.update (Function.update b i true) j true) i false = b := by
      funext k; simp only [Function.update_apply]; split_ifs <;> simp_all
    simp [hbi, hbj, flipBit, hij, hij.symm, Function.update_apply, gRy, arr, e1]
    rw [Function.update_comm hij]
    ring
  · rw [sw]
    simp [hbi, hbj, flipBit, hij, hij.symm, Function.update_apply, gRy, arr, fb]
    ring
  · simp [hbi, hbj, flipBit, hij, hij.symm, Function.update_apply, gRy, arr]
    congr 1
    funext k
    simp only [Function.update_apply]
    split_ifs <;> simp_all

/-- The Hadamard transform of `|01⟩` and `|10⟩` of qubits `i`, `j`; `|00⟩` and `|11⟩` stay. -/
def hadSwap (i j : ℕ) (a : ℂ) : Oper ℂ where
  toFun ψ b := if b i = b j then ψ b else
    if b i then a * ψ (Function.update (Function.update b j true) i false) - a * ψ b
    else a * ψ b + a * ψ (Function.update (Function.update b j false) i true)
  map_add' ψ φ := by funext b; simp only [Pi.add_apply]; split_ifs <;> ring
  map_smul' c ψ := by funext b; simp only [Pi.smul_apply, smul_eq_mul, RingHom.id_apply]; split_ifs <;> ring

theorem den_Sh (i j : ℕ) (hij : i ≠ j) (a : ℂ) : (ctlOp [j] (site i mX) * (site j gx * (ctlOp [i] (site j (gh a)) *
    (site j gx * ctlOp [j] (site i mX)))) : Oper ℂ) = hadSwap i j a := by
  have hx : ∀ k (φ : Cfg → ℂ) e, (site k gx : Oper ℂ) φ e = φ (flipBit e k) := by
    intro k φ e
    have := site_pmat_apply (K := ℂ) k .X φ e
    rw [gx_eq]
    simpa [pmat, HQCA.ph, PL.l] using this
  ext ψ b
  simp only [Module.End.mul_apply, hx, ctlX_apply]
  show (if ∀ k ∈ [i], _ then _ else _) = (if b i = b j then _ else if b i then _ else _)
  simp only [List.mem_singleton, forall_eq, site_apply, hx, ctlX_apply]
  have fb : ∀ v : Bool, b j = v → Function.update b j v = b := by
    rintro v rfl; exact Function.update_eq_self j b
  cases hbi : b i <;> cases hbj : b j
  · simp [hbi, hbj, flipBit, hij, Function.update_apply, fb]
  · have e1 : Function.update (Function.update (Function.update b i true) j true) i false = b := by
      funext k; simp only [Function.update_apply]; split_ifs <;> simp_all
    simp [hbi, hbj, flipBit, hij, hij.symm, Function.update_apply, gh, arr, e1]
    rw [Function.update_comm hij]
    exact Or.inl rfl
  · simp [hbi, hbj, flipBit, hij, hij.symm, Function.update_apply, gh, arr, fb]
    ring
  · simp [hbi, hbj, flipBit, hij, hij.symm, Function.update_apply, gh, arr]
    congr 1
    funext k
    simp only [Function.update_apply]
    split_ifs <;> simp_all

/-- **C59, `Sh`** (both versions of the controlled Hadamard): the Hadamard transform of `|01⟩` and `|10⟩`, with `|00⟩` and `|11⟩` unchanged,
so it conserves the number of ones. -/
theorem C59_Sh (n i j : ℕ) (hi : i < n) (hj : j < n) (hij : i ≠ j) (m : Mat ℂ) :
    ofMat n (run n (Sh2 i j) m) = hadSwap i j ((1 / √2 : ℝ) : ℂ) * ofMat n m ∧
      ofMat n (run n (Sh1 i j) m) = hadSwap i j ((1 / √2 : ℝ) : ℂ) * ofMat n m := by
  have h2 : denL (Ch2 i j) = ctlOp [i] (site j (gh ((1 / √2 : ℝ) : ℂ))) := by
    have h1 : ofMat n (run n (Ch2 i j) ident) = denL (Ch2 i j) := by
      rw [ofMat_run n _ (by simp [Ch2, Ry, Rz, Gates.ph, Cx, Ok, hi, hj]), ofMat_ident, mul_one]
    rw [← h1, C59_Ch2 n i j hi hj hij, ofMat_ident, mul_one]
  have h1 : denL (Ch1 i j) = ctlOp [i] (site j (gh ((1 / √2 : ℝ) : ℂ))) := by
    have h1 : ofMat n (run n (Ch1 i j) ident) = denL (Ch1 i j) := by
      rw [ofMat_run n _ (by simp [Ch1, Ry, Cx, Ok, hi, hj]), ofMat_ident, mul_one]
    rw [← h1, C59_Ch1 n i j hi hj hij, ofMat_ident, mul_one]
  refine ⟨run_of_den n _ _ (by simp [Sh2, Ch2, Ry, Rz, Gates.ph, x, Cx, Ok, hi, hj]) ?_ m,
    run_of_den n _ _ (by simp [Sh1, Ch1, Ry, x, Cx, Ok, hi, hj]) ?_ m⟩
  · simp only [Sh2, denL_append, h2, x, Cx, denL_single, denG]
    exact den_Sh i j hij _
  · simp only [Sh1, denL_append, h1, x, Cx, denL_single, denG]
    exact den_Sh i j hij _

/-- A three-qubit circuit meeting the hypotheses. -/
example (m : Mat ℂ) : ofMat 3 (run 3 (Fred 2 0 1) m) = ctlOp [2] (swapOp 0 1) * ofMat 3 m :=
  C59_Fred 3 2 0 1 (by omega) (by omega) (by omega) (by omega) (by omega) (by omega) m

/-! ### `trace_operator` -/

/-- `trace_operator` (`_gates.py:31-67`): the loops of the symbolic partial trace (reading
`m[ind_ket,ind_bra]`), then division by `2^k`.  The accumulator is a real array, so this models circuits with real
matrices only. -/
def traceOperator {K : Type} [Coef K] (n : ℕ) (qb : List ℕ) (M : Mat K) : Option (Mat K) :=
  (PTrace.symbolic n qb M).map (fun P => fun l m => P l m * (1 / 2 ^ qb.length))

/-- **C60, partial.** The result times `2^k` is the *transpose* of the partial trace; it is the normalised partial
trace when the circuit matrix is symmetric. -/
theorem C60_trace_operator_partial {K : Type} [Coef K] (n : ℕ) (hn : 0 < n) (qb : List ℕ) (hd : qb.Nodup)
    (hq : ∀ q ∈ qb, q < n) (M : Mat K) : ∃ P T, PTrace.matrix n qb M = some P ∧ IsPTrace n qb M P ∧
      traceOperator n qb M = some T ∧
      (∀ l < 2 ^ (n - qb.length), ∀ m < 2 ^ (n - qb.length), 2 ^ qb.length * T l m = P m l) ∧
      ((∀ i j, M i j = M j i) → ∀ l < 2 ^ (n - qb.length), ∀ m < 2 ^ (n - qb.length),
        2 ^ qb.length * T l m = P l m) := by
  obtain ⟨S, P, h1, h2, h3⟩ := C58_symbolic_transposed n hn qb hd hq M
  obtain ⟨P', h4, h5⟩ := PTrace.matrix_spec n hn qb hd hq M
  obtain rfl : P = P' := by rw [h2] at h4; exact Option.some.inj h4
  have h2n : (2 : K) ^ qb.length ≠ 0 := pow_ne_zero _ Coef.two_ne_zero'
  have key : ∀ x : K, (2 : K) ^ qb.length * (x * (1 / 2 ^ qb.length)) = x := by
    intro x; field_simp
  refine ⟨P, _, h2, h5, by rw [traceOperator, h1]; rfl, ?_, ?_⟩
  · intro l hl m hm; rw [key, h3 l hl m hm]
  · intro hs l hl m hm
    have := C58_symbolic_partial n qb M hs
    rw [h1, h2] at this
    rw [key, Option.some.inj this]

/-- **C60, violated.** A circuit (`create` on qubit 0 of two) whose traced operator is its transpose. -/
theorem C60_transposed :
    (traceOperator (K := GQ) 2 [1] (applySqg 2 gcre 0 ident)).map (fun T => [T 0 1, T 1 0]) = some [1, 0] ∧
    (PTrace.matrix (K := GQ) 2 [1] (applySqg 2 gcre 0 ident)).map (fun T => [T 0 1, T 1 0]) = some [0, 2] := by
  decide +kernel

end HQCA.Props
