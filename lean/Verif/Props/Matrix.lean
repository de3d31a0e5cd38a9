import Verif.Proofs.Circ
import Verif.Props.Transforms
import Verif.Proofs.Act
import Verif.Proofs.Independent
import Mathlib.Data.Fintype.Card
import Mathlib.Data.Fintype.Pi
import Mathlib.Data.Fintype.BigOperators

/-!
# Property C22: matrices and operators
-/

namespace HQCA.Props
open MatTools Circ

section
variable {K : Type} [Coef K]

/-- **C22, first half.** `matrix_to_qubit(M)` represents `M` without the entries below the threshold: as an
operator and entry by entry. -/
theorem C22_matrix_to_qubit (big : K → Bool) (n : ℕ) (M : Mat K) :
    (denD (denQ 0) (matrixToQubit big n M) : Oper K) = ofMat n (fun i j => if big (M i j) then M i j else 0) ∧
      ∀ i < 2 ^ n, ∀ j < 2 ^ n, entry n (denD (denQ 0) (matrixToQubit big n M)) i j =
        if big (M i j) then M i j else 0 := by
  refine ⟨matrixToQubit_den big n M, ?_⟩
  intro i hi j hj
  rw [matrixToQubit_den, entry_ofMat n _ i j hi hj]
  rfl

/-- **C22, second half.** `operator_to_matrix` of a nonempty Pauli operator on `n` qubits is its matrix. -/
theorem C22_operator_to_matrix (n : ℕ) (A : POp K) (hA : ∀ t ∈ A, t.1.length = n) (h0 : A ≠ []) :
    ∃ M, operatorToMatrix A = some (n, M) ∧ ofMat n M = denPO A ∧
      ∀ i < 2 ^ n, ∀ j < 2 ^ n, M i j = entry n (denPO A) i j := by
  obtain ⟨M, h1, h2⟩ := operatorToMatrix_den n A hA h0
  refine ⟨M, h1, h2, ?_⟩
  intro i hi j hj
  rw [← h2, entry_ofMat n M i j hi hj]

end

instance : Fintype PL := ⟨{.I, .X, .Y, .Z}, by intro x; cases x <;> simp⟩

/-- All Pauli strings of length `n`. -/
def allStr (n : ℕ) : Finset PStr := Finset.univ.image (fun f : Fin n → PL => List.ofFn f)

theorem mem_allStr (n : ℕ) (s : PStr) (h : s.length = n) : s ∈ allStr n := by
  subst h
  exact Finset.mem_image.mpr ⟨fun i => s[i], Finset.mem_univ _, by simp⟩

theorem card_allStr (n : ℕ) : (allStr n).card ≤ 4 ^ n := by
  refine Finset.card_image_le.trans ?_
  rw [Finset.card_univ, Fintype.card_fun, Fintype.card_fin]
  rfl

theorem denPO_eq_sum (n : ℕ) (A : POp ℂ) (hA : ∀ t ∈ A, t.1.length = n) (i j : ℕ) :
    entry n (denPO A) i j = ∑ s ∈ allStr n, coef A s * entry n (denP 0 s) i j := by
  induction A with
  | nil => simp [denPO, denD, coef, entry_zero]
  | cons t A ih =>
    have ih' := ih (fun u hu => hA u (by simp [hu]))
    unfold denPO at ih' ⊢
    rw [OpD.denD_cons, entry_add, entry_smul, ih']
    simp only [coef_cons, add_mul, Finset.sum_add_distrib]
    congr 1
    rw [Finset.sum_eq_single t.1]
    · simp
    · intro s _ hne; rw [if_neg hne.symm, zero_mul]
    · intro h; exact absurd (mem_allStr n t.1 (hA t (by simp))) h

theorem entry_denP_norm (n : ℕ) (s : PStr) (i j : ℕ) : ‖entry n (denP 0 s : Oper ℂ) i j‖ ≤ 1 := by
  unfold entry
  rw [denP_apply, norm_mul]
  have h1 : ‖(phase 0 s (setBits n i fun _ => false) : ℂ)‖ = 1 := by
    unfold phase
    rw [norm_prod]
    apply Finset.prod_eq_one
    intro k _
    have : ∀ (p : PL) (b : Bool), ‖(ph p b : ℂ)‖ = 1 := by
      intro p b
      cases p <;> cases b <;> simp [ph, sg, HQCA.I]
    exact this _ _
  have h2 : ∀ b, ‖(basisSt n j b : ℂ)‖ ≤ 1 := by
    intro b; unfold basisSt; split <;> simp
  rw [h1, one_mul]
  exact h2 _

/-- `matrix_to_pauli` (`_operator_tools.py:37-62`): as `matrix_to_qubit`, then the qubit transform. -/
noncomputable def matrixToPauli (n : ℕ) (M : Mat ℂ) : Option (POp ℂ) :=
  OpD.transform Transform.qubit (matrixToQubit (fun c => decide (1e-8 < ‖c‖)) n M)

theorem foldl_add_lengths (n : ℕ) (rs : List (POp ℂ)) (A : POp ℂ) (hA : ∀ t ∈ A, t.1.length = n)
    (h : ∀ r ∈ rs, ∀ u ∈ r, u.1.length = n) : ∀ t ∈ rs.foldl OpD.add A, t.1.length = n := by
  induction rs generalizing A with
  | nil => exact hA
  | cons r rs ih =>
    apply ih _ _ (fun x hx => h x (by simp [hx]))
    intro t ht
    have h1 : t ∈ r.foldl OpD.addStr A := List.mem_of_mem_filter ht
    have h2 := List.mem_map_of_mem (f := (·.1)) h1
    rw [OpD.mem_keys_foldl_addStr] at h2
    rcases h2 with h2 | h2
    · obtain ⟨u, hu, e⟩ := List.mem_map.mp h2
      rw [← e]; exact hA u hu
    · obtain ⟨u, hu, e⟩ := List.mem_map.mp h2
      rw [← e]; exact h r (by simp) u hu

theorem mapM_mem {α β : Type} (f : α → Option β) (A : List α) (rs : List β) (h : A.mapM f = some rs) :
    ∀ r ∈ rs, ∃ a ∈ A, f a = some r := by
  induction A generalizing rs with
  | nil => simp at h; subst h; simp
  | cons a A ih =>
    rw [List.mapM_cons] at h
    cases h1 : f a with
    | none => rw [h1] at h; cases h
    | some b =>
      cases h2 : A.mapM f with
      | none => rw [h1, h2] at h; cases h
      | some bs =>
        rw [h1, h2] at h
        have : rs = b :: bs := by simpa using h.symm
        subst this
        intro r hr
        rcases List.mem_cons.mp hr with rfl | hr
        · exact ⟨a, by simp, h1⟩
        · obtain ⟨x, hx, e⟩ := ih bs h2 r hr
          exact ⟨x, by simp [hx], e⟩

theorem transform_lengths (A : OpD FStr ℂ) (n : ℕ) (hA : ∀ t ∈ A, t.1.length = n) (C : POp ℂ)
    (h : OpD.transform Transform.qubit A = some C) : ∀ t ∈ C, t.1.length = n := by
  unfold OpD.transform at h
  cases hm : A.mapM (Transform.qubit (K := ℂ)) with
  | none => rw [hm] at h; cases h
  | some rs =>
    rw [hm] at h
    have : C = rs.foldl OpD.add [] := by simpa using h.symm
    subst this
    apply foldl_add_lengths n rs [] (by simp)
    intro r hr u hu
    obtain ⟨a, ha, e⟩ := mapM_mem _ A rs hm r hr
    obtain ⟨r', E, e1, _, e3, _⟩ := Transform.Spec.exact Transform.qubit (denQ 0) Transform.qu_spec a
    rw [e] at e1
    obtain rfl : r = r' := by simpa using e1
    rw [e3 u hu, hA a ha]

/-- **C22, round trip, partial.** For a matrix whose nonzero entries exceed `1e-8`, mapping to a Pauli operator and
back returns the matrix up to the cleaning of coefficients below `1e-12`; when the Pauli operator is empty
`operator_to_matrix` raises instead.  Missing: the empty case (see `C22_zero_matrix_raises`) and exactness. -/
theorem C22_round_trip_partial (n : ℕ) (M : Mat ℂ)
    (hM : ∀ i < 2 ^ n, ∀ j < 2 ^ n, M i j = 0 ∨ 1e-8 < ‖M i j‖) :
    ∃ C, matrixToPauli n M = some C ∧ (C = [] → operatorToMatrix C = none) ∧
      (C ≠ [] → ∃ R, operatorToMatrix C = some (n, R) ∧
        ∀ i < 2 ^ n, ∀ j < 2 ^ n, ‖R i j - M i j‖ ≤ 4 ^ n * (4 ^ n * 1e-12)) := by
  obtain ⟨C, E, h1, h2, _, h4, h5, h6⟩ := C19_transform_qubit
    (matrixToQubit (fun c => decide (1e-8 < ‖c‖)) n M) n (matrixToQubit_lengths _ n M)
  have hCn : ∀ t ∈ C, t.1.length = n :=
    transform_lengths _ n (matrixToQubit_lengths _ n M) C h1
  refine ⟨C, h1, fun h => by rw [h]; rfl, ?_⟩
  intro h0
  obtain ⟨R, r1, _, r3⟩ := C22_operator_to_matrix n C hCn h0
  refine ⟨R, r1, ?_⟩
  intro i hi j hj
  have e1 : M i j = entry n (denPO E) i j := by
    rw [h4, (C22_matrix_to_qubit _ n M).2 i hi j hj]
    rcases hM i hi j hj with h | h
    · simp [h]
    · simp [h]
  rw [r3 i hi j hj, e1, denPO_eq_sum n C hCn, denPO_eq_sum n E h5, ← Finset.sum_sub_distrib]
  have hlen : ((matrixToQubit (fun c : ℂ => decide (1e-8 < ‖c‖)) n M).length : ℝ) ≤ 4 ^ n := by
    exact_mod_cast matrixToQubit_length _ n M
  calc ‖∑ s ∈ allStr n, (coef C s * entry n (denP 0 s) i j - coef E s * entry n (denP 0 s) i j)‖
      ≤ ∑ s ∈ allStr n, ‖coef C s * entry n (denP 0 s) i j - coef E s * entry n (denP 0 s) i j‖ := norm_sum_le _ _
    _ ≤ ∑ s ∈ allStr n, ((4 : ℝ) ^ n * 1e-12) := by
        apply Finset.sum_le_sum
        intro s _
        rw [← sub_mul, norm_mul]
        have a1 := h6 s
        have a2 := entry_denP_norm n s i j
        have a3 : ‖coef C s - coef E s‖ ≤ 4 ^ n * 1e-12 :=
          a1.trans (mul_le_mul_of_nonneg_right hlen (by norm_num))
        have a4 := norm_nonneg (coef C s - coef E s)
        have a5 := norm_nonneg (entry n (denP 0 s : Oper ℂ) i j)
        nlinarith
    _ = (allStr n).card * ((4 : ℝ) ^ n * 1e-12) := by rw [Finset.sum_const, nsmul_eq_mul]
    _ ≤ 4 ^ n * (4 ^ n * 1e-12) := by
        apply mul_le_mul_of_nonneg_right
        · exact_mod_cast card_allStr n
        · positivity

/-- **C22, violated corner.** The zero matrix is not mapped back: the operator is empty and reading the number of
qubits from its first string raises. -/
theorem C22_zero_matrix_raises (n : ℕ) :
    matrixToPauli n (fun _ _ => 0) = some [] ∧ operatorToMatrix ([] : POp ℂ) = none := by
  have h : matrixToQubit (fun c : ℂ => decide (1e-8 < ‖c‖)) n (fun _ _ => 0) = [] := by
    unfold matrixToQubit bigEntries
    have : ∀ L : List (ℕ × ℕ), L.filter (fun _ => !isZero (0 : ℂ) && decide ((1e-8 : ℝ) < ‖(0 : ℂ)‖)) = [] := by
      intro L
      rw [List.filter_eq_nil_iff]
      intro a _
      have : isZero (0 : ℂ) = true := (Coef.isZero_iff 0).mpr rfl
      simp [this]
    rw [this]; rfl
  refine ⟨?_, rfl⟩
  unfold matrixToPauli
  rw [h]; rfl

/-- Two qubits, three entries. -/
example : matrixToQubit (K := GQ) (fun c => decide (c ≠ 0)) 2
    (fun i j => if i = 1 ∧ j = 2 then 5 else if i = 3 ∧ j = 3 then ⟨0, 1⟩ else if i = 0 ∧ j = 3 then 2 else 0) =
    [([.an, .an], 2), ([.an, .cr], 5), ([.p, .p], ⟨0, 1⟩)] := by decide +kernel

/-- The hypothesis of the round trip holds, for instance, here. -/
example : ∀ i < 2 ^ 2, ∀ j < 2 ^ 2, (fun i j => if i = 1 ∧ j = 2 then (5 : ℂ) else 0) i j = 0 ∨
    1e-8 < ‖(fun i j => if i = 1 ∧ j = 2 then (5 : ℂ) else 0) i j‖ := by
  intro i _ j _
  by_cases h : i = 1 ∧ j = 2
  · right; simp only [h, and_self, if_true]; norm_num
  · left; simp [h]

end HQCA.Props
