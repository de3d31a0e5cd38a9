import Verif.Spec.Adjoint
import Verif.Proofs.Fermi

set_option linter.unusedSectionVars false

namespace HQCA
variable {K : Type} [Coef K]

theorem conj_zero : conj (0 : K) = 0 := by
  have h := Coef.conj_add (0 : K) 0
  rw [add_zero] at h
  exact left_eq_add.mp h

theorem conj_one : conj (1 : K) = 1 := by
  have h := Coef.conj_mul (1 : K) (conj 1)
  rw [one_mul, Coef.conj_conj, mul_one] at h
  exact h.symm

theorem conj_neg (a : K) : conj (-a) = - conj a := by
  have h := Coef.conj_add a (-a)
  rw [add_neg_cancel, conj_zero] at h
  exact (neg_eq_of_add_eq_zero_right h.symm).symm

theorem pair_add (φ φ' : Cfg →₀ K) (ψ : Cfg → K) : pair (φ + φ') ψ = pair φ ψ + pair φ' ψ := by
  unfold pair
  classical
  apply Finsupp.sum_add_index'
  · intro b; rw [conj_zero, zero_mul]
  · intro b c d; rw [Coef.conj_add, add_mul]

theorem pair_single (b : Cfg) (c : K) (ψ : Cfg → K) : pair (Finsupp.single b c) ψ = conj c * ψ b := by
  unfold pair
  rw [Finsupp.sum_single_index]
  rw [conj_zero, zero_mul]

theorem pair_zero (ψ : Cfg → K) : pair (0 : Cfg →₀ K) ψ = 0 := by
  simp [pair]

/-- It is enough to check adjointness on point states. -/
theorem isAdj_of_single (A B : Oper K)
    (h : ∀ b c, ∃ φ' : Cfg →₀ K, (φ' : Cfg → K) = B (Finsupp.single b c) ∧
      ∀ ψ, conj c * A ψ b = pair φ' ψ) : IsAdj A B := by
  intro φ
  induction φ using Finsupp.induction_linear with
  | zero => exact ⟨0, by simp, fun ψ => by simp [pair_zero]⟩
  | add f g hf hg =>
    obtain ⟨f', h1, h2⟩ := hf
    obtain ⟨g', h3, h4⟩ := hg
    refine ⟨f' + g', ?_, fun ψ => ?_⟩
    · rw [Finsupp.coe_add, h1, h3, Finsupp.coe_add, map_add]
    · rw [pair_add, pair_add, h2, h4]
  | single b c =>
    obtain ⟨φ', h1, h2⟩ := h b c
    exact ⟨φ', h1, fun ψ => by rw [pair_single, h2]⟩

theorem IsAdj.mul {A B A' B' : Oper K} (h : IsAdj A B) (h' : IsAdj A' B') :
    IsAdj (A * A') (B' * B) := by
  intro φ
  obtain ⟨φ1, e1, p1⟩ := h φ
  obtain ⟨φ2, e2, p2⟩ := h' φ1
  refine ⟨φ2, ?_, fun ψ => ?_⟩
  · rw [e2, e1]; rfl
  · rw [Module.End.mul_apply, p1, p2]

theorem IsAdj.one : IsAdj (1 : Oper K) 1 := fun φ => ⟨φ, rfl, fun _ => rfl⟩

theorem pair_smul_right (φ : Cfg →₀ K) (c : K) (ψ : Cfg → K) : pair φ (c • ψ) = c * pair φ ψ := by
  unfold pair
  rw [Finsupp.mul_sum]
  apply Finsupp.sum_congr
  intro b _
  simp only [Pi.smul_apply, smul_eq_mul]
  ring

theorem pair_add_right (φ : Cfg →₀ K) (ψ ψ' : Cfg → K) :
    pair φ (ψ + ψ') = pair φ ψ + pair φ ψ' := by
  unfold pair
  rw [← Finsupp.sum_add]
  apply Finsupp.sum_congr
  intro b _
  simp only [Pi.add_apply]
  ring

theorem pair_smul_left (φ : Cfg →₀ K) (c : K) (ψ : Cfg → K) :
    pair (c • φ) ψ = conj c * pair φ ψ := by
  induction φ using Finsupp.induction_linear with
  | zero => simp [pair_zero]
  | add f g hf hg => rw [smul_add, pair_add, pair_add, hf, hg, mul_add]
  | single b d =>
    rw [Finsupp.smul_single, pair_single, pair_single, smul_eq_mul, Coef.conj_mul, mul_assoc]

theorem IsAdj.smul {A B : Oper K} (c : K) (h : IsAdj A B) : IsAdj (c • A) (conj c • B) := by
  intro φ
  obtain ⟨φ1, e1, p1⟩ := h φ
  refine ⟨conj c • φ1, ?_, fun ψ => ?_⟩
  · rw [Finsupp.coe_smul, e1]; rfl
  · rw [LinearMap.smul_apply, pair_smul_right, p1, pair_smul_left, Coef.conj_conj]

theorem IsAdj.add {A B A' B' : Oper K} (h : IsAdj A B) (h' : IsAdj A' B') :
    IsAdj (A + A') (B + B') := by
  intro φ
  obtain ⟨φ1, e1, p1⟩ := h φ
  obtain ⟨φ2, e2, p2⟩ := h' φ
  refine ⟨φ1 + φ2, ?_, fun ψ => ?_⟩
  · rw [Finsupp.coe_add, e1, e2]; rfl
  · rw [LinearMap.add_apply, pair_add_right, p1, p2, pair_add]

theorem fsign_conj (b : Cfg) (k : ℕ) : conj (fsign b k : K) = fsign b k := by
  induction k with
  | zero => simp [fsign, conj_one]
  | succ k ih =>
    rw [fsign_succ, Coef.conj_mul, ih]
    split <;> simp [conj_neg, conj_one]

open Classical in
theorem single_eq (b : Cfg) (c : K) (x : Cfg) :
    (Finsupp.single b c : Cfg →₀ K) x = if b = x then c else 0 := Finsupp.single_apply

theorem isAdj_ann (k : ℕ) : IsAdj (ann k : Oper K) (cre k) := by
  classical
  apply isAdj_of_single
  intro b c
  by_cases hb : b k = true
  · refine ⟨0, ?_, fun ψ => ?_⟩
    · funext x
      show (0 : K) = if x k then fsign x k * (Finsupp.single b c) (Function.update x k false) else 0
      split
      · rw [Finsupp.single_apply, if_neg, mul_zero]
        intro h
        rw [h, Function.update_self] at hb
        cases hb
      · rfl
    · show conj c * (if b k then 0 else _) = _
      rw [if_pos hb, mul_zero, pair_zero]
  · have hb' : b k = false := by simpa using hb
    refine ⟨Finsupp.single (Function.update b k true) (fsign b k * c), ?_, fun ψ => ?_⟩
    · funext x
      show _ = if x k then fsign x k * (Finsupp.single b c) (Function.update x k false) else 0
      rw [Finsupp.single_apply]
      by_cases hx : Function.update b k true = x
      · subst hx
        rw [if_pos rfl, Function.update_self, if_pos rfl, fsign_update, Finsupp.single_apply,
          if_pos]
        rw [Function.update_idem, ← hb', Function.update_eq_self]
      · rw [if_neg hx]
        split
        · rename_i hxk
          rw [Finsupp.single_apply, if_neg, mul_zero]
          intro h
          apply hx
          rw [h, Function.update_idem, ← hxk, Function.update_eq_self]
        · rfl
    · show conj c * (if b k then 0 else fsign b k * ψ (Function.update b k true)) = _
      rw [if_neg hb, pair_single, Coef.conj_mul, fsign_conj]
      ring

theorem isAdj_cre (k : ℕ) : IsAdj (cre k : Oper K) (ann k) := by
  classical
  apply isAdj_of_single
  intro b c
  by_cases hb : b k = true
  · refine ⟨Finsupp.single (Function.update b k false) (fsign b k * c), ?_, fun ψ => ?_⟩
    · funext x
      show _ = if x k then 0 else fsign x k * (Finsupp.single b c) (Function.update x k true)
      rw [Finsupp.single_apply]
      by_cases hx : Function.update b k false = x
      · subst hx
        rw [if_pos rfl, Function.update_self, if_neg (by simp), fsign_update, Finsupp.single_apply,
          if_pos]
        rw [Function.update_idem, ← hb, Function.update_eq_self]
      · rw [if_neg hx]
        split
        · rfl
        · rename_i hxk
          have hxk' : x k = false := by simpa using hxk
          rw [Finsupp.single_apply, if_neg, mul_zero]
          intro h
          apply hx
          rw [h, Function.update_idem, ← hxk', Function.update_eq_self]
    · show conj c * (if b k then fsign b k * ψ (Function.update b k false) else 0) = _
      rw [if_pos hb, pair_single, Coef.conj_mul, fsign_conj]
      ring
  · refine ⟨0, ?_, fun ψ => ?_⟩
    · funext x
      show (0 : K) = if x k then 0 else fsign x k * (Finsupp.single b c) (Function.update x k true)
      split
      · rfl
      · rw [Finsupp.single_apply, if_neg, mul_zero]
        intro h
        rw [h, Function.update_self] at hb
        exact hb rfl
    · show conj c * (if b k then _ else 0) = _
      rw [if_neg hb, mul_zero, pair_zero]

theorem isAdj_fop (k : ℕ) (x : FL) : IsAdj (fop k x : Oper K) (fop k (Fermi.conjLetter x)) := by
  cases x
  · exact IsAdj.one
  · exact isAdj_cre k
  · exact isAdj_ann k
  · exact (isAdj_cre k).mul (isAdj_ann k)
  · exact (isAdj_ann k).mul (isAdj_cre k)

theorem wordW_append (W : ℕ → FL → Oper K) (l l' : List (ℕ × FL)) :
    wordW W (l ++ l') = wordW W l * wordW W l' := by simp [wordW]

theorem isAdj_word (l : List (ℕ × FL)) :
    IsAdj (wordW fop l : Oper K) (wordW fop (l.reverse.map (fun x => (x.1, Fermi.conjLetter x.2)))) := by
  induction l with
  | nil => exact IsAdj.one
  | cons a l ih =>
    rw [List.reverse_cons, List.map_append, wordW_append, wordW_cons]
    have h : (wordW fop (List.map (fun x => (x.1, Fermi.conjLetter x.2)) [a]) : Oper K) =
        fop a.1 (Fermi.conjLetter a.2) := by simp [wordW]
    rw [h]
    exact (isAdj_fop a.1 a.2).mul ih

end HQCA
