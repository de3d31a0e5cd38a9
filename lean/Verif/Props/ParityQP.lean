import Verif.Model.ParityQP
import Verif.Props.Prepare

/-!
# C91: the parity transform of qubit-particle strings
-/

set_option linter.unusedSectionVars false

namespace HQCA
namespace Props
open Transform
variable {K : Type} [Coef K]

theorem qpTab_eq : qpTab = parTab := rfl

theorem qp_loop_diag (s : FStr) (hs : ∀ x ∈ s, x ≠ .cr ∧ x ≠ .an) (c : K) : parityQP (s, c) = parity (s, c) := by
  unfold parityQP parity
  have hm : ∀ a ∈ letters s, a.2 ≠ .cr ∧ a.2 ≠ .an := by
    intro a ha
    obtain ⟨x, hx, rfl⟩ := List.mem_map.mp ha
    have := List.mem_zipIdx hx
    exact hs _ (by rw [this.2.2]; exact List.getElem_mem _)
  generalize letters s = l at hm
  generalize start (s, c) = new
  unfold loop
  induction l generalizing new with
  | nil => rfl
  | cons a l ih =>
    rw [List.foldlM_cons, List.foldlM_cons]
    have h1 : step (qpTem (s, c).1.length) new a = step (tem parTab (s, c).1.length) new a := by
      obtain ⟨h2, h3⟩ := hm a List.mem_cons_self
      unfold step
      split
      · rfl
      · congr 1
        unfold qpTem tem
        rw [qpTab_eq]
        congr 2
        cases h : a.2 <;> first | rfl | exact absurd h h2 | exact absurd h h3
    rw [h1]
    cases step (tem parTab (s, c).1.length) new a with
    | none => rfl
    | some n => exact ih (fun a ha => hm a (List.mem_cons_of_mem _ ha)) n

theorem denF_diag (s : FStr) (hs : ∀ x ∈ s, x ≠ .cr ∧ x ≠ .an) (k : ℕ) : (denF k s : Oper K) = denQ k s := by
  induction s generalizing k with
  | nil => rfl
  | cons x s ih =>
    rw [denF, denQ, ih (fun y hy => hs y (List.mem_cons_of_mem _ hy))]
    congr 1
    obtain ⟨h1, h2⟩ := hs x List.mem_cons_self
    cases x
    · exact (site_one k).symm
    · exact absurd rfl h1
    · exact absurd rfl h2
    · rw [fop_eq]; simp [FL.odd, zs]
    · rw [fop_eq]; simp [FL.odd, zs]

/-- **C91, partial.** For strings of number operators (`p`, `h`, `i`) the qubit-particle parity transform represents the
qubit string through the parity encoding.  Missing: strings with `+` or `-`, where the claim is false
(`C91_violated`). -/
theorem C91_diagonal_partial (s : FStr) (hs : ∀ x ∈ s, x ≠ .cr ∧ x ≠ .an) (c : K)
    (h : nLetters s = 0 ∨ small (c / 2 ^ nLetters s) = false) :
    ∃ r, parityQP (s, c) = some r ∧ UniqueKeys r ∧ (∀ u ∈ r, u.1.length = s.length) ∧
      Encodes (parityEnc s.length) (denPO r) (c • (denQ 0 s : Oper K)) := by
  obtain ⟨R, hR, he⟩ := par_spec (s, c)
  obtain ⟨r, h1, h2, h3, _, _, h6⟩ := hR.above h
  have h0 : nOdd s = 0 := by
    unfold nOdd
    rw [List.length_eq_zero_iff, List.filter_eq_nil_iff]
    intro x hx
    have := hs x hx
    simp [this.1, this.2]
  refine ⟨r, by rw [qp_loop_diag s hs, h1], h2, h3, ?_⟩
  rw [h6]
  rw [h0] at he
  simp only [revSign, Nat.zero_mul, Nat.zero_div, pow_zero, one_smul] at he
  rw [← denF_diag s hs]
  exact Encodes.smul c he

example : parityQP (K := GQ) ([.p, .i, .h], 4) =
    some [([.I, .I, .I], 1), ([.I, .Z, .Z], 1), ([.Z, .I, .I], -1), ([.Z, .Z, .Z], -1)] := by decide +kernel

/-- One letter, any two nonzero coefficients above the threshold. -/
theorem mul_one_gen (N : ℕ) (s1 s2 : PStr) (h1 : s1.length = N) (h2 : s2.length = N) (hne : s1 ≠ s2) (x y c : K)
    (hx : small (x * c) = false) (hy : small (y * c) = false) :
    OpD.mul Pauli.mul [(s1, x), (s2, y)] [(List.replicate N PL.I, c)] = some [(s1, x * c), (s2, y * c)] := by
  rw [mul_prods N _ _ (by simp [h1, h2]) (by simp)]
  have e : prods [(s1, x), (s2, y)] [(List.replicate N PL.I, c)] = [(s1, x * c), (s2, y * c)] := by
    simp only [prods, OpD.mulPairs, List.flatMap_cons, List.flatMap_nil, List.map_cons, List.map_nil, List.append_nil]
    have p1 := pm_one s1 x c
    have p2 := pm_one s2 y c
    rw [h1] at p1
    rw [h2] at p2
    rw [p1, p2]
  rw [e, OpD.foldl_addStr_fresh _ _ (by simp [hne]), List.nil_append]
  simp only [OpD.clean, List.filter_cons, hx, hy, Bool.not_false, if_true, List.filter_nil]

theorem denQ_oneLetter (N q : ℕ) (o : FL) : (denQ 0 (oneLetter N q o) : Oper K) = site q (qmat o) := by
  rw [denQ_eq_denW, oneLetter, denW_append, denW_replicate _ (fun k => site_one k)]
  simp only [denW, List.length_replicate, zero_add, one_mul]
  rw [denW_replicate _ (fun k => site_one k), mul_one]

/-- **C91 (violated).** For every number of qubits, every position and both letters, the transform of the string with a
single `+` or `-` does not represent that operator. -/
theorem C91_violated (N q : ℕ) (hq : q < N) (o : FL) (ho : o = .cr ∨ o = .an) (c : ℂ) (hc : small (c / 2) = false) :
    ∃ r, parityQP (oneLetter N q o, c) = some r ∧
      ¬ Encodes (parityEnc N) (denPO r) (c • (denQ 0 (oneLetter N q o) : Oper ℂ)) := by
  have hi : o ≠ .i := by rintro rfl; simp at ho
  obtain ⟨l1, l2⟩ := (par_good N).len q hq o hi
  have hne := (par_good N).ne hq hi
  have hc0 : ¬ ‖c / 2‖ ≤ 1e-12 := by rw [← small_complex, hc]; simp
  have n2 : ‖c / 2‖ = ‖c‖ / 2 := by rw [norm_div]; simp
  rw [n2] at hc0
  have hcne : c ≠ 0 := by rintro rfl; apply hc0; norm_num
  have s1 : small (1/2 * c) = false := by rw [← Bool.not_eq_true, small_complex, norm_mul]; intro h; apply hc0; simp at h; linarith
  have s2 : small (qpC2 o * c) = false := by
    rw [← Bool.not_eq_true, small_complex, norm_mul]
    have : 1/2 ≤ ‖(qpC2 o : ℂ)‖ := by
      have hI : ‖(I : ℂ)‖ = 1 := Complex.norm_I
      rcases ho with rfl | rfl <;> simp only [qpC2, norm_mul, hI] <;> norm_num
    have := mul_le_mul_of_nonneg_right this (norm_nonneg c)
    intro h; apply hc0; linarith
  have hrun : parityQP (oneLetter N q o, c) =
      some [((parTab N q o).1, 1/2 * c), ((parTab N q o).2, qpC2 o * c)] := by
    unfold parityQP
    have ht : (qpTem N q o : POp ℂ) = [((parTab N q o).1, 1/2), ((parTab N q o).2, qpC2 o)] := by
      unfold qpTem; rw [qpTab_eq]; simp [OpD.addStr, OpD.hasKey, hne]
    rw [loop_one _ _ _ q o (letters_one N q o hi), start_eq, length_one N q o hq, ht]
    exact mul_one_gen N _ _ l1 l2 hne _ _ c s1 s2
  refine ⟨_, hrun, fun hE => ?_⟩
  have hl := fun i => parTab_odd N q i o ho hq
  have h0 : parityEnc N (fun _ => false) = fun _ => false := by
    funext i; unfold parityEnc parOver; split <;> simp
  have e := hE (fun _ => 1) (fun _ => false)
  rw [h0, denQ_oneLetter] at e
  have p1 : (phase 0 (parTab N q o).1 (fun _ => false) : ℂ) = 1 := by
    rw [phase_zero]
    apply Finset.prod_eq_one
    intro i _
    rw [(hl i).1]
    split
    · rfl
    · split
      · rfl
      · split <;> rfl
  have p2 : (phase 0 (parTab N q o).2 (fun _ => false) : ℂ) = -I := by
    rw [phase_zero, Finset.prod_eq_single q]
    · rw [(hl q).2, if_neg (by omega), if_pos rfl]; simp [ph, sg]
    · intro i _ hiq
      rw [(hl i).2, if_neg hiq]
      split
      · rfl
      · split <;> rfl
    · intro h; rw [l2, Finset.mem_range] at h; exact absurd hq h
  have hI := I_mul_I (K := ℂ)
  simp only [denPO, OpD.denD_cons, OpD.denD_nil, add_zero, LinearMap.add_apply, LinearMap.smul_apply,
    Pi.add_apply, Pi.smul_apply, smul_eq_mul, denP_apply, p1, p2] at e
  have h2 : (2 : ℂ) ≠ 0 := two_ne_zero
  rcases ho with rfl | rfl
  · have hs : (site q (qmat FL.cr) : Oper ℂ) (fun _ => 1) (fun _ => false) = 0 := by
      simp [site, qmat, mRaise]
    rw [hs] at e
    simp only [qpC2] at e
    apply hcne
    linear_combination e + (1/2 * c) * hI
  · have hs : (site q (qmat FL.an) : Oper ℂ) (fun _ => 1) (fun _ => false) = 1 := by
      simp [site, qmat, mLow]
    rw [hs] at e
    simp only [qpC2] at e
    apply hcne
    linear_combination e + (3/2 * c) * hI

/-- `+` on orbital 0 of one qubit becomes `(X+iY)/2`, the annihilation operator. -/
example : parityQP (K := GQ) ([.cr], 2) = some [([.X], 1), ([.Y], ⟨0, 1⟩)] := by decide +kernel

end Props
end HQCA
