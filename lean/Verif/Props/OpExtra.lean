import Verif.Model.OpExtra
import Verif.Proofs.PTracePauli
import Verif.Proofs.Operator
import Verif.Spec.DenF
import Mathlib.Algebra.Order.BigOperators.Group.List

/-!
# C101: size, scaling and comparison of operators
-/

set_option linter.unusedSectionVars false
namespace HQCA.Props
open HQCA HQCA.OpX HQCA.Coef HQCA.PTrace

/-- Sum of the squared absolute values of the matrix elements on `n` qubits. -/
noncomputable def frobSq (n : ℕ) (X : Oper ℂ) : ℝ :=
  ∑ i ∈ Finset.range (2 ^ n), ∑ j ∈ Finset.range (2 ^ n), ‖entry n X i j‖ ^ 2

theorem pmat_orth (p q : PL) :
    (∑ a : Bool, ∑ b : Bool, (starRingEnd ℂ) (pmat p a b) * pmat q a b) = if p = q then 2 else 0 := by
  cases p <;> cases q <;> simp [pmat, mX, mY, mZ, Matrix.one_apply, Fintype.sum_bool, Coef.I] <;> norm_num

theorem frob_orth (n : ℕ) (s t : PStr) (hs : s.length = n) (ht : t.length = n) :
    (∑ i ∈ Finset.range (2 ^ n), ∑ j ∈ Finset.range (2 ^ n),
      (starRingEnd ℂ) (entry n (denP 0 s : Oper ℂ) i j) * entry n (denP 0 t : Oper ℂ) i j) =
      if s = t then (2 : ℂ) ^ n else 0 := by
  have e : ∀ i ∈ Finset.range (2 ^ n), ∀ j ∈ Finset.range (2 ^ n),
      (starRingEnd ℂ) (entry n (denP 0 s : Oper ℂ) i j) * entry n (denP 0 t : Oper ℂ) i j =
        ∏ k ∈ Finset.range n, (starRingEnd ℂ) (pmat (s.getD k .I) (Circ.bchar n i k) (Circ.bchar n j k)) *
          pmat (t.getD k .I) (Circ.bchar n i k) (Circ.bchar n j k) := by
    intro i hi j hj
    rw [entry_denP n s hs i j (Finset.mem_range.mp hi) (Finset.mem_range.mp hj),
      entry_denP n t ht i j (Finset.mem_range.mp hi) (Finset.mem_range.mp hj), map_prod, ← Finset.prod_mul_distrib]
    rfl
  rw [Finset.sum_congr rfl fun i hi => Finset.sum_congr rfl fun j hj => e i hi j hj]
  have e2 : ∀ i ∈ Finset.range (2 ^ n), (∑ j ∈ Finset.range (2 ^ n), ∏ k ∈ Finset.range n,
      (starRingEnd ℂ) (pmat (s.getD k .I) (Circ.bchar n i k) (Circ.bchar n j k)) *
          pmat (t.getD k .I) (Circ.bchar n i k) (Circ.bchar n j k)) = ∏ k ∈ Finset.range n,
      ∑ b : Bool, (starRingEnd ℂ) (pmat (s.getD k .I) (Circ.bchar n i k) b) * pmat (t.getD k .I) (Circ.bchar n i k) b := by
    intro i _
    rw [sum_bits n fun k b => (starRingEnd ℂ) (pmat (s.getD k .I) (Circ.bchar n i k) b) *
      pmat (t.getD k .I) (Circ.bchar n i k) b]
    apply Finset.prod_congr rfl
    intro k _
    rw [Fintype.sum_bool, add_comm]
  rw [Finset.sum_congr rfl e2, sum_bits n fun k a => ∑ b : Bool, (starRingEnd ℂ) (pmat (s.getD k .I) a b) *
      pmat (t.getD k .I) a b]
  have e3 : ∀ k ∈ Finset.range n, ((∑ b : Bool, (starRingEnd ℂ) (pmat (s.getD k .I) false b) * pmat (t.getD k .I) false b) +
      ∑ b : Bool, (starRingEnd ℂ) (pmat (s.getD k .I) true b) * pmat (t.getD k .I) true b) =
      2 * if s.getD k .I = t.getD k .I then 1 else 0 := by
    intro k _
    have := pmat_orth (s.getD k .I) (t.getD k .I)
    rw [Fintype.sum_bool, add_comm] at this
    rw [this]; split_ifs <;> norm_num
  rw [Finset.prod_congr rfl e3, Finset.prod_mul_distrib, prod_ite_all, Finset.prod_const, Finset.card_range]
  have : (∀ k < n, s.getD k PL.I = t.getD k .I) ↔ s = t := by
    constructor
    · intro h
      apply List.ext_getElem (hs.trans ht.symm)
      intro k h1 h2
      have := h k (hs ▸ h1)
      simpa [List.getD, List.getElem?_eq_getElem h1, List.getElem?_eq_getElem h2] using this
    · rintro rfl k _; rfl
  simp only [this]
  split_ifs <;> simp

/-- Inner product of operators on `n` qubits. -/
noncomputable def hsInner (n : ℕ) (X Y : Oper ℂ) : ℂ :=
  ∑ i ∈ Finset.range (2 ^ n), ∑ j ∈ Finset.range (2 ^ n), (starRingEnd ℂ) (entry n X i j) * entry n Y i j

theorem hsInner_add (n : ℕ) (X Y Z : Oper ℂ) : hsInner n X (Y + Z) = hsInner n X Y + hsInner n X Z := by
  unfold hsInner
  simp only [entry_add, mul_add, Finset.sum_add_distrib]

theorem hsInner_smul (n : ℕ) (c : ℂ) (X Y : Oper ℂ) : hsInner n X (c • Y) = c * hsInner n X Y := by
  unfold hsInner
  simp only [entry_smul, Finset.mul_sum]
  exact Finset.sum_congr rfl fun i _ => Finset.sum_congr rfl fun j _ => by ring

theorem hsInner_conj (n : ℕ) (X Y : Oper ℂ) : hsInner n X Y = (starRingEnd ℂ) (hsInner n Y X) := by
  unfold hsInner
  simp only [map_sum, map_mul, Complex.conj_conj]
  exact Finset.sum_congr rfl fun i _ => Finset.sum_congr rfl fun j _ => by ring

theorem hsInner_self (n : ℕ) (X : Oper ℂ) : hsInner n X X = frobSq n X := by
  unfold hsInner frobSq
  push_cast
  exact Finset.sum_congr rfl fun i _ => Finset.sum_congr rfl fun j _ => by
    rw [mul_comm, Complex.mul_conj, Complex.normSq_eq_norm_sq]; push_cast; rfl

theorem hsInner_zero (n : ℕ) (X : Oper ℂ) : hsInner n X 0 = 0 := by
  have := hsInner_smul n 0 X 0
  rwa [zero_smul, zero_mul] at this

/-- Projection of an operator on a string that does not occur. -/
theorem hsInner_absent (n : ℕ) (s : PStr) (hs : s.length = n) (A : POp ℂ) (hA : ∀ t ∈ A, t.1.length = n)
    (h : ∀ t ∈ A, t.1 ≠ s) : hsInner n (denP 0 s) (denPO A) = 0 := by
  induction A with
  | nil => exact hsInner_zero n _
  | cons t A ih =>
    unfold denPO at ih ⊢
    rw [OpD.denD_cons, hsInner_add, hsInner_smul, ih (fun u hu => hA u (by simp [hu])) (fun u hu => h u (by simp [hu])),
      add_zero]
    unfold hsInner
    rw [frob_orth n s t.1 hs (hA t (by simp)), if_neg (h t (by simp)).symm, mul_zero]

theorem frob_op (n : ℕ) (A : POp ℂ) (hA : ∀ t ∈ A, t.1.length = n) (hU : UniqueKeys A) :
    frobSq n (denPO A) = 2 ^ n * (A.map fun t => ‖t.2‖ ^ 2).sum := by
  induction A with
  | nil => unfold denPO frobSq; simp [OpD.denD_nil, entry_zero]
  | cons t A ih =>
    have hA' : ∀ u ∈ A, u.1.length = n := fun u hu => hA u (by simp [hu])
    have hU' : t.1 ∉ A.map (·.1) ∧ UniqueKeys A := by
      unfold UniqueKeys at hU ⊢
      rw [List.map_cons, List.nodup_cons] at hU
      exact hU
    have hne : ∀ u ∈ A, u.1 ≠ t.1 := fun u hu he => hU'.1 (List.mem_map.mpr ⟨u, hu, he⟩)
    have z := hsInner_absent n t.1 (hA t (by simp)) A hA' hne
    have z' : hsInner n (denPO A) (denP 0 t.1) = 0 := by rw [hsInner_conj, z, map_zero]
    have i := ih hA' hU'.2
    have key : hsInner n (denPO (t :: A)) (denPO (t :: A)) = ((2 ^ n * ((t :: A).map fun t => ‖t.2‖ ^ 2).sum : ℝ) : ℂ) := by
      have e : (denPO (t :: A) : Oper ℂ) = t.2 • denP 0 t.1 + denPO A := OpD.denD_cons _ _ _
      have e1 : hsInner n (t.2 • denP 0 t.1 + denPO A) (denP 0 t.1) = (starRingEnd ℂ) t.2 * 2 ^ n := by
        rw [hsInner_conj, hsInner_add, hsInner_smul, z, add_zero, map_mul]
        unfold hsInner
        rw [frob_orth n t.1 t.1 (hA t (by simp)) (hA t (by simp)), if_pos rfl, map_pow, Complex.conj_ofNat]
      have e2 : hsInner n (t.2 • denP 0 t.1 + denPO A) (denPO A) = frobSq n (denPO A) := by
        rw [hsInner_conj, hsInner_add, hsInner_smul, z', mul_zero, zero_add, hsInner_self, Complex.conj_ofReal]
      rw [e, hsInner_add, hsInner_smul, e1, e2, i, List.map_cons, List.sum_cons, ← mul_assoc, Complex.mul_conj,
        Complex.normSq_eq_norm_sq]
      push_cast
      ring
    rw [hsInner_self] at key
    exact_mod_cast key

/-- **C101** (norm).  The norm of a Pauli operator on `n` qubits is its Frobenius norm divided by the square root of the
dimension. -/
theorem C101_norm (n : ℕ) (A : POp ℂ) (hA : ∀ t ∈ A, t.1.length = n) (hU : UniqueKeys A) :
    0 ≤ OpX.norm A ∧ frobSq n (denPO A) = 2 ^ n * OpX.norm A ^ 2 := by
  have e : (A.map fun t => (t.2 * (starRingEnd ℂ) t.2).re).sum = (A.map fun t => ‖t.2‖ ^ 2).sum := by
    congr 1
    apply List.map_congr_left
    intro t _
    rw [Complex.mul_conj, Complex.ofReal_re, Complex.normSq_eq_norm_sq]
  refine ⟨Real.sqrt_nonneg _, ?_⟩
  unfold OpX.norm
  rw [e, Real.sq_sqrt, frob_op n A hA hU]
  exact List.sum_nonneg fun x hx => by
    obtain ⟨t, -, rfl⟩ := List.mem_map.mp hx
    exact sq_nonneg _

/-- **C101** (null test).  `null` answers whether all coefficients are below 1e-10 in absolute value.  For a Pauli operator
on `n` qubits the squared Frobenius norm is then at most `2^n` times 1e-20 for every string; otherwise it is at least
`2^n` times 1e-20, so the operator is not zero. -/
theorem C101_null (n : ℕ) (A : POp ℂ) (hA : ∀ t ∈ A, t.1.length = n) (hU : UniqueKeys A) :
    (OpD.null (fun c : ℂ => decide (‖c‖ < 1e-10)) A = true → frobSq n (denPO A) ≤ 2 ^ n * (A.length * 1e-20)) ∧
    (OpD.null (fun c : ℂ => decide (‖c‖ < 1e-10)) A = false → 2 ^ n * 1e-20 ≤ frobSq n (denPO A) ∧
      (denPO A : Oper ℂ) ≠ 0) := by
  rw [frob_op n A hA hU]
  have h2 : (0 : ℝ) < 2 ^ n := by positivity
  constructor
  · intro h
    unfold OpD.null at h
    rw [List.all_eq_true] at h
    apply mul_le_mul_of_nonneg_left _ h2.le
    clear hA hU
    induction A with
    | nil => simp
    | cons t A ih =>
      rw [List.map_cons, List.sum_cons, List.length_cons]
      have i := ih fun u hu => h u (by simp [hu])
      have ht : ‖t.2‖ < 1e-10 := by simpa using h t (by simp)
      have : ‖t.2‖ ^ 2 ≤ 1e-20 := by
        have := pow_le_pow_left₀ (norm_nonneg t.2) ht.le 2
        norm_num at this ⊢
        linarith
      push_cast
      linarith
  · intro h
    unfold OpD.null at h
    rw [List.all_eq_false] at h
    obtain ⟨t, ht, hc⟩ := h
    have hc : 1e-10 ≤ ‖t.2‖ := by simpa using hc
    have hs : (1e-20 : ℝ) ≤ (A.map fun t => ‖t.2‖ ^ 2).sum := by
      have h1 : ‖t.2‖ ^ 2 ≤ (A.map fun t => ‖t.2‖ ^ 2).sum := by
        apply List.single_le_sum
        · intro x hx
          obtain ⟨u, -, rfl⟩ := List.mem_map.mp hx
          exact sq_nonneg _
        · exact List.mem_map.mpr ⟨t, ht, rfl⟩
      have h3 := pow_le_pow_left₀ (by norm_num) hc 2
      norm_num at h3 ⊢
      linarith
    have hb := mul_le_mul_of_nonneg_left hs h2.le
    refine ⟨hb, fun h0 => ?_⟩
    have z : frobSq n (denPO A) = 0 := by rw [h0]; unfold frobSq; simp [entry_zero]
    rw [frob_op n A hA hU] at z
    rw [z] at hb
    have : (0 : ℝ) < 2 ^ n * 1e-20 := by positivity
    linarith

section
variable {K : Type} [Coef K]

theorem scale_spec {α : Type} [DecidableEq α] (d : α → Oper K) (tm : Term α K → Num K → Option (Term α K)) (A : OpD α K)
    (c : Num K) (h : ∀ t ∈ A, tm t c = some (t.1, t.2 * c.val)) :
    ∃ R : OpD α K, UniqueKeys R ∧ scale tm A c = some (OpD.clean R) ∧ denD d R = c.val • denD d A := by
  have hm : A.mapM (fun t => tm t c) = some (A.map fun t => (t.1, t.2 * c.val)) := by
    induction A with
    | nil => rfl
    | cons t A ih =>
      rw [List.mapM_cons, h t (by simp), ih fun u hu => h u (by simp [hu])]
      rfl
  refine ⟨(A.map fun t => (t.1, t.2 * c.val)).foldl OpD.addStr [], OpD.foldl_addStr_unique _ [] OpD.uniqueKeys_nil, ?_, ?_⟩
  · unfold scale; rw [hm]; rfl
  · rw [OpD.denD_foldl_addStr _ _ [] OpD.uniqueKeys_nil, OpD.denD_nil, zero_add]
    clear hm h
    induction A with
    | nil => simp [OpD.denD_nil]
    | cons t A ih =>
      rw [List.map_cons, OpD.denD_cons, OpD.denD_cons, ih, smul_add, smul_smul, mul_comm t.2]

/-- **C101** (scaling), in part: a fermionic operator times any number, and a Pauli operator times a real number, is the
multiple of the operator, before cleaning.  Missing: complex numbers for Pauli operators, every number for qubit
operators, see `C101_fails_scale`. -/
theorem C101_scale_partial (A : OpD FStr K) (B : POp K) (c : Num K) (x : K) :
    (∃ R, UniqueKeys R ∧ scale fermiTimes A c = some (OpD.clean R) ∧ denD (denF 0) R = c.val • denD (denF 0) A) ∧
    (∃ R, UniqueKeys R ∧ scale pauliTimes B (.real x) = some (OpD.clean R) ∧ denPO R = x • denPO B) :=
  ⟨scale_spec (denF 0) fermiTimes A c fun _ _ => rfl, scale_spec (denP 0) pauliTimes B (.real x) fun _ _ => rfl⟩

/-- **C101** (scaling) fails: a nonempty Pauli operator times a complex number, a nonempty qubit operator times any number,
and any number times a nonempty operator raise; so does truncating a nonempty operator. -/
theorem C101_fails_scale (A : POp K) (B : OpD FStr K) (hA : A ≠ []) (hB : B ≠ []) (c : Num K) (x : K) :
    scale pauliTimes A (.other x) = none ∧ scale qubitTimes B c = none ∧ rscale A c = none ∧ rscale B c = none ∧
    truncate A = none ∧ truncate B = none := by
  refine ⟨?_, ?_, if_neg hA, if_neg hB, if_neg hA, if_neg hB⟩
  · cases A with
    | nil => exact absurd rfl hA
    | cons t A => rfl
  · cases B with
    | nil => exact absurd rfl hB
    | cons t B => rfl

/-- **C101** (comparison).  `==` says whether the letters agree, whatever the coefficients. -/
theorem C101_eq {α : Type} [DecidableEq α] (s t : Term α K) : eqStr s t = true ↔ s.1 = t.1 := by
  simp [eqStr]

/-- **C101** (comparison) fails: `!=` of a string with itself is true, and of strings with different letters false. -/
theorem C101_fails_ne {α : Type} [DecidableEq α] [DecidableEq K] (s t : Term α K) (h : s.1 ≠ t.1) :
    neStr s s = true ∧ neStr s t = false := by
  constructor
  · simp [neStr, eqStr]
  · simp [neStr, eqStr, h]

end

/-- `X + 2i Z` on one qubit: norm squared 5; not null; scaled by 3. -/
example : OpX.norm ([([.X], 1), ([.Z], 2 * Complex.I)] : POp ℂ) ^ 2 = 5 := by
  unfold OpX.norm
  rw [Real.sq_sqrt] <;> norm_num [Complex.mul_re]
example : scale pauliTimes ([([.X], 1), ([.Z], ⟨0, 2⟩)] : POp GQ) (.real 3) = some [([.X], 3), ([.Z], ⟨0, 6⟩)] := by
  decide +kernel
example : scale fermiTimes ([([.p], 1)] : OpD FStr GQ) (.other ⟨0, 1⟩) = some [([.p], ⟨0, 1⟩)] := by decide +kernel

end HQCA.Props
