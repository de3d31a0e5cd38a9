import Verif.Proofs.Operator
import Verif.Proofs.Reduce

/-!
# Properties C01–C04, C08: Pauli strings and operators
-/

namespace HQCA.Props
variable {K : Type} [Coef K]

/-- **C01.** The product of two Pauli strings of equal length is defined, has the same length, and its
operator (coefficient times tensor product of Pauli matrices) is the composition of the two operators. -/
theorem C01_pauli_product (P Q : Term PStr K) (h : P.1.length = Q.1.length) :
    ∃ R : Term PStr K, Pauli.mul P Q = some R ∧ R.1.length = P.1.length ∧
      R.2 • (denP 0 R.1 : Oper K) = (P.2 • denP 0 P.1) * (Q.2 • denP 0 Q.1) := by
  refine ⟨_, if_pos h, ?_, ?_⟩
  · simp [Pauli.construct, h]
  · simp only
    rw [smul_mul_smul_comm, denP_mul 0 P.1 Q.1 h, smul_smul, zpow_add₀ I_ne_zero]

/-- Strings of different lengths are rejected. -/
theorem C01_length_mismatch (P Q : Term PStr K) (h : P.1.length ≠ Q.1.length) :
    Pauli.mul P Q = none := if_neg h

example : Pauli.mul (K := GQ) ([.X, .Y, .Z], 2) ([.Y, .Y, .X], ⟨0, 1⟩) = some ([.Z, .I, .Y], ⟨0, -2⟩) := by
  decide +kernel

/-- **C02.** `commute` answers exactly whether the two Pauli operators commute. -/
theorem C02_commute_iff (s t : PStr) (h : s.length = t.length) :
    Reduce.commute s t = some true ↔ (denP 0 s * denP 0 t : Oper K) = denP 0 t * denP 0 s := by
  obtain ⟨n, hn⟩ := Reduce.anticount_isSome s t h
  rw [Reduce.denP_comm_iff s t n hn h]
  simp only [Reduce.commute, hn, Option.map_some, Option.some.injEq, decide_eq_true_eq]
  omega

/-- **C02.** When `commute` answers no, the operators anticommute. -/
theorem C02_not_commute_anti (s t : PStr) (h : s.length = t.length)
    (hc : Reduce.commute s t = some false) :
    (denP 0 s * denP 0 t : Oper K) = -(denP 0 t * denP 0 s) := by
  obtain ⟨n, hn⟩ := Reduce.anticount_isSome s t h
  simp only [Reduce.commute, hn, Option.map_some, Option.some.injEq, decide_eq_false_iff_not] at hc
  rw [Reduce.denP_swap 0 s t n hn h, Odd.neg_one_pow (Nat.odd_iff.mpr (by omega)), Oper.neg_one_smul]

/-- **C02.** `qwc` answers exactly whether the strings commute qubit by qubit. -/
theorem C02_qwc_iff (s t : PStr) (h : s.length = t.length) :
    Reduce.qwc s t = some true ↔
      ∀ p ∈ s.zip t, (pmat p.1 * pmat p.2 : M2 K) = pmat p.2 * pmat p.1 := by
  induction s generalizing t with
  | nil => simp [Reduce.qwc]
  | cons a s ih =>
    cases t with
    | nil => simp at h
    | cons b t =>
      have ih' := ih t (by simpa using h)
      simp only [List.zip_cons_cons, List.forall_mem_cons, Reduce.letter_comm_iff] at ih' ⊢
      unfold Reduce.qwc
      split
      · rename_i h1; simp only [h1, true_or, true_and]; exact ih'
      · rename_i h1
        split
        · rename_i h2; simp only [h2, or_true, true_and]; exact ih'
        · rename_i h2; simp [h1, h2]

/-- **C02.** Qubit-wise commuting strings commute. -/
theorem C02_qwc_commute (s t : PStr) (h : s.length = t.length) (hq : Reduce.qwc s t = some true) :
    Reduce.commute s t = some true := by
  have key : Reduce.anticount s t = some 0 := by
    induction s generalizing t with
    | nil => rfl
    | cons a s ih =>
      cases t with
      | nil => simp at h
      | cons b t =>
        unfold Reduce.qwc at hq
        unfold Reduce.anticount
        split
        · rename_i h1; rw [if_pos h1] at hq; exact ih t (by simpa using h) hq
        · rename_i h1
          rw [if_neg h1] at hq
          split
          · rename_i h2; rw [if_pos h2] at hq; exact ih t (by simpa using h) hq
          · rename_i h2; rw [if_neg h2] at hq; simp at hq
  simp [Reduce.commute, key]

/-- The converse fails: XX and YY commute but not qubit-wise. -/
example : Reduce.commute [.X, .X] [.Y, .Y] = some true ∧ Reduce.qwc [.X, .X] [.Y, .Y] = some false := by
  decide

/-- **C03.** Adding an operator: one term per key, and every coefficient is the sum of the two
coefficients, except that sums of magnitude at most the threshold are dropped. -/
theorem C03_add_coef {α : Type} [DecidableEq α] (A B : OpD α K) (hA : UniqueKeys A) :
    UniqueKeys (A.add B) ∧ ∀ s, coef (A.add B) s =
      if small (coef A s + coef B s) then 0 else coef A s + coef B s := by
  refine ⟨OpD.add_unique A B hA, fun s => ?_⟩
  unfold OpD.add
  rw [OpD.coef_clean _ (OpD.foldl_addStr_unique B A hA), OpD.coef_foldl_addStr B A hA]

/-- **C03.** Adding a single string: exact, no cleaning. -/
theorem C03_addStr_coef {α : Type} [DecidableEq α] (A : OpD α K) (t : Term α K) (hA : UniqueKeys A) :
    UniqueKeys (A.addStr t) ∧
      ∀ s, coef (A.addStr t) s = coef A s + (if t.1 = s then t.2 else 0) := by
  refine ⟨OpD.addStr_unique A t hA, fun s => ?_⟩
  have := OpD.coef_foldl_addStr [t] A hA s
  simp only [List.foldl_cons, List.foldl_nil] at this
  rw [this, OpD.coef_eq_sum [t]]
  simp

/-- **C03.** As operators: the sum, with small terms dropped; exact for single strings. -/
theorem C03_add_den {α : Type} [DecidableEq α] (d : α → Oper K) (A B : OpD α K) (t : Term α K)
    (hA : UniqueKeys A) :
    Rounds d (A.add B) (denD d A + denD d B) ∧
      denD d (A.addStr t) = denD d A + t.2 • d t.1 := by
  refine ⟨OpD.add_rounds d A B hA, ?_⟩
  have := OpD.denD_foldl_addStr d [t] A hA
  simpa [denD] using this

/-- **C03** over the complex numbers: every coefficient is within `1e-12` of the exact sum. -/
theorem C03_add_complex {α : Type} [DecidableEq α] (A B : OpD α ℂ) (hA : UniqueKeys A) (s : α) :
    ‖coef (A.add B) s - (coef A s + coef B s)‖ ≤ 1e-12 := by
  rw [(C03_add_coef A B hA).2 s]
  split
  · rename_i h
    have h' : ‖coef A s + coef B s‖ ≤ (1e-12 : ℝ) := by simpa [small] using h
    rwa [zero_sub, norm_neg]
  · simp; norm_num

example : UniqueKeys ([([PL.X], 1), ([.Z], ⟨0, 1⟩)] : POp GQ) ∧
    OpD.add ([([PL.X], 1), ([.Z], ⟨0, 1⟩)] : POp GQ) [([.Z], ⟨0, -1⟩), ([.Y], 3)] =
      [([PL.X], 1), ([.Y], 3)] := by
  decide +kernel

/-- **C04.** The product of two Pauli operators on the same number of qubits is defined and is the
composition, with terms of small coefficient dropped. -/
theorem C04_mul_den (n : ℕ) (A B : POp K) (hA : ∀ t ∈ A, t.1.length = n)
    (hB : ∀ t ∈ B, t.1.length = n) :
    ∃ C, OpD.mul Pauli.mul A B = some C ∧ UniqueKeys C ∧ Rounds (denP 0) C (denPO A * denPO B) := by
  have hs : (OpD.mul Pauli.mul A B).isSome := by
    apply OpD.mul_isSome
    intro s hs t ht
    obtain ⟨R, hR, _⟩ := C01_pauli_product s t (by rw [hA s hs, hB t ht])
    simp [hR]
  obtain ⟨C, hC⟩ := Option.isSome_iff_exists.mp hs
  refine ⟨C, hC, OpD.mul_unique _ _ _ _ hC, OpD.mul_rounds _ _ _ _ _ ?_ hC⟩
  intro s hs t ht u hu
  obtain ⟨R, hR, _, hd⟩ := C01_pauli_product s t (by rw [hA s hs, hB t ht])
  rw [hR] at hu
  cases hu
  exact hd

/-- **C04.** A product with strings of mismatched length raises. -/
theorem C04_mul_mismatch (A B : POp K) (s t : Term PStr K) (hs : s ∈ A) (ht : t ∈ B)
    (h : s.1.length ≠ t.1.length) : OpD.mul Pauli.mul A B = none := by
  rcases hm : OpD.mul Pauli.mul A B with _ | C
  · rfl
  · exfalso
    unfold OpD.mul at hm
    rcases hl : (OpD.mulPairs A B).mapM (fun p => Pauli.mul p.1 p.2) with _ | l
    · simp [hl] at hm
    · rw [OpD.mapM_option] at hl
      have hmem : (s, t) ∈ OpD.mulPairs A B := (OpD.mem_mulPairs A B _).mpr ⟨hs, ht⟩
      obtain ⟨i, hi, he⟩ := List.getElem_of_mem hmem
      have := (List.forall₂_iff_get.mp hl).2 i hi (by rw [← (List.forall₂_iff_get.mp hl).1]; exact hi)
      simp only [List.get_eq_getElem, he] at this
      rw [C01_length_mismatch s t h] at this
      cases this

example : OpD.mul Pauli.mul ([([PL.X], 1), ([.Z], ⟨0, 1⟩)] : POp GQ) [([.Z], 1), ([.X], ⟨0, 1⟩)] =
    some [([.Y], ⟨0, -2⟩), ([.I], ⟨0, 2⟩)] := by decide +kernel

/-- **C08.** `clean` keeps exactly the terms above the threshold, in order, and is idempotent. -/
theorem C08_clean {α : Type} (A : OpD α ℂ) :
    (OpD.clean A).Sublist A ∧ OpD.clean (OpD.clean A) = OpD.clean A ∧
      ∀ t, t ∈ OpD.clean A ↔ t ∈ A ∧ 1e-12 < ‖t.2‖ := by
  refine ⟨List.filter_sublist, ?_, fun t => ?_⟩
  · unfold OpD.clean; rw [List.filter_filter]; simp
  · unfold OpD.clean
    rw [List.mem_filter]
    simp [small]

end HQCA.Props
