import Verif.Proofs.Operator
import Verif.Proofs.TransformErr

/-!
# Pauli strings of one length are linearly independent

So the coefficients of a Pauli operator are determined by the operator it denotes.
-/

set_option linter.unusedSectionVars false

namespace HQCA
variable {K : Type} [Coef K]

/-- The terms starting with letter `p`, without that letter. -/
def slice (p : PL) (A : POp K) : POp K :=
  A.filterMap (fun t => match t.1 with
    | [] => none
    | q :: s => if q = p then some (s, t.2) else none)

theorem slice_cons (p q : PL) (s : PStr) (c : K) (A : POp K) :
    slice p ((q :: s, c) :: A) = if q = p then (s, c) :: slice p A else slice p A := by
  unfold slice
  rw [List.filterMap_cons]
  by_cases h : q = p <;> simp [h]

theorem coef_cons {α : Type} [DecidableEq α] (t : Term α K) (A : OpD α K) (s : α) :
    coef (t :: A) s = (if t.1 = s then t.2 else 0) + coef A s := by
  unfold coef
  by_cases h : t.1 = s <;> simp [h]

theorem coef_slice (p : PL) (s : PStr) (A : POp K) : coef (slice p A) s = coef A (p :: s) := by
  induction A with
  | nil => rfl
  | cons t A ih =>
    obtain ⟨l, c⟩ := t
    cases l with
    | nil =>
      rw [coef_cons]
      simp only [List.nil_eq, List.cons_ne_nil, if_false, zero_add, reduceCtorEq]
      rw [← ih]; rfl
    | cons q l =>
      rw [slice_cons, coef_cons]
      by_cases h : q = p
      · subst h; rw [if_pos rfl, coef_cons, ih]; simp
      · rw [if_neg h, ih]; simp [h]

theorem slice_length (p : PL) (n : ℕ) (A : POp K) (h : ∀ t ∈ A, t.1.length = n + 1) :
    ∀ t ∈ slice p A, t.1.length = n := by
  intro t ht
  unfold slice at ht
  obtain ⟨u, hu, h2⟩ := List.mem_filterMap.mp ht
  have := h u hu
  obtain ⟨l, c⟩ := u
  cases l with
  | nil => simp at h2
  | cons q l =>
    simp only at h2
    split at h2
    · simp only [Option.some.injEq] at h2
      rw [← h2]; simpa using this
    · simp at h2

theorem site_denP_comm (j k : ℕ) (h : j < k) (m : M2 K) (s : PStr) :
    site j m * denP k s = denP k s * site j m := by
  induction s generalizing k with
  | nil => simp [denP]
  | cons p s ih =>
    simp only [denP]
    rw [← mul_assoc, site_comm (by omega), mul_assoc, ih (k+1) (by omega), mul_assoc]

theorem site_denD_comm (j k : ℕ) (h : j < k) (m : M2 K) (A : POp K) :
    site j m * denD (denP k) A = denD (denP k) A * site j m := by
  induction A with
  | nil => simp [OpD.denD_nil]
  | cons t A ih =>
    rw [OpD.denD_cons, mul_add, add_mul, ih, mul_smul_comm, smul_mul_assoc, site_denP_comm j k h]

theorem denD_slices (k n : ℕ) (A : POp K) (h : ∀ t ∈ A, t.1.length = n + 1) :
    denD (denP k) A =
      site k (pmat .I) * denD (denP (k+1)) (slice .I A) + site k (pmat .X) * denD (denP (k+1)) (slice .X A)
      + site k (pmat .Y) * denD (denP (k+1)) (slice .Y A)
      + site k (pmat .Z) * denD (denP (k+1)) (slice .Z A) := by
  induction A with
  | nil => simp [slice, OpD.denD_nil]
  | cons t A ih =>
    obtain ⟨l, c⟩ := t
    cases l with
    | nil => have := h _ (by simp : (([], c) : Term PStr K) ∈ _); simp at this
    | cons q l =>
      rw [OpD.denD_cons, ih (fun t ht => h t (by simp [ht]))]
      simp only [slice_cons, denP]
      cases q <;> simp only [reduceCtorEq, if_true, if_false, OpD.denD_cons, mul_add, mul_smul_comm] <;> abel

/-- Averaging over conjugations by the four Pauli matrices. -/
def twirl (k : ℕ) (X : Oper K) : Oper K :=
  site k (pmat .I) * X * site k (pmat .I) + site k (pmat .X) * X * site k (pmat .X)
    + site k (pmat .Y) * X * site k (pmat .Y) + site k (pmat .Z) * X * site k (pmat .Z)

theorem twirl_add (k : ℕ) (X Y : Oper K) : twirl k (X + Y) = twirl k X + twirl k Y := by
  unfold twirl; simp only [mul_add, add_mul]; abel

theorem twirl_m2 (p q : PL) :
    (pmat .I * (pmat p * pmat q) * pmat .I + pmat .X * (pmat p * pmat q) * pmat .X
      + pmat .Y * (pmat p * pmat q) * pmat .Y + pmat .Z * (pmat p * pmat q) * pmat .Z : M2 K)
      = (if p = q then 4 else 0 : K) • (1 : M2 K) := by
  have hI := I_mul_I (K := K)
  have h2 : (I : K) ^ 2 = -1 := by rw [sq]; exact hI
  have h3 : (I : K) ^ 3 = -I := by rw [pow_succ, h2]; ring
  have h4 : (I : K) ^ 4 = 1 := by
    have : (I : K) ^ 4 = I ^ 2 * I ^ 2 := by ring
    rw [this, h2]; ring
  cases p <;> cases q <;>
    (apply M2.ext <;>
      simp [pmat, Matrix.mul_apply, Fintype.sum_bool] <;> ring_nf <;> (try simp only [h2, h3, h4]) <;>
        (try ring_nf))

theorem twirl_site (k : ℕ) (p q : PL) (D : Oper K) (hD : ∀ m : M2 K, site k m * D = D * site k m) :
    twirl k (site k (pmat p) * (site k (pmat q) * D)) = (if p = q then 4 else 0 : K) • D := by
  have e : ∀ r : PL, site k (pmat r) * (site k (pmat p) * (site k (pmat q) * D)) * site k (pmat r)
      = site k (pmat r * (pmat p * pmat q) * pmat r) * D := by
    intro r
    rw [site_mul, site_mul, site_mul]
    simp only [mul_assoc]
    rw [hD (pmat r)]
  unfold twirl
  rw [e, e, e, e, ← add_mul, ← add_mul, ← add_mul, ← site_add, ← site_add, ← site_add, twirl_m2, site_smul,
    site_one, smul_mul_assoc, one_mul]

theorem four_ne_zero' : (4 : K) ≠ 0 := by
  have : (4 : K) = 2 * 2 := by norm_num
  rw [this]
  exact mul_ne_zero Coef.two_ne_zero' Coef.two_ne_zero'

theorem slice_of_zero (k n : ℕ) (A : POp K) (h : ∀ t ∈ A, t.1.length = n + 1)
    (h0 : denD (denP k) A = 0) (p : PL) : denD (denP (k+1)) (slice p A) = (0 : Oper K) := by
  have h1 : twirl k (site k (pmat p) * denD (denP k) A) = 0 := by
    rw [h0]; simp [twirl]
  have hc : ∀ q (m : M2 K), site k m * denD (denP (k+1)) (slice q A) = denD (denP (k+1)) (slice q A) * site k m :=
    fun q m => site_denD_comm k (k+1) (by omega) m _
  rw [denD_slices k n A h, mul_add, mul_add, mul_add, twirl_add, twirl_add, twirl_add,
    twirl_site k _ _ _ (hc _), twirl_site k _ _ _ (hc _), twirl_site k _ _ _ (hc _),
    twirl_site k _ _ _ (hc _)] at h1
  have h2 : (4 : K) • denD (denP (k+1)) (slice p A) = 0 := by
    cases p <;> simpa using h1
  rcases smul_eq_zero.mp h2 with h3 | h3
  · exact absurd h3 four_ne_zero'
  · exact h3

/-- A Pauli operator that denotes zero has only zero coefficients. -/
theorem coef_of_denP_zero (n k : ℕ) (A : POp K) (h : ∀ t ∈ A, t.1.length = n)
    (h0 : denD (denP k) A = (0 : Oper K)) (s : PStr) : coef A s = 0 := by
  by_cases hs : s.length = n
  · induction n generalizing k A s with
    | zero =>
      have hs' : s = [] := List.length_eq_zero_iff.mp hs
      subst hs'
      have : ∀ B : POp K, (∀ t ∈ B, t.1.length = 0) → denD (denP k) B = (coef B []) • (1 : Oper K) := by
        intro B hB
        induction B with
        | nil => simp [OpD.denD_nil, coef_nil]
        | cons t B ih =>
          have ht : t.1 = [] := List.length_eq_zero_iff.mp (hB t (by simp))
          rw [OpD.denD_cons, ih (fun u hu => hB u (by simp [hu])), coef_cons, ht]
          simp only [denP, if_true]
          module
      rw [this A h] at h0
      rcases smul_eq_zero.mp h0 with h1 | h1
      · exact h1
      · exfalso
        have := congrArg (fun X : Oper K => X (fun _ => 1) (fun _ => false)) h1
        simp at this
    | succ n ih =>
      cases s with
      | nil => simp at hs
      | cons p s =>
        rw [← coef_slice]
        exact ih (k+1) (slice p A) (slice_length p n A h) (slice_of_zero k n A h h0 p) s (by simpa using hs)
  · apply OpD.coef_of_not_mem
    intro hm
    obtain ⟨t, ht, rfl⟩ := List.mem_map.mp hm
    exact hs (h t ht)

/-- Pauli operators on `n` qubits with the same denotation have the same coefficients. -/
theorem coef_unique (n : ℕ) (A B : POp K) (hA : ∀ t ∈ A, t.1.length = n) (hB : ∀ t ∈ B, t.1.length = n)
    (h : (denPO A : Oper K) = denPO B) (s : PStr) : coef A s = coef B s := by
  have h1 : coef (A ++ B.map (fun t => (t.1, t.2 * (-1)))) s = 0 := by
    apply coef_of_denP_zero n 0
    · intro t ht
      rcases List.mem_append.mp ht with h1 | h1
      · exact hA t h1
      · obtain ⟨u, hu, rfl⟩ := List.mem_map.mp h1
        exact hB u hu
    · rw [OpD.denD_append]
      have : denD (denP 0) (B.map (fun t => (t.1, t.2 * (-1)))) = -(denD (denP 0) B : Oper K) := by
        clear h hB
        induction B with
        | nil => exact (neg_zero (G := Oper K)).symm
        | cons t B ih =>
          rw [List.map_cons, OpD.denD_cons, OpD.denD_cons, ih]
          simp only
          module
      rw [this]
      unfold denPO at h
      rw [h, add_neg_cancel]
  rw [coef_append] at h1
  have h2 : coef (B.map (fun t => (t.1, t.2 * (-1)))) s = coef B s * (-1) := by
    clear h h1 hB
    induction B with
    | nil => simp [coef_nil]
    | cons t B ih =>
      rw [List.map_cons, coef_cons, coef_cons, ih]
      split <;> ring
  rw [h2] at h1
  linear_combination h1

end HQCA
