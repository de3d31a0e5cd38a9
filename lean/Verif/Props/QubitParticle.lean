import Verif.Model.QubitParticle
import Verif.Props.Hamiltonian

/-!
# The qubit-particle Hamiltonian (C88)
-/

namespace HQCA
namespace Props
open Ham Transform

section
variable {K : Type} [Coef K] {r : ℕ}

/-! ### Specification -/

/-- Raising and lowering operator of qubit `k`, without any sign. -/
def qcre (k : ℕ) : Oper K := site k mRaise
def qann (k : ℕ) : Oper K := site k mLow

/-- The Hamiltonian of particles on qubits with the given integrals. -/
def secondQQ (h1 : Fin r → Fin r → K) (V : Fin r → Fin r → Fin r → Fin r → K) : Oper K :=
  ∑ p : Fin r, ∑ q : Fin r, h1 p q • (qcre p.val * qann q.val)
    + ∑ p : Fin r, ∑ t : Fin r, ∑ s : Fin r, ∑ q : Fin r,
        (1 / 2 * V p t q s) • (qcre p.val * (qcre t.val * (qann s.val * qann q.val)))

/-- Density matrices of an expectation functional. -/
def qrdm1 (ev : Oper K →ₗ[K] K) (i j : Fin r) : K := ev (qcre i.val * qann j.val)
def qrdm2 (ev : Oper K →ₗ[K] K) (i k j l : Fin r) : K := ev (qcre i.val * (qcre k.val * (qann l.val * qann j.val)))

/-! ### Algebra of the qubit operators -/

theorem qcre_sq (k : ℕ) : (qcre k * qcre k : Oper K) = 0 := by
  unfold qcre
  rw [← site_mul, show (mRaise * mRaise : M2 K) = 0 by m2]
  exact site_zero k

theorem qann_sq (k : ℕ) : (qann k * qann k : Oper K) = 0 := by
  unfold qann
  rw [← site_mul, show (mLow * mLow : M2 K) = 0 by m2]
  exact site_zero k

theorem qcre_comm (j k : ℕ) : (qcre j * qcre k : Oper K) = qcre k * qcre j := by
  by_cases h : j = k
  · rw [h]
  · exact site_comm h _ _

theorem qann_comm (j k : ℕ) : (qann j * qann k : Oper K) = qann k * qann j := by
  by_cases h : j = k
  · rw [h]
  · exact site_comm h _ _

/-- The occupation of a qubit is the occupation of the orbital: the number operator is the fermionic one. -/
theorem qnumber_eq (k : ℕ) : (qcre k * qann k : Oper K) = cre k * ann k := by
  have h : (cre k * ann k : Oper K) = zs (FL.p).odd k * site k (qmat FL.p) := by rw [← fop_eq]; rfl
  rw [h]
  unfold qcre qann
  rw [← site_mul, raise_low]
  simp [zs, FL.odd, qmat]

theorem low_occ : (mLow * mOcc : M2 K) = mLow := by m2
theorem occ_low : (mOcc * mLow : M2 K) = 0 := by m2

theorem qann_number (a : Fin r) : (qann a.val * numberOp r : Oper K) = numberOp r * qann a.val + qann a.val := by
  have h : ∀ b : Fin r, (qann a.val * (cre b.val * ann b.val) : Oper K)
      = cre b.val * ann b.val * qann a.val + (if a = b then qann a.val else 0) := by
    intro b
    rw [← qnumber_eq]
    unfold qcre qann
    rw [← site_mul, raise_low]
    by_cases hab : a = b
    · subst hab
      rw [if_pos rfl, ← site_mul, ← site_mul, low_occ, occ_low, site_zero, zero_add]
    · rw [if_neg hab, add_zero]
      exact site_comm (fun h => hab (Fin.ext h)) _ _
  unfold numberOp
  rw [Finset.mul_sum, Finset.sum_congr rfl (fun b _ => h b), Finset.sum_add_distrib, Finset.sum_mul]
  simp

theorem qrdm2_left (ev : Oper K →ₗ[K] K) (a b c d : Fin r) : qrdm2 ev a b c d = qrdm2 ev b a c d := by
  unfold qrdm2
  rw [← mul_assoc, qcre_comm, mul_assoc]

theorem qrdm2_right (ev : Oper K →ₗ[K] K) (a b c d : Fin r) : qrdm2 ev a b c d = qrdm2 ev a b d c := by
  unfold qrdm2
  rw [qann_comm d.val c.val]

theorem qrdm2_contract (ev : Oper K →ₗ[K] K) (ne : K) (hN : ∀ X : Oper K, ev (X * numberOp r) = ne * ev X) (a c : Fin r) :
    ∑ b, qrdm2 ev a b c b = (ne - 1) * qrdm1 ev a c := by
  have h1 : ∑ b : Fin r, qrdm2 ev a b c b = ev (qcre a.val * (numberOp r * qann c.val)) := by
    unfold qrdm2 numberOp
    rw [← map_sum]
    congr 1
    rw [Finset.sum_mul, Finset.mul_sum]
    refine Finset.sum_congr rfl fun b _ => ?_
    rw [← qnumber_eq, mul_assoc (qcre b.val)]
  have h2 : (numberOp r * qann c.val : Oper K) = qann c.val * numberOp r - qann c.val := by
    rw [qann_number]; abel
  rw [h1, h2, mul_sub, map_sub, ← mul_assoc, hN]
  unfold qrdm1
  ring

/-! ### The matrix -/

theorem qk2_eq (h1 : Fin r → Fin r → K) (V : Fin r → Fin r → Fin r → Fin r → K) (ne : K) (a b c d : Fin r) :
    QP.k2 h1 V ne a b c d = V a b c d * (1 / 2)
      + ((if b = d then h1 a c / (4 * (ne - 1)) else 0) + (if a = c then h1 b d / (4 * (ne - 1)) else 0)
        + (if b = c then h1 a d / (4 * (ne - 1)) else 0) + (if a = d then h1 b c / (4 * (ne - 1)) else 0)) := by
  unfold QP.k2
  congr 1
  simp only [Finset.sum_add_distrib, Prod.mk.injEq]
  have e1 : ∀ (x : Fin r → Fin r → K) (a b c d : Fin r), (∑ i, ∑ j, ∑ k, if a = i ∧ b = k ∧ c = j ∧ d = k then x i j else 0)
      = if b = d then x a c else 0 := by
    intro x a b c d
    rw [Finset.sum_eq_single a (fun i _ hi => by
      apply Finset.sum_eq_zero; intro j _; apply Finset.sum_eq_zero; intro k _
      rw [if_neg (fun h => hi h.1.symm)]) (by simp)]
    rw [Finset.sum_eq_single c (fun j _ hj => by
      apply Finset.sum_eq_zero; intro k _
      rw [if_neg (fun h => hj h.2.2.1.symm)]) (by simp)]
    rw [Finset.sum_eq_single b (fun k _ hk => by rw [if_neg (fun h => hk h.2.1.symm)]) (by simp)]
    by_cases hbd : b = d
    · simp [hbd]
    · rw [if_neg hbd, if_neg (fun h => hbd h.2.2.2.symm)]
  have e := e1 (fun i j => h1 i j / (4 * (ne - 1)))
  refine congrArg₂ (· + ·) (congrArg₂ (· + ·) (congrArg₂ (· + ·) ?_ ?_) ?_) ?_
  · exact e a b c d
  · rw [← e b a d c]
    refine Finset.sum_congr rfl fun i _ => Finset.sum_congr rfl fun j _ => Finset.sum_congr rfl fun k _ => ?_
    exact if_congr (by tauto) rfl rfl
  · rw [← e a b d c]
    refine Finset.sum_congr rfl fun i _ => Finset.sum_congr rfl fun j _ => Finset.sum_congr rfl fun k _ => ?_
    exact if_congr (by tauto) rfl rfl
  · rw [← e b a c d]
    refine Finset.sum_congr rfl fun i _ => Finset.sum_congr rfl fun j _ => Finset.sum_congr rfl fun k _ => ?_
    exact if_congr (by tauto) rfl rfl

/-- The one-body part of the trace, for a density matrix symmetric in each pair. -/
theorem qone_body_trace (x : Fin r → Fin r → K) (D : Fin r → Fin r → Fin r → Fin r → K) (D1 : Fin r → Fin r → K) (m : K)
    (hl : ∀ a b c d, D a b c d = D b a c d) (hr : ∀ a b c d, D a b c d = D a b d c)
    (hc : ∀ a c, ∑ b, D a b c b = m * D1 a c) :
    ∑ a, ∑ b, ∑ c, ∑ d, ((if b = d then x a c else 0) + (if a = c then x b d else 0)
        + (if b = c then x a d else 0) + (if a = d then x b c else 0)) * D c d a b
      = 4 * m * ∑ a, ∑ c, x a c * D1 c a := by
  have hT : ∑ a, ∑ c, x a c * ∑ b, D c b a b = m * ∑ a, ∑ c, x a c * D1 c a := by
    rw [Finset.mul_sum]
    refine Finset.sum_congr rfl fun a _ => ?_
    rw [Finset.mul_sum]
    refine Finset.sum_congr rfl fun c _ => ?_
    rw [hc]; ring
  have t1 : ∑ a, ∑ b, ∑ c, ∑ d, (if b = d then x a c else 0) * D c d a b = ∑ a, ∑ c, x a c * ∑ b, D c b a b := by
    refine Finset.sum_congr rfl fun a _ => ?_
    rw [Finset.sum_comm]
    refine Finset.sum_congr rfl fun c _ => ?_
    rw [Finset.mul_sum]
    refine Finset.sum_congr rfl fun b _ => ?_
    simp [ite_mul]
  have t2 : ∑ a, ∑ b, ∑ c, ∑ d, (if a = c then x b d else 0) * D c d a b = ∑ a, ∑ c, x a c * ∑ b, D c b a b := by
    rw [Finset.sum_comm]
    refine Finset.sum_congr rfl fun b _ => ?_
    have : ∀ a, (∑ c, ∑ d, (if a = c then x b d else 0) * D c d a b) = ∑ d, x b d * D d a b a := by
      intro a
      rw [Finset.sum_comm]
      refine Finset.sum_congr rfl fun d _ => ?_
      simp only [ite_mul, zero_mul, Finset.sum_ite_eq, Finset.mem_univ, if_true]
      rw [hl, hr]
    simp only [this]
    rw [Finset.sum_comm]
    refine Finset.sum_congr rfl fun c _ => ?_
    rw [Finset.mul_sum]
  have t3 : ∑ a, ∑ b, ∑ c, ∑ d, (if b = c then x a d else 0) * D c d a b = ∑ a, ∑ c, x a c * ∑ b, D c b a b := by
    refine Finset.sum_congr rfl fun a _ => ?_
    have : ∀ b, (∑ c, ∑ d, (if b = c then x a d else 0) * D c d a b) = ∑ d, x a d * D d b a b := by
      intro b
      rw [Finset.sum_comm]
      refine Finset.sum_congr rfl fun d _ => ?_
      simp only [ite_mul, zero_mul, Finset.sum_ite_eq, Finset.mem_univ, if_true]
      rw [hl]
    simp only [this]
    rw [Finset.sum_comm]
    refine Finset.sum_congr rfl fun c _ => ?_
    rw [Finset.mul_sum]
  have t4 : ∑ a, ∑ b, ∑ c, ∑ d, (if a = d then x b c else 0) * D c d a b = ∑ a, ∑ c, x a c * ∑ b, D c b a b := by
    rw [Finset.sum_comm]
    refine Finset.sum_congr rfl fun b _ => ?_
    have : ∀ a, (∑ c, ∑ d, (if a = d then x b c else 0) * D c d a b) = ∑ c, x b c * D c a b a := by
      intro a
      refine Finset.sum_congr rfl fun c _ => ?_
      simp only [ite_mul, zero_mul, Finset.sum_ite_eq, Finset.mem_univ, if_true]
      rw [hr]
    simp only [this]
    rw [Finset.sum_comm]
    refine Finset.sum_congr rfl fun c _ => ?_
    rw [Finset.mul_sum]
  simp only [add_mul, Finset.sum_add_distrib]
  rw [t1, t2, t3, t4, hT]
  ring

/-- **C88.** The energy of the matrix form in a state with `ne ≠ 1` particles is the expectation value of the Hamiltonian of
particles on qubits, for integrals with the symmetry of real orbitals. -/
theorem C88_energy (ev : Oper K →ₗ[K] K) (ne : K) (hne : ne ≠ 1) (hN : ∀ X : Oper K, ev (X * numberOp r) = ne * ev X)
    (h1 : Fin r → Fin r → K) (V : Fin r → Fin r → Fin r → Fin r → K) (hh : ∀ a b, h1 a b = h1 b a)
    (hV : ∀ a b c d, V a b c d = V c d a b) :
    observable (QP.k2 h1 V ne) (qrdm2 ev) = ev (secondQQ h1 V) := by
  have h4 : (4 : K) * (ne - 1) ≠ 0 := by
    have h2 : (2 : K) ≠ 0 := Coef.two_ne_zero'
    have : (4 : K) = 2 * 2 := by norm_num
    rw [this]
    exact mul_ne_zero (mul_ne_zero h2 h2) (sub_ne_zero.mpr hne)
  unfold observable
  simp only [qk2_eq, add_mul (V _ _ _ _ * (1 / 2)), Finset.sum_add_distrib]
  rw [qone_body_trace (fun i j => h1 i j / (4 * (ne - 1))) (qrdm2 ev) (qrdm1 ev) (ne - 1) (qrdm2_left ev) (qrdm2_right ev)
    (qrdm2_contract ev ne hN), add_comm]
  unfold secondQQ
  rw [map_add]
  congr 1
  · rw [map_sum, Finset.sum_comm, Finset.mul_sum]
    refine Finset.sum_congr rfl fun p _ => ?_
    rw [map_sum, Finset.mul_sum]
    refine Finset.sum_congr rfl fun q _ => ?_
    rw [map_smul, smul_eq_mul, hh p q]
    have : h1 q p / (4 * (ne - 1)) * qrdm1 ev p q = h1 q p * qrdm1 ev p q / (4 * (ne - 1)) := by ring
    rw [this, mul_div_cancel₀ _ h4]
    rfl
  · have e : ∑ a, ∑ b, ∑ c, ∑ d, V a b c d * (1 / 2) * qrdm2 ev c d a b
        = ∑ a, ∑ b, ∑ c, ∑ d, V c d a b * (1 / 2) * qrdm2 ev c d a b :=
      Finset.sum_congr rfl fun a _ => Finset.sum_congr rfl fun b _ => Finset.sum_congr rfl fun c _ =>
        Finset.sum_congr rfl fun d _ => by rw [hV]
    have swap : ∀ f : Fin r → Fin r → Fin r → Fin r → K, ∑ a, ∑ b, ∑ c, ∑ d, f a b c d = ∑ c, ∑ d, ∑ a, ∑ b, f a b c d := by
      intro f
      calc _ = ∑ a, ∑ c, ∑ b, ∑ d, f a b c d := Finset.sum_congr rfl fun a _ => Finset.sum_comm
        _ = ∑ c, ∑ a, ∑ b, ∑ d, f a b c d := Finset.sum_comm
        _ = ∑ c, ∑ a, ∑ d, ∑ b, f a b c d :=
            Finset.sum_congr rfl fun c _ => Finset.sum_congr rfl fun a _ => Finset.sum_comm
        _ = ∑ c, ∑ d, ∑ a, ∑ b, f a b c d := Finset.sum_congr rfl fun c _ => Finset.sum_comm
    rw [e, swap, map_sum]
    refine Finset.sum_congr rfl fun p _ => ?_
    rw [map_sum]
    refine Finset.sum_congr rfl fun t _ => ?_
    rw [map_sum, Finset.sum_comm]
    refine Finset.sum_congr rfl fun s _ => ?_
    rw [map_sum]
    refine Finset.sum_congr rfl fun q _ => ?_
    rw [map_smul, smul_eq_mul]
    unfold qrdm2
    ring

/-! ### The operator -/

/-- The word of a term. -/
def qwordOf (t : K × List (ℕ × FL)) : Oper K := t.1 • (t.2.map (fun a => site a.1 (qmat a.2))).prod

theorem qoneTerms_sum (skip : K → Bool) (h1 : Fin r → Fin r → K) :
    ((oneTerms skip h1).map qwordOf).sum
      = ∑ p : Fin r, ∑ q : Fin r, cut skip (h1 p q) • (qcre p.val * qann q.val : Oper K) := by
  unfold oneTerms
  rw [map_sum_flatMap, finRange_sum]
  refine Finset.sum_congr rfl fun p _ => ?_
  rw [map_sum_flatMap, finRange_sum]
  refine Finset.sum_congr rfl fun q _ => ?_
  unfold cut
  split
  · simp
  · simp [qwordOf, qmat, qcre, qann]

theorem qtwoTerms_sum (skip : K → Bool) (V : Fin r → Fin r → Fin r → Fin r → K) :
    ((twoTerms skip V).map qwordOf).sum = ∑ p : Fin r, ∑ t : Fin r, ∑ s : Fin r, ∑ q : Fin r,
        (1 / 2 * cut skip (V p t q s)) • (qcre p.val * (qcre t.val * (qann s.val * qann q.val)) : Oper K) := by
  unfold twoTerms
  rw [map_sum_flatMap, finRange_sum]
  refine Finset.sum_congr rfl fun p _ => ?_
  rw [map_sum_flatMap, finRange_sum]
  refine Finset.sum_congr rfl fun t _ => ?_
  by_cases hpt : p = t
  · subst hpt
    rw [if_pos rfl]
    symm
    refine Finset.sum_eq_zero fun s _ => Finset.sum_eq_zero fun q _ => ?_
    rw [← mul_assoc (qcre p.val), qcre_sq, zero_mul, smul_zero]
  · rw [if_neg hpt]
    simp only [if_neg hpt, Nat.zero_add]
    rw [map_sum_flatMap, finRange_sum]
    refine Finset.sum_congr rfl fun s _ => ?_
    have hs : ¬ ((if s = p then 1 else 0) + (if s = t then 1 else 0) : ℕ) = 3 := by split <;> split <;> omega
    rw [if_neg hs, map_sum_flatMap, finRange_sum]
    refine Finset.sum_congr rfl fun q _ => ?_
    by_cases hqs : q = s
    · subst hqs
      rw [qann_sq, mul_zero, mul_zero, smul_zero]
      simp
    · have hcnt : ¬ 3 ≤ ((if s = p then 1 else 0) + (if s = t then 1 else 0) + (if q = p then 1 else 0)
          + (if q = t then 1 else 0) + (if q = s then 1 else 0) : ℕ) := by
        rw [if_neg hqs]
        have hx : ¬ (s = p ∧ s = t) := fun h => hpt (h.1.symm.trans h.2)
        have hy : ¬ (q = p ∧ q = t) := fun h => hpt (h.1.symm.trans h.2)
        by_cases a1 : s = p <;> by_cases a2 : s = t <;> by_cases a3 : q = p <;> by_cases a4 : q = t <;>
          simp_all
      rw [if_neg hcnt, if_neg hqs]
      unfold cut
      split
      · simp
      · simp [qwordOf, qmat, qcre, qann]

theorem mapM_qgenerate (N : ℕ) : ∀ (l : List (K × List (ℕ × FL))), (∀ t ∈ l, t.2 ≠ [] ∧ ∀ a ∈ t.2, a.2 ≠ .i ∧ a.1 < N) →
    ∃ L, l.mapM (fun t => Qubit.generate t.1 t.2 N) = some L ∧ denD (denQ 0) L = ((l.map qwordOf).sum : Oper K) ∧
      ∀ u ∈ L, u.1.length = N
  | [], _ => ⟨[], rfl, rfl, by simp⟩
  | t :: l, h => by
    obtain ⟨L, h1, h2, h3⟩ := mapM_qgenerate N l (fun u hu => h u (by simp [hu]))
    obtain ⟨u, e1, e2, e3⟩ := C13_qubit_generate t.1 t.2 N (fun a ha => ((h t (by simp)).2 a ha).1) (h t (by simp)).1
    refine ⟨u :: L, by rw [List.mapM_cons, e1, h1]; rfl, ?_, ?_⟩
    · rw [OpD.denD_cons, e2, h2, List.map_cons, List.sum_cons]; rfl
    · intro v hv
      rcases List.mem_cons.mp hv with rfl | hv
      · exact e3 (fun a ha => ((h t (by simp)).2 a ha).2)
      · exact h3 v hv

theorem terms_ne (skip : K → Bool) (h1 : Fin r → Fin r → K) (V : Fin r → Fin r → Fin r → Fin r → K) :
    ∀ t ∈ oneTerms skip h1 ++ twoTerms skip V, t.2 ≠ [] := by
  intro t ht
  rcases List.mem_append.mp ht with ht | ht
  · simp only [oneTerms, List.mem_flatMap] at ht
    obtain ⟨p, _, q, _, ht⟩ := ht
    split at ht
    · simp at ht
    · rw [List.mem_singleton] at ht; subst ht; simp
  · simp only [twoTerms, List.mem_flatMap] at ht
    obtain ⟨p, _, t', _, ht⟩ := ht
    split at ht
    · simp at ht
    · rw [List.mem_flatMap] at ht
      obtain ⟨s, _, ht⟩ := ht
      generalize (0 + (if s = p then 1 else 0) + (if s = t' then 1 else 0) : ℕ) = n at ht
      by_cases hn : n = 3
      · rw [if_pos hn] at ht; simp at ht
      · rw [if_neg hn, List.mem_flatMap] at ht
        obtain ⟨q, _, ht⟩ := ht
        generalize n + (if q = p then 1 else 0) + (if q = t' then 1 else 0) + (if q = s then 1 else 0) = m at ht
        by_cases hm : 3 ≤ m
        · rw [if_pos hm] at ht; simp at ht
        rw [if_neg hm] at ht
        split at ht
        · simp at ht
        split at ht
        · simp at ht
        rw [List.mem_singleton] at ht; subst ht; simp

/-- **C88.** The operator of qubit strings built from integrals is the Hamiltonian of particles on qubits with the integrals
above the threshold; building it does not fail. -/
theorem C88_operator (skip : K → Bool) (h1 : Fin r → Fin r → K) (V : Fin r → Fin r → Fin r → Fin r → K) :
    ∃ A, QP.qubitStrings skip h1 V = some A ∧ UniqueKeys A ∧ (∀ u ∈ A, u.1.length = r) ∧
      denD (denQ 0) A = secondQQ (fun p q => cut skip (h1 p q)) (fun p t q s => cut skip (V p t q s)) := by
  obtain ⟨L, e1, e2, e3⟩ := mapM_qgenerate r _ (fun t ht => ⟨terms_ne skip h1 V t ht, terms_ok skip h1 V t ht⟩)
  have hU : UniqueKeys ([] : OpD FStr K) := List.nodup_nil
  refine ⟨L.foldl OpD.addStr [], by unfold QP.qubitStrings; rw [e1]; rfl, ?_, ?_, ?_⟩
  · exact OpD.foldl_addStr_unique L [] hU
  · exact lengths_foldl_addStr (fun s => s.length = r) L [] (by simp) e3
  · rw [OpD.denD_foldl_addStr _ _ _ hU, OpD.denD_nil, zero_add, e2, List.map_append, List.sum_append, qoneTerms_sum,
      qtwoTerms_sum]
    rfl

end

/-- Dropping coefficients at or below a threshold changes each coefficient by at most the threshold. -/
theorem coef_filter_le (above : ℂ → Bool) (θ : ℝ) (hθ : 0 ≤ θ) (hab : ∀ c, above c = false → ‖c‖ ≤ θ) (s : PStr) :
    ∀ C : POp ℂ, UniqueKeys C → ‖coef (C.filter (fun t => above t.2)) s - coef C s‖ ≤ θ
  | [], _ => by simpa [coef] using hθ
  | t :: C, h => by
    have hU : UniqueKeys C := (List.nodup_cons.mp h).2
    have hn : t.1 ∉ C.map (·.1) := (List.nodup_cons.mp h).1
    have ih := coef_filter_le above θ hθ hab s C hU
    have hcons : ∀ D : POp ℂ, coef (t :: D) s = (if t.1 = s then t.2 else 0) + coef D s := by
      intro D
      unfold coef
      by_cases hs : t.1 = s <;> simp [List.filter_cons, hs]
    by_cases hs : t.1 = s
    · have z1 : coef C s = 0 := OpD.coef_of_not_mem C s (hs ▸ hn)
      have z2 : coef (C.filter (fun t => above t.2)) s = 0 := OpD.coef_of_not_mem _ s (by
        intro hm
        obtain ⟨u, hu, rfl⟩ := List.mem_map.mp hm
        exact hn (hs ▸ List.mem_map.mpr ⟨u, List.mem_of_mem_filter hu, rfl⟩))
      rw [hcons, z1, if_pos hs, add_zero, List.filter_cons]
      by_cases ha : above t.2 = true
      · rw [if_pos ha, hcons, z2, if_pos hs, add_zero, sub_self, norm_zero]; exact hθ
      · rw [if_neg ha, z2, zero_sub, norm_neg]
        exact hab _ (by simpa using ha)
    · rw [hcons, if_neg hs, zero_add, List.filter_cons]
      split
      · rw [hcons, if_neg hs, zero_add]; exact ih
      · exact ih

/-- **C88** (qubit operator): it is built without failure, its coefficients are within `1e-12` per qubit string plus the final
threshold `θ` of an exact representation `E`, and the expectation value of `E` in every state with `ne ≠ 1` particles is the energy
of the matrix form. -/
theorem C88_qubit_operator {r : ℕ} (skip above : ℂ → Bool) (θ : ℝ) (hθ : 0 ≤ θ) (hab : ∀ c, above c = false → ‖c‖ ≤ θ)
    (h1 : Fin r → Fin r → ℂ) (V : Fin r → Fin r → Fin r → Fin r → ℂ)
    (hh : ∀ a b, h1 a b = h1 b a) (hV : ∀ a b c d, V a b c d = V c d a b)
    (hs1 : ∀ a b, skip (h1 a b) = true → h1 a b = 0) (hs2 : ∀ a b c d, skip (V a b c d) = true → V a b c d = 0) :
    ∃ (Q E : POp ℂ) (A : OpD FStr ℂ), QP.qubitStrings skip h1 V = some A ∧ QP.qubitOp qubit skip above h1 V = some Q ∧
      UniqueKeys Q ∧ (∀ s, ‖coef Q s - coef E s‖ ≤ A.length * (1e-12 : ℝ) + θ) ∧ denPO E = denD (denQ 0) A ∧
      ∀ (ev : Oper ℂ →ₗ[ℂ] ℂ) (ne : ℂ), ne ≠ 1 → (∀ X : Oper ℂ, ev (X * numberOp r) = ne * ev X) →
        ev (denPO E) = observable (QP.k2 h1 V ne) (qrdm2 ev) := by
  obtain ⟨A, a1, _, a3, a4⟩ := C88_operator skip h1 V
  obtain ⟨C, E, c1, c2, _, c4, _, c6⟩ := C19_transform_qubit A r a3
  have hUf : UniqueKeys (C.filter (fun t => above t.2)) := by
    unfold UniqueKeys at c2 ⊢
    exact c2.sublist (List.Sublist.map _ List.filter_sublist)
  have hfold : (C.filter (fun t => above t.2)).foldl OpD.addStr [] = C.filter (fun t => above t.2) :=
    OpD.foldl_addStr_fresh _ [] (by simpa [UniqueKeys] using hUf)
  refine ⟨C.filter (fun t => above t.2), E, A, a1, ?_, hUf, ?_, c4, ?_⟩
  · unfold QP.qubitOp; rw [a1]; simp [c1, hfold]
  · intro s
    have e : coef (C.filter (fun t => above t.2)) s - coef E s
        = (coef C s - coef E s) + (coef (C.filter (fun t => above t.2)) s - coef C s) := by ring
    rw [e]
    exact (norm_add_le _ _).trans (add_le_add (c6 s) (coef_filter_le above θ hθ hab s C c2))
  · intro ev ne hne hN
    rw [c4, a4, C88_energy ev ne hne hN h1 V hh hV]
    congr 2
    · funext p q; unfold cut; split
      · exact (hs1 _ _ (by assumption)).symm
      · rfl
    · funext p t q s; unfold cut; split
      · exact (hs2 _ _ _ _ (by assumption)).symm
      · rfl

section
variable {K : Type} [Coef K]

/-- The hypotheses hold for every occupation-number state with a number of particles other than one; here two particles and
arbitrary symmetric integrals on six qubits. -/
example (h1 : Fin 6 → Fin 6 → K) (V : Fin 6 → Fin 6 → Fin 6 → Fin 6 → K) (hh : ∀ a b, h1 a b = h1 b a)
    (hV : ∀ a b c d, V a b c d = V c d a b) :
    observable (QP.k2 h1 V 2) (qrdm2 (evCfg twoElectrons)) = evCfg twoElectrons (secondQQ h1 V) := by
  refine C88_energy _ 2 ?_ ?_ h1 V hh hV
  · intro h
    have : (2 : K) - 1 = 0 := by rw [h]; ring
    norm_num at this
  · intro X
    rw [evCfg_number]
    have : (Finset.univ.filter (fun i : Fin 6 => twoElectrons i.val = true)).card = 2 := by decide
    rw [this]
    norm_num

end

/-- Integrals on two orbitals, with hopping: no sign appears. -/
example : QP.qubitStrings (K := GQ) (r := 2) (fun x => decide (x = 0)) (fun i j => if i = j then 3 else 5)
    (fun a b c d => if (a, b, c, d) = (0, 1, 1, 0) then 4 else 0)
      = some [([.p, .i], 3), ([.cr, .an], 5), ([.an, .cr], 5), ([.i, .p], 3), ([.p, .p], 2)] := by
  decide +kernel

end Props
end HQCA
