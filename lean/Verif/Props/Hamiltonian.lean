import Mathlib.Tactic.FieldSimp
import Mathlib.Tactic.LinearCombination
import Verif.Model.Hamiltonian
import Verif.Proofs.CAR
import Verif.Proofs.RDMDet
import Verif.Proofs.Operator
import Verif.Props.Fermi
import Verif.Props.Transforms

/-!
# The Hamiltonian in matrix and operator form (C51, C52, C72)
-/

namespace HQCA
namespace Props
open Ham Transform

section
variable {K : Type} [Coef K] {r : ℕ}

/-- The entries of the reduced Hamiltonian matrix. -/
theorem k2_eq (h1 : Fin r → Fin r → K) (V : Fin r → Fin r → Fin r → Fin r → K) (ne : K) (a b c d : Fin r) :
    k2 h1 V ne a b c d = V a b c d * (1 / 2)
      + ((if b = d then h1 a c / (4 * (ne - 1)) else 0) + (if a = c then h1 b d / (4 * (ne - 1)) else 0)
        - (if b = c then h1 a d / (4 * (ne - 1)) else 0) - (if a = d then h1 b c / (4 * (ne - 1)) else 0)) := by
  unfold k2
  congr 1
  simp only [Finset.sum_add_distrib, Prod.mk.injEq]
  have e1 : ∀ (x : Fin r → Fin r → K) (a b c d : Fin r), (∑ i, ∑ j, ∑ k, if a = i ∧ b = k ∧ c = j ∧ d = k then x i j else 0)
      = if b = d then x a c else 0 := by
    intro x a b c d
    rw [Finset.sum_eq_single a (fun i _ hi => by
      apply Finset.sum_eq_zero; intro j _; apply Finset.sum_eq_zero; intro k _
      rw [if_neg (fun h => hi h.1.symm)]) (by simp)]
    rw [Finset.sum_eq_single c (fun j _ hj => by
      apply Finset.sum_eq_zero; intro k _
      rw [if_neg (fun h => hj h.2.2.1.symm)]) (by simp)]
    rw [Finset.sum_eq_single b (fun k _ hk => by rw [if_neg (fun h => hk h.2.1.symm)]) (by simp)]
    by_cases hbd : b = d
    · simp [hbd]
    · rw [if_neg hbd, if_neg (fun h => hbd h.2.2.2.symm)]
  have e2 := e1 (fun i j => h1 i j / (4 * (ne - 1))) a b c d
  have e3 := e1 (fun i j => h1 i j / (4 * (ne - 1))) b a d c
  have e4 := e1 (fun i j => -(h1 i j / (4 * (ne - 1)))) a b d c
  have e5 := e1 (fun i j => -(h1 i j / (4 * (ne - 1)))) b a c d
  rw [e2]
  have f3 : (∑ i, ∑ j, ∑ k, if a = k ∧ b = i ∧ c = k ∧ d = j then h1 i j / (4 * (ne - 1)) else 0)
      = if a = c then h1 b d / (4 * (ne - 1)) else 0 := by
    rw [← e3]
    refine Finset.sum_congr rfl fun i _ => Finset.sum_congr rfl fun j _ => Finset.sum_congr rfl fun k _ => ?_
    exact if_congr (by tauto) rfl rfl
  have f4 : (∑ i, ∑ j, ∑ k, if a = i ∧ b = k ∧ c = k ∧ d = j then -(h1 i j / (4 * (ne - 1))) else 0)
      = if b = c then -(h1 a d / (4 * (ne - 1))) else 0 := by
    rw [← e4]
    refine Finset.sum_congr rfl fun i _ => Finset.sum_congr rfl fun j _ => Finset.sum_congr rfl fun k _ => ?_
    exact if_congr (by tauto) rfl rfl
  have f5 : (∑ i, ∑ j, ∑ k, if a = k ∧ b = i ∧ c = j ∧ d = k then -(h1 i j / (4 * (ne - 1))) else 0)
      = if a = d then -(h1 b c / (4 * (ne - 1))) else 0 := by
    rw [← e5]
    refine Finset.sum_congr rfl fun i _ => Finset.sum_congr rfl fun j _ => Finset.sum_congr rfl fun k _ => ?_
    exact if_congr (by tauto) rfl rfl
  rw [f3, f4, f5]
  have g : ∀ (p : Prop) [Decidable p] (x : K), (if p then -x else 0) = -(if p then x else 0) := by
    intro p _ x; split <;> simp
  rw [g, g]
  ring

/-- The one-body part of the trace, for an antisymmetric density matrix with the contraction of an `ne`-electron state. -/
theorem one_body_trace (x : Fin r → Fin r → K) (D : Fin r → Fin r → Fin r → Fin r → K) (D1 : Fin r → Fin r → K) (m : K)
    (hl : ∀ a b c d, D a b c d = -D b a c d) (hr : ∀ a b c d, D a b c d = -D a b d c)
    (hc : ∀ a c, ∑ b, D a b c b = m * D1 a c) :
    ∑ a, ∑ b, ∑ c, ∑ d, ((if b = d then x a c else 0) + (if a = c then x b d else 0)
        - (if b = c then x a d else 0) - (if a = d then x b c else 0)) * D c d a b
      = 4 * m * ∑ a, ∑ c, x a c * D1 c a := by
  have hT : ∑ a, ∑ c, x a c * ∑ b, D c b a b = m * ∑ a, ∑ c, x a c * D1 c a := by
    rw [Finset.mul_sum]
    refine Finset.sum_congr rfl fun a _ => ?_
    rw [Finset.mul_sum]
    refine Finset.sum_congr rfl fun c _ => ?_
    rw [hc]; ring
  have t1 : ∑ a, ∑ b, ∑ c, ∑ d, (if b = d then x a c else 0) * D c d a b = ∑ a, ∑ c, x a c * ∑ b, D c b a b := by
    refine Finset.sum_congr rfl fun a _ => ?_
    rw [Finset.sum_comm]
    refine Finset.sum_congr rfl fun c _ => ?_
    rw [Finset.mul_sum]
    refine Finset.sum_congr rfl fun b _ => ?_
    simp [ite_mul]
  have t2 : ∑ a, ∑ b, ∑ c, ∑ d, (if a = c then x b d else 0) * D c d a b = ∑ a, ∑ c, x a c * ∑ b, D c b a b := by
    rw [Finset.sum_comm]
    refine Finset.sum_congr rfl fun b _ => ?_
    have : ∀ a, (∑ c, ∑ d, (if a = c then x b d else 0) * D c d a b) = ∑ d, x b d * D d a b a := by
      intro a
      rw [Finset.sum_comm]
      refine Finset.sum_congr rfl fun d _ => ?_
      simp only [ite_mul, zero_mul, Finset.sum_ite_eq, Finset.mem_univ, if_true]
      rw [hl, hr, neg_neg]
    simp only [this]
    rw [Finset.sum_comm]
    refine Finset.sum_congr rfl fun c _ => ?_
    rw [Finset.mul_sum]
  have t3 : ∑ a, ∑ b, ∑ c, ∑ d, (if b = c then x a d else 0) * D c d a b = -∑ a, ∑ c, x a c * ∑ b, D c b a b := by
    rw [← Finset.sum_neg_distrib]
    refine Finset.sum_congr rfl fun a _ => ?_
    have : ∀ b, (∑ c, ∑ d, (if b = c then x a d else 0) * D c d a b) = ∑ d, -(x a d * D d b a b) := by
      intro b
      rw [Finset.sum_comm]
      refine Finset.sum_congr rfl fun d _ => ?_
      simp only [ite_mul, zero_mul, Finset.sum_ite_eq, Finset.mem_univ, if_true]
      rw [hl]; ring
    simp only [this]
    rw [Finset.sum_comm, ← Finset.sum_neg_distrib]
    refine Finset.sum_congr rfl fun c _ => ?_
    rw [Finset.mul_sum, Finset.sum_neg_distrib]
  have t4 : ∑ a, ∑ b, ∑ c, ∑ d, (if a = d then x b c else 0) * D c d a b = -∑ a, ∑ c, x a c * ∑ b, D c b a b := by
    rw [Finset.sum_comm, ← Finset.sum_neg_distrib]
    refine Finset.sum_congr rfl fun b _ => ?_
    have : ∀ a, (∑ c, ∑ d, (if a = d then x b c else 0) * D c d a b) = ∑ c, -(x b c * D c a b a) := by
      intro a
      refine Finset.sum_congr rfl fun c _ => ?_
      simp only [ite_mul, zero_mul, Finset.sum_ite_eq, Finset.mem_univ, if_true]
      rw [hr]; ring
    simp only [this]
    rw [Finset.sum_comm, ← Finset.sum_neg_distrib]
    refine Finset.sum_congr rfl fun c _ => ?_
    rw [Finset.mul_sum, Finset.sum_neg_distrib]
  simp only [sub_mul, add_mul, Finset.sum_sub_distrib, Finset.sum_add_distrib]
  rw [t1, t2, t3, t4, hT]
  ring

/-- **C51.** For a two-body density matrix that is antisymmetric in each pair and contracts to `ne - 1` times a one-body
density matrix (`ne ≠ 1`), the trace with the reduced Hamiltonian is the one-body energy with that one-body density
matrix plus the two-body energy. -/
theorem C51_energy (h1 : Fin r → Fin r → K) (V D : Fin r → Fin r → Fin r → Fin r → K) (D1 : Fin r → Fin r → K) (ne : K)
    (hne : ne ≠ 1) (hl : ∀ a b c d, D a b c d = -D b a c d) (hr : ∀ a b c d, D a b c d = -D a b d c)
    (hc : ∀ a c, ∑ b, D a b c b = (ne - 1) * D1 a c) :
    observable (k2 h1 V ne) D
      = ∑ a, ∑ c, h1 a c * D1 c a + (1 / 2) * ∑ a, ∑ b, ∑ c, ∑ d, V a b c d * D c d a b := by
  have h4 : (4 : K) * (ne - 1) ≠ 0 := by
    have h2 : (2 : K) ≠ 0 := Coef.two_ne_zero'
    have : (4 : K) = 2 * 2 := by norm_num
    rw [this]
    exact mul_ne_zero (mul_ne_zero h2 h2) (sub_ne_zero.mpr hne)
  unfold observable
  simp only [k2_eq, add_mul (V _ _ _ _ * (1 / 2)), Finset.sum_add_distrib]
  rw [one_body_trace (fun i j => h1 i j / (4 * (ne - 1))) D D1 (ne - 1) hl hr hc, add_comm]
  congr 1
  · rw [Finset.mul_sum]
    refine Finset.sum_congr rfl fun a _ => ?_
    rw [Finset.mul_sum]
    refine Finset.sum_congr rfl fun c _ => ?_
    have : h1 a c / (4 * (ne - 1)) * D1 c a = h1 a c * D1 c a / (4 * (ne - 1)) := by ring
    rw [this, mul_div_cancel₀ _ h4]
  · simp only [Finset.mul_sum]
    refine Finset.sum_congr rfl fun a _ => Finset.sum_congr rfl fun b _ => Finset.sum_congr rfl fun c _ =>
      Finset.sum_congr rfl fun d _ => ?_
    ring

/-! ### The operator form -/

/-- Specification: the second-quantized Hamiltonian of given integrals on orbitals `0..r-1`. -/
def secondQ (h1 : Fin r → Fin r → K) (V : Fin r → Fin r → Fin r → Fin r → K) : Oper K :=
  ∑ p : Fin r, ∑ q : Fin r, h1 p q • (cre p.val * ann q.val)
    + ∑ p : Fin r, ∑ t : Fin r, ∑ s : Fin r, ∑ q : Fin r,
        (1 / 2 * V p t q s) • (cre p.val * (cre t.val * (ann s.val * ann q.val)))

/-- Integrals at or below the threshold are treated as zero. -/
def cut (skip : K → Bool) (x : K) : K := if skip x then 0 else x

theorem map_sum_flatMap {α β M : Type} [AddCommMonoid M] (l : List α) (f : α → List β) (g : β → M) :
    ((l.flatMap f).map g).sum = (l.map (fun x => ((f x).map g).sum)).sum := by
  induction l with
  | nil => rfl
  | cons a l ih => simp [List.flatMap_cons, ih]

theorem finRange_sum {M : Type} [AddCommMonoid M] (f : Fin r → M) : ((List.finRange r).map f).sum = ∑ i, f i := by
  rw [← List.ofFn_eq_map, List.sum_ofFn]

/-- The word of a term. -/
def wordOf (t : K × List (ℕ × FL)) : Oper K := t.1 • (t.2.map (fun a => fop a.1 a.2)).prod

theorem oneTerms_sum (skip : K → Bool) (h1 : Fin r → Fin r → K) :
    ((oneTerms skip h1).map wordOf).sum = ∑ p : Fin r, ∑ q : Fin r, cut skip (h1 p q) • (cre p.val * ann q.val : Oper K) := by
  unfold oneTerms
  rw [map_sum_flatMap, finRange_sum]
  refine Finset.sum_congr rfl fun p _ => ?_
  rw [map_sum_flatMap, finRange_sum]
  refine Finset.sum_congr rfl fun q _ => ?_
  unfold cut
  split
  · simp
  · simp [wordOf, fop]

theorem twoTerms_sum (skip : K → Bool) (V : Fin r → Fin r → Fin r → Fin r → K) :
    ((twoTerms skip V).map wordOf).sum = ∑ p : Fin r, ∑ t : Fin r, ∑ s : Fin r, ∑ q : Fin r,
        (1 / 2 * cut skip (V p t q s)) • (cre p.val * (cre t.val * (ann s.val * ann q.val)) : Oper K) := by
  have hcc : ∀ i : ℕ, (cre i * cre i : Oper K) = 0 := fun i => fop_contr_zero i .cr .cr rfl
  have haa : ∀ i : ℕ, (ann i * ann i : Oper K) = 0 := fun i => fop_contr_zero i .an .an rfl
  unfold twoTerms
  rw [map_sum_flatMap, finRange_sum]
  refine Finset.sum_congr rfl fun p _ => ?_
  rw [map_sum_flatMap, finRange_sum]
  refine Finset.sum_congr rfl fun t _ => ?_
  by_cases hpt : p = t
  · subst hpt
    rw [if_pos rfl]
    symm
    refine Finset.sum_eq_zero fun s _ => Finset.sum_eq_zero fun q _ => ?_
    rw [← mul_assoc (cre p.val), hcc, zero_mul, smul_zero]
  · rw [if_neg hpt]
    simp only [if_neg hpt, Nat.zero_add]
    rw [map_sum_flatMap, finRange_sum]
    refine Finset.sum_congr rfl fun s _ => ?_
    have hs : ¬ ((if s = p then 1 else 0) + (if s = t then 1 else 0) : ℕ) = 3 := by split <;> split <;> omega
    rw [if_neg hs, map_sum_flatMap, finRange_sum]
    refine Finset.sum_congr rfl fun q _ => ?_
    by_cases hqs : q = s
    · subst hqs
      rw [haa, mul_zero, mul_zero, smul_zero]
      simp
    · have hcnt : ¬ 3 ≤ ((if s = p then 1 else 0) + (if s = t then 1 else 0) + (if q = p then 1 else 0)
          + (if q = t then 1 else 0) + (if q = s then 1 else 0) : ℕ) := by
        rw [if_neg hqs]
        have hx : ¬ (s = p ∧ s = t) := fun h => hpt (h.1.symm.trans h.2)
        have hy : ¬ (q = p ∧ q = t) := fun h => hpt (h.1.symm.trans h.2)
        by_cases a1 : s = p <;> by_cases a2 : s = t <;> by_cases a3 : q = p <;> by_cases a4 : q = t <;>
          simp_all
      rw [if_neg hcnt, if_neg hqs]
      unfold cut
      split
      · simp
      · simp [wordOf, fop]

theorem mapM_generate (N : ℕ) : ∀ (l : List (K × List (ℕ × FL))), (∀ t ∈ l, ∀ a ∈ t.2, a.2 ≠ .i ∧ a.1 < N) →
    ∃ L, l.mapM (fun t => Fermi.generate true t.1 t.2 N) = some L ∧ denD (denF 0) L = ((l.map wordOf).sum : Oper K) ∧
      ∀ u ∈ L, u.1.length = N
  | [], _ => ⟨[], rfl, rfl, by simp⟩
  | t :: l, h => by
    obtain ⟨L, h1, h2, h3⟩ := mapM_generate N l (fun u hu => h u (by simp [hu]))
    obtain ⟨u, e1, e2, e3⟩ := C09_fermi_generate t.1 t.2 N (fun a ha => (h t (by simp) a ha).1)
    refine ⟨u :: L, by rw [List.mapM_cons, e1, h1]; rfl, ?_, ?_⟩
    · rw [OpD.denD_cons, e2, h2, List.map_cons, List.sum_cons]; rfl
    · intro v hv
      rcases List.mem_cons.mp hv with rfl | hv
      · exact e3 (fun a ha => (h t (by simp) a ha).2)
      · exact h3 v hv

theorem terms_ok (skip : K → Bool) (h1 : Fin r → Fin r → K) (V : Fin r → Fin r → Fin r → Fin r → K) :
    ∀ t ∈ oneTerms skip h1 ++ twoTerms skip V, ∀ a ∈ t.2, a.2 ≠ FL.i ∧ a.1 < r := by
  intro t ht
  rcases List.mem_append.mp ht with ht | ht
  · simp only [oneTerms, List.mem_flatMap] at ht
    obtain ⟨p, _, q, _, ht⟩ := ht
    split at ht
    · simp at ht
    · rw [List.mem_singleton] at ht; subst ht; simp
  · simp only [twoTerms, List.mem_flatMap] at ht
    obtain ⟨p, _, t', _, ht⟩ := ht
    split at ht
    · simp at ht
    · rw [List.mem_flatMap] at ht
      obtain ⟨s, _, ht⟩ := ht
      generalize (0 + (if s = p then 1 else 0) + (if s = t' then 1 else 0) : ℕ) = n at ht
      by_cases hn : n = 3
      · rw [if_pos hn] at ht; simp at ht
      · rw [if_neg hn, List.mem_flatMap] at ht
        obtain ⟨q, _, ht⟩ := ht
        generalize n + (if q = p then 1 else 0) + (if q = t' then 1 else 0) + (if q = s then 1 else 0) = m at ht
        by_cases hm : 3 ≤ m
        · rw [if_pos hm] at ht; simp at ht
        rw [if_neg hm] at ht
        split at ht
        · simp at ht
        split at ht
        · simp at ht
        rw [List.mem_singleton] at ht; subst ht; simp

theorem lengths_foldl_addStr {α : Type} [DecidableEq α] (P : α → Prop) (B : OpD α K) : ∀ A : OpD α K,
    (∀ u ∈ A, P u.1) → (∀ u ∈ B, P u.1) → ∀ u ∈ B.foldl OpD.addStr A, P u.1 := by
  induction B with
  | nil => intro A h _; exact h
  | cons t B ih =>
    intro A hA hB
    refine ih _ ?_ (fun u hu => hB u (by simp [hu]))
    intro u hu
    unfold OpD.addStr at hu
    split at hu
    · obtain ⟨v, hv, rfl⟩ := List.mem_map.mp hu
      have := hA v hv
      split <;> exact this
    · rcases List.mem_append.mp hu with hu | hu
      · exact hA u hu
      · rw [List.mem_singleton] at hu; subst hu; exact hB u (by simp)

/-- The fermionic operator built from integrals is the second-quantized Hamiltonian of the integrals above the
threshold; building it does not fail. -/
theorem C52_fermi_operator (skip : K → Bool) (h1 : Fin r → Fin r → K) (V : Fin r → Fin r → Fin r → Fin r → K) :
    ∃ A, fermiOp skip h1 V = some A ∧ UniqueKeys A ∧ (∀ u ∈ A, u.1.length = r) ∧
      denD (denF 0) A = secondQ (fun p q => cut skip (h1 p q)) (fun p t q s => cut skip (V p t q s)) := by
  obtain ⟨L, e1, e2, e3⟩ := mapM_generate r _ (terms_ok skip h1 V)
  have hU : UniqueKeys ([] : OpD FStr K) := List.nodup_nil
  refine ⟨L.foldl OpD.addStr [], by unfold fermiOp; rw [e1]; rfl, ?_, ?_, ?_⟩
  · exact OpD.foldl_addStr_unique L [] hU
  · exact lengths_foldl_addStr (fun s => s.length = r) L [] (by simp) e3
  · rw [OpD.denD_foldl_addStr _ _ _ hU, OpD.denD_nil, zero_add, e2, List.map_append, List.sum_append, oneTerms_sum,
      twoTerms_sum]
    rfl

/-! ### Energies -/

/-- Specification: the number operator of orbitals `0..r-1`. -/
def numberOp (r : ℕ) : Oper K := ∑ b : Fin r, cre b.val * ann b.val

/-- The one- and two-body density matrices of a linear functional on operators (an expectation value). -/
def rdm1 (ev : Oper K →ₗ[K] K) (i j : Fin r) : K := ev (cre i.val * ann j.val)
def rdm2 (ev : Oper K →ₗ[K] K) (i k j l : Fin r) : K := ev (cre i.val * (cre k.val * (ann l.val * ann j.val)))

theorem neg_mid {R : Type} [Ring R] (x y z : R) : -(x * y) * z = x * -(y * z) := by noncomm_ring
theorem neg_head {R : Type} [Ring R] (x y z : R) : -(x * y) * z = -(x * (y * z)) := by noncomm_ring
theorem neg_tail {R : Type} [Ring R] (x y z : R) : x * (y * -z) = -(x * (y * z)) := by noncomm_ring

theorem ann_number (a : Fin r) : (ann a.val * numberOp r : Oper K) = numberOp r * ann a.val + ann a.val := by
  have h : ∀ b : Fin r, (ann a.val * (cre b.val * ann b.val) : Oper K)
      = cre b.val * ann b.val * ann a.val + (if a = b then ann a.val else 0) := by
    intro b
    rw [← mul_assoc, car_ann_cre]
    by_cases hab : a = b
    · subst hab
      rw [if_pos rfl, if_pos rfl, sub_mul, one_mul]
      have h1 : (cre a.val * ann a.val * ann a.val : Oper K) = 0 := by
        rw [mul_assoc, show (ann a.val * ann a.val : Oper K) = 0 from fop_contr_zero a.val .an .an rfl, mul_zero]
      rw [h1]
      simp
    · rw [if_neg (fun h => hab (Fin.ext h)), if_neg hab, zero_sub, add_zero]
      rw [mul_assoc (cre b.val), car_ann_ann b.val a.val]
      exact neg_mid _ _ _
  unfold numberOp
  rw [Finset.mul_sum, Finset.sum_congr rfl (fun b _ => h b), Finset.sum_add_distrib, Finset.sum_mul]
  simp

theorem rdm2_left (ev : Oper K →ₗ[K] K) (a b c d : Fin r) : rdm2 ev a b c d = -rdm2 ev b a c d := by
  unfold rdm2
  rw [← mul_assoc, car_cre_cre, ← map_neg]
  exact congrArg ev (neg_head _ _ _)

theorem rdm2_right (ev : Oper K →ₗ[K] K) (a b c d : Fin r) : rdm2 ev a b c d = -rdm2 ev a b d c := by
  unfold rdm2
  rw [car_ann_ann d.val c.val, ← map_neg]
  exact congrArg ev (neg_tail _ _ _)

/-- In a state with `ne` electrons the two-body density matrix contracts to `ne - 1` times the one-body one. -/
theorem rdm2_contract (ev : Oper K →ₗ[K] K) (ne : K) (hN : ∀ X : Oper K, ev (X * numberOp r) = ne * ev X) (a c : Fin r) :
    ∑ b, rdm2 ev a b c b = (ne - 1) * rdm1 ev a c := by
  have h1 : ∑ b : Fin r, rdm2 ev a b c b = ev (cre a.val * (numberOp r * ann c.val)) := by
    unfold rdm2 numberOp
    rw [← map_sum]
    congr 1
    rw [Finset.sum_mul, Finset.mul_sum]
    refine Finset.sum_congr rfl fun b _ => ?_
    rw [mul_assoc (cre b.val)]
  have h2 : (numberOp r * ann c.val : Oper K) = ann c.val * numberOp r - ann c.val := by
    rw [ann_number]; abel
  rw [h1, h2, mul_sub, map_sub, ← mul_assoc, hN]
  unfold rdm1
  ring

/-- **C52** (no core, before thresholds): for integrals with the symmetry of real orbitals, the energy of the matrix form
in a state with `ne ≠ 1` electrons is the expectation value of the second-quantized Hamiltonian. -/
theorem C52_energy (ev : Oper K →ₗ[K] K) (ne : K) (hne : ne ≠ 1) (hN : ∀ X : Oper K, ev (X * numberOp r) = ne * ev X)
    (h1 : Fin r → Fin r → K) (V : Fin r → Fin r → Fin r → Fin r → K) (hh : ∀ a b, h1 a b = h1 b a)
    (hV : ∀ a b c d, V a b c d = V c d a b) :
    observable (k2 h1 V ne) (rdm2 ev) = ev (secondQ h1 V) := by
  rw [C51_energy h1 V (rdm2 ev) (rdm1 ev) ne hne (rdm2_left ev) (rdm2_right ev) (rdm2_contract ev ne hN)]
  unfold secondQ
  rw [map_add]
  congr 1
  · rw [map_sum, Finset.sum_comm]
    refine Finset.sum_congr rfl fun p _ => ?_
    rw [map_sum]
    refine Finset.sum_congr rfl fun q _ => ?_
    rw [map_smul, smul_eq_mul, hh]
    rfl
  · have e : ∑ a, ∑ b, ∑ c, ∑ d, V a b c d * rdm2 ev c d a b = ∑ a, ∑ b, ∑ c, ∑ d, V c d a b * rdm2 ev c d a b :=
      Finset.sum_congr rfl fun a _ => Finset.sum_congr rfl fun b _ => Finset.sum_congr rfl fun c _ =>
        Finset.sum_congr rfl fun d _ => by rw [hV]
    have swap : ∑ a, ∑ b, ∑ c, ∑ d, V c d a b * rdm2 ev c d a b = ∑ c, ∑ d, ∑ a, ∑ b, V c d a b * rdm2 ev c d a b := by
      calc _ = ∑ a, ∑ c, ∑ b, ∑ d, V c d a b * rdm2 ev c d a b :=
            Finset.sum_congr rfl fun a _ => Finset.sum_comm
        _ = ∑ c, ∑ a, ∑ b, ∑ d, V c d a b * rdm2 ev c d a b := Finset.sum_comm
        _ = ∑ c, ∑ a, ∑ d, ∑ b, V c d a b * rdm2 ev c d a b :=
            Finset.sum_congr rfl fun c _ => Finset.sum_congr rfl fun a _ => Finset.sum_comm
        _ = ∑ c, ∑ d, ∑ a, ∑ b, V c d a b * rdm2 ev c d a b :=
            Finset.sum_congr rfl fun c _ => Finset.sum_comm
    rw [e, swap, Finset.mul_sum, map_sum]
    refine Finset.sum_congr rfl fun p _ => ?_
    rw [map_sum, Finset.mul_sum]
    refine Finset.sum_congr rfl fun t _ => ?_
    rw [map_sum, Finset.sum_comm, Finset.mul_sum]
    refine Finset.sum_congr rfl fun s _ => ?_
    rw [map_sum, Finset.mul_sum]
    refine Finset.sum_congr rfl fun q _ => ?_
    rw [map_smul, smul_eq_mul]
    unfold rdm2
    ring

/-- The expectation value in an occupation-number state. -/
noncomputable def evCfg (b : Cfg) : Oper K →ₗ[K] K := by
  classical
  exact
  { toFun := fun X => X (fun c => if c = b then 1 else 0) b
    map_add' := fun _ _ => rfl
    map_smul' := fun _ _ => rfl }

/-- The hypothesis on the state is met by every occupation-number state, with its number of electrons. -/
theorem evCfg_number (b : Cfg) (X : Oper K) :
    evCfg b (X * numberOp r) = ((Finset.univ.filter (fun i : Fin r => b i.val = true)).card : K) * evCfg b X := by
  classical
  have h : (numberOp r : Oper K) (fun c => if c = b then 1 else 0)
      = ((Finset.univ.filter (fun i : Fin r => b i.val = true)).card : K) • (fun c : Cfg => if c = b then (1 : K) else 0) := by
    funext c
    unfold numberOp
    rw [LinearMap.sum_apply, Finset.sum_apply]
    simp only [number_apply, Pi.smul_apply, smul_eq_mul]
    by_cases hc : c = b
    · subst hc
      simp [Finset.sum_ite]
    · simp [hc]
  show (X * numberOp r : Oper K) (fun c => if c = b then 1 else 0) b = _ * X (fun c => if c = b then 1 else 0) b
  rw [Module.End.mul_apply, h, map_smul]
  rfl

end

/-- **C52, partial** (Hamiltonian from given integrals, Jordan-Wigner): the qubit operator is built without failure, its
coefficients are within `1e-12` per fermionic term of an exact representation `E`, and the expectation value of `E` in
every state with `ne ≠ 1` electrons is the energy of the reduced-Hamiltonian matrix, for integrals with the symmetry of
real orbitals none of which is nonzero and below the threshold.  Missing: the molecular Hamiltonian, whose
construction of the operators raises (`C72_molecular_raises`) and whose operator would lack the mean field of a frozen core
(`C52_core_gap`). -/
theorem C52_fermionic_partial {r : ℕ} (skip : ℂ → Bool) (h1 : Fin r → Fin r → ℂ) (V : Fin r → Fin r → Fin r → Fin r → ℂ)
    (hh : ∀ a b, h1 a b = h1 b a) (hV : ∀ a b c d, V a b c d = V c d a b)
    (hs1 : ∀ a b, skip (h1 a b) = true → h1 a b = 0) (hs2 : ∀ a b c d, skip (V a b c d) = true → V a b c d = 0) :
    ∃ (Q E : POp ℂ) (A : OpD FStr ℂ), qubitOp jordanWigner skip h1 V = some (Q, A) ∧ UniqueKeys Q ∧
      (∀ s, ‖coef Q s - coef E s‖ ≤ A.length * (1e-12 : ℝ)) ∧ denPO E = denD (denF 0) A ∧
      ∀ (ev : Oper ℂ →ₗ[ℂ] ℂ) (ne : ℂ), ne ≠ 1 → (∀ X : Oper ℂ, ev (X * numberOp r) = ne * ev X) →
        ev (denPO E) = observable (k2 h1 V ne) (rdm2 ev) := by
  obtain ⟨A, a1, _, a3, a4⟩ := C52_fermi_operator skip h1 V
  obtain ⟨C, E, c1, c2, _, c4, _, c6⟩ := C15_transform_jw A r a3
  have hfold : C.foldl OpD.addStr [] = C := OpD.foldl_addStr_fresh C [] (by simpa [UniqueKeys] using c2)
  refine ⟨C, E, A, ?_, c2, c6, c4, ?_⟩
  · unfold qubitOp; rw [a1]; simp [c1, hfold]
  · intro ev ne hne hN
    rw [c4, a4, C52_energy ev ne hne hN h1 V hh hV]
    congr 2
    · funext p q; unfold cut; split
      · exact (hs1 _ _ (by assumption)).symm
      · rfl
    · funext p t q s; unfold cut; split
      · exact (hs2 _ _ _ _ (by assumption)).symm
      · rfl

section
variable {K : Type} [Coef K] {r : ℕ}

/-- The molecular Hamiltonian never gets its operators: the cleaning call raises, whatever the integrals. -/
theorem C72_molecular_raises (T : Term FStr K → Option (POp K)) (skip above : K → Bool) (tol : K) (h1 : Fin r → Fin r → K)
    (V : Fin r → Fin r → Fin r → Fin r → K) (enc : K) : molecularOps T skip above tol h1 V enc = none := by
  unfold molecularOps
  obtain ⟨A, a1, _⟩ := C52_fermi_operator skip h1 V
  rw [a1]
  cases h : OpD.transform T A with
  | none => simp [h]
  | some n => simp [h, cleanCall]

/-- With a frozen core, the matrix contains the mean field of the core and the operator does not: their energies differ
by the expectation value of that mean field. -/
theorem C52_core_gap (ev : Oper K →ₗ[K] K) (ne : K) (hne : ne ≠ 1) (hN : ∀ X : Oper K, ev (X * numberOp r) = ne * ev X)
    (h : ℕ → ℕ → K) (V : ℕ → ℕ → ℕ → ℕ → K) (active : Fin r → ℕ) (core : List ℕ) (hh : ∀ a b, h a b = h b a)
    (hV : ∀ a b c d, V a b c d = V c d a b) (hV' : ∀ a b c d, V a b c d = V b a d c) :
    observable (k2 (core1e h V active core) (fun a b c d => V (active a) (active b) (active c) (active d)) ne) (rdm2 ev)
      = ev (secondQ (fun a b => h (active a) (active b)) (fun a b c d => V (active a) (active b) (active c) (active d)))
        + ∑ i, ∑ j, (core.map (fun k => V (active i) k (active j) k - V (active i) k k (active j))).sum * rdm1 ev i j := by
  have hcore : ∀ i j : Fin r, core1e h V active core i j = h (active i) (active j)
      + (core.map (fun k => V (active i) k (active j) k - V (active i) k k (active j))).sum := by
    intro i j
    unfold core1e
    have : ∀ (l : List ℕ) (x : K), l.foldl (fun x k => x + V (active i) k (active j) k - V (active i) k k (active j)) x
        = x + (l.map (fun k => V (active i) k (active j) k - V (active i) k k (active j))).sum := by
      intro l
      induction l with
      | nil => intro x; simp
      | cons k l ih => intro x; rw [List.foldl_cons, ih, List.map_cons, List.sum_cons]; ring
    rw [this, zero_add]
  have hsym : ∀ a b : Fin r, core1e h V active core a b = core1e h V active core b a := by
    intro a b
    rw [hcore, hcore, hh]
    congr 2
    refine List.map_congr_left fun k _ => ?_
    rw [hV (active a) k (active b) k, hV (active a) k k (active b), hV' k (active b) (active a) k]
  rw [C52_energy ev ne hne hN _ _ hsym (fun a b c d => hV _ _ _ _)]
  unfold secondQ
  simp only [hcore, add_smul, Finset.sum_add_distrib, map_add, map_sum, map_smul, smul_eq_mul]
  unfold rdm1
  ring

/-- Two electrons in orbitals 0 and 1. -/
def twoElectrons : Cfg := fun i => decide (i < 2)

/-- Integrals with one nonzero entry, the repulsion of orbital 0 and the core orbital 2 (with its symmetry partner). -/
def gapV : ℕ → ℕ → ℕ → ℕ → K := fun a b c d =>
  if (a, b, c, d) = (0, 2, 0, 2) ∨ (a, b, c, d) = (2, 0, 2, 0) then 1 else 0

theorem rdm1_cfg (b : Cfg) (i : Fin r) : rdm1 (evCfg (K := K) b) i i = if b i.val then 1 else 0 := by
  classical
  show (cre i.val * ann i.val : Oper K) (fun c => if c = b then 1 else 0) b = _
  rw [number_apply]
  simp

/-- The gap occurs: two electrons in orbitals 0 and 1 above a core orbital 2. -/
theorem C52_core_gap_nonzero :
    observable (k2 (r := 2) (core1e (fun _ _ => (0 : K)) gapV (fun i => i.val) [2])
        (fun a b c d => gapV a.val b.val c.val d.val) 2) (rdm2 (evCfg twoElectrons))
      ≠ evCfg twoElectrons (secondQ (r := 2) (fun _ _ => (0 : K)) (fun a b c d => gapV a.val b.val c.val d.val)) := by
  have hN : ∀ X : Oper K, evCfg twoElectrons (X * numberOp 2) = 2 * evCfg twoElectrons X := by
    intro X
    rw [evCfg_number]
    have : (Finset.univ.filter (fun i : Fin 2 => twoElectrons i.val = true)).card = 2 := by decide
    rw [this]
    norm_num
  have h21 : (2 : K) ≠ 1 := by
    intro h
    have : (2 : K) - 1 = 0 := by rw [h]; ring
    norm_num at this
  have := C52_core_gap (evCfg twoElectrons) (2 : K) h21 hN (fun _ _ => 0) gapV (fun i : Fin 2 => i.val) [2] (fun _ _ => rfl)
    (fun a b c d => by unfold gapV; refine if_congr ?_ rfl rfl; simp only [Prod.mk.injEq]; tauto)
    (fun a b c d => by unfold gapV; refine if_congr ?_ rfl rfl; simp only [Prod.mk.injEq]; tauto)
  rw [this]
  simp only [Fin.sum_univ_two, List.map_cons, List.map_nil, List.sum_cons, List.sum_nil, gapV]
  simp [rdm1_cfg, twoElectrons]

/-- The hypotheses of `C51_energy` and `C52_energy` hold for every occupation-number state with a number of electrons other
than one; here for two electrons and arbitrary symmetric integrals on six orbitals. -/
example (h1 : Fin 6 → Fin 6 → K) (V : Fin 6 → Fin 6 → Fin 6 → Fin 6 → K) (hh : ∀ a b, h1 a b = h1 b a)
    (hV : ∀ a b c d, V a b c d = V c d a b) :
    observable (k2 h1 V 2) (rdm2 (evCfg twoElectrons)) = evCfg twoElectrons (secondQ h1 V) := by
  refine C52_energy _ 2 ?_ ?_ h1 V hh hV
  · intro h
    have : (2 : K) - 1 = 0 := by rw [h]; ring
    norm_num at this
  · intro X
    rw [evCfg_number]
    have : (Finset.univ.filter (fun i : Fin 6 => twoElectrons i.val = true)).card = 2 := by decide
    rw [this]
    norm_num

end

/-- One integral of each kind on two orbitals: the operator of the fermionic Hamiltonian. -/
example : fermiOp (K := GQ) (r := 2) (fun x => decide (x = 0)) (fun i j => if i = j then 3 else 0)
    (fun a b c d => if (a, b, c, d) = (0, 1, 0, 1) then 4 else 0) = some [([.p, .i], 3), ([.i, .p], 3), ([.p, .p], 2)] := by
  decide +kernel

end Props
end HQCA
