import Verif.Model.SpinBlocks
import Verif.Props.SpinRDM
import Verif.Props.Wedge
import Mathlib.Tactic.IntervalCases

/-!
# C97, C98: spin blocks of density matrices, cumulants and reconstruction
-/

set_option linter.unusedSectionVars false

namespace HQCA
namespace Props
open SpinRDM SpinBlocks RDM

section
variable {K : Type} [Coef K]

/-! ### Accumulated updates of quadruple loops -/

theorem adds_append (a b : List (List ℕ × K)) (ind : List ℕ) : adds (a ++ b) ind = adds a ind + adds b ind := by
  unfold adds
  rw [List.filter_append, List.map_append, List.sum_append]

theorem adds_flatMap {β : Type} (L : List β) (f : β → List (List ℕ × K)) (ind : List ℕ) :
    adds (L.flatMap f) ind = (L.map (fun x => adds (f x) ind)).sum := by
  induction L with
  | nil => rfl
  | cons x L ih => rw [List.flatMap_cons, adds_append, ih, List.map_cons, List.sum_cons]

theorem adds_loop4 (R : ℕ) (f : ℕ → ℕ → ℕ → ℕ → List (List ℕ × K)) (ind : List ℕ) :
    adds (loop4 R f) ind = ∑ i ∈ Finset.range R, ∑ j ∈ Finset.range R, ∑ k ∈ Finset.range R, ∑ l ∈ Finset.range R,
      adds (f i j k l) ind := by
  unfold loop4
  simp only [adds_flatMap, list_sum_range]

theorem pick1 (R o p : ℕ) (f : ℕ → K) : ∑ i ∈ Finset.range R, (if o + i = p then f i else 0) =
    if o ≤ p ∧ p < o + R then f (p - o) else 0 := by
  by_cases h : o ≤ p ∧ p < o + R
  · rw [if_pos h, Finset.sum_eq_single (p - o)]
    · rw [if_pos (by omega)]
    · intro b _ hb; rw [if_neg (by omega)]
    · intro hb; exact absurd (Finset.mem_range.mpr (by omega)) hb
  · rw [if_neg h]
    apply Finset.sum_eq_zero
    intro b hb
    have := Finset.mem_range.mp hb
    rw [if_neg (by omega)]

/-- One update of the quadruple loop picks one element. -/
theorem pick4 (R o1 o2 o3 o4 p q s t : ℕ) (f : ℕ → ℕ → ℕ → ℕ → K) :
    ∑ i ∈ Finset.range R, ∑ j ∈ Finset.range R, ∑ k ∈ Finset.range R, ∑ l ∈ Finset.range R,
      (if [o1 + i, o2 + k, o3 + j, o4 + l] = [p, q, s, t] then f i k j l else 0) =
    if (o1 ≤ p ∧ p < o1 + R) ∧ (o2 ≤ q ∧ q < o2 + R) ∧ (o3 ≤ s ∧ s < o3 + R) ∧ (o4 ≤ t ∧ t < o4 + R) then
      f (p - o1) (q - o2) (s - o3) (t - o4) else 0 := by
  have e : ∀ i j k l, (if [o1 + i, o2 + k, o3 + j, o4 + l] = [p, q, s, t] then f i k j l else 0) =
      if o1 + i = p then (if o3 + j = s then (if o2 + k = q then (if o4 + l = t then f i k j l else 0) else 0) else 0) else 0 := by
    intro i j k l
    by_cases h1 : o1 + i = p <;> by_cases h2 : o2 + k = q <;> by_cases h3 : o3 + j = s <;> by_cases h4 : o4 + l = t <;>
      simp [h1, h2, h3, h4]
  simp only [e, Finset.sum_ite_irrel, Finset.sum_const_zero, pick1]
  by_cases h1 : o1 ≤ p ∧ p < o1 + R <;> by_cases h2 : o2 ≤ q ∧ q < o2 + R <;> by_cases h3 : o3 ≤ s ∧ s < o3 + R <;>
    by_cases h4 : o4 ≤ t ∧ t < o4 + R <;> simp [h1, h2, h3, h4]

/-- The same when the first two indices are exchanged. -/
theorem pick4' (R o1 o2 o3 o4 p q s t : ℕ) (f : ℕ → ℕ → ℕ → ℕ → K) :
    ∑ i ∈ Finset.range R, ∑ j ∈ Finset.range R, ∑ k ∈ Finset.range R, ∑ l ∈ Finset.range R,
      (if [o2 + k, o1 + i, o3 + j, o4 + l] = [p, q, s, t] then f i k j l else 0) =
    if (o1 ≤ q ∧ q < o1 + R) ∧ (o2 ≤ p ∧ p < o2 + R) ∧ (o3 ≤ s ∧ s < o3 + R) ∧ (o4 ≤ t ∧ t < o4 + R) then
      f (q - o1) (p - o2) (s - o3) (t - o4) else 0 := by
  rw [← pick4]
  have e : ∀ i j k l, ([o2 + k, o1 + i, o3 + j, o4 + l] = [p, q, s, t]) = ([o1 + i, o2 + k, o3 + j, o4 + l] = [q, p, s, t]) := by
    intro i j k l
    apply propext
    simp only [List.cons.injEq, and_true]
    tauto
  simp only [e]

/-- Entry of the array built from an alpha-beta block. -/
theorem fromAB_apply (R : ℕ) (f : List ℕ → K) (p q s t : ℕ) : fromAB R f [p, q, s, t] =
    (if p < R ∧ q < R ∧ s < R ∧ t < R then store (aaBlock f p q s t) else 0) +
    (if (R ≤ p ∧ p < R + R) ∧ (R ≤ q ∧ q < R + R) ∧ (R ≤ s ∧ s < R + R) ∧ (R ≤ t ∧ t < R + R) then
      store (aaBlock f (p - R) (q - R) (s - R) (t - R)) else 0) +
    (if p < R ∧ (R ≤ q ∧ q < R + R) ∧ s < R ∧ (R ≤ t ∧ t < R + R) then store (f [p, q - R, s, t - R]) else 0) +
    (if (R ≤ p ∧ p < R + R) ∧ q < R ∧ (R ≤ s ∧ s < R + R) ∧ t < R then store (f [p - R, q, s - R, t]) else 0) +
    (if q < R ∧ (R ≤ p ∧ p < R + R) ∧ s < R ∧ (R ≤ t ∧ t < R + R) then store (-f [q, p - R, s, t - R]) else 0) +
    (if (R ≤ q ∧ q < R + R) ∧ p < R ∧ (R ≤ s ∧ s < R + R) ∧ t < R then store (-f [q - R, p, s - R, t]) else 0) := by
  unfold fromAB
  rw [adds_loop4]
  simp only [adds_cons, adds_nil, add_zero, Finset.sum_add_distrib]
  have h1 := pick4 R 0 0 0 0 p q s t (fun i k j l => store (aaBlock f i k j l))
  have h2 := pick4 R R R R R p q s t (fun i k j l => store (aaBlock f i k j l))
  have h3 := pick4 R 0 R 0 R p q s t (fun i k j l => store (f [i, k, j, l]))
  have h4 := pick4 R R 0 R 0 p q s t (fun i k j l => store (f [i, k, j, l]))
  have h5 := pick4' R 0 R 0 R p q s t (fun i k j l => store (-f [i, k, j, l]))
  have h6 := pick4' R R 0 R 0 p q s t (fun i k j l => store (-f [i, k, j, l]))
  simp only [Nat.zero_add, Nat.zero_le, true_and, Nat.sub_zero] at h1 h2 h3 h4 h5 h6
  rw [← h1, ← h2, ← h3, ← h4, ← h5, ← h6]
  simp only [Nat.add_comm R, add_assoc]

/-- Entry of the spin-summed array. -/
theorem spatial2_apply (R : ℕ) (D : List ℕ → K) (i k j l : ℕ) (hi : i < R) (hk : k < R) (hj : j < R) (hl : l < R) :
    spatial2 R D [i, k, j, l] = D [i, R + k, j, R + l] + D [R + i, k, R + j, l] + D [i, k, j, l] +
      D [R + i, R + k, R + j, R + l] := by
  unfold spatial2
  rw [adds_loop4]
  simp only [adds_cons, adds_nil, add_zero, Finset.sum_add_distrib]
  have h1 := pick4 R 0 0 0 0 i k j l (fun i k j l => D [i, R + k, j, R + l])
  have h2 := pick4 R 0 0 0 0 i k j l (fun i k j l => D [R + i, k, R + j, l])
  have h3 := pick4 R 0 0 0 0 i k j l (fun i k j l => D [i, k, j, l])
  have h4 := pick4 R 0 0 0 0 i k j l (fun i k j l => D [R + i, R + k, R + j, R + l])
  simp only [Nat.zero_add, Nat.zero_le, true_and, Nat.sub_zero, hi, hk, hj, hl, and_self, if_true] at h1 h2 h3 h4
  rw [h1, h2, h3, h4]
  simp only [add_assoc]

theorem spatial1_apply (R : ℕ) (D : List ℕ → K) (i j : ℕ) (hi : i < R) (hj : j < R) :
    spatial1 R D [i, j] = D [R + i, R + j] + D [i, j] := by
  unfold spatial1
  simp only [adds_flatMap, list_sum_range, adds_cons, adds_nil, add_zero, Finset.sum_add_distrib]
  have e : ∀ (f : ℕ → ℕ → K), ∑ a ∈ Finset.range R, ∑ b ∈ Finset.range R, (if [a, b] = [i, j] then f a b else 0) = f i j := by
    intro f
    rw [Finset.sum_eq_single i, Finset.sum_eq_single j]
    · simp
    · intro b _ hb; rw [if_neg (by simp [hb])]
    · intro h; exact absurd (Finset.mem_range.mpr hj) h
    · intro b _ hb; apply Finset.sum_eq_zero; intro c _; rw [if_neg (by simp [hb])]
    · intro h; exact absurd (Finset.mem_range.mpr hi) h
  rw [e (fun a b => D [R + a, R + b]), e (fun a b => D [a, b])]

/-! ### Singlets -/

theorem comm_sum {ι : Type} (L : List ι) (X : Oper K) (f : ι → Oper K) :
    X * (L.map f).sum - (L.map f).sum * X = (L.map (fun p => X * f p - f p * X)).sum := by
  induction L with
  | nil => simp
  | cons p L ih =>
    simp only [List.map_cons, List.sum_cons]
    rw [← ih, mul_add, add_mul]; abel

theorem ring_ann {A : Type} [Ring A] (x c a d : A) (h : x * c = d - c * x) (h' : x * a = -(a * x)) :
    x * (c * a) - c * a * x = d * a := by
  rw [← mul_assoc, h, sub_mul, mul_assoc c x a, h']; noncomm_ring

theorem ring_cre {A : Type} [Ring A] (x c a d : A) (h : a * x = d - x * a) (h' : x * c = -(c * x)) :
    x * (c * a) - c * a * x = -(c * d) := by
  rw [mul_assoc c a x, h, ← mul_assoc, h']; noncomm_ring

/-- `alpha` orbitals `0..R-1`, `beta` orbitals `R..2R-1`. -/
def abPairs (R : ℕ) : List (ℕ × ℕ) := (List.range R).map (fun p => (p, R + p))

theorem spinDown_ab (R : ℕ) : (spinDown (abPairs R) : Oper K) = ((List.range R).map (fun p => cre (R + p) * ann p)).sum := by
  unfold spinDown abPairs
  rw [List.map_map]; rfl

theorem oper_range_sum (r : ℕ) (f : ℕ → Oper K) : ((List.range r).map f).sum = ∑ i ∈ Finset.range r, f i := by
  induction r with
  | zero => simp
  | succ r ih => rw [List.range_succ, List.map_append, List.sum_append, ih, Finset.sum_range_succ]; simp

theorem oper_pick (R x : ℕ) (f : ℕ → Oper K) (P : ℕ → Prop) [DecidablePred P] (hP : ∀ p, p < R → (P p ↔ p = x)) :
    ((List.range R).map (fun p => if P p then f p else 0)).sum = if x < R then f x else 0 := by
  rw [oper_range_sum]
  by_cases h : x < R
  · rw [if_pos h, Finset.sum_eq_single x, if_pos ((hP x h).mpr rfl)]
    · intro b hb hne; rw [if_neg (fun hh => hne ((hP b (Finset.mem_range.mp hb)).mp hh))]
    · intro hb; exact absurd (Finset.mem_range.mpr h) hb
  · rw [if_neg h]
    apply Finset.sum_eq_zero
    intro b hb
    have := Finset.mem_range.mp hb
    rw [if_neg (fun hh => by have := (hP b this).mp hh; omega)]

theorem down_ann_beta (R j : ℕ) (hj : j < R) : (ann (R + j) * spinDown (abPairs R) - spinDown (abPairs R) * ann (R + j) : Oper K) =
    ann j := by
  rw [spinDown_ab, comm_sum]
  have e : ∀ p, (ann (R + j) * (cre (R + p) * ann p) - cre (R + p) * ann p * ann (R + j) : Oper K) =
      if p = j then ann p else 0 := by
    intro p
    rw [ring_ann _ _ _ _ (car_ann_cre (R + j) (R + p)) (car_ann_ann (R + j) p)]
    by_cases h : p = j
    · rw [if_pos h, if_pos (by omega), one_mul]
    · rw [if_neg h, if_neg (by omega), zero_mul]
  simp only [e]
  rw [oper_pick R j _ _ (fun p _ => Iff.rfl), if_pos hj]

theorem down_ann_alpha (R j : ℕ) (hj : j < R) : (ann j * spinDown (abPairs R) - spinDown (abPairs R) * ann j : Oper K) = 0 := by
  rw [spinDown_ab, comm_sum]
  have e : ∀ p, (ann j * (cre (R + p) * ann p) - cre (R + p) * ann p * ann j : Oper K) = 0 := by
    intro p
    rw [ring_ann _ _ _ _ (car_ann_cre j (R + p)) (car_ann_ann j p), if_neg (by omega), zero_mul]
  simp only [e]
  simp

theorem down_cre_alpha (R j : ℕ) (hj : j < R) : (cre j * spinDown (abPairs R) - spinDown (abPairs R) * cre j : Oper K) =
    -cre (R + j) := by
  rw [spinDown_ab, comm_sum]
  have e : ∀ p, (cre j * (cre (R + p) * ann p) - cre (R + p) * ann p * cre j : Oper K) =
      if p = j then -cre (R + p) else 0 := by
    intro p
    rw [ring_cre _ _ _ _ (car_ann_cre p j) (car_cre_cre j (R + p))]
    by_cases h : p = j
    · rw [if_pos h, if_pos h, mul_one]
    · rw [if_neg h, if_neg h, mul_zero, neg_zero]
  simp only [e]
  rw [oper_pick R j _ _ (fun p _ => Iff.rfl), if_pos hj]

theorem down_cre_beta (R j : ℕ) : (cre (R + j) * spinDown (abPairs R) - spinDown (abPairs R) * cre (R + j) : Oper K) = 0 := by
  rw [spinDown_ab, comm_sum]
  have e : ∀ p, p ∈ List.range R → (cre (R + j) * (cre (R + p) * ann p) - cre (R + p) * ann p * cre (R + j) : Oper K) = 0 := by
    intro p hp
    have := List.mem_range.mp hp
    rw [ring_cre _ _ _ _ (car_ann_cre p (R + j)) (car_cre_cre (R + j) (R + p)), if_neg (by omega), mul_zero, neg_zero]
  rw [List.map_congr_left e]
  simp

theorem isAdj_zero : IsAdj (0 : Oper K) 0 := by
  intro φ
  refine ⟨0, by simp, fun ψ => ?_⟩
  rw [pair_zero]
  have := pair_smul_right φ 0 ψ
  rw [zero_smul, zero_mul] at this
  exact this

theorem isAdj_down (l : List (ℕ × ℕ)) : IsAdj (spinDown l : Oper K) (spinUp l) := by
  unfold spinDown spinUp
  induction l with
  | nil => exact isAdj_zero
  | cons p l ih =>
    simp only [List.map_cons, List.sum_cons]
    exact ((isAdj_cre p.2).mul (isAdj_ann p.1)).add ih

/-- In a singlet the commutator of any operator with `S₋` has expectation value zero. -/
theorem singlet_comm (l : List (ℕ × ℕ)) (ψ : Cfg →₀ K) (hu : (spinUp l : Oper K) ψ = 0) (hd : (spinDown l : Oper K) ψ = 0)
    (O : Oper K) : pair ψ ((O * spinDown l - spinDown l * O : Oper K) ψ) = 0 := by
  obtain ⟨φ, h1, h2⟩ := isAdj_down (K := K) l ψ
  have hφ : φ = 0 := by
    apply DFunLike.coe_injective
    rw [h1, hu]; rfl
  have e : (O * spinDown l - spinDown l * O : Oper K) (ψ : Cfg → K) = -((spinDown l : Oper K) (O ψ)) := by
    show O (spinDown l (ψ : Cfg → K)) - spinDown l (O ψ) = _
    rw [hd, map_zero, zero_sub]
  rw [e, pair_neg_right, h2, hφ, pair_zero, neg_zero]

theorem ring_deriv {A : Type} [Ring A] (S a b c d a' b' c' d' : A) (ha : a * S - S * a = a') (hb : b * S - S * b = b')
    (hc : c * S - S * c = c') (hd : d * S - S * d = d') :
    a * (b * (c * d)) * S - S * (a * (b * (c * d))) =
      a' * (b * (c * d)) + a * (b' * (c * d)) + a * (b * (c' * d)) + a * (b * (c * d')) := by
  subst ha hb hc hd; noncomm_ring

theorem rdm_two (ψ : Cfg →₀ K) (i k j l : ℕ) :
    rdm ψ [i, k] [j, l] = pair ψ ((cre i * (cre k * (ann l * ann j)) : Oper K) ψ) := by
  unfold rdm
  simp [rdmOp, mul_assoc]

theorem rdm_swapL (ψ : Cfg →₀ K) (i k : ℕ) (a : List ℕ) (ha : a.length = 2) : rdm ψ [k, i] a = -rdm ψ [i, k] a :=
  (rdm_antisym 2 ψ).1 [] i k [] a rfl ha

theorem rdm_swapR (ψ : Cfg →₀ K) (j l : ℕ) (c : List ℕ) (hc : c.length = 2) : rdm ψ c [l, j] = -rdm ψ c [j, l] :=
  (rdm_antisym 2 ψ).2 c [] j l [] rfl hc

theorem ring_negL {A : Type} [Ring A] (x y : A) : -x * y = -(x * y) := by noncomm_ring
theorem ring_negM {A : Type} [Ring A] (x y z : A) : x * (-y * z) = -(x * (y * z)) := by noncomm_ring

theorem pair_negL (ψ : Cfg →₀ K) (x y : Oper K) : pair ψ ((-x * y) ψ) = -pair ψ ((x * y) ψ) := by
  rw [ring_negL, LinearMap.neg_apply, pair_neg_right]

theorem pair_negM (ψ : Cfg →₀ K) (x y z : Oper K) : pair ψ ((x * (-y * z)) ψ) = -pair ψ ((x * (y * z)) ψ) := by
  rw [ring_negM, LinearMap.neg_apply, pair_neg_right]

theorem pair_op_zero (ψ : Cfg →₀ K) (A : Oper K) (h : A = 0) : pair ψ (A ψ) = 0 := by
  subst h
  have := pair_smul_right ψ 0 (0 : Cfg → K)
  rw [zero_smul, zero_mul] at this
  exact this

theorem pair_zero1 (ψ : Cfg →₀ K) (x : Oper K) : pair ψ ((0 * x) ψ) = 0 := pair_op_zero ψ _ (zero_mul x)
theorem pair_zero2 (ψ : Cfg →₀ K) (x y : Oper K) : pair ψ ((x * (0 * y)) ψ) = 0 :=
  pair_op_zero ψ _ (by rw [zero_mul, mul_zero])
theorem pair_zero3 (ψ : Cfg →₀ K) (x y z : Oper K) : pair ψ ((x * (y * (0 * z))) ψ) = 0 :=
  pair_op_zero ψ _ (by rw [zero_mul, mul_zero, mul_zero])
theorem pair_zero4 (ψ : Cfg →₀ K) (x y z : Oper K) : pair ψ ((x * (y * (z * 0))) ψ) = 0 :=
  pair_op_zero ψ _ (by rw [mul_zero, mul_zero, mul_zero])

section singlet
variable {R : ℕ} {ψ : Cfg →₀ K} (hu : (spinUp (abPairs R) : Oper K) ψ = 0) (hd : (spinDown (abPairs R) : Oper K) ψ = 0)
include hu hd

theorem deriv_zero (a b c d a' b' c' d' : Oper K) (ha : a * spinDown (abPairs R) - spinDown (abPairs R) * a = a')
    (hb : b * spinDown (abPairs R) - spinDown (abPairs R) * b = b') (hc : c * spinDown (abPairs R) - spinDown (abPairs R) * c = c')
    (hd' : d * spinDown (abPairs R) - spinDown (abPairs R) * d = d') :
    pair ψ ((a' * (b * (c * d))) ψ) + pair ψ ((a * (b' * (c * d))) ψ) + pair ψ ((a * (b * (c' * d))) ψ) +
      pair ψ ((a * (b * (c * d'))) ψ) = 0 := by
  have h := singlet_comm (abPairs R) ψ hu hd (a * (b * (c * d)))
  rw [ring_deriv _ _ _ _ _ _ _ _ _ ha hb hc hd'] at h
  simp only [LinearMap.add_apply, pair_add_right] at h
  exact h

theorem singlet_aa (i k j l : ℕ) (hi : i < R) (hk : k < R) (hj : j < R) (hl : l < R) :
    rdm ψ [i, k] [j, l] = rdm ψ [R + i, k] [j, R + l] + rdm ψ [i, R + k] [j, R + l] ∧
    rdm ψ [i, k] [j, l] = rdm ψ [R + i, k] [R + j, l] + rdm ψ [i, R + k] [R + j, l] := by
  have h1 := deriv_zero hu hd _ _ _ _ _ _ _ _ (down_cre_alpha R i hi) (down_cre_alpha R k hk) (down_ann_beta R l hl)
    (down_ann_alpha R j hj)
  have h2 := deriv_zero hu hd _ _ _ _ _ _ _ _ (down_cre_alpha R i hi) (down_cre_alpha R k hk) (down_ann_alpha R l hl)
    (down_ann_beta R j hj)
  simp only [rdm_two]
  rw [pair_negL, pair_negM, pair_zero4] at h1
  rw [pair_negL, pair_negM, pair_zero3] at h2
  constructor
  · linear_combination h1
  · linear_combination h2

theorem singlet_bb (i k j l : ℕ) (hi : i < R) (hk : k < R) (hj : j < R) (hl : l < R) :
    rdm ψ [R + i, R + k] [R + j, R + l] = rdm ψ [i, R + k] [R + j, l] + rdm ψ [i, R + k] [j, R + l] ∧
    rdm ψ [R + i, R + k] [R + j, R + l] = rdm ψ [R + i, k] [R + j, l] + rdm ψ [R + i, k] [j, R + l] := by
  have h1 := deriv_zero hu hd _ _ _ _ _ _ _ _ (down_cre_alpha R i hi) (down_cre_beta R k) (down_ann_beta R l hl)
    (down_ann_beta R j hj)
  have h2 := deriv_zero hu hd _ _ _ _ _ _ _ _ (down_cre_beta R i) (down_cre_alpha R k hk) (down_ann_beta R l hl)
    (down_ann_beta R j hj)
  simp only [rdm_two]
  rw [pair_negL, pair_zero2] at h1
  rw [pair_negM, pair_zero1] at h2
  constructor
  · linear_combination -h1
  · linear_combination -h2

end singlet

end

/-! ### C97 -/

theorem store_re (z : ℂ) : store z = (z.re : ℂ) := by
  unfold store
  show (z + (starRingEnd ℂ) z) / 2 = _
  rw [Complex.add_conj]; push_cast; ring

section
variable {R : ℕ} {ψ : Cfg →₀ ℂ} (hu : (spinUp (abPairs R) : Oper ℂ) ψ = 0) (hd : (spinDown (abPairs R) : Oper ℂ) ψ = 0)
include hu hd

/-- In a singlet the two mixed blocks agree. -/
theorem singlet_ab_ba (i k j l : ℕ) (hi : i < R) (hk : k < R) (hj : j < R) (hl : l < R) :
    rdm ψ [R + i, k] [R + j, l] = rdm ψ [i, R + k] [j, R + l] := by
  have a := singlet_aa hu hd i k j l hi hk hj hl
  have b := singlet_bb hu hd i k j l hi hk hj hl
  have x : (2 : ℂ) * rdm ψ [R + i, k] [R + j, l] = 2 * rdm ψ [i, R + k] [j, R + l] := by
    linear_combination a.1 - a.2 + b.1 - b.2
  exact mul_left_cancel₀ two_ne_zero x

/-- The alpha-beta block of a state as a tensor of the spatial orbitals. -/
noncomputable def abBlock (R : ℕ) (ψ : Cfg →₀ ℂ) : List ℕ → ℂ
  | [i, k, j, l] => rdm ψ [i, R + k] [j, R + l]
  | _ => 0

omit hu hd in
theorem split_index (R x : ℕ) (h : x < R + R) : (∃ i, i < R ∧ i = x) ∨ (∃ i, i < R ∧ x = R + i) := by
  by_cases hx : x < R
  · exact Or.inl ⟨x, hx, rfl⟩
  · exact Or.inr ⟨x - R, by omega, by omega⟩

/-- **C97, singlets.**  The array built from the alpha-beta block of a singlet state (alpha orbitals first) is the real part of the
state's whole 2-RDM. -/
theorem C97_singlet (n : ℤ) (hn : Sector R n ψ) (f : List ℕ → ℂ)
    (hf : ∀ i k j l, i < R → k < R → j < R → l < R → f [i, k, j, l] = rdm ψ [i, R + k] [j, R + l])
    (p q s t : ℕ) (hp : p < R + R) (hq : q < R + R) (hs : s < R + R) (ht : t < R + R) :
    fromAB R f [p, q, s, t] = ((rdm ψ [p, q] [s, t]).re : ℂ) := by
  have z : ∀ c a : List ℕ, nAlpha R c ≠ nAlpha R a → (((rdm ψ c a).re : ℝ) : ℂ) = 0 := by
    intro c a h
    rw [rdm_sector ψ R n hn c a h]; simp
  rw [fromAB_apply]
  simp only [store_re, aaBlock]
  rcases split_index R p hp with ⟨i, hi, rfl⟩ | ⟨i, hi, rfl⟩ <;> rcases split_index R q hq with ⟨k, hk, rfl⟩ | ⟨k, hk, rfl⟩ <;>
    rcases split_index R s hs with ⟨j, hj, rfl⟩ | ⟨j, hj, rfl⟩ <;> rcases split_index R t ht with ⟨l, hl, rfl⟩ | ⟨l, hl, rfl⟩
  all_goals simp only [hi, hk, hj, hl, not_lt.mpr hi.le, not_lt.mpr hk.le, not_lt.mpr hj.le, not_lt.mpr hl.le, Nat.not_le.mpr hi,
    Nat.not_le.mpr hk, Nat.not_le.mpr hj, Nat.not_le.mpr hl, Nat.le_add_right, Nat.not_lt.mpr (Nat.le_add_right R _),
    Nat.add_lt_add_iff_left, Nat.add_sub_cancel_left, false_and, and_false, true_and, and_true, if_false, if_true, zero_add, add_zero]
  case inl.inl.inl.inl =>
    rw [hf i k j l hi hk hj hl, hf k i j l hk hi hj hl, (singlet_aa hu hd i k j l hi hk hj hl).1,
      rdm_swapL ψ k (R + i) _ rfl]
    congr 2; ring
  case inr.inr.inr.inr =>
    rw [hf i k j l hi hk hj hl, hf k i j l hk hi hj hl, (singlet_bb hu hd i k j l hi hk hj hl).2,
      singlet_ab_ba hu hd i k j l hi hk hj hl, rdm_swapL ψ k (R + i) _ rfl]
    congr 2
  case inl.inr.inl.inr => rw [hf i k j l hi hk hj hl]
  case inr.inl.inr.inl => rw [hf i k j l hi hk hj hl, singlet_ab_ba hu hd i k j l hi hk hj hl]
  case inr.inl.inl.inr => rw [hf k i j l hk hi hj hl, rdm_swapL ψ k (R + i) _ rfl]
  case inl.inr.inr.inl =>
    rw [hf k i j l hk hi hj hl, ← singlet_ab_ba hu hd k i j l hk hi hj hl, rdm_swapL ψ (R + k) i _ rfl]
  all_goals
    rw [z]
    simp [nAlpha, hi, hk, hj, hl]

/-- **C97, real singlets.**  With a real alpha-beta block the array is the state's 2-RDM itself. -/
theorem C97_singlet_real (n : ℤ) (hn : Sector R n ψ) (f : List ℕ → ℂ)
    (hf : ∀ i k j l, i < R → k < R → j < R → l < R → f [i, k, j, l] = rdm ψ [i, R + k] [j, R + l])
    (hr : ∀ i k j l, i < R → k < R → j < R → l < R → (f [i, k, j, l]).im = 0)
    (p q s t : ℕ) (hp : p < R + R) (hq : q < R + R) (hs : s < R + R) (ht : t < R + R) :
    fromAB R f [p, q, s, t] = rdm ψ [p, q] [s, t] := by
  rw [C97_singlet hu hd n hn f hf p q s t hp hq hs ht]
  have hr' : ∀ i k j l, i < R → k < R → j < R → l < R → (rdm ψ [i, R + k] [j, R + l]).im = 0 := by
    intro i k j l hi hk hj hl
    rw [← hf i k j l hi hk hj hl, hr i k j l hi hk hj hl]
  have hr2 : ∀ i k j l, i < R → k < R → j < R → l < R → (rdm ψ [R + i, k] [j, R + l]).im = 0 := by
    intro i k j l hi hk hj hl
    rw [rdm_swapL ψ k (R + i) _ rfl, Complex.neg_im, hr' k i j l hk hi hj hl, neg_zero]
  have z : ∀ c a : List ℕ, nAlpha R c ≠ nAlpha R a → (rdm ψ c a).im = 0 := by
    intro c a h
    rw [rdm_sector ψ R n hn c a h]; simp
  have him : (rdm ψ [p, q] [s, t]).im = 0 := by
    rcases split_index R p hp with ⟨i, hi, rfl⟩ | ⟨i, hi, rfl⟩ <;> rcases split_index R q hq with ⟨k, hk, rfl⟩ | ⟨k, hk, rfl⟩ <;>
      rcases split_index R s hs with ⟨j, hj, rfl⟩ | ⟨j, hj, rfl⟩ <;> rcases split_index R t ht with ⟨l, hl, rfl⟩ | ⟨l, hl, rfl⟩
    case inl.inl.inl.inl =>
      rw [(singlet_aa hu hd i k j l hi hk hj hl).1, Complex.add_im, hr' i k j l hi hk hj hl, hr2 i k j l hi hk hj hl, add_zero]
    case inr.inr.inr.inr =>
      rw [(singlet_bb hu hd i k j l hi hk hj hl).2, singlet_ab_ba hu hd i k j l hi hk hj hl, Complex.add_im,
        hr' i k j l hi hk hj hl, hr2 i k j l hi hk hj hl, add_zero]
    case inl.inr.inl.inr => exact hr' i k j l hi hk hj hl
    case inr.inl.inr.inl => rw [singlet_ab_ba hu hd i k j l hi hk hj hl]; exact hr' i k j l hi hk hj hl
    case inr.inl.inl.inr => exact hr2 i k j l hi hk hj hl
    case inl.inr.inr.inl =>
      rw [rdm_swapL ψ (R + k) i _ rfl, singlet_ab_ba hu hd k i j l hk hi hj hl, Complex.neg_im, hr' k i j l hk hi hj hl, neg_zero]
    all_goals
      apply z
      simp [nAlpha, hi, hk, hj, hl]
  apply Complex.ext <;> simp [him]
end

/-- The loops of `antisymmetric_block` over alpha orbitals `0..R-1` and beta orbitals `R..2R-1` pick one element. -/
theorem block_apply {K : Type} [Coef K] (R : ℕ) (D : List ℕ → K) (i k j l : ℕ) (hi : i < R) (hk : k < R) (hj : j < R)
    (hl : l < R) : block R (List.range R) ((List.range R).map (R + ·)) D [i, k, j, l] = D [i, R + k, j, R + l] := by
  unfold block
  have e : ∀ (L : List (List ℕ × K)) (ind : List ℕ), adds L ind = adds (L.flatMap (fun x => [x])) ind := by
    intro L ind; rw [List.flatMap_singleton']
  have e2 : ∀ (L : List ℕ) (f : ℕ → List ℕ × K), L.map f = L.flatMap (fun x => [f x]) := by
    intro L f; induction L with
    | nil => rfl
    | cons x L ih => rw [List.map_cons, List.flatMap_cons, ih]; rfl
  simp only [List.flatMap_map, List.map_map, e2, adds_flatMap, list_sum_range, adds_cons, adds_nil, add_zero]
  have h := pick4 R 0 0 0 0 i k j l (fun i k j l => D [i, R + k, j, R + l])
  simp only [Nat.zero_add, Nat.zero_le, true_and, Nat.sub_zero, hi, hk, hj, hl, and_self, if_true] at h
  rw [← h]
  refine Finset.sum_congr rfl fun a ha => Finset.sum_congr rfl fun b hb => Finset.sum_congr rfl fun c hc =>
    Finset.sum_congr rfl fun d hd => ?_
  have ha := Finset.mem_range.mp ha
  have hb := Finset.mem_range.mp hb
  have hc := Finset.mem_range.mp hc
  have hd := Finset.mem_range.mp hd
  simp only [Function.comp, Nat.mod_eq_of_lt ha, Nat.mod_eq_of_lt hb, Nat.add_mod_left, Nat.mod_eq_of_lt hc, Nat.mod_eq_of_lt hd]

/-- **C97, round trip.**  Reading the alpha-beta block back from the built array gives the (real part of the) block supplied. -/
theorem C97_round_trip (R : ℕ) (f : List ℕ → ℂ) (i k j l : ℕ) (hi : i < R) (hk : k < R) (hj : j < R) (hl : l < R) :
    block R (List.range R) ((List.range R).map (R + ·)) (fromAB R f) [i, k, j, l] = ((f [i, k, j, l]).re : ℂ) := by
  rw [block_apply R _ i k j l hi hk hj hl, fromAB_apply]
  simp only [store_re, hi, hk, hj, hl, Nat.not_le.mpr hi, Nat.not_le.mpr hk, Nat.not_le.mpr hj, Nat.not_le.mpr hl,
    Nat.le_add_right, Nat.not_lt.mpr (Nat.le_add_right R _), Nat.add_lt_add_iff_left, Nat.add_sub_cancel_left, false_and, and_false,
    true_and, and_true, if_false, if_true, zero_add, add_zero]

/-- The spin-free excitation operator `Σ_σ a†_{iσ} a_{jσ}`, alpha orbitals first. -/
noncomputable def exc (R i j : ℕ) : Oper ℂ := cre i * ann j + cre (R + i) * ann (R + j)

/-- **C97, spin summation.**  The spatial 1- and 2-RDM of every state: expectation values of `E_ij` and of
`E_ij E_kl - δ_jk E_il`, with `E` the spin-free excitation operators. -/
theorem C97_spatial (R : ℕ) (ψ : Cfg →₀ ℂ) (D D1 : List ℕ → ℂ)
    (hD : ∀ i k j l, i < R + R → k < R + R → j < R + R → l < R + R → D [i, k, j, l] = rdm ψ [i, k] [j, l])
    (hD1 : ∀ i j, i < R + R → j < R + R → D1 [i, j] = rdm ψ [i] [j]) (i k j l : ℕ) (hi : i < R) (hk : k < R) (hj : j < R)
    (hl : l < R) :
    spatial1 R D1 [i, j] = pair ψ (exc R i j ψ) ∧
    spatial2 R D [i, k, j, l] = pair ψ ((exc R i j * exc R k l - if j = k then exc R i l else 0) ψ) := by
  let ev : Oper ℂ →ₗ[ℂ] ℂ :=
    { toFun := fun A => pair ψ (A ψ)
      map_add' := fun A B => by rw [LinearMap.add_apply, pair_add_right]
      map_smul' := fun c A => by rw [LinearMap.smul_apply, pair_smul_right]; rfl }
  have ev_def : ∀ A : Oper ℂ, pair ψ (A ψ) = ev A := fun _ => rfl
  have r1 : ∀ a b, rdm ψ [a] [b] = ev1 ev a b := by
    intro a b; unfold rdm ev1; simp [rdmOp, ev]
  have r2 : ∀ a b c d, rdm ψ [a, b] [c, d] = ev2 ev a b c d := by
    intro a b c d; rw [rdm_two]; rfl
  constructor
  · rw [spatial1_apply R _ i j hi hj, hD1 _ _ (by omega) (by omega), hD1 _ _ (by omega) (by omega), r1, r1, ev_def]
    unfold exc ev1
    rw [map_add, add_comm]
  · rw [spatial2_apply R _ i k j l hi hk hj hl, hD _ _ _ _ (by omega) (by omega) (by omega) (by omega),
      hD _ _ _ _ (by omega) (by omega) (by omega) (by omega), hD _ _ _ _ (by omega) (by omega) (by omega) (by omega),
      hD _ _ _ _ (by omega) (by omega) (by omega) (by omega), ev_def, map_sub]
    simp only [r2]
    unfold exc
    rw [add_mul, mul_add, mul_add]
    simp only [map_add, ev_updown]
    have s := ev2_swap ev
    rw [s i k j l, s i (R + k) j (R + l), s (R + i) k (R + j) l, s (R + i) (R + k) (R + j) (R + l)]
    rw [if_neg (by omega : ¬ j = R + k), if_neg (by omega : ¬ R + j = k)]
    by_cases h : j = k
    · rw [if_pos h, if_pos h, if_pos (by omega), map_add]; unfold ev1; ring
    · rw [if_neg h, if_neg h, if_neg (by omega), map_zero]; ring

/-- **C97 is violated for other orbital orders.**  Closed-shell determinants with alpha orbitals `0, 2` and beta orbitals `1, 3`.
Two electrons in orbitals `0, 1`: both are in spatial orbital `0`, the spin-summed element is `2`, the code returns `0`; and the array
built from its alpha-beta block misses the element `0 1; 0 1`.  Four electrons: the alpha-beta block has all four elements at one
place. -/
theorem C97_fails_order :
    (let D : List ℕ → GQ := buildHF 2 [0, 1]
     D [0, 1, 0, 1] + D [1, 0, 1, 0] + D [0, 0, 0, 0] + D [1, 1, 1, 1] = 2 ∧ spatial2 2 D [0, 0, 0, 0] = 0) ∧
    (let f : List ℕ → GQ := fun t => if t = [0, 0, 0, 0] then 1 else 0
     fromAB 2 f [0, 1, 0, 1] = 0 ∧ (buildHF 2 [0, 1] [0, 1, 0, 1] : GQ) = 1) ∧
    block 2 [0, 2] [1, 3] (buildHF 2 [0, 1, 2, 3] : List ℕ → GQ) [0, 1, 0, 1] = 4 := by
  refine ⟨⟨?_, ?_⟩, ⟨?_, ?_⟩, ?_⟩ <;> decide +kernel

/-- **C97 fails without the singlet hypothesis**: two alpha electrons in orbitals `0, 1` have a zero alpha-beta block, so the array
built from it is zero, while the 2-RDM is not. -/
theorem C97_fails_triplet :
    (∀ i k j l : ℕ, i < 2 → k < 2 → j < 2 → l < 2 → (buildHF 2 [0, 1] [i, 2 + k, j, 2 + l] : GQ) = 0) ∧
    (buildHF 2 [0, 1] [0, 1, 0, 1] : GQ) = 1 ∧ fromAB 2 (fun _ => (0 : GQ)) [0, 1, 0, 1] = 0 := by
  refine ⟨?_, by decide +kernel, by decide +kernel⟩
  intro i k j l hi hk hj hl
  interval_cases i <;> interval_cases k <;> interval_cases j <;> interval_cases l <;> decide +kernel

/-- **C97 fails for complex blocks**: the imaginary part of the supplied block is lost. -/
theorem C97_fails_complex (R : ℕ) (f : List ℕ → ℂ) (i k j l : ℕ) (hi : i < R) (hk : k < R) (hj : j < R) (hl : l < R)
    (h : (f [i, k, j, l]).im ≠ 0) : fromAB R f [i, R + k, j, R + l] ≠ f [i, k, j, l] := by
  have := C97_round_trip R f i k j l hi hk hj hl
  rw [block_apply R _ i k j l hi hk hj hl] at this
  rw [this]
  intro e
  apply h
  rw [← e, Complex.ofReal_im]

/-- States all of whose configurations fill the two spin orbitals of a pair together are singlets. -/
theorem closed_singlet (l : List (ℕ × ℕ)) (hl : ∀ p ∈ l, p.1 ≠ p.2) (ψ : Cfg → ℂ)
    (h : ∀ b, ψ b ≠ 0 → ∀ p ∈ l, b p.1 = b p.2) : (spinUp l : Oper ℂ) ψ = 0 ∧ (spinDown l : Oper ℂ) ψ = 0 := by
  have key : ∀ x y : ℕ, x ≠ y → (∀ b, ψ b ≠ 0 → b x = b y) → (cre x * ann y : Oper ℂ) ψ = 0 := by
    intro x y hxy hb
    funext b
    show (if b x then fsign b x * (if (Function.update b x false) y then 0 else
      fsign (Function.update b x false) y * ψ (Function.update (Function.update b x false) y true)) else 0) = 0
    have : ψ (Function.update (Function.update b x false) y true) = 0 := by
      by_contra hne
      have := hb _ hne
      rw [Function.update_self, Function.update_of_ne hxy, Function.update_self] at this
      cases this
    simp [this]
  unfold spinUp spinDown
  constructor
  · induction l with
    | nil => rfl
    | cons p l ih =>
      rw [List.map_cons, List.sum_cons, LinearMap.add_apply, ih (fun q hq => hl q (by simp [hq])) (fun b hb q hq => h b hb q (by simp [hq])),
        key p.1 p.2 (hl p (by simp)) (fun b hb => h b hb p (by simp)), add_zero]
  · induction l with
    | nil => rfl
    | cons p l ih =>
      rw [List.map_cons, List.sum_cons, LinearMap.add_apply, ih (fun q hq => hl q (by simp [hq])) (fun b hb q hq => h b hb q (by simp [hq])),
        key p.2 p.1 (hl p (by simp)).symm (fun b hb => (h b hb p (by simp)).symm), add_zero]

/-- The hypotheses of `C97_singlet` are met by the correlated state `|0 2⟩ + 2 |1 3⟩` (one alpha and one beta electron). -/
example : ∃ ψ : Cfg →₀ ℂ, (spinUp (abPairs 2) : Oper ℂ) ψ = 0 ∧ (spinDown (abPairs 2) : Oper ℂ) ψ = 0 ∧ Sector 2 1 ψ ∧
    ψ ≠ 0 ∧ ψ.support.card = 2 := by
  classical
  have hne : (fun i => decide (i = 0 ∨ i = 2) : Cfg) ≠ fun i => decide (i = 1 ∨ i = 3) := by
    intro h; have := congrFun h 0; simp at this
  let ψ : Cfg →₀ ℂ := Finsupp.single (fun i => decide (i = 0 ∨ i = 2)) 1 + Finsupp.single (fun i => decide (i = 1 ∨ i = 3)) 2
  have hs : ∀ b, ψ b ≠ 0 → b = (fun i => decide (i = 0 ∨ i = 2)) ∨ b = fun i => decide (i = 1 ∨ i = 3) := by
    intro b hb
    by_contra hc
    push Not at hc
    apply hb
    simp only [ψ, Finsupp.add_apply]
    rw [Finsupp.single_eq_of_ne hc.1, Finsupp.single_eq_of_ne hc.2, add_zero]
  have hsup : ψ.support = {(fun i => decide (i = 0 ∨ i = 2) : Cfg), (fun i => decide (i = 1 ∨ i = 3) : Cfg)} := by
    ext b
    rw [Finsupp.mem_support_iff, Finset.mem_insert, Finset.mem_singleton]
    constructor
    · exact hs b
    · rintro (rfl | rfl)
      · simp only [ψ, Finsupp.add_apply]
        rw [Finsupp.single_eq_same, Finsupp.single_eq_of_ne hne]; norm_num
      · simp only [ψ, Finsupp.add_apply]
        rw [Finsupp.single_eq_same, Finsupp.single_eq_of_ne hne.symm]; norm_num
  have cs := closed_singlet (abPairs 2) (by decide) ψ (by
    intro b hb p hp
    have hp' : p = (0, 2) ∨ p = (1, 3) := by simpa [abPairs, List.range_succ] using hp
    rcases hs b hb with rfl | rfl <;> rcases hp' with rfl | rfl <;> simp)
  refine ⟨ψ, cs.1, cs.2, ?_, ?_, ?_⟩
  · intro b hb
    rcases hs b hb with rfl | rfl <;> simp [occAlpha, List.range_succ]
  · intro h
    rw [h] at hsup
    have : (fun i => decide (i = 0 ∨ i = 2) : Cfg) ∈ (0 : Cfg →₀ ℂ).support := by rw [hsup]; simp
    simp at this
  · rw [hsup, Finset.card_pair hne]

/-! ### C98 -/

section
variable {K : Type} [Coef K]

theorem sumTerms_congr (r p q : ℕ) (A A' B B' : List ℕ → K) (hA : ∀ t ∈ tuples r (2 * p), A t = A' t)
    (hB : ∀ t ∈ tuples r (2 * q), B t = B' t) (i j : List ℕ) (hi : i.length = p + q ∧ ∀ x ∈ i, x < r)
    (hj : j.length = p + q ∧ ∀ x ∈ j, x < r) : sumTerms p q A B i j = sumTerms p q A' B' i j := by
  unfold sumTerms
  congr 3
  have pm : ∀ (l : List ℕ), (l.length = p + q ∧ ∀ x ∈ l, x < r) → ∀ x ∈ Rec.unorderedPermute l,
      x.1.length = p + q ∧ ∀ y ∈ x.1, y < r := by
    intro l hl x hx
    by_cases h0 : l = []
    · subst h0; cases hx
    · have := (C29_all_permutations l h0 x.1).mp (List.mem_map.mpr ⟨x, hx, rfl⟩)
      exact ⟨by rw [this.length_eq, hl.1], fun y hy => hl.2 y (this.mem_iff.mp hy)⟩
  apply List.flatMap_congr
  intro c hc
  apply List.map_congr_left
  intro a ha
  have h1 := pm i hi c hc
  have h2 := pm j hj a ha
  rw [hA, hB]
  · rw [mem_tuples]
    refine ⟨by simp; omega, ?_⟩
    intro x hx
    rcases List.mem_append.mp hx with hx | hx
    · exact h1.2 x (List.mem_of_mem_drop hx)
    · exact h2.2 x (List.mem_of_mem_drop hx)
  · rw [mem_tuples]
    refine ⟨by simp; omega, ?_⟩
    intro x hx
    rcases List.mem_append.mp hx with hx | hx
    · exact h1.2 x (List.mem_of_mem_take hx)
    · exact h2.2 x (List.mem_of_mem_take hx)

/-- The product depends on the entries of its factors within the arrays only. -/
theorem wedge_congr (r p q : ℕ) (A A' B B' : List ℕ → K) (hA : ∀ t ∈ tuples r (2 * p), A t = A' t)
    (hB : ∀ t ∈ tuples r (2 * q), B t = B' t) : wedge r p q A B = wedge r p q A' B' := by
  have n1 : nonzero r p A = nonzero r p A' := by
    unfold nonzero
    apply List.filter_congr
    intro t ht; rw [hA t ht]
  have n2 : nonzero r q B = nonzero r q B' := by
    unfold nonzero
    apply List.filter_congr
    intro t ht; rw [hB t ht]
  have tk : ∀ (m : ℕ) (C : List ℕ → K) (u : List ℕ), u ∈ (nonzero r m C).map (·.take m) → u.length = m ∧ ∀ x ∈ u, x < r := by
    intro m C u hu
    obtain ⟨t, ht, rfl⟩ := List.mem_map.mp hu
    have := ((mem_nonzero r m C t).mp ht).1
    exact ⟨by simp; omega, fun x hx => this.2 x (List.mem_of_mem_take hx)⟩
  have dk : ∀ (m : ℕ) (C : List ℕ → K) (u : List ℕ), u ∈ (nonzero r m C).map (·.drop m) → u.length = m ∧ ∀ x ∈ u, x < r := by
    intro m C u hu
    obtain ⟨t, ht, rfl⟩ := List.mem_map.mp hu
    have := ((mem_nonzero r m C t).mp ht).1
    exact ⟨by simp; omega, fun x hx => this.2 x (List.mem_of_mem_drop hx)⟩
  have inr : ∀ (L M : List (List ℕ)), (∀ u ∈ L, u.length = p ∧ ∀ x ∈ u, x < r) → (∀ u ∈ M, u.length = q ∧ ∀ x ∈ u, x < r) →
      ∀ i ∈ terms L M, i.length = p + q ∧ ∀ x ∈ i, x < r := by
    intro L M hL hM i hi
    obtain ⟨c, hc, s, hs, rfl, _⟩ := (mem_terms L M i).mp hi
    refine ⟨by rw [List.length_append, (hL c hc).1, (hM s hs).1], ?_⟩
    intro x hx
    rcases List.mem_append.mp hx with hx | hx
    · exact (hL c hc).2 x hx
    · exact (hM s hs).2 x hx
  unfold wedge
  dsimp only
  rw [n1, n2]
  congr 1
  apply List.flatMap_congr
  intro i hi
  apply List.flatMap_congr
  intro j hj
  rw [sumTerms_congr r p q A A' B B' hA hB i j (inr _ _ (tk p A') (tk q B') i hi) (inr _ _ (dk p A') (dk q B') j hj)]

theorem wedge_zero (r p q : ℕ) (A B : List ℕ → K) (hA : ∀ t ∈ tuples r (2 * p), A t = 0) : wedge r p q A B = fun _ => 0 := by
  have n1 : nonzero r p A = [] := by
    unfold nonzero
    apply List.filter_eq_nil_iff.mpr
    intro t ht
    rw [hA t ht, (Coef.isZero_iff (0 : K)).mpr rfl]; simp
  unfold wedge
  rw [n1]
  rfl

theorem tuples_split (r p : ℕ) (t : List ℕ) (h : t ∈ tuples r (2 * p)) : ∃ c a : List ℕ, t = c ++ a ∧ c.length = p ∧ a.length = p ∧
    (∀ x ∈ c, x < r) ∧ (∀ x ∈ a, x < r) := by
  obtain ⟨h1, h2⟩ := (mem_tuples r (2 * p) t).mp h
  exact ⟨t.take p, t.drop p, (List.take_append_drop p t).symm, by simp; omega, by simp; omega,
    fun x hx => h2 x (List.mem_of_mem_take hx), fun x hx => h2 x (List.mem_of_mem_drop hx)⟩

end

/-- **C98, cumulant.**  For every state with `Ne ≠ 1` electrons: the 2-RDM minus the antisymmetrised product of 1-RDMs. -/
theorem C98_cumulant (r : ℕ) (Ne : ℤ) (hNe : Ne ≠ 1) (ψ : Cfg →₀ ℂ) (hψ : Sector r Ne ψ) (D : List ℕ → ℂ)
    (hD : ∀ c a : List ℕ, c.length = 2 → a.length = 2 → (∀ x ∈ c, x < r) → (∀ x ∈ a, x < r) → D (c ++ a) = rdm ψ c a) :
    ∃ Δ, cumulant r Ne D = some Δ ∧ ∀ i k j l, i < r → k < r → j < r → l < r →
      Δ [i, k, j, l] = rdm ψ [i, k] [j, l] - (rdm ψ [i] [j] * rdm ψ [k] [l] - rdm ψ [i] [l] * rdm ψ [k] [j]) := by
  obtain ⟨D1, h1, h2⟩ := C31_state_partial (K := ℂ) 2 (Or.inl rfl) r Ne (by push_cast; omega) ψ hψ D hD
  unfold cumulant
  rw [h1]
  refine ⟨_, rfl, ?_⟩
  intro i k j l hi hk hj hl
  have hd1 : ∀ a b, a < r → b < r → D1 [a, b] = rdm ψ [a] [b] := by
    intro a b ha hb
    exact h2 [a] [b] rfl rfl (by simpa using ha) (by simpa using hb)
  show D [i, k, j, l] - wedge r 1 1 D1 D1 [i, k, j, l] = _
  rw [C32_square r D1 i k j l hi hk hj hl, hd1 i j hi hj, hd1 k l hk hl, hd1 i l hi hl, hd1 k j hk hj]
  rw [show D [i, k, j, l] = rdm ψ [i, k] [j, l] from hD [i, k] [j, l] rfl rfl (by simp [hi, hk]) (by simp [hj, hl])]

/-- **C98, determinants.**  The cumulant of a Hartree–Fock 2-RDM vanishes, and for three or more electrons the reconstructed 3-RDM is the
exact one. -/
theorem C98_determinant_partial (r : ℕ) (occ : List ℕ) (hn : occ.Nodup) (hr : ∀ x ∈ occ, x < r) (hN : 3 ≤ occ.length) :
    (∃ Δ, cumulant r occ.length (buildHF 2 occ : List ℕ → ℂ) = some Δ ∧ ∀ t ∈ tuples r 4, Δ t = 0) ∧
    ∃ D3, reconstruct r occ.length (buildHF 2 occ : List ℕ → ℂ) = some D3 ∧
      ∀ c a : List ℕ, c.length = 3 → a.length = 3 → (∀ x ∈ c, x < r) → (∀ x ∈ a, x < r) →
        D3 (c ++ a) = rdm (det (occCfg occ)) c a := by
  obtain ⟨D1, h1, h2⟩ := C30_contraction_partial (K := ℂ) 2 (Or.inl rfl) r occ hn hr (by omega)
  have e1 : ∀ t ∈ tuples r (2 * 1), D1 t = (buildHF 1 occ : List ℕ → ℂ) t := by
    intro t ht
    obtain ⟨c, a, rfl, hc, ha, hcr, har⟩ := tuples_split r 1 t ht
    exact h2 c a (by omega) (by omega) hcr har
  have e2 : ∀ t ∈ tuples r (2 * 2), wedge r 1 1 D1 D1 t = (buildHF 2 occ : List ℕ → ℂ) t := by
    intro t ht
    rw [wedge_congr r 1 1 D1 _ D1 _ e1 e1]
    obtain ⟨c, a, rfl, hc, ha, hcr, har⟩ := tuples_split r 2 t ht
    exact C32_hf_two r occ c a hc ha hcr har
  constructor
  · unfold cumulant
    rw [h1]
    refine ⟨_, rfl, fun t ht => ?_⟩
    show buildHF 2 occ t - wedge r 1 1 D1 D1 t = 0
    rw [e2 t ht, sub_self]
  · unfold reconstruct
    rw [if_neg (by omega), h1]
    refine ⟨_, rfl, fun c a hc ha hcr har => ?_⟩
    show wedge r 2 1 (wedge r 1 1 D1 D1) D1 (c ++ a) + wedge r 2 1 (fun t => buildHF 2 occ t - wedge r 1 1 D1 D1 t) D1 (c ++ a) * 3 = _
    rw [wedge_zero r 2 1 (fun t => buildHF 2 occ t - wedge r 1 1 D1 D1 t) D1 (fun t ht => by rw [e2 t ht, sub_self]),
      wedge_congr r 2 1 _ _ _ _ e2 e1, C32_hf_three r occ c a hc ha hcr har, zero_mul, add_zero,
      C30_hartree_fock_partial 3 (by omega) (by omega) occ c a hc ha]

/-- Fewer electrons than annihilation operators: the product of the operators gives zero. -/
theorem C98_few_electrons (r : ℕ) (Ne : ℤ) (hNe : Ne < 3) (ψ : Cfg →₀ ℂ) (hψ : Sector r Ne ψ) (D : List ℕ → ℂ) :
    ∃ D3, reconstruct r Ne D = some D3 ∧
      ∀ c a : List ℕ, c.length = 3 → a.length = 3 → (∀ x ∈ c, x < r) → (∀ x ∈ a, x < r) → D3 (c ++ a) = rdm ψ c a := by
  unfold reconstruct
  rw [if_pos hNe]
  refine ⟨_, rfl, fun c a hc ha hcr har => ?_⟩
  have h := hψ.anns a.reverse
  have hz : ((a.reverse.map ann).prod : Oper ℂ) ψ = 0 := by
    funext b
    by_contra hb
    have := h b hb
    have e : nAlpha r a.reverse = 3 := by
      unfold nAlpha
      rw [List.countP_eq_length.mpr (by intro x hx; simpa using har x (List.mem_reverse.mp hx)), List.length_reverse, ha]
    rw [e] at this
    have : (0 : ℤ) ≤ occAlpha r b := Int.natCast_nonneg _
    omega
  symm
  unfold rdm rdmOp
  show pair ψ ((c.map cre).prod ((a.reverse.map ann).prod (ψ : Cfg → ℂ))) = 0
  rw [hz, map_zero]
  have := pair_smul_right ψ 0 (0 : Cfg → ℂ)
  rw [zero_smul, zero_mul] at this
  exact this

/-! ### A mixture of two determinants -/

/-- Equal mixture of the determinants with electrons in `0 1 2` and in `0 1 3`. -/
def mixD : List ℕ → GQ := fun t => (buildHF 2 [0, 1, 2] t + buildHF 2 [0, 1, 3] t) * (1 / 2)

def mixG (a : ℕ) : GQ := if a < 2 then 1 else 1 / 2
def mixD1 : List ℕ → GQ
  | [a, b] => if a = b then mixG a else 0
  | _ => 0
def mixE2 : List ℕ → GQ
  | [i, k, j, l] => mixD1 [i, j] * mixD1 [k, l] - mixD1 [i, l] * mixD1 [k, j]
  | _ => 0
def mixW : List ℕ → GQ
  | [i, k, j, l] => if (i = 2 ∧ k = 3) ∧ (j = 2 ∧ l = 3) ∨ (i = 3 ∧ k = 2) ∧ (j = 3 ∧ l = 2) then -(1 / 4) else
      if (i = 2 ∧ k = 3) ∧ (j = 3 ∧ l = 2) ∨ (i = 3 ∧ k = 2) ∧ (j = 2 ∧ l = 3) then 1 / 4 else 0
  | _ => 0

/-- **C98 is violated in general.**  For an equal mixture of the determinants `0 1 2` and `0 1 3` the orbitals `0 2 3` are never
occupied together; the cumulant expansion `γ∧γ∧γ + 3 Δ∧γ` gives `0` as it should, but the code returns `1/4`. -/
theorem C98_fails_mixture :
    (buildHF 3 [0, 1, 2] [0, 2, 3, 0, 2, 3] + buildHF 3 [0, 1, 3] [0, 2, 3, 0, 2, 3] : GQ) = 0 ∧
    (∃ D1 D3, reduceOrder 2 4 3 mixD = some D1 ∧ reconstruct 4 3 mixD = some D3 ∧
      D3 [0, 2, 3, 0, 2, 3] = 1 / 4 ∧
      wedgeSpec 2 1 (fun t => wedgeSpec 1 1 D1 D1 (t.take 2) (t.drop 2)) D1 [0, 2, 3] [0, 2, 3] +
        3 * wedgeSpec 2 1 (fun t => mixD t - wedgeSpec 1 1 D1 D1 (t.take 2) (t.drop 2)) D1 [0, 2, 3] [0, 2, 3] = 0) := by
  refine ⟨by decide +kernel, ?_⟩
  obtain ⟨D1, h1⟩ : ∃ D1, reduceOrder 2 4 3 mixD = some D1 := ⟨_, rfl⟩
  have e1 : ∀ t ∈ tuples 4 (2 * 1), D1 t = mixD1 t := by
    unfold reduceOrder at h1
    rw [if_neg (by decide)] at h1
    injection h1 with h1
    subst h1
    decide +kernel
  have e2 : ∀ t ∈ tuples 4 (2 * 2), wedge 4 1 1 D1 D1 t = mixE2 t := by
    intro t ht
    obtain ⟨c, a, rfl, hc, ha, hcr, har⟩ := tuples_split 4 2 t ht
    match c, a, hc, ha with
    | [i, k], [j, l], _, _ =>
      simp only [List.mem_cons, List.not_mem_nil, or_false, forall_eq_or_imp, forall_eq] at hcr har
      rw [wedge_congr 4 1 1 D1 _ D1 _ e1 e1]
      exact C32_square 4 mixD1 i k j l hcr.1 hcr.2 har.1 har.2
  have ed : ∀ t ∈ tuples 4 4, mixD t - mixE2 t = mixW t := by decide +kernel
  have ew : ∀ t ∈ tuples 4 (2 * 2), mixD t - wedge 4 1 1 D1 D1 t = mixW t := by
    intro t ht; rw [e2 t ht]; exact ed t ht
  refine ⟨D1, fun t => wedge 4 2 1 mixE2 mixD1 t + wedge 4 2 1 mixW mixD1 t * 3, h1, ?_, ?_, ?_⟩
  · unfold reconstruct
    rw [if_neg (by decide), h1]
    show some (fun t => wedge 4 2 1 (wedge 4 1 1 D1 D1) D1 t + wedge 4 2 1 (fun t => mixD t - wedge 4 1 1 D1 D1 t) D1 t * 3) = _
    rw [wedge_congr 4 2 1 _ _ _ _ e2 e1, wedge_congr 4 2 1 _ _ _ _ ew e1]
  · decide +kernel
  · have s2 : ∀ t ∈ tuples 4 (2 * 2), wedgeSpec 1 1 D1 D1 (t.take 2) (t.drop 2) = mixE2 t := by
      intro t ht
      obtain ⟨c, a, rfl, hc, ha, hcr, har⟩ := tuples_split 4 2 t ht
      match c, a, hc, ha with
      | [i, k], [j, l], _, _ =>
        simp only [List.mem_cons, List.not_mem_nil, or_false, forall_eq_or_imp, forall_eq] at hcr har
        show wedgeSpec 1 1 D1 D1 [i, k] [j, l] = _
        have d : ∀ a b, a < 4 → b < 4 → D1 [a, b] = mixD1 [a, b] := fun a b ha hb =>
          e1 _ ((mem_tuples 4 2 _).mpr ⟨rfl, by simp [ha, hb]⟩)
        rw [wedgeSpec_11, d _ _ hcr.1 har.1, d _ _ hcr.2 har.2, d _ _ hcr.1 har.2, d _ _ hcr.2 har.1]
        show _ = mixD1 [i, j] * mixD1 [k, l] - mixD1 [i, l] * mixD1 [k, j]
        have h2 : (2 : GQ) ≠ 0 := Coef.two_ne_zero'
        field_simp; ring
    have hi : [0, 2, 3].length = 2 + 1 ∧ ∀ x ∈ [0, 2, 3], x < 4 := by decide
    rw [← sumTerms_eq 2 1 (by omega) (by omega) _ D1 [0, 2, 3] [0, 2, 3] rfl rfl,
      ← sumTerms_eq 2 1 (by omega) (by omega) _ D1 [0, 2, 3] [0, 2, 3] rfl rfl,
      sumTerms_congr 4 2 1 (fun t => wedgeSpec 1 1 D1 D1 (t.take 2) (t.drop 2)) mixE2 D1 mixD1 s2 e1 _ _ hi hi,
      sumTerms_congr 4 2 1 (fun t => mixD t - wedgeSpec 1 1 D1 D1 (t.take 2) (t.drop 2)) mixW D1 mixD1
        (fun t ht => by rw [s2 t ht]; exact ed t ht) e1 _ _ hi hi]
    decide +kernel
end Props
end HQCA
