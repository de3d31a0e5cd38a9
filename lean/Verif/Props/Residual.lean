import Verif.Model.Residual
import Verif.Props.Hamiltonian
import Verif.Proofs.RDMState
import Verif.Props.ACSE
import Verif.Model.RDM

/-!
# The residual of the classical ACSE is the expectation value of a commutator (C74)
-/

namespace HQCA
namespace Props
open Ham Resid

section alg
variable {K R : Type} [CommRing K] [Ring R] [Algebra K R]

/-- Normal ordering of two annihilators and two creators. -/
theorem normal4 (l j p q : R) (a b c d : K) (h1 : l * p = a • 1 - p * l) (h2 : j * p = b • 1 - p * j)
    (h3 : l * q = c • 1 - q * l) (h4 : j * q = d • 1 - q * j) :
    l * (j * (p * q)) = (b * c - a * d) • 1 - b • (q * l) + a • (q * j) + d • (p * l) - c • (p * j) + p * (q * (l * j)) := by
  have e1 : l * (j * (p * q)) = b • (l * q) - l * p * (j * q) := by
    rw [← mul_assoc j, h2, sub_mul, smul_mul_assoc, one_mul, mul_sub, mul_smul_comm]
    congr 1
    simp only [mul_assoc]
  have e2 : p * l * (q * j) = c • (p * j) - p * (q * (l * j)) := by
    rw [mul_assoc, ← mul_assoc l, h3, sub_mul, smul_mul_assoc, one_mul, mul_sub, mul_smul_comm]
    simp only [mul_assoc]
  rw [e1, h3, h1, h4, sub_mul, mul_sub, mul_sub, e2]
  simp only [smul_mul_assoc, one_mul, mul_smul_comm, mul_one, smul_sub, smul_smul, sub_smul]
  abel_nf
  simp only [mul_comm]
  abel
end alg

variable {K : Type} [Coef K] {r : ℕ}

/-- The three-body density matrix of a linear functional. -/
def rdm3 (ev : Oper K →ₗ[K] K) (i k m j l n : Fin r) : K :=
  ev (cre i.val * (cre k.val * (cre m.val * (ann n.val * (ann l.val * ann j.val)))))

/-- Kronecker delta. -/
def kd (i j : Fin r) : K := if i = j then 1 else 0

/-- The two-body excitation `a†_i a†_k a_l a_j`. -/
def gop (i k j l : Fin r) : Oper K := cre i.val * (cre k.val * (ann l.val * ann j.val))

theorem car_smul (i j : Fin r) : (ann i.val * cre j.val : Oper K) = kd (K := K) i j • 1 - cre j.val * ann i.val := by
  rw [car_ann_cre]
  unfold kd
  by_cases h : i = j
  · simp [h]
  · rw [if_neg h, if_neg (fun h' => h (Fin.ext h')), zero_smul]

section ring
variable {R : Type} [Ring R] [Algebra K R]

theorem sandwich (i k s t Z l j : R) (x b a d c : K) (p q : R)
    (h : Z = x • 1 - b • (q * l) + a • (q * j) + d • (p * l) - c • (p * j) + p * (q * (l * j))) :
    i * (k * (Z * (s * t))) = x • (i * (k * (s * t))) - b • (i * (k * (q * (l * (s * t)))))
      + a • (i * (k * (q * (j * (s * t))))) + d • (i * (k * (p * (l * (s * t))))) - c • (i * (k * (p * (j * (s * t)))))
      + i * (k * (p * (q * (l * (j * (s * t)))))) := by
  rw [h]
  simp only [add_mul, sub_mul, mul_add, mul_sub, smul_mul_assoc, mul_smul_comm, one_mul, mul_assoc]

/-- Two pairs of anticommuting factors may be exchanged. -/
theorem pairs_swap (i k p q : R) (h1 : i * p = -(p * i)) (h2 : i * q = -(q * i)) (h3 : k * p = -(p * k))
    (h4 : k * q = -(q * k)) (Z : R) : i * (k * (p * (q * Z))) = p * (q * (i * (k * Z))) := by
  have e1 : k * (p * (q * Z)) = p * (q * (k * Z)) := by
    rw [← mul_assoc k, h3, neg_mul, mul_assoc, ← mul_assoc k, h4, neg_mul, mul_neg, neg_neg, mul_assoc]
  rw [e1, ← mul_assoc i, h1, neg_mul, mul_assoc, ← mul_assoc i, h2, neg_mul, mul_neg, neg_neg, mul_assoc]
end ring

/-- The product of two excitations in normal order. -/
theorem gop_mul (i k j l p q s t : Fin r) :
    (gop i k j l * gop p q t s : Oper K) = (kd (K := K) j p * kd (K := K) l q - kd (K := K) l p * kd (K := K) j q) • gop i k t s
      - kd (K := K) j p • (cre i.val * (cre k.val * (cre q.val * (ann l.val * (ann s.val * ann t.val)))))
      + kd (K := K) l p • (cre i.val * (cre k.val * (cre q.val * (ann j.val * (ann s.val * ann t.val)))))
      + kd (K := K) j q • (cre i.val * (cre k.val * (cre p.val * (ann l.val * (ann s.val * ann t.val)))))
      - kd (K := K) l q • (cre i.val * (cre k.val * (cre p.val * (ann j.val * (ann s.val * ann t.val)))))
      + cre i.val * (cre k.val * (cre p.val * (cre q.val * (ann l.val * (ann j.val * (ann s.val * ann t.val)))))) := by
  have h := sandwich (K := K) (cre i.val) (cre k.val) (ann s.val) (ann t.val) _ (ann l.val) (ann j.val) _ _ _ _ _
    (cre p.val) (cre q.val)
    (normal4 (K := K) (R := Oper K) (ann l.val) (ann j.val) (cre p.val) (cre q.val) (kd l p) (kd j p) (kd l q) (kd j q)
      (car_smul l p) (car_smul j p) (car_smul l q) (car_smul j q))
  unfold gop
  rw [← h]
  simp only [mul_assoc]

/-- Expectation value of the commutator of two excitations in terms of density matrices. -/
theorem ev_comm (ev : Oper K →ₗ[K] K) (i k j l p q s t : Fin r) :
    ev (gop i k j l * gop p q t s - gop p q t s * gop i k j l) =
      (kd j p * kd l q - kd l p * kd j q) * rdm2 ev i k t s - kd j p * rdm3 ev i k q t s l + kd l p * rdm3 ev i k q t s j
      + kd j q * rdm3 ev i k p t s l - kd l q * rdm3 ev i k p t s j
      - ((kd t i * kd s k - kd s i * kd t k) * rdm2 ev p q j l - kd t i * rdm3 ev p q k j l s
        + kd s i * rdm3 ev p q k j l t + kd t k * rdm3 ev p q i j l s - kd s k * rdm3 ev p q i j l t) := by
  have hswap : (cre i.val * (cre k.val * (cre p.val * (cre q.val * (ann l.val * (ann j.val * (ann s.val * ann t.val)))))) : Oper K)
      = cre p.val * (cre q.val * (cre i.val * (cre k.val * (ann s.val * (ann t.val * (ann l.val * ann j.val)))))) := by
    rw [pairs_swap (cre i.val : Oper K) _ _ _ (car_cre_cre _ _) (car_cre_cre _ _) (car_cre_cre _ _) (car_cre_cre _ _)]
    have := pairs_swap (ann l.val : Oper K) (ann j.val) (ann s.val) (ann t.val) (car_ann_ann _ _) (car_ann_ann _ _)
      (car_ann_ann _ _) (car_ann_ann _ _) 1
    simp only [mul_one] at this
    rw [this]
  rw [gop_mul i k j l p q s t, gop_mul p q t s i k l j, hswap]
  simp only [map_add, map_sub, map_smul, smul_eq_mul]
  unfold gop rdm2 rdm3
  ring

theorem cre_number (a : Fin r) : (cre a.val * numberOp r : Oper K) = numberOp r * cre a.val - cre a.val := by
  have h : ∀ b : Fin r, (cre a.val * (cre b.val * ann b.val) : Oper K)
      = cre b.val * ann b.val * cre a.val - (if b = a then cre a.val else 0) := by
    intro b
    rw [mul_assoc (cre b.val), car_ann_cre, ← mul_assoc (cre a.val), car_cre_cre a.val b.val]
    by_cases hab : b = a
    · subst hab
      have h1 : (cre b.val * cre b.val : Oper K) = 0 := fop_contr_zero b.val .cr .cr rfl
      have h2 : (cre b.val * (cre b.val * ann b.val) : Oper K) = 0 := by rw [← mul_assoc, h1, zero_mul]
      rw [if_pos rfl, if_pos rfl, mul_sub, mul_one, h2, h1]
      simp
    · rw [if_neg (fun h => hab (Fin.ext h)), if_neg hab, zero_sub, sub_zero]
      exact neg_mid _ _ _
  unfold numberOp
  rw [Finset.mul_sum, Finset.sum_congr rfl (fun b _ => h b), Finset.sum_sub_distrib, Finset.sum_mul]
  simp

theorem number_mul4 {R : Type} [Ring R] (n a b c d : R) (ha : a * n = n * a - a) (hb : b * n = n * b - b)
    (hc : c * n = n * c + c) (hd : d * n = n * d + d) : n * (a * (b * (c * d))) = a * (b * (c * d)) * n := by
  have e1 : a * b * n = n * (a * b) - a * b - a * b := by
    rw [mul_assoc, hb, mul_sub, ← mul_assoc, ha]; noncomm_ring
  have e2 : c * d * n = n * (c * d) + c * d + c * d := by
    rw [mul_assoc, hd, mul_add, ← mul_assoc, hc]; noncomm_ring
  have e3 : a * (b * (c * d)) * n = a * b * (c * d * n) := by noncomm_ring
  rw [e3, e2, mul_add, mul_add, ← mul_assoc (a * b) n, e1]
  noncomm_ring

/-- Two-body excitations conserve the number of electrons. -/
theorem number_gop (i k j l : Fin r) : (numberOp r * gop i k j l : Oper K) = gop i k j l * numberOp r :=
  number_mul4 _ _ _ _ _ (cre_number i) (cre_number k) (ann_number l) (ann_number j)

/-- In a state with a definite number of electrons the commutator with the second-quantized Hamiltonian is the sum of the
commutators with the excitations, weighted by the reduced Hamiltonian. -/
theorem comm_energy (ev : Oper K →ₗ[K] K) (ne : K) (hne : ne ≠ 1) (hN : ∀ X : Oper K, ev (X * numberOp r) = ne * ev X)
    (h1 : Fin r → Fin r → K) (V : Fin r → Fin r → Fin r → Fin r → K) (hh : ∀ a b, h1 a b = h1 b a)
    (hV : ∀ a b c d, V a b c d = V c d a b) (i k j l : Fin r) :
    ev (gop i k j l * secondQ h1 V - secondQ h1 V * gop i k j l)
      = ∑ a, ∑ b, ∑ c, ∑ d, k2 h1 V ne a b c d * ev (gop i k j l * gop c d a b - gop c d a b * gop i k j l) := by
  have e1 := C52_energy (ev ∘ₗ LinearMap.mulLeft K (gop i k j l)) ne hne
    (fun X => by
      show ev (gop i k j l * (X * numberOp r)) = ne * ev (gop i k j l * X)
      rw [← mul_assoc]; exact hN _) h1 V hh hV
  have e2 := C52_energy (ev ∘ₗ LinearMap.mulRight K (gop i k j l)) ne hne
    (fun X => by
      show ev (X * numberOp r * gop i k j l) = ne * ev (X * gop i k j l)
      rw [mul_assoc, number_gop, ← mul_assoc]; exact hN _) h1 V hh hV
  have e1' : ev (gop i k j l * secondQ h1 V) = _ := e1.symm
  have e2' : ev (secondQ h1 V * gop i k j l) = _ := e2.symm
  rw [map_sub, e1', e2']
  unfold observable
  simp only [← Finset.sum_sub_distrib, ← mul_sub, map_sub]
  rfl

section sums

theorem sum_d1 (i : Fin r) (f : Fin r → Fin r → Fin r → Fin r → K) :
    ∑ p, ∑ q, ∑ t, ∑ s, kd i p * f p q t s = ∑ q, ∑ t, ∑ s, f i q t s := by
  simp only [← Finset.mul_sum]
  simp only [kd, ite_mul, one_mul, zero_mul, Finset.sum_ite_eq, Finset.mem_univ, if_true]

theorem sum_d2 (i : Fin r) (f : Fin r → Fin r → Fin r → Fin r → K) :
    ∑ p, ∑ q, ∑ t, ∑ s, kd i q * f p q t s = ∑ p, ∑ t, ∑ s, f p i t s := by
  simp only [← Finset.mul_sum]
  simp only [kd, ite_mul, one_mul, zero_mul, Finset.sum_ite_eq, Finset.mem_univ, if_true]

theorem sum_d3 (i : Fin r) (f : Fin r → Fin r → Fin r → Fin r → K) :
    ∑ p, ∑ q, ∑ t, ∑ s, kd t i * f p q t s = ∑ p, ∑ q, ∑ s, f p q i s := by
  simp only [← Finset.mul_sum]
  simp only [kd, ite_mul, one_mul, zero_mul, Finset.sum_ite_eq', Finset.mem_univ, if_true]

theorem sum_d4 (i : Fin r) (f : Fin r → Fin r → Fin r → Fin r → K) :
    ∑ p, ∑ q, ∑ t, ∑ s, kd s i * f p q t s = ∑ p, ∑ q, ∑ t, f p q t i := by
  simp only [kd, ite_mul, one_mul, zero_mul, Finset.sum_ite_eq', Finset.mem_univ, if_true]

theorem sum_kl (j l : Fin r) (f : Fin r → Fin r → Fin r → Fin r → K) :
    ∑ p, ∑ q, ∑ t, ∑ s, kd j p * (kd l q * f p q t s) = ∑ t, ∑ s, f j l t s := by
  rw [sum_d1 j (fun p q t s => kd l q * f p q t s)]
  simp only [← Finset.mul_sum]
  simp only [kd, ite_mul, one_mul, zero_mul, Finset.sum_ite_eq, Finset.mem_univ, if_true]

theorem sum_kr (i k : Fin r) (f : Fin r → Fin r → Fin r → Fin r → K) :
    ∑ p, ∑ q, ∑ t, ∑ s, kd t i * (kd s k * f p q t s) = ∑ p, ∑ q, f p q i k := by
  rw [sum_d3 i (fun p q t s => kd s k * f p q t s)]
  simp only [kd, ite_mul, one_mul, zero_mul, Finset.sum_ite_eq', Finset.mem_univ, if_true]

theorem swap_pairs (f : Fin r → Fin r → Fin r → Fin r → K) :
    ∑ a, ∑ b, ∑ c, ∑ d, f a b c d = ∑ c, ∑ d, ∑ a, ∑ b, f a b c d := by
  calc _ = ∑ a, ∑ c, ∑ b, ∑ d, f a b c d := Finset.sum_congr rfl fun a _ => Finset.sum_comm
    _ = ∑ c, ∑ a, ∑ b, ∑ d, f a b c d := Finset.sum_comm
    _ = ∑ c, ∑ a, ∑ d, ∑ b, f a b c d := Finset.sum_congr rfl fun c _ => Finset.sum_congr rfl fun a _ => Finset.sum_comm
    _ = ∑ c, ∑ d, ∑ a, ∑ b, f a b c d := Finset.sum_congr rfl fun c _ => Finset.sum_comm
end sums

/-- The residual computed by the code is the weighted sum of commutators, for a weight with the symmetries of real
integrals and a symmetric two-body density matrix. -/
theorem residual_eq (ev : Oper K →ₗ[K] K) (w : Fin r → Fin r → Fin r → Fin r → K) (hx : ∀ a b c d, w a b c d = w b a d c)
    (hs : ∀ a b c d, w a b c d = w c d a b) (hD : ∀ a b c d : Fin r, rdm2 ev a b c d = rdm2 ev c d a b) (i k j l : Fin r) :
    residual w (rdm2 ev) (rdm3 ev) i k j l
      = ∑ p, ∑ q, ∑ t, ∑ s, w p q t s * ev (gop i k j l * gop p q t s - gop p q t s * gop i k j l) := by
  have hexp : ∀ p q t s : Fin r, w p q t s * ev (gop i k j l * gop p q t s - gop p q t s * gop i k j l)
      = kd j p * (kd l q * (w p q t s * rdm2 ev i k t s)) - kd l p * (kd j q * (w p q t s * rdm2 ev i k t s))
        - kd j p * (w p q t s * rdm3 ev i k q t s l) + kd l p * (w p q t s * rdm3 ev i k q t s j)
        + kd j q * (w p q t s * rdm3 ev i k p t s l) - kd l q * (w p q t s * rdm3 ev i k p t s j)
        - kd t i * (kd s k * (w p q t s * rdm2 ev p q j l)) + kd t k * (kd s i * (w p q t s * rdm2 ev p q j l))
        + kd t i * (w p q t s * rdm3 ev p q k j l s) - kd s i * (w p q t s * rdm3 ev p q k j l t)
        - kd t k * (w p q t s * rdm3 ev p q i j l s) + kd s k * (w p q t s * rdm3 ev p q i j l t) := by
    intro p q t s
    rw [ev_comm]
    ring
  simp only [hexp, Finset.sum_add_distrib, Finset.sum_sub_distrib]
  rw [sum_kl j l (fun p q t s => w p q t s * rdm2 ev i k t s), sum_kl l j (fun p q t s => w p q t s * rdm2 ev i k t s),
    sum_d1 j (fun p q t s => w p q t s * rdm3 ev i k q t s l), sum_d1 l (fun p q t s => w p q t s * rdm3 ev i k q t s j),
    sum_d2 j (fun p q t s => w p q t s * rdm3 ev i k p t s l), sum_d2 l (fun p q t s => w p q t s * rdm3 ev i k p t s j),
    sum_kr i k (fun p q t s => w p q t s * rdm2 ev p q j l), sum_kr k i (fun p q t s => w p q t s * rdm2 ev p q j l),
    sum_d3 i (fun p q t s => w p q t s * rdm3 ev p q k j l s), sum_d4 i (fun p q t s => w p q t s * rdm3 ev p q k j l t),
    sum_d3 k (fun p q t s => w p q t s * rdm3 ev p q i j l s), sum_d4 k (fun p q t s => w p q t s * rdm3 ev p q i j l t)]
  have a1 : ∑ p, ∑ q, rdm2 ev p q j l * wmat w p q i k
      = ∑ p, ∑ q, w p q i k * rdm2 ev p q j l - ∑ p, ∑ q, w p q k i * rdm2 ev p q j l := by
    simp only [← Finset.sum_sub_distrib]
    exact Finset.sum_congr rfl fun p _ => Finset.sum_congr rfl fun q _ => by unfold wmat; ring
  have a2 : ∑ p, ∑ q, rdm2 ev p q i k * wmat w p q j l
      = ∑ t, ∑ s, w j l t s * rdm2 ev i k t s - ∑ t, ∑ s, w l j t s * rdm2 ev i k t s := by
    simp only [← Finset.sum_sub_distrib]
    refine Finset.sum_congr rfl fun p _ => Finset.sum_congr rfl fun q _ => ?_
    unfold wmat
    rw [hD p q i k, hs p q j l, hs p q l j]; ring
  have a3 : ∀ k' i' : Fin r, ∑ x, ∑ p, ∑ s, rdm3 ev p x k' j l s * wmat w p x i' s
      = ∑ p, ∑ q, ∑ s, w p q i' s * rdm3 ev p q k' j l s - ∑ p, ∑ q, ∑ s, w p q s i' * rdm3 ev p q k' j l s := by
    intro k' i'
    rw [Finset.sum_comm]
    simp only [← Finset.sum_sub_distrib]
    exact Finset.sum_congr rfl fun p _ => Finset.sum_congr rfl fun q _ => Finset.sum_congr rfl fun s _ => by
      unfold wmat; ring
  have a4 : ∀ l' j' : Fin r, ∑ x, ∑ p, ∑ s, rdm3 ev i k p x s l' * wmat w p j' x s
      = ∑ p, ∑ t, ∑ s, w p j' t s * rdm3 ev i k p t s l' - ∑ q, ∑ t, ∑ s, w j' q t s * rdm3 ev i k q t s l' := by
    intro l' j'
    rw [Finset.sum_comm]
    simp only [← Finset.sum_sub_distrib]
    exact Finset.sum_congr rfl fun p _ => Finset.sum_congr rfl fun t _ => Finset.sum_congr rfl fun s _ => by
      unfold wmat; rw [hx j' p t s]; ring
  unfold Resid.residual
  simp only [Finset.sum_add_distrib, Finset.sum_sub_distrib]
  rw [a1, a2, a3, a3, a4, a4]
  ring

theorem k2_exchange (h1 : Fin r → Fin r → K) (V : Fin r → Fin r → Fin r → Fin r → K) (ne : K)
    (hV : ∀ a b c d, V a b c d = V b a d c) (a b c d : Fin r) : k2 h1 V ne a b c d = k2 h1 V ne b a d c := by
  rw [k2_eq, k2_eq, hV]
  ring

theorem k2_symm (h1 : Fin r → Fin r → K) (V : Fin r → Fin r → Fin r → Fin r → K) (ne : K) (hh : ∀ a b, h1 a b = h1 b a)
    (hV : ∀ a b c d, V a b c d = V c d a b) (a b c d : Fin r) : k2 h1 V ne a b c d = k2 h1 V ne c d a b := by
  rw [k2_eq, k2_eq, hV, hh a c, hh b d, hh a d, hh b c]
  simp only [eq_comm (a := d) (b := b), eq_comm (a := c) (b := a), eq_comm (a := d) (b := a), eq_comm (a := c) (b := b)]
  ring

/-- **C74.** For integrals with the symmetries of real orbitals and a state with `ne ≠ 1` electrons whose two-body density
matrix is symmetric, the residual computed by the classical solver is the expectation value of the commutator of the
excitation with the second-quantized Hamiltonian. -/
theorem C74_residual (ev : Oper K →ₗ[K] K) (ne : K) (hne : ne ≠ 1) (hN : ∀ X : Oper K, ev (X * numberOp r) = ne * ev X)
    (hD : ∀ a b c d : Fin r, rdm2 ev a b c d = rdm2 ev c d a b)
    (h1 : Fin r → Fin r → K) (V : Fin r → Fin r → Fin r → Fin r → K) (hh : ∀ a b, h1 a b = h1 b a)
    (hV : ∀ a b c d, V a b c d = V c d a b) (hx : ∀ a b c d, V a b c d = V b a d c) (i k j l : Fin r) :
    residual (k2 h1 V ne) (rdm2 ev) (rdm3 ev) i k j l
      = ev (gop i k j l * secondQ h1 V - secondQ h1 V * gop i k j l) := by
  rw [residual_eq ev _ (k2_exchange h1 V ne hx) (k2_symm h1 V ne hh hV) hD, comm_energy ev ne hne hN h1 V hh hV, swap_pairs]
  refine Finset.sum_congr rfl fun p _ => Finset.sum_congr rfl fun q _ => Finset.sum_congr rfl fun t _ =>
    Finset.sum_congr rfl fun s _ => ?_
  rw [k2_symm h1 V ne hh hV]

/-- A stationary state has zero residual: if the functional is an expectation value in an eigenstate, every entry
computed by the solver is zero. -/
theorem C74_stationary (ev : Oper K →ₗ[K] K) (ne : K) (hne : ne ≠ 1) (hN : ∀ X : Oper K, ev (X * numberOp r) = ne * ev X)
    (hD : ∀ a b c d : Fin r, rdm2 ev a b c d = rdm2 ev c d a b)
    (h1 : Fin r → Fin r → K) (V : Fin r → Fin r → Fin r → Fin r → K) (hh : ∀ a b, h1 a b = h1 b a)
    (hV : ∀ a b c d, V a b c d = V c d a b) (hx : ∀ a b c d, V a b c d = V b a d c) (E : K)
    (hE : ∀ X : Oper K, ev (X * secondQ h1 V) = E * ev X ∧ ev (secondQ h1 V * X) = E * ev X) (i k j l : Fin r) :
    residual (k2 h1 V ne) (rdm2 ev) (rdm3 ev) i k j l = 0 := by
  rw [C74_residual ev ne hne hN hD h1 V hh hV hx, map_sub, (hE _).1, (hE _).2, sub_self]

/-! ### The operator of the residual -/

theorem resTerms_ok (keep : K → Bool) (A : Fin r → Fin r → Fin r → Fin r → K) :
    ∀ t ∈ resTerms keep A, ∀ a ∈ t.2, a.2 ≠ .i ∧ a.1 < r := by
  intro t ht a ha
  unfold resTerms at ht
  simp only [List.mem_flatMap, List.mem_finRange, true_and] at ht
  obtain ⟨i, k, j, l, ht⟩ := ht
  split at ht
  · simp only [List.mem_singleton] at ht
    subst ht
    simp only [List.mem_cons, List.not_mem_nil, or_false] at ha
    rcases ha with rfl | rfl | rfl | rfl
    · exact ⟨nofun, i.isLt⟩
    · exact ⟨nofun, k.isLt⟩
    · exact ⟨nofun, l.isLt⟩
    · exact ⟨nofun, j.isLt⟩
  · simp at ht

/-- Entries that are not kept count as zero. -/
def kept (keep : K → Bool) (x : K) : K := if keep x then x else 0

theorem resTerms_sum (keep : K → Bool) (A : Fin r → Fin r → Fin r → Fin r → K) :
    ((resTerms keep A).map wordOf).sum = ∑ i, ∑ k, ∑ j, ∑ l, (-kept keep (A i k j l)) • gop i k j l := by
  unfold resTerms
  simp only [map_sum_flatMap, finRange_sum]
  refine Finset.sum_congr rfl fun i _ => Finset.sum_congr rfl fun k _ => Finset.sum_congr rfl fun j _ =>
    Finset.sum_congr rfl fun l _ => ?_
  split
  · rename_i h
    unfold kept
    rw [if_pos h.2]
    simp [wordOf, gop, fop]
  · rename_i h
    have : kept keep (A i k j l) = 0 := by
      unfold kept
      split
      · rename_i hk
        by_contra hz
        refine h ⟨?_, hk⟩
        rw [← Bool.not_eq_true]
        intro hz'
        exact hz (Coef.isZero_iff _ |>.mp hz')
      · rfl
    rw [this]
    simp

theorem C74_operator (keep : K → Bool) (A : Fin r → Fin r → Fin r → Fin r → K) :
    ∃ B, resOp keep A = some B ∧ UniqueKeys B ∧
      denD (denF 0) B = ∑ i, ∑ k, ∑ j, ∑ l, (-kept keep (A i k j l)) • gop i k j l := by
  obtain ⟨L, e1, e2, e3⟩ := mapM_generate r _ (resTerms_ok keep A)
  have hU : UniqueKeys ([] : OpD FStr K) := List.nodup_nil
  refine ⟨L.foldl OpD.addStr [], by unfold resOp; rw [e1]; rfl, OpD.foldl_addStr_unique L [] hU, ?_⟩
  rw [OpD.denD_foldl_addStr _ _ _ hU, OpD.denD_nil, zero_add, e2, resTerms_sum]

/-- The direction is one of descent: the first-order change of the energy along the returned operator is minus the sum
of the squares of the kept entries of the residual. -/
theorem C74_descent (ev : Oper K →ₗ[K] K) (ne : K) (hne : ne ≠ 1) (hN : ∀ X : Oper K, ev (X * numberOp r) = ne * ev X)
    (hD : ∀ a b c d : Fin r, rdm2 ev a b c d = rdm2 ev c d a b)
    (h1 : Fin r → Fin r → K) (V : Fin r → Fin r → Fin r → Fin r → K) (hh : ∀ a b, h1 a b = h1 b a)
    (hV : ∀ a b c d, V a b c d = V c d a b) (hx : ∀ a b c d, V a b c d = V b a d c) (keep : K → Bool) :
    ∃ B, resOp keep (residual (k2 h1 V ne) (rdm2 ev) (rdm3 ev)) = some B ∧
      ev (denD (denF 0) B * secondQ h1 V - secondQ h1 V * denD (denF 0) B)
        = -∑ i, ∑ k, ∑ j, ∑ l, kept keep (residual (k2 h1 V ne) (rdm2 ev) (rdm3 ev) i k j l) ^ 2 := by
  obtain ⟨B, b1, _, b3⟩ := C74_operator keep (residual (k2 h1 V ne) (rdm2 ev) (rdm3 ev) (r := r))
  refine ⟨B, b1, ?_⟩
  rw [b3]
  simp only [Finset.sum_mul, Finset.mul_sum, ← Finset.sum_sub_distrib, map_sum, ← Finset.sum_neg_distrib]
  refine Finset.sum_congr rfl fun i _ => Finset.sum_congr rfl fun k _ => Finset.sum_congr rfl fun j _ =>
    Finset.sum_congr rfl fun l _ => ?_
  rw [smul_mul_assoc, mul_smul_comm, map_sub, map_smul, map_smul, ← smul_sub, ← map_sub,
    ← C74_residual ev ne hne hN hD h1 V hh hV hx, smul_eq_mul]
  unfold kept
  split <;> ring

/-! ### Compact vectors (C75) -/

/-- The residual is antisymmetric under exchange of the creator and annihilator pairs, for symmetric density matrices. -/
theorem residual_antisymm (w : Fin r → Fin r → Fin r → Fin r → K) (D2 : Fin r → Fin r → Fin r → Fin r → K)
    (D3 : Fin r → Fin r → Fin r → Fin r → Fin r → Fin r → K) (hs : ∀ a b c d, w a b c d = w c d a b)
    (hx : ∀ a b c d, w a b c d = w b a d c)
    (h3 : ∀ a b c d e f, D3 a b c d e f = D3 d e f a b c) (i k j l : Fin r) :
    residual w D2 D3 j l i k = -residual w D2 D3 i k j l := by
  have key : ∀ i k j l : Fin r, ∑ x, ∑ p, ∑ s, D3 p x l i k s * wmat w p x j s
      = -∑ x, ∑ p, ∑ s, D3 i k p x s l * wmat w p j x s := by
    intro i k j l
    rw [Finset.sum_comm]
    simp only [← Finset.sum_neg_distrib]
    refine Finset.sum_congr rfl fun x _ => ?_
    rw [Finset.sum_comm]
    refine Finset.sum_congr rfl fun p _ => Finset.sum_congr rfl fun s _ => ?_
    unfold wmat
    rw [h3 x s l i k p, hs p j x s, hs p j s x, hx s x p j]
    ring
  unfold Resid.residual
  simp only [Finset.sum_add_distrib, Finset.sum_sub_distrib]
  rw [key i k j l, key i k l j, key j l i k, key j l k i]
  ring

/-- Entries of a compact vector that are skipped count as zero. -/
theorem vecTerms_ok (skip : K → Bool) (kv : List ((Fin r × Fin r × Fin r × Fin r) × K)) :
    ∀ t ∈ vecTerms skip kv, ∀ a ∈ t.2, a.2 ≠ .i ∧ a.1 < r := by
  intro t ht a ha
  unfold vecTerms at ht
  rw [List.mem_flatMap] at ht
  obtain ⟨⟨⟨i, k, l, j⟩, v⟩, _, ht⟩ := ht
  split at ht
  · simp at ht
  · rw [List.mem_singleton] at ht
    subst ht
    simp only [List.mem_cons, List.not_mem_nil, or_false] at ha
    rcases ha with rfl | rfl | rfl | rfl
    · exact ⟨nofun, i.isLt⟩
    · exact ⟨nofun, k.isLt⟩
    · exact ⟨nofun, j.isLt⟩
    · exact ⟨nofun, l.isLt⟩

/-- The operator of a compact vector: four times each entry on the excitation of its key. -/
theorem C75_vector_operator (skip : K → Bool) (kv : List ((Fin r × Fin r × Fin r × Fin r) × K)) :
    ∃ B, vecOp skip kv = some B ∧ UniqueKeys B ∧
      denD (denF 0) B = (kv.map fun t => (4 * cut skip t.2) • gop t.1.1 t.1.2.1 t.1.2.2.1 t.1.2.2.2).sum := by
  obtain ⟨L, e1, e2, e3⟩ := mapM_generate r _ (vecTerms_ok skip kv)
  have hU : UniqueKeys ([] : OpD FStr K) := List.nodup_nil
  refine ⟨L.foldl OpD.addStr [], by unfold vecOp; rw [e1]; rfl, OpD.foldl_addStr_unique L [] hU, ?_⟩
  rw [OpD.denD_foldl_addStr _ _ _ hU, OpD.denD_nil, zero_add, e2]
  unfold vecTerms
  rw [map_sum_flatMap]
  congr 1
  refine List.map_congr_left fun t _ => ?_
  unfold cut
  split
  · simp
  · simp [wordOf, gop, fop]

theorem isAdj_gop (i k j l : Fin r) : IsAdj (gop i k j l : Oper K) (gop j l i k) := by
  have := (isAdj_cre (K := K) i.val).mul ((isAdj_cre k.val).mul ((isAdj_ann l.val).mul (isAdj_ann j.val)))
  unfold gop
  simpa only [mul_assoc] using this

theorem conj_four : conj (4 : K) = 4 := by
  have : (4 : K) = 1 + 1 + (1 + 1) := by norm_num
  rw [this, Coef.conj_add, Coef.conj_add, conj_one]

/-- The adjoint of the operator of a real compact vector. -/
noncomputable def vecAdj (skip : K → Bool) (kv : List ((Fin r × Fin r × Fin r × Fin r) × K)) : Oper K :=
  (kv.map fun t => (4 * cut skip t.2) • gop t.1.2.2.1 t.1.2.2.2 t.1.1 t.1.2.1).sum

theorem slope_parts (ev : Oper K →ₗ[K] K) (ne : K) (hne : ne ≠ 1) (hN : ∀ X : Oper K, ev (X * numberOp r) = ne * ev X)
    (hD : ∀ a b c d : Fin r, rdm2 ev a b c d = rdm2 ev c d a b)
    (hD3 : ∀ a b c d e f : Fin r, rdm3 ev a b c d e f = rdm3 ev d e f a b c)
    (h1 : Fin r → Fin r → K) (V : Fin r → Fin r → Fin r → Fin r → K) (hh : ∀ a b, h1 a b = h1 b a)
    (hV : ∀ a b c d, V a b c d = V c d a b) (hx : ∀ a b c d, V a b c d = V b a d c) (skip : K → Bool)
    (keys : List (Fin r × Fin r × Fin r × Fin r)) (v : List K) (hv : v.length = keys.length)
    (hvr : ∀ x ∈ v, conj x = x) :
    ∃ B, vecOp skip (keys.zip v) = some B ∧ IsAdj (denD (denF 0) B) (vecAdj skip (keys.zip v)) ∧
      IsAdj (vecAdj skip (keys.zip v)) (denD (denF 0) B) ∧
      ev (secondQ h1 V * ((1 / 2 : K) • (denD (denF 0) B - vecAdj skip (keys.zip v))) - (1 / 2 : K) • (denD (denF 0) B - vecAdj skip (keys.zip v)) * secondQ h1 V)
        = 4 * (List.zipWith (· * ·) (v.map (cut skip)) (compact (residual (k2 h1 V ne) (rdm2 ev) (rdm3 ev)) keys)).sum ∧
      ev (secondQ h1 V * ((1 / 2 : K) • (denD (denF 0) B + vecAdj skip (keys.zip v))) - (1 / 2 : K) • (denD (denF 0) B + vecAdj skip (keys.zip v)) * secondQ h1 V)
        = 0 := by
  obtain ⟨B, b1, _, b3⟩ := C75_vector_operator skip (keys.zip v)
  refine ⟨B, b1, ?_⟩
  have h2 : (2 : K) ≠ 0 := Coef.two_ne_zero'
  rw [b3]
  clear b1 b3
  induction keys generalizing v with
  | nil =>
    have := (IsAdj.one (K := K)).smul 0
    refine ⟨?_, ?_, by simp [compact, vecAdj], by simp [vecAdj]⟩ <;> simpa [vecAdj, conj_zero] using this
  | cons t keys ih =>
    cases v with
    | nil => simp at hv
    | cons x v =>
      obtain ⟨t1, t1', t2, t3⟩ := ih v (by simpa using hv) (fun y hy => hvr y (by simp [hy]))
      obtain ⟨a, b, c, d⟩ := t
      have hc : conj (4 * cut skip x) = 4 * cut skip x := by
        rw [Coef.conj_mul, conj_four]
        congr 1
        unfold cut
        split
        · exact conj_zero
        · exact hvr x (by simp)
      have eT : vecAdj skip (((a, b, c, d) :: keys).zip (x :: v)) = (4 * cut skip x) • gop c d a b + vecAdj skip (keys.zip v) := rfl
      rw [eT]
      generalize vecAdj skip (keys.zip v) = T at *
      refine ⟨?_, ?_, ?_⟩
      · rw [List.zip_cons_cons, List.map_cons, List.sum_cons]
        have := (isAdj_gop (K := K) a b c d).smul (4 * cut skip x)
        rw [hc] at this
        exact this.add t1
      · rw [List.zip_cons_cons, List.map_cons, List.sum_cons]
        have := (isAdj_gop (K := K) c d a b).smul (4 * cut skip x)
        rw [hc] at this
        exact this.add t1'
      · have lin : ∀ X : Oper K, ev (secondQ h1 V * X - X * secondQ h1 V)
            = (ev ∘ₗ (LinearMap.mulLeft K (secondQ h1 V) - LinearMap.mulRight K (secondQ h1 V))) X := fun _ => rfl
        have g1 : (ev ∘ₗ (LinearMap.mulLeft K (secondQ h1 V) - LinearMap.mulRight K (secondQ h1 V))) (gop a b c d)
            = -residual (k2 h1 V ne) (rdm2 ev) (rdm3 ev) a b c d := by
          rw [← lin, C74_residual ev ne hne hN hD h1 V hh hV hx, ← map_neg, neg_sub]
        have g2 : (ev ∘ₗ (LinearMap.mulLeft K (secondQ h1 V) - LinearMap.mulRight K (secondQ h1 V))) (gop c d a b)
            = residual (k2 h1 V ne) (rdm2 ev) (rdm3 ev) a b c d := by
          rw [← neg_eq_iff_eq_neg.mpr (residual_antisymm _ _ _ (k2_symm h1 V ne hh hV) (k2_exchange h1 V ne hx) hD3 a b c d), ← lin,
            C74_residual ev ne hne hN hD h1 V hh hV hx, ← map_neg, neg_sub]
        rw [lin] at t2 t3
        rw [lin, lin]
        rw [List.zip_cons_cons, List.map_cons, List.sum_cons]
        have sp : ∀ (α : K) (G G' S T : Oper K), (1 / 2 : K) • (α • G + S - (α • G' + T))
            = (α * (1 / 2)) • G - (α * (1 / 2)) • G' + (1 / 2 : K) • (S - T) := by
          intro α G G' S T
          module
        have sp' : ∀ (α : K) (G G' S T : Oper K), (1 / 2 : K) • (α • G + S + (α • G' + T))
            = (α * (1 / 2)) • G + (α * (1 / 2)) • G' + (1 / 2 : K) • (S + T) := by
          intro α G G' S T
          module
        rw [sp, sp', map_add, map_sub, map_smul, map_smul, g1, g2, t2, map_add _ (_ + _), map_add, map_smul, map_smul, g1, g2, t3]
        simp only [compact, List.map_cons, List.zipWith_cons_cons, List.sum_cons, smul_eq_mul]
        constructor
        · field_simp
          ring
        · ring

/-- **C75.** For a real compact vector on given keys, the derivative of the energy along the anti-Hermitian part of the
operator built from it is four times the scalar product of the vector with the compact residual (the slope used by the line
search), and the derivative along its Hermitian part, which the circuits also exponentiate (`C76_real_coefficient`), is
zero. -/
theorem C75_slope (ev : Oper K →ₗ[K] K) (ne : K) (hne : ne ≠ 1) (hN : ∀ X : Oper K, ev (X * numberOp r) = ne * ev X)
    (hD : ∀ a b c d : Fin r, rdm2 ev a b c d = rdm2 ev c d a b)
    (hD3 : ∀ a b c d e f : Fin r, rdm3 ev a b c d e f = rdm3 ev d e f a b c)
    (h1 : Fin r → Fin r → K) (V : Fin r → Fin r → Fin r → Fin r → K) (hh : ∀ a b, h1 a b = h1 b a)
    (hV : ∀ a b c d, V a b c d = V c d a b) (hx : ∀ a b c d, V a b c d = V b a d c) (skip : K → Bool)
    (keys : List (Fin r × Fin r × Fin r × Fin r)) (v : List K) (hv : v.length = keys.length)
    (hvr : ∀ x ∈ v, conj x = x) :
    ∃ B, vecOp skip (keys.zip v) = some B ∧ ∃ B' : Oper K, IsAdj (denD (denF 0) B) B' ∧
      ev (secondQ h1 V * ((1 / 2 : K) • (denD (denF 0) B - B')) - (1 / 2 : K) • (denD (denF 0) B - B') * secondQ h1 V)
        = 4 * (List.zipWith (· * ·) (v.map (cut skip)) (compact (residual (k2 h1 V ne) (rdm2 ev) (rdm3 ev)) keys)).sum ∧
      ev (secondQ h1 V * ((1 / 2 : K) • (denD (denF 0) B + B')) - (1 / 2 : K) • (denD (denF 0) B + B') * secondQ h1 V)
        = 0 := by
  obtain ⟨B, b1, b2, -, b4⟩ := slope_parts ev ne hne hN hD hD3 h1 V hh hV hx skip keys v hv hvr
  exact ⟨B, b1, _, b2, b4⟩

/-! ### Real states -/

/-- The expectation value in a finitely supported state. -/
noncomputable def evState (ψ : Cfg →₀ K) : Oper K →ₗ[K] K where
  toFun X := pair ψ (X ψ)
  map_add' X Y := by rw [LinearMap.add_apply, pair_add_right]
  map_smul' c X := by rw [LinearMap.smul_apply, pair_smul_right]; rfl

/-- Real amplitudes. -/
def RealAmp (f : Cfg → K) : Prop := ∀ b, conj (f b) = f b

theorem RealAmp.cre {f : Cfg → K} (h : RealAmp f) (k : ℕ) : RealAmp (HQCA.cre k f) := by
  intro b
  show conj (if b k then fsign b k * f (Function.update b k false) else 0) = if b k then _ else 0
  split
  · rw [Coef.conj_mul, fsign_conj, h]
  · exact conj_zero

theorem RealAmp.ann {f : Cfg → K} (h : RealAmp f) (k : ℕ) : RealAmp (HQCA.ann k f) := by
  intro b
  show conj (if b k then 0 else fsign b k * f (Function.update b k true)) = if b k then 0 else _
  split
  · exact conj_zero
  · rw [Coef.conj_mul, fsign_conj, h]

theorem RealAmp.rdmOp {f : Cfg → K} (h : RealAmp f) (c a : List ℕ) : RealAmp (rdmOp c a f) := by
  have h1 : ∀ (l : List ℕ) (g : Cfg → K), RealAmp g → RealAmp ((l.map HQCA.ann).prod g) := by
    intro l
    induction l with
    | nil => exact fun g hg => hg
    | cons x l ih => exact fun g hg => (ih g hg).ann x
  have h2 : ∀ (l : List ℕ) (g : Cfg → K), RealAmp g → RealAmp ((l.map HQCA.cre).prod g) := by
    intro l
    induction l with
    | nil => exact fun g hg => hg
    | cons x l ih => exact fun g hg => (ih g hg).cre x
  exact h2 _ _ (h1 _ _ h)

theorem pair_real (φ : Cfg →₀ K) (f : Cfg → K) (hφ : RealAmp φ) (hf : RealAmp f) : conj (pair φ f) = pair φ f := by
  unfold pair
  have hs : ∀ (s : Finset Cfg) (g : Cfg → K), (∀ b, conj (g b) = g b) → conj (∑ b ∈ s, g b) = ∑ b ∈ s, g b := by
    intro s g hg
    classical
    induction s using Finset.induction_on with
    | empty => simp [conj_zero]
    | insert a s ha ih => rw [Finset.sum_insert ha, Coef.conj_add, hg, ih]
  refine hs _ _ fun b => ?_
  show conj (conj (φ b) * f b) = conj (φ b) * f b
  rw [Coef.conj_mul, Coef.conj_conj, hf b, hφ b]

theorem rdm_symm (ψ : Cfg →₀ K) (hψ : RealAmp ψ) (c a : List ℕ) : rdm ψ a c = rdm ψ c a := by
  rw [rdm_herm]
  exact pair_real ψ _ hψ (hψ.rdmOp c a)

theorem rdm2_real (ψ : Cfg →₀ K) (hψ : RealAmp ψ) (a b c d : Fin r) :
    rdm2 (evState ψ) a b c d = rdm2 (evState ψ) c d a b := by
  have e : ∀ a b c d : Fin r, rdm2 (evState ψ) a b c d = rdm ψ [a.val, b.val] [c.val, d.val] := by
    intro a b c d
    unfold rdm2 rdm rdmOp
    simp only [List.map_cons, List.map_nil, List.prod_cons, List.prod_nil, mul_one, List.reverse_cons, List.reverse_nil,
      List.nil_append, List.cons_append, mul_assoc]
    rfl
  rw [e, e, rdm_symm ψ hψ]

theorem rdm3_real (ψ : Cfg →₀ K) (hψ : RealAmp ψ) (a b c d e f : Fin r) :
    rdm3 (evState ψ) a b c d e f = rdm3 (evState ψ) d e f a b c := by
  have e : ∀ a b c d e f : Fin r, rdm3 (evState ψ) a b c d e f = rdm ψ [a.val, b.val, c.val] [d.val, e.val, f.val] := by
    intro a b c d e f
    unfold rdm3 rdm rdmOp
    simp only [List.map_cons, List.map_nil, List.prod_cons, List.prod_nil, mul_one, List.reverse_cons, List.reverse_nil,
      List.nil_append, List.cons_append, mul_assoc]
    rfl
  rw [e, e, rdm_symm ψ hψ]

/-- **C74** for wave functions: for real integrals and a real state whose configurations all have `n ≠ 1` electrons, the
residual computed by the classical solver is the expectation value of the commutator. -/
theorem C74_state (ψ : Cfg →₀ K) (hψ : RealAmp ψ) (ne : K) (hne : ne ≠ 1) (hN : numberOp r (ψ : Cfg → K) = ne • (ψ : Cfg → K))
    (h1 : Fin r → Fin r → K) (V : Fin r → Fin r → Fin r → Fin r → K) (hh : ∀ a b, h1 a b = h1 b a)
    (hV : ∀ a b c d, V a b c d = V c d a b) (hx : ∀ a b c d, V a b c d = V b a d c) (i k j l : Fin r) :
    residual (k2 h1 V ne) (rdm2 (evState ψ)) (rdm3 (evState ψ)) i k j l
      = pair ψ ((gop i k j l * secondQ h1 V - secondQ h1 V * gop i k j l : Oper K) ψ) := by
  refine C74_residual (evState ψ) ne hne (fun X => ?_) (rdm2_real ψ hψ) h1 V hh hV hx i k j l
  show pair ψ (X (numberOp r ψ)) = ne * pair ψ (X ψ)
  rw [hN, map_smul, pair_smul_right]

/-- Two electrons in the orbitals 2 and 3. -/
def upperTwo : Cfg := fun i => decide (i = 2 ∨ i = 3)

/-- A correlated two-electron state in four orbitals meets the hypotheses. -/
theorem C74_case : ∃ ψ : Cfg →₀ K, RealAmp (ψ : Cfg → K) ∧ numberOp 4 (ψ : Cfg → K) = (2 : K) • (ψ : Cfg → K) ∧
    ψ twoElectrons = 1 ∧ ψ upperTwo = -1 := by
  classical
  have hne : twoElectrons ≠ upperTwo := fun h => by have := congrFun h 0; simp [twoElectrons, upperTwo] at this
  refine ⟨Finsupp.single twoElectrons 1 + Finsupp.single upperTwo (-1), ?_, ?_, ?_, ?_⟩
  · intro b
    rw [Finsupp.add_apply, Coef.conj_add, single_eq, single_eq]
    split <;> split <;> simp [conj_one, conj_zero, conj_neg]
  · have h1 : ∀ (b : Cfg) (c : K), (∑ i : Fin 4, if b i.val then (1 : K) else 0) = 2 →
        numberOp 4 ((Finsupp.single b c : Cfg →₀ K) : Cfg → K) = (2 : K) • ((Finsupp.single b c : Cfg →₀ K) : Cfg → K) := by
      intro b c hb
      funext x
      unfold numberOp
      rw [LinearMap.sum_apply, Finset.sum_apply]
      simp only [number_apply, Pi.smul_apply, smul_eq_mul, single_eq]
      by_cases hx : b = x
      · subst hx
        rw [← hb, Finset.sum_mul]
        exact Finset.sum_congr rfl fun i _ => by split <;> simp
      · simp [hx]
    rw [Finsupp.coe_add, map_add, h1 _ _ (by rw [Fin.sum_univ_four]; simp [twoElectrons]; norm_num),
      h1 _ _ (by rw [Fin.sum_univ_four]; simp [upperTwo]; norm_num), smul_add]
  · rw [Finsupp.add_apply, single_eq, single_eq, if_pos rfl, if_neg hne.symm, add_zero]
  · rw [Finsupp.add_apply, single_eq, single_eq, if_pos rfl, if_neg hne, zero_add]

/-! ### Truncation with the driver's own keys (C68) -/

theorem mem_block2 (f : Tomo.Flags) (Na : ℕ) (g : List ℕ) (t : List ℕ) (h : t ∈ Tomo.block2 f Na g) :
    ∃ i k l j, t = [i, k, l, j] ∧ i ∈ g ∧ k ∈ g ∧ l ∈ g ∧ j ∈ g ∧ i < k ∧ j < l := by
  simp only [Tomo.block2, List.mem_flatMap] at h
  obtain ⟨i, hi, k, hk, h⟩ := h
  split at h
  · simp at h
  · rename_i hik
    rw [List.mem_flatMap] at h
    obtain ⟨l, hl, h⟩ := h
    rw [List.mem_flatMap] at h
    obtain ⟨j, hj, h⟩ := h
    split at h
    · simp at h
    · rename_i hjl
      split at h
      · simp at h
      · rw [List.mem_singleton] at h
        exact ⟨i, k, l, j, h, hi, hk, hl, hj, by omega, by omega⟩

theorem mem_blockAB (f : Tomo.Flags) (Na : ℕ) (alp bet : List ℕ) (t : List ℕ) (h : t ∈ Tomo.blockAB f Na alp bet) :
    ∃ i k l j, t = [i, k, l, j] ∧ i ∈ alp ∧ k ∈ bet ∧ l ∈ bet ∧ j ∈ alp := by
  simp only [Tomo.blockAB, List.mem_flatMap] at h
  obtain ⟨i, hi, k, hk, l, hl, j, hj, h⟩ := h
  split at h
  · simp at h
  · split at h
    · simp at h
    · rw [List.mem_singleton] at h
      exact ⟨i, k, l, j, h, hi, hk, hl, hj⟩

/-- No key of the two-body tomography is the index-exchanged form of another key: the keys are `[i,k,l,j]` with the
annihilators in reversed order, the exchanged form has the creators reversed. -/
theorem no_pair (f : Tomo.Flags) (alp bet : List ℕ) (hd : ∀ x ∈ alp, x ∉ bet) (t u : List ℕ)
    (ht : t ∈ Tomo.rdme2 f alp bet) (hu : u ∈ Tomo.rdme2 f alp bet) : u ≠ t.drop 2 ++ t.take 2 := by
  unfold Tomo.rdme2 at ht hu
  simp only [List.mem_append] at ht hu
  have s2 : ∀ g, t ∈ Tomo.block2 f alp.length g → (∀ x ∈ g, x ∈ alp) ∨ (∀ x ∈ g, x ∈ bet) → u ≠ t.drop 2 ++ t.take 2 := by
    intro g hg hgs e
    obtain ⟨i, k, l, j, rfl, _, _, hl, hj, _, h2⟩ := mem_block2 f _ g t hg
    simp only [List.drop_succ_cons, List.drop_zero, List.take_succ_cons, List.take_zero, List.cons_append, List.nil_append] at e
    subst e
    rcases hu with (hu | hu) | hu
    · obtain ⟨a, b, c, d, e, _, _, _, _, h3, _⟩ := mem_block2 f _ _ _ hu
      simp only [List.cons.injEq] at e
      omega
    · obtain ⟨a, b, c, d, e, _, _, _, _, h3, _⟩ := mem_block2 f _ _ _ hu
      simp only [List.cons.injEq] at e
      omega
    · obtain ⟨a, b, c, d, e, ha, hb, _, _⟩ := mem_blockAB f _ _ _ _ hu
      simp only [List.cons.injEq] at e
      obtain ⟨rfl, rfl, _⟩ := e
      rcases hgs with h | h
      · exact hd _ (h _ hj) hb
      · exact hd _ ha (h _ hl)
  rcases ht with (ht | ht) | ht
  · exact s2 alp ht (Or.inl fun x hx => hx)
  · exact s2 bet ht (Or.inr fun x hx => hx)
  · intro e
    obtain ⟨i, k, l, j, rfl, _, _, hl, hj⟩ := mem_blockAB f _ _ _ _ ht
    simp only [List.drop_succ_cons, List.drop_zero, List.take_succ_cons, List.take_zero, List.cons_append, List.nil_append] at e
    subst e
    rcases hu with (hu | hu) | hu
    · obtain ⟨a, b, c, d, e, ha, _⟩ := mem_block2 f _ _ _ hu
      simp only [List.cons.injEq] at e
      obtain ⟨rfl, _⟩ := e
      exact hd _ ha hl
    · obtain ⟨a, b, c, d, e, ha, hb, _⟩ := mem_block2 f _ _ _ hu
      simp only [List.cons.injEq] at e
      obtain ⟨rfl, rfl, _⟩ := e
      exact hd _ hj hb
    · obtain ⟨a, b, c, d, e, ha, _⟩ := mem_blockAB f _ _ _ _ hu
      simp only [List.cons.injEq] at e
      obtain ⟨rfl, _⟩ := e
      exact hd _ ha hl

/-- **C68 fails in the driver**: with the keys of the standard two-body tomography, for disjoint alpha and beta orbitals,
truncating any search vector with at least one entry raises. -/
theorem C68_driver_raises {F : Type} [Field F] [LinearOrder F] (f : Tomo.Flags) (alp bet : List ℕ) (hd : ∀ x ∈ alp, x ∉ bet)
    (P : ACSE.TPar F (Fin (Tomo.rdme2 f alp bet).length)) (hP : P.pair = ACSE.pairLookup (Tomo.rdme2 f alp bet))
    (crit : List (Fin (Tomo.rdme2 f alp bet).length)) (hc : crit ≠ []) : ACSE.truncation P crit = none := by
  cases crit with
  | nil => exact absurd rfl hc
  | cons t rest =>
    have hn : P.pair t = none := by
      rw [hP]
      unfold ACSE.pairLookup
      rw [List.find?_eq_none]
      intro j _
      simp only [decide_eq_true_eq]
      exact no_pair f alp bet hd _ _ (List.getElem_mem _) (List.getElem_mem _)
    unfold ACSE.truncation
    rw [ACSE.truncLoop, hn]

/-- The list of keys is not empty for two alpha orbitals. -/
example : (Tomo.rdme2 ⟨true, false⟩ [0, 1] [2, 3]).length = 12 := by decide +kernel

end Props
end HQCA
