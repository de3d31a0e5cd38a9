import Verif.Proofs.Adjoint
import Verif.Proofs.Fermi
import Verif.Proofs.SiteAdjoint
import Verif.Props.RDMUnique
import Verif.Props.RDMFill

/-!
# Reduced density matrices of a state: antisymmetry, Hermiticity, spin sectors
-/

set_option linter.unusedSectionVars false

namespace HQCA
variable {K : Type} [Coef K]

/-- `a†_{c1} … a†_{cp} a_{ap} … a_{a1}`. -/
def rdmOp (c a : List ℕ) : Oper K := (c.map cre).prod * (a.reverse.map ann).prod

/-- The reduced density matrix element `⟨ψ| a†_{c1} … a†_{cp} a_{ap} … a_{a1} |ψ⟩`. -/
noncomputable def rdm (ψ : Cfg →₀ K) (c a : List ℕ) : K := pair ψ (rdmOp c a ψ)

theorem cre_anti (x y : ℕ) : (cre y * cre x : Oper K) = -(cre x * cre y) := by
  by_cases h : x = y
  · subst h
    have := fop_contr_zero (K := K) x .cr .cr rfl
    simp only [fop] at this
    rw [this, neg_zero]
  · have := fop_swap (K := K) h .cr .cr
    simp only [fop] at this
    rw [this]
    exact Oper.neg_one_smul _

theorem ann_anti (x y : ℕ) : (ann y * ann x : Oper K) = -(ann x * ann y) := by
  by_cases h : x = y
  · subst h
    have := fop_contr_zero (K := K) x .an .an rfl
    simp only [fop] at this
    rw [this, neg_zero]
  · have := fop_swap (K := K) h .an .an
    simp only [fop] at this
    rw [this]
    exact Oper.neg_one_smul _

theorem ring_swap {R : Type} [Ring R] (A B C x y : R) (h : y * x = -(x * y)) :
    A * (y * (x * B)) * C = -(A * (x * (y * B)) * C) := by
  rw [← mul_assoc y, h]; noncomm_ring

theorem ring_swap' {R : Type} [Ring R] (A B C x y : R) (h : y * x = -(x * y)) :
    A * (B * x * y * C) = -(A * (B * y * x * C)) := by
  rw [mul_assoc B y x, h]; noncomm_ring

theorem rdmOp_swap_left (xs : List ℕ) (x y : ℕ) (zs a : List ℕ) :
    (rdmOp (xs ++ y :: x :: zs) a : Oper K) = -rdmOp (xs ++ x :: y :: zs) a := by
  unfold rdmOp
  simp only [List.map_append, List.map_cons, List.prod_append, List.prod_cons]
  exact ring_swap _ _ _ _ _ (cre_anti x y)

theorem rdmOp_swap_right (c xs : List ℕ) (x y : ℕ) (zs : List ℕ) :
    (rdmOp c (xs ++ y :: x :: zs) : Oper K) = -rdmOp c (xs ++ x :: y :: zs) := by
  unfold rdmOp
  simp only [List.reverse_append, List.reverse_cons, List.map_append, List.map_cons, List.map_nil, List.prod_append,
    List.prod_cons, List.prod_nil, mul_one]
  exact ring_swap' _ _ _ _ _ (ann_anti x y)

theorem pair_neg_right (φ : Cfg →₀ K) (ψ : Cfg → K) : pair φ (-ψ) = -pair φ ψ := by
  have := pair_smul_right φ (-1) ψ
  rw [neg_one_smul] at this
  rw [this]; ring

theorem rdm_antisym (p : ℕ) (ψ : Cfg →₀ K) : Props.Antisym p (rdm ψ) := by
  constructor
  · intro xs x y zs a _ _
    unfold rdm
    rw [rdmOp_swap_left, LinearMap.neg_apply, pair_neg_right]
  · intro c xs x y zs _ _
    unfold rdm
    rw [rdmOp_swap_right, LinearMap.neg_apply, pair_neg_right]

theorem pair_single_right (ψ : Cfg →₀ K) (b : Cfg) (c : K) :
    pair ψ (Finsupp.single b c : Cfg →₀ K) = conj (ψ b) * c := by
  induction ψ using Finsupp.induction_linear with
  | zero => rw [pair_zero, Finsupp.zero_apply, conj_zero, zero_mul]
  | add f g hf hg => rw [pair_add, hf, hg, Finsupp.add_apply, Coef.conj_add, add_mul]
  | single b' c' =>
    classical
    rw [pair_single, Finsupp.single_apply, Finsupp.single_apply]
    by_cases h : b = b'
    · simp [h]
    · simp [h, Ne.symm h, conj_zero]

/-- `⟨φ,ψ⟩* = ⟨ψ,φ⟩`. -/
theorem conj_pair (φ ψ : Cfg →₀ K) : conj (pair φ ψ) = pair ψ φ := by
  induction φ using Finsupp.induction_linear with
  | zero =>
    rw [pair_zero, conj_zero]
    have := pair_smul_right ψ 0 0
    rw [zero_smul, zero_mul] at this
    exact this.symm
  | add f g hf hg => rw [pair_add, Coef.conj_add, hf, hg, Finsupp.coe_add, pair_add_right]
  | single b c => rw [pair_single, pair_single_right, Coef.conj_mul, Coef.conj_conj, mul_comm]

theorem isAdj_cre_prod (c : List ℕ) : IsAdj ((c.map cre).prod : Oper K) (c.reverse.map ann).prod := by
  induction c with
  | nil => exact IsAdj.one
  | cons x c ih =>
    simp only [List.map_cons, List.prod_cons, List.reverse_cons, List.map_append, List.map_nil, List.prod_append,
      List.prod_nil, mul_one]
    exact (isAdj_cre x).mul ih

theorem isAdj_ann_prod (a : List ℕ) : IsAdj ((a.map ann).prod : Oper K) (a.reverse.map cre).prod := by
  induction a with
  | nil => exact IsAdj.one
  | cons x c ih =>
    simp only [List.map_cons, List.prod_cons, List.reverse_cons, List.map_append, List.map_nil, List.prod_append,
      List.prod_nil, mul_one]
    exact (isAdj_ann x).mul ih

theorem isAdj_rdmOp (c a : List ℕ) : IsAdj (rdmOp c a : Oper K) (rdmOp a c) := by
  have := (isAdj_cre_prod (K := K) c).mul (isAdj_ann_prod a.reverse)
  rwa [List.reverse_reverse] at this

theorem rdm_herm (ψ : Cfg →₀ K) (c a : List ℕ) : rdm ψ a c = conj (rdm ψ c a) := by
  obtain ⟨φ, h1, h2⟩ := isAdj_rdmOp (K := K) c a ψ
  unfold rdm
  rw [h2, conj_pair, h1]

/-- Number of occupied alpha orbitals. -/
def occAlpha (Na : ℕ) (b : Cfg) : ℕ := ((List.range Na).filter (fun i => b i)).length

theorem occAlpha_succ (Na : ℕ) (b : Cfg) : occAlpha (Na + 1) b = occAlpha Na b + if b Na then 1 else 0 := by
  unfold occAlpha
  rw [List.range_succ, List.filter_append, List.length_append]
  congr 1
  by_cases h : b Na <;> simp [h]

theorem occAlpha_update (Na k : ℕ) (b : Cfg) (x : Bool) : (occAlpha Na (Function.update b k x) : ℤ) =
    occAlpha Na b + if k < Na then (if x then 1 else 0) - (if b k then 1 else 0) else 0 := by
  induction Na with
  | zero => simp [occAlpha]
  | succ n ih =>
    rw [occAlpha_succ, occAlpha_succ]
    push_cast
    rw [ih]
    rcases Nat.lt_trichotomy k n with h | h | h
    · rw [Function.update_of_ne (Nat.ne_of_gt h), if_pos h, if_pos (Nat.lt_succ_of_lt h)]; ring
    · subst h
      simp
    · rw [Function.update_of_ne (Nat.ne_of_lt h), if_neg (Nat.not_lt_of_gt h), if_neg (Nat.not_lt.mpr h)]; ring

/-- All configurations of `ψ` have `n` occupied alpha orbitals. -/
def Sector (Na : ℕ) (n : ℤ) (ψ : Cfg → K) : Prop := ∀ b, ψ b ≠ 0 → (occAlpha Na b : ℤ) = n

theorem Sector.cre {Na : ℕ} {n : ℤ} {ψ : Cfg → K} (h : Sector Na n ψ) (k : ℕ) :
    Sector Na (n + if k < Na then 1 else 0) (cre k ψ) := by
  intro b hb
  replace hb : (if b k then fsign b k * ψ (Function.update b k false) else 0) ≠ 0 := hb
  by_cases hk : b k
  · simp [hk] at hb
    have := h _ hb.2
    rw [occAlpha_update] at this
    simp [hk] at this
    rw [← this]
    split <;> ring
  · simp [hk] at hb

theorem Sector.ann {Na : ℕ} {n : ℤ} {ψ : Cfg → K} (h : Sector Na n ψ) (k : ℕ) :
    Sector Na (n - if k < Na then 1 else 0) (ann k ψ) := by
  intro b hb
  replace hb : (if b k then 0 else fsign b k * ψ (Function.update b k true)) ≠ 0 := hb
  by_cases hk : b k
  · simp [hk] at hb
  · simp [hk] at hb
    have := h _ hb.2
    rw [occAlpha_update] at this
    simp [hk] at this
    rw [← this]
    split <;> ring

theorem nAlpha_cons (Na x : ℕ) (c : List ℕ) :
    (Props.nAlpha Na (x :: c) : ℤ) = Props.nAlpha Na c + if x < Na then 1 else 0 := by
  unfold Props.nAlpha
  rw [List.countP_cons]
  push_cast
  simp

theorem Sector.cres {Na : ℕ} {n : ℤ} {ψ : Cfg → K} (h : Sector Na n ψ) (c : List ℕ) :
    Sector Na (n + Props.nAlpha Na c) ((c.map HQCA.cre).prod ψ) := by
  induction c with
  | nil => simpa [Props.nAlpha] using h
  | cons x c ih =>
    rw [nAlpha_cons, List.map_cons, List.prod_cons, ← add_assoc]
    exact ih.cre x

theorem Sector.anns {Na : ℕ} {n : ℤ} {ψ : Cfg → K} (h : Sector Na n ψ) (c : List ℕ) :
    Sector Na (n - Props.nAlpha Na c) ((c.map HQCA.ann).prod ψ) := by
  induction c with
  | nil => simpa [Props.nAlpha] using h
  | cons x c ih =>
    rw [nAlpha_cons, List.map_cons, List.prod_cons, ← sub_sub]
    exact ih.ann x

theorem rdm_sector (ψ : Cfg →₀ K) (Na : ℕ) (n : ℤ) (h : Sector Na n ψ) (c a : List ℕ)
    (hca : Props.nAlpha Na c ≠ Props.nAlpha Na a) : rdm ψ c a = 0 := by
  have h1 := (h.anns a.reverse).cres c
  have hr : Props.nAlpha Na a.reverse = Props.nAlpha Na a := by simp [Props.nAlpha]
  rw [hr] at h1
  unfold rdm pair
  rw [Finsupp.sum]
  apply Finset.sum_eq_zero
  intro b hb
  have hb' : ψ b ≠ 0 := Finsupp.mem_support_iff.mp hb
  have e1 := h b hb'
  have : (rdmOp c a ψ : Cfg → K) b = 0 := by
    by_contra hne
    have := h1 b hne
    omega
  rw [this, mul_zero]

end HQCA
