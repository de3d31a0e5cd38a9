import Verif.Model.Cholesky

/-!
# C116: pivoted Cholesky decomposition
-/

namespace HQCA
namespace Props
namespace Chol

open Cholesky

/-- Symmetric positive semidefinite `N` by `N` matrix. -/
structure PSD (N : ℕ) (E : ℕ → ℕ → ℝ) : Prop where
  symm : ∀ i < N, ∀ j < N, E i j = E j i
  nonneg : ∀ x : ℕ → ℝ, 0 ≤ ∑ i ∈ Finset.range N, ∑ j ∈ Finset.range N, x i * x j * E i j

/-- What is left of `V` after subtracting the product of the first `m` rows of the factor with itself. -/
def residual (V : ℕ → ℕ → ℝ) (R : ℕ → ℕ → ℝ) (m i j : ℕ) : ℝ := V i j - ∑ k ∈ Finset.range m, R k i * R k j

theorem argmax_spec (f : ℕ → ℝ) (lo n : ℕ) : lo ≤ argmax f lo n ∧ argmax f lo n ≤ lo + n ∧ ∀ j, lo ≤ j → j ≤ lo + n → f j ≤ f (argmax f lo n) := by
  induction n with
  | zero =>
    refine ⟨le_refl _, le_refl _, fun j h1 h2 => ?_⟩
    obtain rfl : j = lo := by omega
    exact le_refl _
  | succ n ih =>
    obtain ⟨h1, h2, h3⟩ := ih
    rw [argmax]
    split_ifs with h
    · refine ⟨by omega, by omega, fun j a b => ?_⟩
      rcases Nat.lt_or_ge (lo + n) j with c | c
      · obtain rfl : j = lo + n + 1 := by omega
        exact le_refl _
      · exact (h3 j a c).trans h.le
    · refine ⟨h1, by omega, fun j a b => ?_⟩
      rcases Nat.lt_or_ge (lo + n) j with c | c
      · obtain rfl : j = lo + n + 1 := by omega
        exact not_lt.mp h
      · exact h3 j a c

/-- The list of pivots is a permutation of the columns. -/
structure Perm (N : ℕ) (pi : ℕ → ℕ) : Prop where
  lt : ∀ k < N, pi k < N
  inj : ∀ k < N, ∀ l < N, pi k = pi l → k = l

theorem Perm.surj {N : ℕ} {pi : ℕ → ℕ} (h : Perm N pi) (j : ℕ) (hj : j < N) : ∃ k < N, pi k = j := by
  have : Finset.image pi (Finset.range N) = Finset.range N := by
    apply Finset.eq_of_subset_of_card_le
    · intro x hx
      obtain ⟨k, hk, rfl⟩ := Finset.mem_image.mp hx
      exact Finset.mem_range.mpr (h.lt k (Finset.mem_range.mp hk))
    · rw [Finset.card_image_of_injOn]
      intro a ha b hb e
      exact h.inj a (by simpa using ha) b (by simpa using hb) e
  have hj' : j ∈ Finset.image pi (Finset.range N) := by rw [this]; exact Finset.mem_range.mpr hj
  obtain ⟨k, hk, e⟩ := Finset.mem_image.mp hj'
  exact ⟨k, Finset.mem_range.mp hk, e⟩

theorem Perm.swap {N : ℕ} {pi : ℕ → ℕ} (h : Perm N pi) (a b : ℕ) (ha : a < N) (hb : b < N) : Perm N (Cholesky.swap pi a b) := by
  constructor
  · intro k hk
    unfold Cholesky.swap
    split_ifs
    · exact h.lt _ hb
    · exact h.lt _ ha
    · exact h.lt _ hk
  · intro k hk l hl e
    unfold Cholesky.swap at e
    split_ifs at e with h1 h2 h3 h4 h5 h6 h7 h8
    all_goals first
      | (have := h.inj _ hb _ hb e; omega) | (have := h.inj _ hb _ ha e; omega) | (have := h.inj _ hb _ hl e; omega)
      | (have := h.inj _ ha _ hb e; omega) | (have := h.inj _ ha _ ha e; omega) | (have := h.inj _ ha _ hl e; omega)
      | (have := h.inj _ hk _ hb e; omega) | (have := h.inj _ hk _ ha e; omega) | (have := h.inj _ hk _ hl e; omega)
      | omega

/-- Sums over the columns can be taken along the pivots. -/
theorem Perm.sum {N : ℕ} {pi : ℕ → ℕ} (h : Perm N pi) (f : ℕ → ℝ) : ∑ k ∈ Finset.range N, f (pi k) = ∑ j ∈ Finset.range N, f j := by
  refine Finset.sum_bij (fun k _ => pi k) ?_ ?_ ?_ ?_
  · intro k hk; exact Finset.mem_range.mpr (h.lt k (Finset.mem_range.mp hk))
  · intro a ha b hb e; exact h.inj a (Finset.mem_range.mp ha) b (Finset.mem_range.mp hb) e
  · intro j hj
    obtain ⟨k, hk, e⟩ := h.surj j (Finset.mem_range.mp hj)
    exact ⟨k, Finset.mem_range.mpr hk, e⟩
  · intro a _; rfl

section psd
variable {N : ℕ} {E : ℕ → ℕ → ℝ}

theorem quad_single (h : PSD N E) (x : ℕ → ℝ) (p : ℕ) (hp : p < N) (t : ℝ) :
    ∑ i ∈ Finset.range N, ∑ j ∈ Finset.range N, (x i - if i = p then t else 0) * (x j - if j = p then t else 0) * E i j =
      ∑ i ∈ Finset.range N, ∑ j ∈ Finset.range N, x i * x j * E i j - 2 * t * ∑ j ∈ Finset.range N, E p j * x j + t ^ 2 * E p p := by
  have e : ∀ i j, (x i - if i = p then t else 0) * (x j - if j = p then t else 0) * E i j =
      x i * x j * E i j - (if i = p then t * x j * E p j else 0) - (if j = p then t * x i * E i p else 0)
        + (if i = p then (if j = p then t ^ 2 * E p p else 0) else 0) := by
    intro i j
    split_ifs with h1 h2 h2
    · subst h1; subst h2; ring
    · subst h1; ring
    · subst h2; ring
    · ring
  have hpm : p ∈ Finset.range N := Finset.mem_range.mpr hp
  simp only [e, Finset.sum_add_distrib, Finset.sum_sub_distrib]
  have e1 : ∑ i ∈ Finset.range N, ∑ j ∈ Finset.range N, (if i = p then t * x j * E p j else 0) = t * ∑ j ∈ Finset.range N, E p j * x j := by
    rw [Finset.sum_comm]
    rw [Finset.mul_sum]
    refine Finset.sum_congr rfl fun j _ => ?_
    rw [Finset.sum_ite_eq' _ _ _, if_pos hpm]
    ring
  have e2 : ∑ i ∈ Finset.range N, ∑ j ∈ Finset.range N, (if j = p then t * x i * E i p else 0) = t * ∑ j ∈ Finset.range N, E p j * x j := by
    rw [Finset.mul_sum]
    refine Finset.sum_congr rfl fun i hi => ?_
    rw [Finset.sum_ite_eq' _ _ _, if_pos hpm, h.symm i (Finset.mem_range.mp hi) p hp]
    ring
  have e3 : ∑ i ∈ Finset.range N, ∑ j ∈ Finset.range N, (if i = p then (if j = p then t ^ 2 * E p p else 0) else 0) = t ^ 2 * E p p := by
    rw [Finset.sum_comm]
    simp [hp]
  rw [e1, e2, e3]
  ring

theorem diag_nonneg (h : PSD N E) (p : ℕ) (hp : p < N) : 0 ≤ E p p := by
  have := h.nonneg fun i => (fun _ => (0 : ℝ)) i - if i = p then 1 else 0
  rw [quad_single h (fun _ => 0) p hp 1] at this
  simpa using this

/-- Subtracting the normalised row of a positive pivot keeps the matrix positive semidefinite. -/
theorem psd_schur (h : PSD N E) (p : ℕ) (hp : p < N) (h0 : 0 < E p p) (r : ℕ → ℝ) (hr : ∀ j < N, r j * Real.sqrt (E p p) = E p j) :
    PSD N fun i j => E i j - r i * r j := by
  have hs : Real.sqrt (E p p) ^ 2 = E p p := Real.sq_sqrt h0.le
  have hs0 : Real.sqrt (E p p) ≠ 0 := (Real.sqrt_pos.mpr h0).ne'
  refine ⟨fun i hi j hj => by rw [h.symm i hi j hj, mul_comm (r i)], fun x => ?_⟩
  have k1 : ∑ i ∈ Finset.range N, ∑ j ∈ Finset.range N, x i * x j * (E i j - r i * r j) =
      ∑ i ∈ Finset.range N, ∑ j ∈ Finset.range N, x i * x j * E i j - (∑ j ∈ Finset.range N, r j * x j) ^ 2 := by
    rw [sq, Finset.sum_mul_sum, ← Finset.sum_sub_distrib]
    refine Finset.sum_congr rfl fun i _ => ?_
    rw [← Finset.sum_sub_distrib]
    refine Finset.sum_congr rfl fun j _ => ?_
    ring
  have k2 : (∑ j ∈ Finset.range N, r j * x j) * Real.sqrt (E p p) = ∑ j ∈ Finset.range N, E p j * x j := by
    rw [Finset.sum_mul]
    refine Finset.sum_congr rfl fun j hj => ?_
    rw [← hr j (Finset.mem_range.mp hj)]
    ring
  have k3 := h.nonneg fun i => x i - if i = p then (∑ j ∈ Finset.range N, r j * x j) / Real.sqrt (E p p) else 0
  rw [quad_single h x p hp, ← k2] at k3
  rw [k1]
  have k4 : ∀ y : ℝ, -2 * (y / Real.sqrt (E p p)) * (y * Real.sqrt (E p p)) + (y / Real.sqrt (E p p)) ^ 2 * E p p = - y ^ 2 := by
    intro y
    rw [div_pow, hs]
    have := h0.ne'
    field_simp
    ring
  have := k4 (∑ j ∈ Finset.range N, r j * x j)
  linarith

/-- The entries are bounded by the trace. -/
theorem entry_le_trace (h : PSD N E) (i j : ℕ) (hi : i < N) (hj : j < N) : |E i j| ≤ ∑ k ∈ Finset.range N, E k k := by
  have hd : ∀ k ∈ Finset.range N, 0 ≤ E k k := fun k hk => diag_nonneg h k (Finset.mem_range.mp hk)
  rcases eq_or_ne i j with rfl | hij
  · rw [abs_of_nonneg (diag_nonneg h i hi)]
    exact Finset.single_le_sum (f := fun k => E k k) hd (Finset.mem_range.mpr hi)
  · have h2 : E i i + E j j ≤ ∑ k ∈ Finset.range N, E k k := by
      rw [← Finset.sum_pair hij (f := fun k => E k k)]
      refine Finset.sum_le_sum_of_subset_of_nonneg ?_ fun k hk _ => hd k hk
      intro k hk
      rcases Finset.mem_insert.mp hk with rfl | hk
      · exact Finset.mem_range.mpr hi
      · rw [Finset.mem_singleton.mp hk]; exact Finset.mem_range.mpr hj
    have key : ∀ t : ℝ, 0 ≤ E i i + t ^ 2 * E j j - 2 * t * E i j := by
      intro t
      have := h.nonneg fun k => (fun k => (0 : ℝ) - if k = i then -1 else 0) k - if k = j then t else 0
      rw [quad_single h _ j hj, quad_single h (fun _ => 0) i hi (-1)] at this
      simp only [zero_mul, mul_zero, Finset.sum_const_zero] at this
      have e : ∑ k ∈ Finset.range N, E j k * ((0 : ℝ) - if k = i then -1 else 0) = E j i := by
        have : ∀ k, E j k * ((0 : ℝ) - if k = i then -1 else 0) = if k = i then E j i else 0 := by
          intro k; split_ifs with hk
          · subst hk; ring
          · ring
        simp only [this]
        rw [Finset.sum_ite_eq' _ _ _, if_pos (Finset.mem_range.mpr hi)]
      rw [e, h.symm j hj i hi] at this
      linarith
    have a := key 1
    have b := key (-1)
    rw [abs_le]
    have := diag_nonneg h i hi
    have := diag_nonneg h j hj
    constructor <;> linarith

end psd

theorem inner_spec {N : ℕ} (V : ℕ → ℕ → ℝ) (s : St) (pi : ℕ → ℕ) (hp : Perm N pi) (n : ℕ) (hn : s.m + n < N) :
    (inner V s pi n).1 (pi s.m) = Real.sqrt (s.d (pi s.m)) ∧
    (∀ l, s.m < l → l ≤ s.m + n → (inner V s pi n).1 (pi l) =
        (V (pi s.m) (pi l) - ∑ k ∈ Finset.range s.m, s.R k (pi s.m) * s.R k (pi l)) / Real.sqrt (s.d (pi s.m)) ∧
      (inner V s pi n).2 (pi l) = s.d (pi l) - (inner V s pi n).1 (pi l) ^ 2) ∧
    (∀ l < N, l < s.m ∨ s.m + n < l → (inner V s pi n).1 (pi l) = 0 ∧ (inner V s pi n).2 (pi l) = s.d (pi l)) := by
  have hne : ∀ a < N, ∀ b < N, a ≠ b → pi a ≠ pi b := fun a ha b hb h e => h (hp.inj a ha b hb e)
  induction n with
  | zero =>
    refine ⟨by simp [inner], fun l h1 h2 => by omega, fun l hl h => ⟨?_, rfl⟩⟩
    have := hne l hl s.m (by omega) (by omega)
    simp [inner, this]
  | succ n ih =>
    obtain ⟨h1, h2, h3⟩ := ih (by omega)
    have hip : ∀ c, (if 0 < s.m then ∑ k ∈ Finset.range s.m, s.R k (pi s.m) * s.R k c else 0) =
        ∑ k ∈ Finset.range s.m, s.R k (pi s.m) * s.R k c := by
      intro c
      split_ifs with h
      · rfl
      · rw [show s.m = 0 by omega, Finset.range_zero, Finset.sum_empty]
    simp only [inner, hip, h1]
    refine ⟨?_, fun l a b => ?_, fun l hl h => ?_⟩
    · rw [Function.update_of_ne (hne _ (by omega) _ (by omega) (by omega)), h1]
    · rcases Nat.lt_or_ge (s.m + n) l with c | c
      · obtain rfl : l = s.m + n + 1 := by omega
        rw [Function.update_self, Function.update_self, (h3 (s.m + n + 1) (by omega) (Or.inr (by omega))).2]
        exact ⟨rfl, rfl⟩
      · rw [Function.update_of_ne (hne _ (by omega) _ (by omega) (by omega)),
          Function.update_of_ne (hne _ (by omega) _ (by omega) (by omega))]
        exact h2 l a c
    · rw [Function.update_of_ne (hne _ hl _ (by omega) (by omega)), Function.update_of_ne (hne _ hl _ (by omega) (by omega))]
      exact h3 l hl (by omega)

/-- What holds between two passes of the loop. -/
structure Inv (N : ℕ) (V : ℕ → ℕ → ℝ) (s : St) : Prop where
  le : s.m ≤ N
  perm : Perm N s.pi
  psd : PSD N (residual V s.R s.m)
  diag : ∀ l, s.m ≤ l → l < N → s.d (s.pi l) = residual V s.R s.m (s.pi l) (s.pi l)
  done : ∀ l < s.m, ∀ j < N, residual V s.R s.m (s.pi l) j = 0
  tri : ∀ k < s.m, 0 < s.R k (s.pi k) ∧ ∀ l < k, s.R k (s.pi l) = 0
  err : s.err = ∑ i ∈ Finset.range N, residual V s.R s.m i i

theorem inv_init (N : ℕ) (V : ℕ → ℕ → ℝ) (h : PSD N V) :
    Inv N V { d := fun i => V i i, pi := id, R := fun _ _ => 0, err := ∑ i ∈ Finset.range N, |V i i|, m := 0 } := by
  have e : residual V (fun _ _ => 0) 0 = V := by funext i j; simp [residual]
  refine ⟨Nat.zero_le _, ⟨fun k hk => hk, fun k _ l _ e => e⟩, by rw [e]; exact h, fun l _ _ => by rw [e], fun l hl => absurd hl (by simp),
    fun k hk => absurd hk (by simp), ?_⟩
  rw [e]
  exact Finset.sum_congr rfl fun i hi => abs_of_nonneg (diag_nonneg h i (Finset.mem_range.mp hi))

theorem inv_step (N : ℕ) (V : ℕ → ℕ → ℝ) (s : St) (h : Inv N V s) (he : 0 < s.err) :
    ∃ t, step N V s = some t ∧ Inv N V t ∧ t.m = s.m + 1 := by
  set E := residual V s.R s.m with hE
  have tr : ∑ i ∈ Finset.range N, E i i = ∑ l ∈ Finset.Ico s.m N, s.d (s.pi l) := by
    rw [← h.perm.sum fun i => E i i, Finset.range_eq_Ico, ← Finset.sum_Ico_consecutive _ (Nat.zero_le _) h.le]
    have : ∑ l ∈ Finset.Ico 0 s.m, E (s.pi l) (s.pi l) = 0 := by
      refine Finset.sum_eq_zero fun l hl => h.done l ?_ _ (h.perm.lt l ?_)
      · exact (Finset.mem_Ico.mp hl).2
      · exact lt_of_lt_of_le (Finset.mem_Ico.mp hl).2 h.le
    rw [this, zero_add]
    refine Finset.sum_congr rfl fun l hl => (h.diag l (Finset.mem_Ico.mp hl).1 (Finset.mem_Ico.mp hl).2).symm
  have hm : s.m < N := by
    rcases Nat.lt_or_ge s.m N with c | c
    · exact c
    · rw [h.err, tr, Finset.Ico_eq_empty (by omega), Finset.sum_empty] at he
      exact absurd he (lt_irrefl _)
  obtain ⟨a1, a2, a3⟩ := argmax_spec (fun j => s.d (s.pi j)) s.m (N - s.m - 1)
  set i := argmax (fun j => s.d (s.pi j)) s.m (N - s.m - 1) with hi
  have hiN : i < N := by omega
  set pi := Cholesky.swap s.pi s.m i with hpi
  have hperm : Perm N pi := h.perm.swap s.m i hm hiN
  have pm : pi s.m = s.pi i := by simp [hpi, Cholesky.swap]
  have plt : ∀ l < s.m, pi l = s.pi l := by
    intro l hl
    rw [hpi]
    unfold Cholesky.swap
    rw [if_neg (by omega), if_neg (by omega)]
  have pge : ∀ l, s.m ≤ l → l < N → ∃ l', s.m ≤ l' ∧ l' < N ∧ pi l = s.pi l' := by
    intro l h1 h2
    rw [hpi]
    unfold Cholesky.swap
    split_ifs
    · exact ⟨i, a1, hiN, rfl⟩
    · exact ⟨s.m, le_refl _, hm, rfl⟩
    · exact ⟨l, h1, h2, rfl⟩
  have dd : ∀ l, s.m ≤ l → l < N → s.d (pi l) = E (pi l) (pi l) := by
    intro l h1 h2
    obtain ⟨l', b1, b2, b3⟩ := pge l h1 h2
    rw [b3]
    exact h.diag l' b1 b2
  have hpos : 0 < s.d (pi s.m) := by
    by_contra hc
    rw [pm] at hc
    have : ∑ l ∈ Finset.Ico s.m N, s.d (s.pi l) ≤ 0 := by
      refine Finset.sum_nonpos fun l hl => ?_
      rw [Finset.mem_Ico] at hl
      exact (a3 l hl.1 (by omega)).trans (not_lt.mp hc)
    rw [h.err, tr] at he
    linarith
  have hE0 : 0 < E (pi s.m) (pi s.m) := by rw [← dd s.m (le_refl _) hm]; exact hpos
  have hs0 : Real.sqrt (s.d (pi s.m)) ≠ 0 := (Real.sqrt_pos.mpr hpos).ne'
  have hpN : pi s.m < N := hperm.lt _ hm
  obtain ⟨b1, b2, b3⟩ := inner_spec V s pi hperm (N - s.m - 1) (by omega)
  set rd := inner V s pi (N - s.m - 1) with hrd
  have hr : ∀ j < N, rd.1 j * Real.sqrt (s.d (pi s.m)) = E (pi s.m) j := by
    intro j hj
    obtain ⟨l, hl, rfl⟩ := hperm.surj j hj
    rcases lt_trichotomy l s.m with c | c | c
    · rw [(b3 l hl (Or.inl c)).1, zero_mul]
      refine ((h.psd.symm _ hpN _ hj).trans ?_).symm
      rw [plt l c]
      exact h.done l c _ hpN
    · subst c
      rw [b1, ← sq, Real.sq_sqrt hpos.le, dd s.m (le_refl _) hm]
    · rw [(b2 l c (by omega)).1, div_mul_cancel₀ _ hs0]
      rfl
  have hres : ∀ i j, residual V (fun k => if k = s.m then rd.1 else s.R k) (s.m + 1) i j = E i j - rd.1 i * rd.1 j := by
    intro i j
    unfold residual
    rw [Finset.sum_range_succ, hE]
    dsimp only
    rw [if_pos rfl]
    unfold residual
    have : ∑ k ∈ Finset.range s.m, (if k = s.m then rd.1 else s.R k) i * (if k = s.m then rd.1 else s.R k) j =
        ∑ k ∈ Finset.range s.m, s.R k i * s.R k j := by
      refine Finset.sum_congr rfl fun k hk => ?_
      rw [if_neg (by have := Finset.mem_range.mp hk; omega)]
    rw [this]
    ring
  have hres' : residual V (fun k => if k = s.m then rd.1 else s.R k) (s.m + 1) = fun i j => E i j - rd.1 i * rd.1 j := by
    funext i j; exact hres i j
  have hpsd := psd_schur h.psd (pi s.m) hpN hE0 rd.1 (fun j hj => by
    rw [show residual V s.R s.m (pi s.m) (pi s.m) = s.d (pi s.m) from (dd s.m (le_refl _) hm).symm]; exact hr j hj)
  have hdone : ∀ l < s.m + 1, ∀ j < N, E (pi l) j - rd.1 (pi l) * rd.1 j = 0 := by
    intro l hl j hj
    rcases Nat.lt_or_ge l s.m with c | c
    · rw [(b3 l (by omega) (Or.inl c)).1, zero_mul, sub_zero, plt l c]
      exact h.done l c j hj
    · obtain rfl : l = s.m := by omega
      rw [b1, mul_comm, hr j hj, sub_self]
  have hdiag : ∀ l, s.m + 1 ≤ l → l < N → rd.2 (pi l) = E (pi l) (pi l) - rd.1 (pi l) * rd.1 (pi l) := by
    intro l h1 h2
    rw [(b2 l (by omega) (by omega)).2, dd l (by omega) h2, sq]
  refine ⟨{ d := rd.2, pi := pi, R := fun k => if k = s.m then rd.1 else s.R k, err := ∑ i ∈ Finset.Ico (s.m + 1) N, rd.2 (pi i), m := s.m + 1 },
    ?_, ?_, rfl⟩
  · unfold step
    rw [if_neg (by omega)]
    dsimp only
    rw [if_neg]
    rintro (c | ⟨c, _⟩)
    · exact absurd hpos (not_lt.mpr c.le)
    · exact absurd c hpos.ne'
  · refine ⟨hm, hperm, by rw [hres']; exact hpsd, fun l h1 h2 => by rw [hres]; exact hdiag l h1 h2, fun l hl j hj => by rw [hres]; exact hdone l hl j hj,
      fun k hk => ?_, ?_⟩
    · dsimp only at hk ⊢
      rcases Nat.lt_or_ge k s.m with c | c
      · rw [if_neg (by omega), plt k c]
        exact ⟨(h.tri k c).1, fun l hl => by rw [plt l (by omega)]; exact (h.tri k c).2 l hl⟩
      · obtain rfl : k = s.m := by omega
        rw [if_pos rfl]
        exact ⟨by rw [b1]; exact Real.sqrt_pos.mpr hpos, fun l hl => (b3 l (by omega) (Or.inl hl)).1⟩
    · dsimp only
      rw [hres', ← hperm.sum fun i => E i i - rd.1 i * rd.1 i, Finset.range_eq_Ico, ← Finset.sum_Ico_consecutive _ (Nat.zero_le _) hm]
      have : ∑ l ∈ Finset.Ico 0 (s.m + 1), (E (pi l) (pi l) - rd.1 (pi l) * rd.1 (pi l)) = 0 := by
        refine Finset.sum_eq_zero fun l hl => hdone l (Finset.mem_Ico.mp hl).2 _ (hperm.lt l ?_)
        have := (Finset.mem_Ico.mp hl).2
        omega
      rw [this, zero_add]
      exact Finset.sum_congr rfl fun l hl => hdiag l (Finset.mem_Ico.mp hl).1 (Finset.mem_Ico.mp hl).2

theorem inv_loop (N : ℕ) (V : ℕ → ℕ → ℝ) (tol : ℝ) (ht : 0 ≤ tol) (fuel : ℕ) (s : St) (h : Inv N V s) :
    ∃ t, loop N V tol fuel s = some t ∧ Inv N V t ∧ (t.err ≤ tol ∨ t.m = s.m + fuel) ∧ t.m ≤ s.m + fuel := by
  induction fuel generalizing s with
  | zero => exact ⟨s, rfl, h, Or.inr rfl, le_refl _⟩
  | succ fuel ih =>
    by_cases he : tol < s.err
    · obtain ⟨u, h1, h2, h3⟩ := inv_step N V s h (lt_of_le_of_lt ht he)
      obtain ⟨t, t1, t2, t3, t4⟩ := ih u h2
      refine ⟨t, by rw [loop, if_pos he, h1]; exact t1, t2, ?_, by omega⟩
      rcases t3 with t3 | t3
      · exact Or.inl t3
      · exact Or.inr (by omega)
    · exact ⟨s, by rw [loop, if_neg he], h, Or.inl (not_lt.mp he), by omega⟩

end Chol

open Cholesky Chol

/-- **C116.** For a positive semidefinite matrix the decomposition never takes the square root of a negative number nor divides by zero. It returns a
factor of at most `M` rows, and never more rows than columns, that is triangular along the pivots with positive pivot entries. What the product of the
factor with itself misses of the matrix is again positive semidefinite, vanishes in the rows of the pivots, has the reported error as its trace, and no
entry exceeds that error; the error is at most the tolerance unless `M` rows were used up. -/
theorem C116_cholesky_partial (N : ℕ) (V : ℕ → ℕ → ℝ) (hV : PSD N V) (M : ℕ) (tol : ℝ) (ht : 0 ≤ tol) :
    ∃ s, run N V M tol = some s ∧ s.m ≤ M ∧ s.m ≤ N ∧ Perm N s.pi ∧
      (∀ k < s.m, 0 < s.R k (s.pi k) ∧ ∀ l < k, s.R k (s.pi l) = 0) ∧
      PSD N (residual V s.R s.m) ∧ (∀ k < s.m, ∀ j < N, residual V s.R s.m (s.pi k) j = 0) ∧
      s.err = ∑ i ∈ Finset.range N, residual V s.R s.m i i ∧ (∀ i < N, ∀ j < N, |residual V s.R s.m i j| ≤ s.err) ∧
      (s.err ≤ tol ∨ s.m = M) := by
  obtain ⟨s, h1, h2, h3, h4⟩ := inv_loop N V tol ht M _ (inv_init N V hV)
  refine ⟨s, h1, by simpa using h4, h2.le, h2.perm, h2.tri, h2.psd, h2.done, h2.err, fun i hi j hj => ?_, by simpa using h3⟩
  rw [h2.err]
  exact entry_le_trace h2.psd i j hi hj

/-- **C116, default arguments.** With the default `M = N` the tolerance is always reached, and with tolerance zero the factorisation is exact. -/
theorem C116_cholesky_max_partial (N : ℕ) (V : ℕ → ℕ → ℝ) (hV : PSD N V) (M : ℕ) (hM : N ≤ M) (tol : ℝ) (ht : 0 ≤ tol) :
    ∃ s, run N V M tol = some s ∧ s.err ≤ tol ∧ ∀ i < N, ∀ j < N, |V i j - ∑ k ∈ Finset.range s.m, s.R k i * s.R k j| ≤ tol := by
  obtain ⟨s, h1, h2, h3, h4, _, _, h7, h8, h9, h10⟩ := C116_cholesky_partial N V hV M tol ht
  have he : s.err ≤ tol := by
    rcases h10 with h | h
    · exact h
    · have : s.err = 0 := by
        rw [h8]
        refine Finset.sum_eq_zero fun i hi => ?_
        obtain ⟨k, hk, rfl⟩ := h4.surj i (Finset.mem_range.mp hi)
        exact h7 k (by omega) _ (h4.lt k hk)
      rw [this]; exact ht
  exact ⟨s, h1, he, fun i hi j hj => (h9 i hi j hj).trans he⟩

/-- A positive semidefinite matrix of rank one, all of whose entries are 1, and its exact factorisation with the default number of rows. -/
example : ∃ s, run 3 (fun _ _ => 1) 3 0 = some s ∧ ∀ i < 3, ∀ j < 3, ∑ k ∈ Finset.range s.m, s.R k i * s.R k j = 1 := by
  have hp : PSD 3 fun _ _ => 1 := by
    refine ⟨fun _ _ _ _ => rfl, fun x => ?_⟩
    have : ∑ i ∈ Finset.range 3, ∑ j ∈ Finset.range 3, x i * x j * 1 = (∑ i ∈ Finset.range 3, x i) ^ 2 := by
      rw [sq, Finset.sum_mul_sum]; simp
    rw [this]
    positivity
  obtain ⟨s, h1, _, h3⟩ := C116_cholesky_max_partial 3 _ hp 3 (le_refl _) 0 (le_refl _)
  refine ⟨s, h1, fun i hi j hj => ?_⟩
  have := abs_nonpos_iff.mp (h3 i hi j hj)
  linarith

/-- A matrix with a negative diagonal entry is outside the hypothesis: the square root fails. -/
example : run 1 (fun _ _ => -1) 1 0 = none := by
  simp [run, loop, step, argmax, Cholesky.swap]

end Props
end HQCA
