import Verif.Model.Reorder
import Mathlib.Algebra.BigOperators.Group.List.Basic
import Mathlib.Algebra.BigOperators.Ring.Finset
import Mathlib.Algebra.Order.Ring.Rat
import Mathlib.Logic.Equiv.Basic
import Mathlib.Tactic

/-!
# C138: ordering the natural orbitals by occupation
-/

namespace HQCA.Props
open HQCA HQCA.Reorder
variable {F : Type} [Field F] [LinearOrder F]

theorem reorder_sum (g : ℕ → F) (n : ℕ) : ((List.range n).map g).sum = ∑ k ∈ Finset.range n, g k := by
  induction n with
  | zero => rfl
  | succ n ih => rw [List.range_succ, List.map_append, List.sum_append, ih, Finset.sum_range_succ]; simp

theorem mem_reorder_pairs {n : ℕ} {p : ℕ × ℕ} : p ∈ pairs n ↔ p.1 < p.2 ∧ p.2 < n := by
  unfold pairs
  simp only [List.mem_flatMap, List.mem_range, List.mem_map, List.mem_range'_1]
  constructor
  · rintro ⟨i, hi, j, ⟨h1, h2⟩, rfl⟩
    exact ⟨by simp only; omega, by simp only; omega⟩
  · rintro ⟨h1, h2⟩
    exact ⟨p.1, by omega, p.2, ⟨by omega, by omega⟩, rfl⟩

/-- The signed permutation a matrix stands for. -/
def IsSigned (n : ℕ) (T : ℕ → ℕ → F) (σ : Equiv.Perm ℕ) (ε : ℕ → F) : Prop :=
  (∀ k, k < n ↔ σ k < n) ∧ (∀ k, ε k * ε k = 1) ∧ ∀ a < n, ∀ b < n, T a b = if a = σ b then ε b else 0

theorem temp_mul (n i j : ℕ) (hij : i < j) (hj : j < n) (T : ℕ → ℕ → F) (σ : Equiv.Perm ℕ) (ε : ℕ → F) (h : IsSigned n T σ ε) :
    IsSigned n (mul n (temp i j) T) (Equiv.swap i j * σ) fun b => if σ b = j then - ε b else ε b := by
  obtain ⟨h1, h2, h3⟩ := h
  refine ⟨fun k => ?_, fun k => ?_, fun a ha b hb => ?_⟩
  · rw [h1 k, Equiv.Perm.mul_apply, Equiv.swap_apply_def]
    split_ifs <;> omega
  · simp only
    split_ifs
    · rw [neg_mul_neg, h2]
    · exact h2 k
  · have hs : σ b < n := (h1 b).mp hb
    have e : mul n (temp i j) T a b = temp i j a (σ b) * ε b := by
      unfold mul
      rw [reorder_sum, Finset.sum_eq_single (σ b)]
      · rw [h3 _ hs _ hb, if_pos rfl]
      · intro k hk hne
        rw [h3 k (Finset.mem_range.mp hk) b hb, if_neg hne, mul_zero]
      · intro hn; exact absurd (Finset.mem_range.mpr hs) hn
    rw [e, Equiv.Perm.mul_apply, Equiv.swap_apply_def]
    unfold temp
    beta_reduce
    generalize σ b = s
    have hne : i ≠ j := hij.ne
    by_cases hsi : s = i
    · subst hsi
      rw [if_pos rfl, if_neg hne]
      by_cases haj : a = j
      · subst haj; simp [hne, Ne.symm hne]
      · by_cases hai : a = s
        · subst hai; simp [haj]
        · simp [haj, hai]
    · rw [if_neg hsi]
      by_cases hsj : s = j
      · subst hsj
        rw [if_pos rfl, if_pos rfl]
        by_cases hai : a = i
        · subst hai; simp [hne, Ne.symm hne]
        · by_cases haj : a = s <;> simp [hai, haj, Ne.symm hne]
      · rw [if_neg hsj, if_neg hsj]
        by_cases has : a = s
        · subst has; simp [hsi, hsj]
        · simp [has, hsi, hsj]

/-- The permutation accumulated over a list of pairs. -/
def accPerm (d : ℕ → F) (L : List (ℕ × ℕ)) (σ : Equiv.Perm ℕ) : Equiv.Perm ℕ :=
  L.foldl (fun σ p => if d p.1 ≥ d p.2 then σ else Equiv.swap p.1 p.2 * σ) σ

theorem fold_signed (rdm1 : ℕ → ℕ → F) (n : ℕ) (L : List (ℕ × ℕ)) (hL : ∀ p ∈ L, p.1 < p.2 ∧ p.2 < n) (T : ℕ → ℕ → F) (σ : Equiv.Perm ℕ) (ε : ℕ → F)
    (h : IsSigned n T σ ε) : ∃ ε', IsSigned n (L.foldl (step rdm1 n) T) (accPerm (fun k => rdm1 k k) L σ) ε' := by
  induction L generalizing T σ ε with
  | nil => exact ⟨ε, h⟩
  | cons p L ih =>
    obtain ⟨h1, h2⟩ := hL p List.mem_cons_self
    have hL' := fun q hq => hL q (List.mem_cons_of_mem _ hq)
    unfold accPerm
    rw [List.foldl_cons, List.foldl_cons]
    unfold step
    split_ifs with hc
    · exact ih hL' T σ ε h
    · exact ih hL' _ _ _ (temp_mul n p.1 p.2 h1 h2 T σ ε h)

theorem reorder_signed (rdm1 : ℕ → ℕ → F) (n : ℕ) :
    ∃ ε, IsSigned n (reorder rdm1 n) (accPerm (fun k => rdm1 k k) (pairs n) 1) ε := by
  refine fold_signed rdm1 n (pairs n) (fun p hp => mem_reorder_pairs.mp hp) _ 1 (fun _ => 1) ⟨fun k => ?_, fun _ => by simp, fun a _ b _ => ?_⟩
  · simp
  · rfl

/-- The matrix in the new order is the old one with rows and columns permuted and signed. -/
theorem reordered_entry (rdm1 : ℕ → ℕ → F) (n : ℕ) :
    ∃ ε : ℕ → F, (∀ k, ε k * ε k = 1) ∧ ∀ a < n, ∀ b < n, let σ := accPerm (fun k => rdm1 k k) (pairs n) 1
      reordered rdm1 n a b = ε a * ε b * rdm1 (σ a) (σ b) := by
  obtain ⟨ε, h1, h2, h3⟩ := reorder_signed rdm1 n
  refine ⟨ε, h2, fun a ha b hb => ?_⟩
  intro σ
  have hsa : σ a < n := (h1 a).mp ha
  have hsb : σ b < n := (h1 b).mp hb
  unfold reordered
  simp only [mul, reorder_sum]
  rw [Finset.sum_eq_single (σ b)]
  · rw [h3 _ hsb b hb, if_pos rfl, Finset.sum_eq_single (σ a)]
    · rw [h3 _ hsa a ha, if_pos rfl]; ring
    · intro k hk hne
      rw [h3 k (Finset.mem_range.mp hk) a ha, if_neg hne, zero_mul]
    · intro hn; exact absurd (Finset.mem_range.mpr hsa) hn
  · intro k hk hne
    rw [h3 k (Finset.mem_range.mp hk) b hb, if_neg hne, mul_zero]
  · intro hn; exact absurd (Finset.mem_range.mpr hsb) hn

/-- **C138, the transformation.**  For every matrix and size the transformation returned is orthogonal, and the transformed matrix is the old one with the orbitals in
another order, up to their signs; in particular its diagonal holds the same occupations. -/
theorem C138_orthogonal (rdm1 : ℕ → ℕ → F) (n : ℕ) :
    (∀ a < n, ∀ b < n, ∑ k ∈ Finset.range n, reorder rdm1 n k a * reorder rdm1 n k b = if a = b then 1 else 0) ∧
    ∃ (σ : Equiv.Perm ℕ) (ε : ℕ → F), (∀ k, k < n ↔ σ k < n) ∧ (∀ k, ε k * ε k = 1) ∧
      ∀ a < n, ∀ b < n, reordered rdm1 n a b = ε a * ε b * rdm1 (σ a) (σ b) := by
  obtain ⟨ε, h1, h2, h3⟩ := reorder_signed rdm1 n
  constructor
  · intro a ha b hb
    have hsa := (h1 a).mp ha
    rw [Finset.sum_eq_single (accPerm (fun k => rdm1 k k) (pairs n) 1 a)]
    · rw [h3 _ hsa a ha, if_pos rfl, h3 _ hsa b hb]
      by_cases h : a = b
      · subst h; rw [if_pos rfl, if_pos rfl, h2]
      · rw [if_neg h, if_neg (fun e => h (Equiv.injective _ e)), mul_zero]
    · intro k hk hne
      rw [h3 k (Finset.mem_range.mp hk) a ha, if_neg hne, zero_mul]
    · intro hn; exact absurd (Finset.mem_range.mpr hsa) hn
  · obtain ⟨ε', e1, e2⟩ := reordered_entry rdm1 n
    exact ⟨_, ε', h1, e1, e2⟩

theorem accPerm_filter (d : ℕ → F) (L : List (ℕ × ℕ)) (σ : Equiv.Perm ℕ) :
    accPerm d L σ = (L.filter fun p => decide (d p.1 < d p.2)).foldl (fun σ p => Equiv.swap p.1 p.2 * σ) σ := by
  induction L generalizing σ with
  | nil => rfl
  | cons p L ih =>
    unfold accPerm at ih ⊢
    rw [List.foldl_cons]
    by_cases h : d p.1 < d p.2
    · rw [List.filter_cons_of_pos (by simpa using h), List.foldl_cons, if_neg (not_le.mpr h), ih]
    · rw [List.filter_cons_of_neg (by simpa using h), if_pos (not_lt.mp h), ih]

/-- The diagonal does not increase. -/
def Aufbau (n : ℕ) (D : ℕ → ℕ → F) : Prop := ∀ a b, a < b → b < n → D b b ≤ D a a

theorem reordered_diag (rdm1 : ℕ → ℕ → F) (n a : ℕ) (ha : a < n) :
    reordered rdm1 n a a = let σ := accPerm (fun k => rdm1 k k) (pairs n) 1; rdm1 (σ a) (σ a) := by
  obtain ⟨ε, h1, h2⟩ := reordered_entry rdm1 n
  rw [h2 a ha a ha, h1, one_mul]

/-- **C138, ordered input.**  Occupations that do not increase are left as they are, and the transformation is the identity. -/
theorem C138_ordered_partial (rdm1 : ℕ → ℕ → F) (n : ℕ) (h : Aufbau n rdm1) :
    Aufbau n (reordered rdm1 n) ∧ reorder rdm1 n = fun a b => if a = b then 1 else 0 := by
  have hL : ∀ (L : List (ℕ × ℕ)) (T : ℕ → ℕ → F), (∀ p ∈ L, p.1 < p.2 ∧ p.2 < n) → L.foldl (step rdm1 n) T = T := by
    intro L
    induction L with
    | nil => intro T _; rfl
    | cons p L ih =>
      intro T hp
      obtain ⟨h1, h2⟩ := hp p List.mem_cons_self
      rw [List.foldl_cons]
      have : step rdm1 n T p = T := by unfold step; rw [if_pos (h _ _ h1 h2)]
      rw [this]
      exact ih T fun q hq => hp q (List.mem_cons_of_mem _ hq)
  refine ⟨fun a b hab hb => ?_, hL _ _ fun p hp => mem_reorder_pairs.mp hp⟩
  have hf : accPerm (fun k => rdm1 k k) (pairs n) 1 = 1 := by
    rw [accPerm_filter, List.filter_eq_nil_iff.mpr]
    · rfl
    · intro p hp
      obtain ⟨h1, h2⟩ := mem_reorder_pairs.mp hp
      simpa using h _ _ h1 h2
  rw [reordered_diag rdm1 n a (by omega), reordered_diag rdm1 n b hb, hf]
  exact h a b hab hb

/-- **C138, two orbitals.**  The occupations of two orbitals come out in order. -/
theorem C138_two_partial (rdm1 : ℕ → ℕ → F) : Aufbau 2 (reordered rdm1 2) := by
  intro a b hab hb
  have ha0 : a = 0 := by omega
  have hb1 : b = 1 := by omega
  subst ha0 hb1
  rw [reordered_diag rdm1 2 0 (by omega), reordered_diag rdm1 2 1 (by omega)]
  have hp : pairs 2 = [(0, 1)] := by decide
  rw [hp]
  unfold accPerm
  simp only [List.foldl_cons, List.foldl_nil]
  split_ifs with h
  · exact h
  · simpa using (not_le.mp h).le

theorem inner_swaps (i m : ℕ) (σ : Equiv.Perm ℕ) (v : ℕ) :
    (((List.range' (i + 1) m).map fun j => (i, j)).foldl (fun (σ : Equiv.Perm ℕ) (p : ℕ × ℕ) => Equiv.swap p.1 p.2 * σ) σ) v =
      if i ≤ σ v ∧ σ v < i + m then σ v + 1 else if σ v = i + m then i else σ v := by
  induction m with
  | zero =>
    show σ v = _
    split_ifs <;> omega
  | succ m ih =>
    rw [List.range'_concat, List.map_append, List.foldl_append, List.map_cons, List.map_nil, List.foldl_cons, List.foldl_nil, Equiv.Perm.mul_apply, ih,
      Equiv.swap_apply_def]
    simp only [Nat.one_mul]
    split_ifs <;> omega

theorem all_swaps (n t : ℕ) (ht : t ≤ n) (v : ℕ) (hv : v < n) :
    (((List.range t).flatMap fun i => (List.range' (i + 1) (n - (i + 1))).map fun j => (i, j)).foldl
      (fun (σ : Equiv.Perm ℕ) (p : ℕ × ℕ) => Equiv.swap p.1 p.2 * σ) 1) v = if v + t ≤ n - 1 then v + t else n - 1 - v := by
  induction t with
  | zero => show v = _; split_ifs <;> omega
  | succ t ih =>
    rw [List.range_succ, List.flatMap_append, List.foldl_append, List.flatMap_cons, List.flatMap_nil, List.append_nil, inner_swaps, ih (by omega)]
    split_ifs <;> omega

/-- **C138, reversed input.**  Occupations in increasing order come out reversed, hence in the right order. -/
theorem C138_increasing_partial (rdm1 : ℕ → ℕ → F) (n : ℕ) (h : ∀ a b, a < b → b < n → rdm1 a a < rdm1 b b) :
    Aufbau n (reordered rdm1 n) ∧ ∀ a < n, reordered rdm1 n a a = rdm1 (n - 1 - a) (n - 1 - a) := by
  have hσ : ∀ v < n, accPerm (fun k => rdm1 k k) (pairs n) 1 v = n - 1 - v := by
    intro v hv
    rw [accPerm_filter, List.filter_eq_self.mpr]
    · unfold pairs
      rw [all_swaps n n le_rfl v hv, if_neg (by omega)]
    · intro p hp
      obtain ⟨h1, h2⟩ := mem_reorder_pairs.mp hp
      simpa using h _ _ h1 h2
  have hd : ∀ a < n, reordered rdm1 n a a = rdm1 (n - 1 - a) (n - 1 - a) := by
    intro a ha
    rw [reordered_diag rdm1 n a ha]
    simp only [hσ a ha]
  refine ⟨fun a b hab hb => ?_, hd⟩
  rw [hd a (by omega), hd b hb]
  exact (h _ _ (by omega) (by omega)).le

/-- The occupations of the counterexample: `2, 1, 3` and zeros. -/
def exOcc : ℕ → ℕ → ℚ := fun a b => if a = b then (if a = 0 then 2 else if a = 1 then 1 else if a = 2 then 3 else 0) else 0

theorem exOcc_pairs (n : ℕ) (hn : 3 ≤ n) : (pairs n).filter (fun p => decide (exOcc p.1 p.1 < exOcc p.2 p.2)) = [(0, 2), (1, 2)] := by
  obtain ⟨m, rfl⟩ : ∃ m, n = m + 3 := ⟨n - 3, by omega⟩
  have hbad : ∀ p : ℕ × ℕ, p.1 < p.2 → exOcc p.1 p.1 < exOcc p.2 p.2 → p = (0, 2) ∨ p = (1, 2) := by
    rintro ⟨i, j⟩ hij h
    simp only [exOcc, if_true] at h hij
    by_cases hj : j = 2
    · subst hj
      rcases Nat.lt_succ_iff_lt_or_eq.mp hij with h0 | h0
      · exact Or.inl (by rw [show i = 0 by omega])
      · exact Or.inr (by rw [h0])
    · exfalso
      by_cases hj1 : j = 1
      · have : i = 0 := by omega
        subst hj1 this; norm_num at h
      · have : j ≠ 0 := by omega
        simp only [hj, hj1, this, if_false] at h
        split_ifs at h <;> norm_num at h
  unfold pairs
  rw [List.filter_flatMap]
  have hr : List.range (m + 3) = 0 :: 1 :: (List.range (m + 1)).map (· + 2) := by
    rw [List.range_succ_eq_map, List.range_succ_eq_map, List.map_cons, List.map_map]
    rfl
  rw [hr, List.flatMap_cons, List.flatMap_cons]
  have h0 : ((List.range' (0 + 1) (m + 3 - (0 + 1))).map fun j => ((0 : ℕ), j)).filter (fun p => decide (exOcc p.1 p.1 < exOcc p.2 p.2)) = [(0, 2)] := by
    have : List.range' (0 + 1) (m + 3 - (0 + 1)) = 1 :: 2 :: List.range' 3 m := by
      have : m + 3 - (0 + 1) = m + 2 := by omega
      rw [this]; rfl
    rw [this, List.map_cons, List.map_cons, List.filter_cons_of_neg (by norm_num [exOcc]), List.filter_cons_of_pos (by norm_num [exOcc]), List.filter_eq_nil_iff.mpr]
    intro p hp
    obtain ⟨j, hj, rfl⟩ := List.mem_map.mp hp
    have := (List.mem_range'_1.mp hj).1
    intro hc
    rcases hbad (0, j) (by simp only; omega) (of_decide_eq_true hc) with h | h
    · have := congrArg Prod.snd h; simp only at this; omega
    · exact absurd (congrArg Prod.fst h) (by norm_num)
  have h1 : ((List.range' (1 + 1) (m + 3 - (1 + 1))).map fun j => ((1 : ℕ), j)).filter (fun p => decide (exOcc p.1 p.1 < exOcc p.2 p.2)) = [(1, 2)] := by
    have : List.range' (1 + 1) (m + 3 - (1 + 1)) = 2 :: List.range' 3 m := by
      have : m + 3 - (1 + 1) = m + 1 := by omega
      rw [this]; rfl
    rw [this, List.map_cons, List.filter_cons_of_pos (by norm_num [exOcc]), List.filter_eq_nil_iff.mpr]
    intro p hp
    obtain ⟨j, hj, rfl⟩ := List.mem_map.mp hp
    have := (List.mem_range'_1.mp hj).1
    intro hc
    rcases hbad (1, j) (by simp only; omega) (of_decide_eq_true hc) with h | h
    · exact absurd (congrArg Prod.fst h) (by norm_num)
    · have := congrArg Prod.snd h; simp only at this; omega
  rw [h0, h1]
  have h2 : ((List.range (m + 1)).map (· + 2)).flatMap (fun i => ((List.range' (i + 1) (m + 3 - (i + 1))).map fun j => (i, j)).filter
      (fun p => decide (exOcc p.1 p.1 < exOcc p.2 p.2))) = [] := by
    rw [List.flatMap_eq_nil_iff]
    intro i hi
    obtain ⟨k, _, rfl⟩ := List.mem_map.mp hi
    rw [List.filter_eq_nil_iff]
    intro p hp
    obtain ⟨j, hj, rfl⟩ := List.mem_map.mp hp
    have := (List.mem_range'_1.mp hj).1
    intro hc
    rcases hbad (k + 2, j) (by simp only; omega) (of_decide_eq_true hc) with h | h
    · have := congrArg Prod.fst h; simp only at this; omega
    · have := congrArg Prod.fst h; simp only at this; omega
  rw [h2]; rfl

/-- **C138 fails** for three or more orbitals: the occupations `2, 1, 3, 0, ...` come out as `1, 3, 2, 0, ...`. -/
theorem C138_fails (n : ℕ) (hn : 3 ≤ n) :
    reordered exOcc n 0 0 = 1 ∧ reordered exOcc n 1 1 = 3 ∧ reordered exOcc n 2 2 = 2 ∧ ¬ Aufbau n (reordered exOcc n) := by
  have hσ : accPerm (fun k => exOcc k k) (pairs n) 1 = Equiv.swap 1 2 * (Equiv.swap 0 2 * 1) := by
    rw [accPerm_filter, exOcc_pairs n hn]; rfl
  have v0 : (Equiv.swap 1 2 * (Equiv.swap 0 2 * 1) : Equiv.Perm ℕ) 0 = 1 := by decide
  have v1 : (Equiv.swap 1 2 * (Equiv.swap 0 2 * 1) : Equiv.Perm ℕ) 1 = 2 := by decide
  have v2 : (Equiv.swap 1 2 * (Equiv.swap 0 2 * 1) : Equiv.Perm ℕ) 2 = 0 := by decide
  have e0 : reordered exOcc n 0 0 = 1 := by
    rw [reordered_diag exOcc n 0 (by omega), hσ]; simp only [v0]; norm_num [exOcc]
  have e1 : reordered exOcc n 1 1 = 3 := by
    rw [reordered_diag exOcc n 1 (by omega), hσ]; simp only [v1]; norm_num [exOcc]
  have e2 : reordered exOcc n 2 2 = 2 := by
    rw [reordered_diag exOcc n 2 (by omega), hσ]; simp only [v2]; norm_num [exOcc]
  refine ⟨e0, e1, e2, fun h => ?_⟩
  have := h 0 1 (by omega) (by omega)
  rw [e0, e1] at this
  norm_num at this

/-- Ordered occupations exist. -/
example : Aufbau 3 (fun a b => if a = b then (3 - a : ℚ) else 0) := by
  intro a b hab hb
  simp only [if_true]
  have : (a : ℚ) ≤ b := by exact_mod_cast hab.le
  linarith

end HQCA.Props
