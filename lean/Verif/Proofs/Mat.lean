import Verif.Spec.Mat

/-!
# Lemmas on matrices as operators
-/

namespace HQCA
variable {K : Type} [Field K]

theorem idx_lt (n : ℕ) (b : Cfg) : idx n b < 2 ^ n := by
  induction n with
  | zero => simp [idx]
  | succ n ih => rw [idx, pow_succ]; split <;> omega

theorem idx_congr (n : ℕ) (b b' : Cfg) (h : ∀ k < n, b k = b' k) : idx n b = idx n b' := by
  induction n with
  | zero => rfl
  | succ n ih => rw [idx, idx, ih (fun k hk => h k (by omega)), h n (by omega)]

theorem setBits_ge (n j : ℕ) (b : Cfg) (k : ℕ) (h : n ≤ k) : setBits n j b k = b k := by
  induction n generalizing j with
  | zero => rfl
  | succ n ih => rw [setBits, Function.update_of_ne (by omega), ih _ (by omega)]

theorem idx_setBits (n j : ℕ) (b : Cfg) (h : j < 2 ^ n) : idx n (setBits n j b) = j := by
  induction n generalizing j with
  | zero => simp at h; simp [idx, h]
  | succ n ih =>
    rw [idx, setBits, Function.update_self]
    rw [idx_congr n _ (setBits n (j / 2) b) (fun k hk => by rw [Function.update_of_ne (by omega)]),
      ih _ (by rw [pow_succ] at h; omega)]
    by_cases hj : j % 2 = 1
    · simp [hj]; omega
    · simp [hj]; omega

theorem setBits_congr (n j : ℕ) (b b' : Cfg) (h : ∀ k, n ≤ k → b k = b' k) : setBits n j b = setBits n j b' := by
  induction n generalizing j b b' with
  | zero => exact funext (fun k => h k (by omega))
  | succ n ih =>
    funext k
    rw [setBits, setBits]
    by_cases hk : k = n
    · subst hk; simp
    · rw [Function.update_of_ne hk, Function.update_of_ne hk]
      by_cases hlt : k < n
      · have e : ∀ c : Cfg, setBits n (j/2) (Function.update c n false) k = setBits n (j/2) c k := by
          intro c
          have : ∀ m (i : ℕ) (c c' : Cfg) k, k < m → setBits m i c k = setBits m i c' k := by
            intro m
            induction m with
            | zero => intro i c c' k hk; omega
            | succ m ih2 =>
              intro i c c' k hk
              rw [setBits, setBits]
              by_cases hkm : k = m
              · subst hkm; simp
              · rw [Function.update_of_ne hkm, Function.update_of_ne hkm]
                exact ih2 _ _ _ _ (by omega)
          exact this n _ _ _ k hlt
        rw [← e b, ← e b', ih (j/2) (Function.update b n false) (Function.update b' n false) (by
          intro k' hk'
          by_cases h' : k' = n
          · subst h'; simp
          · rw [Function.update_of_ne h', Function.update_of_ne h']; exact h k' (by omega))]
      · rw [setBits_ge _ _ _ _ (by omega), setBits_ge _ _ _ _ (by omega)]
        exact h k (by omega)

theorem setBits_setBits (n i j : ℕ) (b : Cfg) : setBits n j (setBits n i b) = setBits n j b :=
  setBits_congr n j _ _ (fun k hk => setBits_ge n i b k hk)

theorem setBits_idx (n : ℕ) (b : Cfg) : setBits n (idx n b) b = b := by
  induction n with
  | zero => rfl
  | succ n ih =>
    rw [setBits, idx]
    have h1 : (2 * idx n b + (if b n then 1 else 0)) / 2 = idx n b := by split <;> omega
    rw [h1, ih]
    have h2 : decide ((2 * idx n b + (if b n then 1 else 0)) % 2 = 1) = b n := by
      cases hb : b n <;> simp
    rw [h2, Function.update_eq_self]

/-- Product of matrices of size `N`. -/
theorem ofMat_mul (n : ℕ) (A B : ℕ → ℕ → K) :
    ofMat n (fun i j => ∑ k ∈ Finset.range (2 ^ n), A i k * B k j) = ofMat n A * ofMat n B := by
  ext ψ b
  rw [Module.End.mul_apply, ofMat_apply, ofMat_apply]
  simp only [ofMat_apply, setBits_setBits, Finset.sum_mul, Finset.mul_sum]
  rw [Finset.sum_comm]
  apply Finset.sum_congr rfl
  intro k hk
  apply Finset.sum_congr rfl
  intro j _
  rw [idx_setBits n k b (Finset.mem_range.mp hk)]
  ring

theorem ofMat_add (n : ℕ) (A B : ℕ → ℕ → K) : ofMat n (fun i j => A i j + B i j) = ofMat n A + ofMat n B := by
  ext ψ b
  simp [ofMat_apply, add_mul, Finset.sum_add_distrib]

theorem ofMat_smul (n : ℕ) (c : K) (A : ℕ → ℕ → K) : ofMat n (fun i j => A i j * c) = c • ofMat n A := by
  ext ψ b
  simp only [ofMat_apply, LinearMap.smul_apply, Pi.smul_apply, smul_eq_mul, Finset.mul_sum]
  apply Finset.sum_congr rfl
  intro j _; ring

theorem ofMat_zero (n : ℕ) : ofMat n (fun _ _ => (0 : K)) = 0 := by
  ext ψ b
  simp [ofMat_apply]

theorem ofMat_congr (n : ℕ) (A B : ℕ → ℕ → K) (h : ∀ i < 2 ^ n, ∀ j < 2 ^ n, A i j = B i j) :
    ofMat n A = ofMat n B := by
  ext ψ b
  rw [ofMat_apply, ofMat_apply]
  apply Finset.sum_congr rfl
  intro j hj
  rw [h _ (idx_lt n b) _ (Finset.mem_range.mp hj)]

theorem sum_range_double {M : Type} [AddCommMonoid M] (m : ℕ) (f : ℕ → M) :
    ∑ j ∈ Finset.range (2 * m), f j = ∑ j ∈ Finset.range m, (f (2 * j) + f (2 * j + 1)) := by
  induction m with
  | zero => simp
  | succ m ih =>
    rw [show 2 * (m + 1) = 2 * m + 1 + 1 by ring, Finset.sum_range_succ, Finset.sum_range_succ, ih,
      Finset.sum_range_succ, add_assoc]

/-- Bit value of an index. -/
def bit1 (j : ℕ) : Bool := decide (j % 2 = 1)

theorem ofMat_kron (n : ℕ) (A : ℕ → ℕ → K) (g : M2 K) :
    ofMat (n + 1) (fun i j => A (i / 2) (j / 2) * g (bit1 i) (bit1 j)) = ofMat n A * site n g := by
  ext ψ b
  rw [Module.End.mul_apply, ofMat_apply, ofMat_apply, pow_succ, mul_comm (2 ^ n) 2, sum_range_double]
  apply Finset.sum_congr rfl
  intro j hj
  have h1 : idx (n + 1) b / 2 = idx n b := by rw [idx]; split <;> omega
  have h2 : bit1 (idx (n + 1) b) = b n := by
    rw [idx, bit1]; cases hb : b n <;> simp
  have h3 : (2 * j) / 2 = j := by omega
  have h4 : (2 * j + 1) / 2 = j := by omega
  have h5 : bit1 (2 * j) = false := by simp [bit1]
  have h6 : bit1 (2 * j + 1) = true := by simp [bit1]
  simp only [h1, h2, h3, h4, h5, h6, site_apply, setBits, setBits_ge n j b n le_rfl]
  have h7 : decide (2 * j % 2 = 1) = false := by simp
  have h8 : decide ((2 * j + 1) % 2 = 1) = true := by simp
  rw [h7, h8]
  ring

theorem ofMat_one (n : ℕ) : ofMat n (fun i j => if i = j then (1 : K) else 0) = 1 := by
  ext ψ b
  rw [ofMat_apply]
  simp only [ite_mul, one_mul, zero_mul]
  rw [Finset.sum_ite_eq, if_pos (Finset.mem_range.mpr (idx_lt n b)), setBits_idx]
  rfl

theorem entry_ofMat (n : ℕ) (M : ℕ → ℕ → K) (i j : ℕ) (hi : i < 2 ^ n) (hj : j < 2 ^ n) :
    entry n (ofMat n M) i j = M i j := by
  unfold entry basisSt
  rw [ofMat_apply, idx_setBits n i _ hi]
  simp only [setBits_setBits]
  rw [Finset.sum_eq_single j]
  · rw [idx_setBits n j _ hj]; simp
  · intro k hk hne
    rw [idx_setBits n k _ (Finset.mem_range.mp hk), if_neg hne, mul_zero]
  · intro h; exact absurd (Finset.mem_range.mpr hj) h

/-- The matrix is determined by the operator. -/
theorem ofMat_inj (n : ℕ) (A B : ℕ → ℕ → K) (h : ofMat n A = ofMat n B) (i j : ℕ) (hi : i < 2 ^ n) (hj : j < 2 ^ n) :
    A i j = B i j := by
  rw [← entry_ofMat n A i j hi hj, h, entry_ofMat n B i j hi hj]

theorem entry_add (n : ℕ) (X Y : Oper K) (i j : ℕ) : entry n (X + Y) i j = entry n X i j + entry n Y i j := rfl
theorem entry_smul (n : ℕ) (c : K) (X : Oper K) (i j : ℕ) : entry n (c • X) i j = c * entry n X i j := rfl
theorem entry_zero (n : ℕ) (i j : ℕ) : entry n (0 : Oper K) i j = 0 := rfl

end HQCA
