import Verif.Model.QubitHam
import Verif.Proofs.Circ
import Verif.Proofs.PTracePauli
import Verif.Props.Matrix

/-!
# Property C107: the matrix and ground energy of a qubit Hamiltonian
-/

namespace HQCA.Props
open MatTools Circ QubitHam

section
variable {K : Type} [Coef K]

/-- The string cut or filled with identities to length `n`. -/
def padTo : ℕ → PStr → PStr
  | 0, _ => []
  | n+1, [] => PL.I :: padTo n []
  | n+1, p :: s => p :: padTo n s

theorem padTo_length (n : ℕ) (s : PStr) : (padTo n s).length = n := by
  induction n generalizing s with
  | zero => rfl
  | succ n ih => cases s <;> simp [padTo, ih]

theorem denP_allI (k : ℕ) (s : PStr) (h : ∀ x ∈ s, x = PL.I) : (denP k s : Oper K) = 1 := by
  induction s generalizing k with
  | nil => rfl
  | cons p s ih =>
    rw [denP, ih _ (fun x hx => h x (by simp [hx])), h p (by simp), pmat, site_one, one_mul]

theorem denP_padTo (n k : ℕ) (s : PStr) (h : fits n s = true) : (denP k (padTo n s) : Oper K) = denP k s := by
  induction n generalizing k s with
  | zero =>
    rw [denP_allI k s]
    · rfl
    · simpa [fits] using h
  | succ n ih =>
    cases s with
    | nil =>
      have e : (denP k (padTo (n+1) []) : Oper K) = site k (pmat PL.I) * denP (k+1) (padTo n []) := rfl
      rw [e, ih (k+1) [] (by simp [fits]), pmat, site_one, one_mul]; rfl
    | cons p s => rw [padTo, denP, denP, ih _ _ (by simpa [fits] using h)]

theorem pauliCirc_skip (n k : ℕ) (s : PStr) (h : ∀ x ∈ s, x = PL.I) (m : Mat K) :
    (s.zipIdx k).foldl (pauliGate n) m = m := by
  induction s generalizing k with
  | nil => rfl
  | cons p s ih =>
    rw [List.zipIdx_cons, List.foldl_cons, show pauliGate n m (p, k) = m by
      rw [h p (by simp)]; rfl, ih _ (fun x hx => h x (by simp [hx]))]

theorem pauliCirc_fits (n : ℕ) (s : PStr) (h : fits n s = true) : ofMat n (pauliCirc n s : Mat K) = denP 0 s := by
  have hd : ∀ x ∈ s.drop n, x = PL.I := by simpa [fits] using h
  have e : (s.zipIdx 0).foldl (pauliGate n) (ident : Mat K) = ((s.take n).zipIdx 0).foldl (pauliGate n) ident := by
    conv_lhs => rw [← List.take_append_drop n s, List.zipIdx_append, List.foldl_append]
    exact pauliCirc_skip n _ _ hd _
  unfold pauliCirc
  rw [e, pauliCirc_from n 0 _ (by simp), ofMat_ident, mul_one]
  have h2 : padTo n (s.take n) = padTo n s := by
    clear h hd e
    induction n generalizing s with
    | zero => rfl
    | succ n ih => cases s <;> simp [padTo, ih]
  rw [← denP_padTo n 0 s h, ← h2, denP_padTo n 0 _ (by simp [fits])]

/-- The matrix built from the Pauli strings is the matrix of the operator. -/
theorem matrixFromPauli_den (N : ℕ) (op : POp K) (h : ∀ t ∈ op, fits N t.1 = true) :
    ∃ M, matrixFromPauli N op = some M ∧ ofMat N M = denPO op := by
  refine ⟨_, if_pos (by simpa using h), ?_⟩
  have key : ∀ (B : POp K) (m : Mat K), (∀ u ∈ B, fits N u.1 = true) →
      ofMat N (B.foldl (fun m o => fun i j => m i j + o.2 * pauliCirc N o.1 i j) m) = ofMat N m + denPO B := by
    intro B
    induction B with
    | nil => intro m _; unfold denPO; rw [OpD.denD_nil, add_zero]; rfl
    | cons u B ih =>
      intro m hB
      have e : (fun i j => m i j + u.2 * pauliCirc N u.1 i j : Mat K) =
          fun i j => m i j + pauliCirc N u.1 i j * u.2 := by
        funext i j; rw [mul_comm]
      rw [List.foldl_cons, ih _ (fun v hv => hB v (by simp [hv])), e, ofMat_add N m, ofMat_smul,
        pauliCirc_fits N _ (hB u (by simp))]
      unfold denPO
      rw [OpD.denD_cons, add_assoc]
  rw [key op _ h, ofMat_zero, zero_add]

end

theorem pmat_conj (p : PL) (a b : Bool) : (starRingEnd ℂ) (pmat p a b : ℂ) = pmat p b a := by
  cases p <;> cases a <;> cases b <;> simp [pmat, mX, mY, mZ, Matrix.one_apply, Coef.I]

theorem entry_denPO_herm (N : ℕ) (op : POp ℂ) (h : ∀ t ∈ op, fits N t.1 = true) (hr : ∀ t ∈ op, t.2.im = 0)
    (i j : ℕ) (hi : i < 2 ^ N) (hj : j < 2 ^ N) :
    (starRingEnd ℂ) (entry N (denPO op) i j) = entry N (denPO op) j i := by
  induction op with
  | nil => simp [denPO, OpD.denD_nil, entry_zero]
  | cons t op ih =>
    have ih' := ih (fun u hu => h u (by simp [hu])) (fun u hu => hr u (by simp [hu]))
    unfold denPO at ih' ⊢
    rw [OpD.denD_cons, entry_add, entry_smul, entry_add, entry_smul, map_add, ih', map_mul,
      ← denP_padTo N 0 t.1 (h t (by simp)), PTrace.entry_denP N _ (padTo_length N _) i j hi hj,
      PTrace.entry_denP N _ (padTo_length N _) j i hj hi, map_prod, Complex.conj_eq_iff_im.mpr (hr t (by simp))]
    simp only [pmat_conj]

/-- Energy of the vector `ψ` of length `2^N` under the operator `X`. -/
noncomputable def energyOf (N : ℕ) (X : Oper ℂ) (ψ : ℕ → ℂ) : ℂ :=
  ∑ i ∈ Finset.range (2 ^ N), ∑ j ∈ Finset.range (2 ^ N), (starRingEnd ℂ) (ψ i) * entry N X i j * ψ j

/-- Squared length of the vector `ψ` of length `2^N`. -/
noncomputable def sqNorm (N : ℕ) (ψ : ℕ → ℂ) : ℝ := ∑ i ∈ Finset.range (2 ^ N), ‖ψ i‖ ^ 2

open Matrix in
/-- Rayleigh's bound for a Hermitian matrix. -/
theorem rayleigh {n : ℕ} {A : Matrix (Fin n) (Fin n) ℂ} (hA : A.IsHermitian) (e : ℝ) (he : ∀ i, e ≤ hA.eigenvalues i)
    (v : Fin n → ℂ) : e * ∑ i, ‖v i‖ ^ 2 ≤ (star v ⬝ᵥ (A *ᵥ v)).re := by
  set U : Matrix (Fin n) (Fin n) ℂ := (hA.eigenvectorUnitary : Matrix (Fin n) (Fin n) ℂ) with hU
  have hUU : U * star U = 1 := Unitary.coe_mul_star_self hA.eigenvectorUnitary
  have hs : A = U * diagonal (RCLike.ofReal ∘ hA.eigenvalues) * star U := by
    have := hA.spectral_theorem
    rw [Unitary.conjStarAlgAut_apply] at this
    exact this
  set w := star U *ᵥ v with hw
  have hwn : star w ⬝ᵥ w = star v ⬝ᵥ v := by
    rw [hw, Matrix.star_mulVec, ← Matrix.dotProduct_mulVec, Matrix.mulVec_mulVec]
    rw [show (star U)ᴴ = U from star_star U, hUU, Matrix.one_mulVec]
  have hen : star v ⬝ᵥ (A *ᵥ v) = star w ⬝ᵥ (diagonal (RCLike.ofReal ∘ hA.eigenvalues) *ᵥ w) := by
    conv_lhs => rw [hs]
    rw [← Matrix.mulVec_mulVec, ← Matrix.mulVec_mulVec, hw, Matrix.star_mulVec, ← Matrix.dotProduct_mulVec,
      show (star U)ᴴ = U from star_star U]
  have hn : ∀ u : Fin n → ℂ, (star u ⬝ᵥ u) = ((∑ i, ‖u i‖ ^ 2 : ℝ) : ℂ) := by
    intro u
    simp only [dotProduct, Pi.star_apply, RCLike.star_def, Complex.ofReal_sum, Complex.ofReal_pow]
    exact Finset.sum_congr rfl (fun i _ => Complex.conj_mul' _)
  have hwv : ∑ i, ‖v i‖ ^ 2 = ∑ i, ‖w i‖ ^ 2 := by
    have := hwn
    rw [hn, hn] at this
    exact_mod_cast this.symm
  have hd : (star w ⬝ᵥ (diagonal (RCLike.ofReal ∘ hA.eigenvalues) *ᵥ w)).re =
      ∑ i, hA.eigenvalues i * ‖w i‖ ^ 2 := by
    simp only [dotProduct, mulVec_diagonal, Pi.star_apply, RCLike.star_def, Complex.re_sum, Function.comp]
    refine Finset.sum_congr rfl (fun i _ => ?_)
    rw [mul_left_comm, Complex.conj_mul']
    rw [← Complex.ofReal_pow]
    exact (Complex.re_ofReal_mul _ _).trans (by rw [Complex.ofReal_re]; rfl)
  rw [hen, hd, hwv, Finset.mul_sum]
  exact Finset.sum_le_sum (fun i _ => mul_le_mul_of_nonneg_right (he i) (by positivity))

/-- **C107.** Build a qubit Hamiltonian from a Pauli operator with real coefficients whose letters all lie on the
`N` qubits, and with `order` equal to `qubits`.  Its matrix is the matrix of the operator.  The energy `ef` it
reports bounds the energy of every state from below, and is the energy of some state, an eigenvector. -/
theorem C107_ground (N : ℕ) (op : POp ℂ) (h : ∀ t ∈ op, fits N t.1 = true) (hr : ∀ t ∈ op, t.2.im = 0) :
    ∃ M e, make N N op = some (M, e) ∧ ofMat N M = denPO op ∧
      (∀ i < 2 ^ N, ∀ j < 2 ^ N, M i j = entry N (denPO op) i j) ∧
      (∀ ψ, e * sqNorm N ψ ≤ (energyOf N (denPO op) ψ).re) ∧
      ∃ ψ, sqNorm N ψ = 1 ∧ energyOf N (denPO op) ψ = e ∧
        ∀ i < 2 ^ N, ∑ j ∈ Finset.range (2 ^ N), entry N (denPO op) i j * ψ j = e * ψ i := by
  obtain ⟨M, h1, h2⟩ := matrixFromPauli_den N op h
  have hM : ∀ i < 2 ^ N, ∀ j < 2 ^ N, M i j = entry N (denPO op) i j := by
    intro i hi j hj
    rw [← h2, entry_ofMat N M i j hi hj]
  have hL : ∀ i j : Fin (2 ^ N), lower (2 ^ N) M i j = M i j := by
    intro i j
    have hh : (starRingEnd ℂ) (M j i) = M i j := by
      rw [hM _ j.2 _ i.2, hM _ i.2 _ j.2]
      exact entry_denPO_herm N op h hr _ _ j.2 i.2
    unfold lower
    split
    · rfl
    · split
      · rename_i _ e
        subst e
        exact Complex.conj_eq_iff_re.mp hh
      · exact hh
  refine ⟨M, ef N M, by simp [make, h1], h2, hM, ?_, ?_⟩
  · intro ψ
    have := rayleigh (lower_herm (2 ^ N) M) (ef N M)
      (fun i => by unfold ef; rw [add_zero]; exact Finset.inf'_le _ (Finset.mem_univ i)) (fun i => ψ i)
    have e1 : sqNorm N ψ = ∑ i : Fin (2 ^ N), ‖ψ i‖ ^ 2 := Finset.sum_range (fun i => ‖ψ i‖ ^ 2)
    have e2 : energyOf N (denPO op) ψ =
        dotProduct (star fun i : Fin (2 ^ N) => ψ i) (Matrix.mulVec (lower (2 ^ N) M) fun i => ψ i) := by
      unfold energyOf
      rw [Finset.sum_range]
      refine Finset.sum_congr rfl (fun i _ => ?_)
      rw [Finset.sum_range, Matrix.mulVec, dotProduct, Finset.mul_sum]
      refine Finset.sum_congr rfl (fun j _ => ?_)
      rw [hL, hM _ i.2 _ j.2, mul_assoc]
      rfl
    rw [e1, e2]; exact this
  · obtain ⟨k, _, hk⟩ := Finset.exists_mem_eq_inf' (s := (Finset.univ : Finset (Fin (2 ^ N))))
      ⟨⟨0, Nat.two_pow_pos N⟩, Finset.mem_univ _⟩ (lower_herm (2 ^ N) M).eigenvalues
    have hk' : ef N M = (lower_herm (2 ^ N) M).eigenvalues k := by unfold ef; rw [add_zero, hk]
    have hev := (lower_herm (2 ^ N) M).mulVec_eigenvectorBasis k
    set v : Fin (2 ^ N) → ℂ := ⇑((lower_herm (2 ^ N) M).eigenvectorBasis k) with hv
    have hnorm : ∑ i, ‖v i‖ ^ 2 = 1 := by
      have := (lower_herm (2 ^ N) M).eigenvectorBasis.orthonormal.1 k
      rw [EuclideanSpace.norm_eq, Real.sqrt_eq_one] at this
      exact this
    let ψ : ℕ → ℂ := fun i => if hi : i < 2 ^ N then v ⟨i, hi⟩ else 0
    have hψ : ∀ i : Fin (2 ^ N), ψ i = v i := fun i => by simp [ψ]
    have hrow : ∀ i < 2 ^ N, ∑ j ∈ Finset.range (2 ^ N), entry N (denPO op) i j * ψ j = ef N M * ψ i := by
      intro i hi
      have := congrFun hev ⟨i, hi⟩
      rw [Finset.sum_range, hk']
      rw [Pi.smul_apply, Complex.real_smul, Matrix.mulVec, dotProduct] at this
      rw [hψ ⟨i, hi⟩, ← this]
      refine Finset.sum_congr rfl (fun j _ => ?_)
      rw [hψ, hL, hM _ hi _ j.2]
    have hn : sqNorm N ψ = 1 := by
      unfold sqNorm
      rw [Finset.sum_range, ← hnorm]
      exact Finset.sum_congr rfl (fun i _ => by rw [hψ])
    refine ⟨ψ, hn, ?_, hrow⟩
    unfold energyOf
    have : ∀ i ∈ Finset.range (2 ^ N), ∑ j ∈ Finset.range (2 ^ N),
        (starRingEnd ℂ) (ψ i) * entry N (denPO op) i j * ψ j = (ef N M : ℂ) * ((‖ψ i‖ ^ 2 : ℝ) : ℂ) := by
      intro i hi
      simp only [mul_assoc]
      rw [← Finset.mul_sum, hrow i (Finset.mem_range.mp hi), Complex.ofReal_pow, ← Complex.conj_mul']
      ring
    rw [Finset.sum_congr rfl this, ← Finset.mul_sum, ← Complex.ofReal_sum]
    unfold sqNorm at hn
    rw [hn]; simp

/-- A two-qubit operator meeting the hypotheses, with a string shorter than the register: `XX + 2 Z`. -/
example : ∀ t ∈ ([([PL.X, PL.X], 1), ([PL.Z], 2)] : POp ℂ), fits 2 t.1 = true ∧ t.2.im = 0 := by
  simp [fits]

/-- **C107 fails for reduced orders.** No qubit Hamiltonian can be built with `order` different from `qubits`, whatever
the operator: the reduced-matrix route raises. -/
theorem C107_fails_order (N p : ℕ) (hp : p ≠ N) (op : POp ℂ) : make N p op = none := by
  unfold make
  cases matrixFromPauli N op with
  | none => rfl
  | some M => simp [hp]

/-- **C107 fails for complex coefficients.** The operator `i Z` has energy `i` in `|0⟩`; the energy reported is `0` and
no exception is raised. -/
theorem C107_fails_complex : ∃ M, make 1 1 [([PL.Z], Complex.I)] = some (M, 0) ∧
    energyOf 1 (denPO [([PL.Z], Complex.I)]) (fun i => if i = 0 then 1 else 0) = Complex.I := by
  obtain ⟨M, h1, h2⟩ := matrixFromPauli_den (K := ℂ) 1 [([PL.Z], Complex.I)] (by simp [fits])
  have hM : ∀ i < 2 ^ 1, ∀ j < 2 ^ 1, M i j =
      if i = j then (if i = 0 then Complex.I else -Complex.I) else 0 := by
    intro i hi j hj
    rw [← entry_ofMat 1 M i j hi hj, h2]
    unfold denPO
    rw [OpD.denD_cons, OpD.denD_nil, add_zero, entry_smul, PTrace.entry_denP 1 [PL.Z] rfl i j hi hj]
    interval_cases i <;> interval_cases j <;> simp [qbit, pmat, mZ]
  have hL : lower (2 ^ 1) M = 0 := by
    ext i j
    unfold lower
    rw [hM _ i.2 _ j.2, hM _ i.2 _ i.2, hM _ j.2 _ i.2]
    fin_cases i <;> fin_cases j <;> simp
  have hef : ef 1 M = 0 := by
    have hz : ∀ k, (lower_herm (2 ^ 1) M).eigenvalues k = 0 := by
      intro k
      have hv : ∀ v : Fin (2 ^ 1) → ℂ, Matrix.mulVec (lower (2 ^ 1) M) v = 0 := by
        intro v; rw [hL, Matrix.zero_mulVec]
      rw [Matrix.IsHermitian.eigenvalues_eq, hv, dotProduct_zero]
      rfl
    obtain ⟨k, _, hk⟩ := Finset.exists_mem_eq_inf' (s := (Finset.univ : Finset (Fin (2 ^ 1))))
      ⟨⟨0, Nat.two_pow_pos 1⟩, Finset.mem_univ _⟩ (lower_herm (2 ^ 1) M).eigenvalues
    unfold ef
    rw [add_zero, hk, hz]
  refine ⟨M, by simp [make, h1, hef], ?_⟩
  unfold energyOf
  have : ∀ i < 2 ^ 1, ∀ j < 2 ^ 1, entry 1 (denPO [([PL.Z], Complex.I)]) i j = M i j := by
    intro i hi j hj
    rw [← entry_ofMat 1 M i j hi hj, h2]
  simp only [pow_one, Finset.sum_range_succ, Finset.sum_range_zero]
  rw [this 0 (by norm_num) 0 (by norm_num), hM 0 (by norm_num) 0 (by norm_num)]
  simp

end HQCA.Props
