import Verif.Proofs.InverseJW
import Verif.Proofs.Independent
import Verif.Props.Transforms

/-!
# Property C18: inverse Jordan–Wigner; sharper form of C15
-/

namespace HQCA.Props
open InverseJW

/-- **C15, canonical form.** `E` is *the* exact Pauli expansion of the fermionic operator `A` (Pauli strings
are linearly independent, so its coefficients are unique): every coefficient of `A.transform(JordanWigner)`
is within `n·1e-12` of it. -/
theorem C15_transform_unique (A : OpD FStr ℂ) (N : ℕ) (hN : ∀ t ∈ A, t.1.length = N) :
    ∃ C, OpD.transform Transform.jordanWigner A = some C ∧ UniqueKeys C ∧
      ∀ E : POp ℂ, (∀ u ∈ E, u.1.length = N) → denPO E = denD (denF 0) A →
        ∀ s, ‖coef C s - coef E s‖ ≤ A.length * (1e-12 : ℝ) := by
  obtain ⟨C, E0, h1, h2, _, h4, h5, h6⟩ := C15_transform_jw A N hN
  refine ⟨C, h1, h2, fun E hE hd s => ?_⟩
  rw [coef_unique N E E0 hE h5 (by rw [hd, h4]) s]
  exact h6 s

/-- The coefficients of a Pauli operator on `n` qubits are determined by what it denotes. -/
theorem pauli_expansion_unique {K : Type} [Coef K] (n : ℕ) (A B : POp K) (hA : ∀ t ∈ A, t.1.length = n)
    (hB : ∀ t ∈ B, t.1.length = n) (h : (denPO A : Oper K) = denPO B) (s : PStr) : coef A s = coef B s :=
  coef_unique n A B hA hB h s

/-- **C18, partial.** For a Pauli string whose X and Y letters sit only on the first or last qubit (Z and I
anywhere), the inverse Jordan–Wigner transform is defined and is a fermionic operator with the same action.
Missing: X or Y on an inner qubit, where the claim is false (`C18_violated`). -/
theorem C18_inverse_jw_partial (s : PStr) (c : ℂ) (hc : 1e-12 < ‖c‖)
    (h : ∀ q p, s[q]? = some p → (p = .X ∨ p = .Y) → q = 0 ∨ q = s.length - 1) :
    ∃ A, inverseJW (s, c) = some A ∧ UniqueKeys A ∧ (∀ t ∈ A, t.1.length = s.length) ∧
      denD (denF 0) A = (c • denP 0 s : Oper ℂ) := by
  have hc' : small c = false := by simpa [small] using hc
  obtain ⟨C, h1, _, h3, h4, h5⟩ := loop_spec s.length c hc' s 0 (by omega)
  refine ⟨C, h1, h4, h3, ?_⟩
  rw [h5]
  rcases Nat.eq_zero_or_pos s.length with h0 | h0
  · rw [List.length_eq_zero_iff.mp h0]; rfl
  · rw [strDen_good s.length h0 s 0]
    intro q p hm hp
    refine h q p ?_ ?_
    · have := List.mem_zipIdx_iff_getElem?.mp hm
      simpa using this
    · cases p <;> simp [PL.l] at hp ⊢

/-- **C18, partial (round trip).** In those cases, transforming the result with JordanWigner gives back the
string: its coefficient is within `n·1e-12` of `c` and every other coefficient within `n·1e-12` of 0, where
`n` is the number of fermionic terms. -/
theorem C18_round_trip_partial (s : PStr) (c : ℂ) (hc : 1e-12 < ‖c‖)
    (h : ∀ q p, s[q]? = some p → (p = .X ∨ p = .Y) → q = 0 ∨ q = s.length - 1) :
    ∃ A C, inverseJW (s, c) = some A ∧ OpD.transform Transform.jordanWigner A = some C ∧
      ∀ t, ‖coef C t - (if t = s then c else 0)‖ ≤ A.length * (1e-12 : ℝ) := by
  obtain ⟨A, h1, _, h3, h4⟩ := C18_inverse_jw_partial s c hc h
  obtain ⟨C, g1, _, g3⟩ := C15_transform_unique A s.length h3
  refine ⟨A, C, h1, g1, fun t => ?_⟩
  have := g3 [(s, c)] (by simp) (by rw [h4]; simp [denPO, denD]) t
  rw [coef_cons, coef_nil] at this
  simp only [add_zero] at this
  have e : (if s = t then c else 0) = if t = s then c else 0 := by
    by_cases h : s = t <;> simp [h, eq_comm]
  rwa [e] at this

theorem denP_pad (k n : ℕ) (t : PStr) : (denP k (List.replicate n .I ++ t) : Oper ℂ) = denP (k + n) t := by
  induction n generalizing k with
  | zero => rfl
  | succ n ih =>
    rw [List.replicate_succ, List.cons_append, denP, ih]
    simp only [pmat, site_one, one_mul]
    congr 1; omega

theorem strDen_pad (N k n : ℕ) (t : PStr) :
    (strDen N k (List.replicate n .I ++ t) : Oper ℂ) = strDen N (k + n) t := by
  induction n generalizing k with
  | zero => rfl
  | succ n ih =>
    rw [List.replicate_succ, List.cons_append, strDen, ih]
    simp only [letterDen, one_mul]
    congr 1; omega

/-- **C18 violated.** For every register of at least three qubits and every inner qubit `q`, the inverse
transform of the single letter X on `q` is a fermionic operator that does *not* act as X on `q`: the Z
string is put on the wrong qubits (`_inverse_jordan_wigner.py:33`). -/
theorem C18_violated (N q : ℕ) (h0 : 0 < q) (hq : q < N - 1) (c : ℂ) (hc : 1e-12 < ‖c‖) :
    ∃ A, inverseJW (List.replicate q .I ++ PL.X :: List.replicate (N - q - 1) .I, c) = some A ∧
      denD (denF 0) A ≠
        (c • denP 0 (List.replicate q .I ++ PL.X :: List.replicate (N - q - 1) .I) : Oper ℂ) := by
  set s : PStr := List.replicate q .I ++ PL.X :: List.replicate (N - q - 1) .I with hs
  have hl : s.length = N := by simp [hs]; omega
  have hc' : small c = false := by simpa [small] using hc
  obtain ⟨C, h1, _, _, _, h5⟩ := loop_spec s.length c hc' s 0 (by omega)
  refine ⟨C, h1, ?_⟩
  rw [h5]
  intro heq
  have hc0 : c ≠ 0 := by
    rintro rfl
    simp at hc
    norm_num at hc
  have heq' := smul_right_injective (Oper ℂ) hc0 heq
  have e1 : (strDen s.length 0 s : Oper ℂ) = zr N q * (zstr q * site q mX) := by
    rw [hl, hs, strDen_pad, zero_add, strDen]
    have := strDen_pad N (q+1) (N - q - 1) []
    rw [List.append_nil] at this
    rw [this]
    simp [strDen, letterDen]
  have e2 : (denP 0 s : Oper ℂ) = site q mX := by
    rw [hs, denP_pad, zero_add, denP]
    have := denP_pad (q+1) (N - q - 1) []
    rw [List.append_nil] at this
    rw [this]
    simp [denP, pmat]
  rw [e1, e2] at heq'
  have hX : ∀ b : Cfg, (site q mX : Oper ℂ) (fun _ => 1) b = 1 := by
    intro b
    rw [site_apply]
    cases b q <;> simp
  have := congrArg (fun X : Oper ℂ => X (fun _ => 1) (fun j => decide (j = 0))) heq'
  simp only [Module.End.mul_apply] at this
  rw [hX, zr_apply, zstr_apply, hX, fsign_eq_prod] at this
  have p1 : ∏ j ∈ Finset.range q, (sg (decide (N - 1 - 1 - j = 0)) : ℂ) = 1 := by
    apply Finset.prod_eq_one
    intro j hj
    have := Finset.mem_range.mp hj
    have h' : ¬ (N - 1 - 1 - j = 0) := by omega
    simp [sg, h']
  have p2 : ∏ j ∈ Finset.range q, (sg (decide (j = 0)) : ℂ) = -1 := by
    obtain ⟨r, rfl⟩ := Nat.exists_eq_succ_of_ne_zero (Nat.pos_iff_ne_zero.mp h0)
    rw [Finset.prod_range_succ']
    have : ∏ j ∈ Finset.range r, (sg (decide (j + 1 = 0)) : ℂ) = 1 := by
      apply Finset.prod_eq_one
      intro j _
      simp [sg]
    rw [this]
    simp [sg]
  rw [p1, p2] at this
  norm_num at this

example : inverseJW (K := GQ) ([.X, .Z], 1) =
    some [([.cr, .h], 1), ([.an, .h], 1), ([.cr, .p], -1), ([.an, .p], -1)] := by decide +kernel

/-- X on the middle of three qubits: mapping back gives `ZYI`-type strings instead of `IXI`. -/
example : (inverseJW (K := GQ) ([.I, .X, .I], 1)).bind (OpD.transform Transform.jordanWigner) =
    some [([.Z, .Y, .I], ⟨0, 1⟩)] := by decide +kernel

end HQCA.Props
