import Verif.Proofs.TransformErr

/-!
# Properties C14–C17, C19: fermion/qubit → Pauli transforms

`nLetters s` is the number of letters of `s` other than `i`, `nOdd s` the number of `+`/`-` letters.
-/

namespace HQCA.Props
open Transform
variable {K : Type} [Coef K]

/-- **C14.** The Jordan–Wigner image of a fermionic string is the same operator on every occupation-number
state, as long as the coefficient divided by `2^nLetters` is not below the `1e-12` threshold. -/
theorem C14_jordan_wigner (s : FStr) (c : K) (h : nLetters s = 0 ∨ small (c / 2 ^ nLetters s) = false) :
    ∃ r, jordanWigner (s, c) = some r ∧ UniqueKeys r ∧ (∀ u ∈ r, u.1.length = s.length) ∧
      denPO r = c • (denF 0 s : Oper K) := by
  obtain ⟨r, h1, h2, h3, _, _, h6⟩ := (jw_spec (s, c)).above h
  exact ⟨r, h1, h2, h3, h6⟩

/-- **C14.** Below the threshold the image is the zero operator (never an error). -/
theorem C14_threshold (s : FStr) (c : K) (h : nLetters s ≠ 0) (hs : small (c / 2 ^ nLetters s) = true) :
    jordanWigner (s, c) = some [] := (jw_spec (s, c)).below h hs

/-- **C14** over the complex numbers, with the threshold spelled out. -/
theorem C14_complex (s : FStr) (c : ℂ) (h : 2 ^ nLetters s * (1e-12 : ℝ) < ‖c‖) :
    ∃ r, jordanWigner (s, c) = some r ∧ denPO r = c • (denF 0 s : Oper ℂ) := by
  obtain ⟨r, h1, _, _, h4⟩ := C14_jordan_wigner s c (Or.inr (by
    rw [← Bool.not_eq_true, small_complex, norm_div, norm_pow]
    have h2 : ‖(2 : ℂ)‖ = 2 := by simp
    rw [h2, not_le, lt_div_iff₀ (by positivity), mul_comm]
    exact h))
  exact ⟨r, h1, h4⟩

example : jordanWigner (K := GQ) ([.cr, .i, .an], 2) =
    some [([.Y, .Z, .X], ⟨0, -1/2⟩), ([.X, .Z, .X], ⟨1/2, 0⟩), ([.Y, .Z, .Y], ⟨1/2, 0⟩),
      ([.X, .Z, .Y], ⟨0, 1/2⟩)] := by
  decide +kernel

/-- **C15.** `A.transform(JordanWigner)` is defined for every fermionic operator `A` on `N` orbitals; every
Pauli coefficient of the result is within `n·1e-12` of that of an exact Pauli expansion `E` of `A`
(`n` the number of terms of `A`). -/
theorem C15_transform_jw (A : OpD FStr ℂ) (N : ℕ) (hN : ∀ t ∈ A, t.1.length = N) :
    ∃ (C E : POp ℂ), OpD.transform jordanWigner A = some C ∧ UniqueKeys C ∧ (∀ u ∈ C, small u.2 = false) ∧
      denPO E = denD (denF 0) A ∧ (∀ u ∈ E, u.1.length = N) ∧
      ∀ s, ‖coef C s - coef E s‖ ≤ A.length * (1e-12 : ℝ) :=
  transform_error jordanWigner (denF 0) jw_spec A N hN

example : OpD.transform (K := GQ) jordanWigner [([.p, .i], 2), ([.i, .h], 4)] =
    some [([.I, .I], 3), ([.Z, .I], -1), ([.I, .Z], 2)] := by decide +kernel

/-- **C16 (exact characterisation).** The parity transform of a string is the string seen through the parity
encoding, multiplied by the sign of reversing its `+`/`-` letters. -/
theorem C16_parity_signed (s : FStr) (c : K) (h : nLetters s = 0 ∨ small (c / 2 ^ nLetters s) = false) :
    ∃ r, parity (s, c) = some r ∧ UniqueKeys r ∧ (∀ u ∈ r, u.1.length = s.length) ∧
      Encodes (parityEnc s.length) (denPO r)
        (((-1) ^ (nOdd s * (nOdd s - 1) / 2) * c) • (denF 0 s : Oper K)) := by
  obtain ⟨R, hR, he⟩ := par_spec (s, c)
  obtain ⟨r, h1, h2, h3, _, _, h6⟩ := hR.above h
  refine ⟨r, h1, h2, h3, ?_⟩
  rw [h6, mul_comm, mul_smul]
  exact Encodes.smul c he

/-- The encoding is a relabelling of configurations, so `Encodes` determines both sides. -/
theorem C16_encoding_bijective (N : ℕ) : Function.Bijective (parityEnc N) := parityEnc_bijective N

/-- **C16, partial.** Faithful when the number of `+`/`-` letters is 0 or 1 mod 4. (The full claim, for every
string, is false: `C16_parity_violated`.) -/
theorem C16_parity_partial (s : FStr) (c : K) (h : nLetters s = 0 ∨ small (c / 2 ^ nLetters s) = false)
    (hm : nOdd s % 4 = 0 ∨ nOdd s % 4 = 1) :
    ∃ r, parity (s, c) = some r ∧ Encodes (parityEnc s.length) (denPO r) (c • (denF 0 s : Oper K)) := by
  obtain ⟨r, h1, _, _, h4⟩ := C16_parity_signed s c h
  have := revSign_good (K := K) _ hm
  unfold revSign at this
  rw [this, one_mul] at h4
  exact ⟨r, h1, h4⟩

/-- **C16 (violated).** For every string with 2 or 3 (mod 4) `+`/`-` letters, e.g. every hopping term, the
result is *minus* the operator: it does not represent the string. -/
theorem C16_parity_violated (s : FStr) (c : K) (hc : c ≠ 0)
    (h : small (c / 2 ^ nLetters s) = false) (hm : nOdd s % 4 = 2 ∨ nOdd s % 4 = 3) :
    ∃ r, parity (s, c) = some r ∧ Encodes (parityEnc s.length) (denPO r) ((-c) • (denF 0 s : Oper K)) ∧
      ¬ Encodes (parityEnc s.length) (denPO r) (c • (denF 0 s : Oper K)) := by
  obtain ⟨r, h1, _, _, h4⟩ := C16_parity_signed s c (Or.inr h)
  have := revSign_bad (K := K) _ hm
  unfold revSign at this
  rw [this, neg_one_mul] at h4
  refine ⟨r, h1, h4, fun h5 => ?_⟩
  have e := Encodes.F_unique (parityEnc_bijective _).1 h4 h5
  have e2 : (c + c) • (denF 0 s : Oper K) = 0 := by
    rw [add_smul]; nth_rw 1 [← e]; rw [← add_smul, neg_add_cancel, zero_smul]
  rcases smul_eq_zero.mp e2 with h6 | h6
  · rw [← two_mul] at h6
    rcases mul_eq_zero.mp h6 with h7 | h7
    · exact Coef.two_ne_zero' h7
    · exact hc h7
  · exact denF_ne_zero 0 s h6

/-- A hopping term meets the hypotheses of `C16_parity_violated`. -/
example : parity (K := GQ) ([.cr, .an], 2) =
    some [([.Y, .I], ⟨0, 1/2⟩), ([.X, .Z], ⟨1/2, 0⟩), ([.X, .I], ⟨-1/2, 0⟩), ([.Y, .Z], ⟨0, -1/2⟩)] ∧
    nOdd [.cr, .an] % 4 = 2 ∧ small ((2 : GQ) / 2 ^ nLetters [.cr, .an]) = false := by decide +kernel

/-- **C17 (exact characterisation).** Bravyi–Kitaev: the string seen through the Bravyi–Kitaev encoding,
with the same reversal sign. -/
theorem C17_bravyi_kitaev_signed (s : FStr) (c : K)
    (h : nLetters s = 0 ∨ small (c / 2 ^ nLetters s) = false) :
    ∃ r, bravyiKitaev (s, c) = some r ∧ UniqueKeys r ∧ (∀ u ∈ r, u.1.length = s.length) ∧
      Encodes (bkEnc s.length) (denPO r)
        (((-1) ^ (nOdd s * (nOdd s - 1) / 2) * c) • (denF 0 s : Oper K)) := by
  obtain ⟨R, hR, he⟩ := bk_spec (s, c)
  obtain ⟨r, h1, h2, h3, _, _, h6⟩ := hR.above h
  refine ⟨r, h1, h2, h3, ?_⟩
  rw [h6, mul_comm, mul_smul]
  exact Encodes.smul c he

theorem C17_encoding_bijective (N : ℕ) : Function.Bijective (bkEnc N) := bkEnc_bijective N

/-- **C17, partial.** Faithful when the number of `+`/`-` letters is 0 or 1 mod 4. (The full claim is false:
`C17_bravyi_kitaev_violated`.) -/
theorem C17_bravyi_kitaev_partial (s : FStr) (c : K)
    (h : nLetters s = 0 ∨ small (c / 2 ^ nLetters s) = false) (hm : nOdd s % 4 = 0 ∨ nOdd s % 4 = 1) :
    ∃ r, bravyiKitaev (s, c) = some r ∧ Encodes (bkEnc s.length) (denPO r) (c • (denF 0 s : Oper K)) := by
  obtain ⟨r, h1, _, _, h4⟩ := C17_bravyi_kitaev_signed s c h
  have := revSign_good (K := K) _ hm
  unfold revSign at this
  rw [this, one_mul] at h4
  exact ⟨r, h1, h4⟩

/-- **C17 (violated).** As `C16_parity_violated`. -/
theorem C17_bravyi_kitaev_violated (s : FStr) (c : K) (hc : c ≠ 0)
    (h : small (c / 2 ^ nLetters s) = false) (hm : nOdd s % 4 = 2 ∨ nOdd s % 4 = 3) :
    ∃ r, bravyiKitaev (s, c) = some r ∧ Encodes (bkEnc s.length) (denPO r) ((-c) • (denF 0 s : Oper K)) ∧
      ¬ Encodes (bkEnc s.length) (denPO r) (c • (denF 0 s : Oper K)) := by
  obtain ⟨r, h1, _, _, h4⟩ := C17_bravyi_kitaev_signed s c (Or.inr h)
  have := revSign_bad (K := K) _ hm
  unfold revSign at this
  rw [this, neg_one_mul] at h4
  refine ⟨r, h1, h4, fun h5 => ?_⟩
  have e := Encodes.F_unique (bkEnc_bijective _).1 h4 h5
  have e2 : (c + c) • (denF 0 s : Oper K) = 0 := by
    rw [add_smul]; nth_rw 1 [← e]; rw [← add_smul, neg_add_cancel, zero_smul]
  rcases smul_eq_zero.mp e2 with h6 | h6
  · rw [← two_mul] at h6
    rcases mul_eq_zero.mp h6 with h7 | h7
    · exact Coef.two_ne_zero' h7
    · exact hc h7
  · exact denF_ne_zero 0 s h6

example : bravyiKitaev (K := GQ) ([.i, .cr, .i, .an], 2) =
    some [([.Z, .Y, .Z, .I], ⟨0, 1/2⟩), ([.Z, .X, .I, .Z], ⟨1/2, 0⟩), ([.I, .X, .Z, .I], ⟨-1/2, 0⟩),
      ([.I, .Y, .I, .Z], ⟨0, -1/2⟩)] := by decide +kernel

/-- **C19.** The qubit transform of a qubit string is the same operator. -/
theorem C19_qubit (s : FStr) (c : K) (h : nLetters s = 0 ∨ small (c / 2 ^ nLetters s) = false) :
    ∃ r, qubit (s, c) = some r ∧ UniqueKeys r ∧ (∀ u ∈ r, u.1.length = s.length) ∧
      denPO r = c • (denQ 0 s : Oper K) := by
  obtain ⟨r, h1, h2, h3, _, _, h6⟩ := (qu_spec (s, c)).above h
  exact ⟨r, h1, h2, h3, h6⟩

theorem C19_threshold (s : FStr) (c : K) (h : nLetters s ≠ 0) (hs : small (c / 2 ^ nLetters s) = true) :
    qubit (s, c) = some [] := (qu_spec (s, c)).below h hs

/-- **C19** for operators: as `C15_transform_jw`. -/
theorem C19_transform_qubit (A : OpD FStr ℂ) (N : ℕ) (hN : ∀ t ∈ A, t.1.length = N) :
    ∃ (C E : POp ℂ), OpD.transform qubit A = some C ∧ UniqueKeys C ∧ (∀ u ∈ C, small u.2 = false) ∧
      denPO E = denD (denQ 0) A ∧ (∀ u ∈ E, u.1.length = N) ∧
      ∀ s, ‖coef C s - coef E s‖ ≤ A.length * (1e-12 : ℝ) :=
  transform_error qubit (denQ 0) qu_spec A N hN

example : qubit (K := GQ) ([.cr, .h], 4) =
    some [([.X, .I], 1), ([.Y, .I], ⟨0, -1⟩), ([.X, .Z], 1), ([.Y, .Z], ⟨0, -1⟩)] := by decide +kernel

end HQCA.Props
