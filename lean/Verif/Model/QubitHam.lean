import Verif.Model.Circ
import Mathlib.Analysis.Matrix.Spectrum

/-!
# Model of `hqca/hamiltonian/qubit.py` (`QubitHamiltonian` with `operator='pauli'`)

The matrix of a qubit Hamiltonian given as a Pauli operator, and the energy `ef` it reports.  `np.linalg.eigvalsh`
is modelled by its documented meaning: the eigenvalues of the Hermitian matrix whose lower triangle is the one
given (the imaginary part of the diagonal is dropped).  Printing is left out.
-/

namespace HQCA.QubitHam
open MatTools Circ

/-- The letters `cir.x(n)`, `cir.y(n)`, `cir.z(n)` are applied on must be qubits of the circuit: a gate on a
later position builds a larger matrix and `np.dot` raises (`qubit.py:41-47`, `_gates.py:102-110`). -/
def fits (N : ℕ) (s : PStr) : Bool := (s.drop N).all (fun x => x == PL.I)

/-- The loop over the operator in `_matrix_from_pauli` (`qubit.py:39-48`); `none`: a string with a letter beyond the
last qubit. -/
def matrixFromPauli {K : Type} [Coef K] (N : ℕ) (op : POp K) : Option (Mat K) :=
  if op.all (fun o => fits N o.1) then
    some (op.foldl (fun m o => fun i j => m i j + o.2 * pauliCirc N o.1 i j) (fun _ _ => 0))
  else none

/-- The Hermitian matrix `np.linalg.eigvalsh` works with: lower triangle as given, real diagonal. -/
noncomputable def lower (n : ℕ) (M : Mat ℂ) : Matrix (Fin n) (Fin n) ℂ := fun i j =>
  if j < i then M i j else if i = j then ((M i i).re : ℂ) else (starRingEnd ℂ) (M j i)

theorem lower_herm (n : ℕ) (M : Mat ℂ) : (lower n M).IsHermitian := by
  ext i j
  simp only [Matrix.conjTranspose_apply, lower]
  rcases lt_trichotomy i j with h | h | h
  · simp [h, h.not_gt, h.ne]
  · subst h; simp
  · simp [h, h.not_gt, h.ne]

/-- `np.min(np.linalg.eigvalsh(mat))+self._en_c` with `_en_c = 0` (`qubit.py:13`, `53`). -/
noncomputable def ef (N : ℕ) (M : Mat ℂ) : ℝ :=
  Finset.univ.inf' ⟨⟨0, Nat.two_pow_pos N⟩, Finset.mem_univ _⟩ (lower_herm (2 ^ N) M).eigenvalues + 0

/-- `QubitHamiltonian(qubits=N, order=p, op=op)` (`qubit.py:7-56`): the only block of `matrix` and `ef`.  `none`: the
matrix loop raises, or `order` differs from `qubits`: then `_generate_reduced_hamiltonian` calls
`qRDM.from_density_matrix`, which reads `self.mapping`, an attribute no code sets (`qubit.py:58-71`,
`_qubit_rdm.py:92-93`): AttributeError. -/
noncomputable def make (N p : ℕ) (op : POp ℂ) : Option (Mat ℂ × ℝ) :=
  match matrixFromPauli N op with
  | none => none
  | some M => if p = N then some (M, ef N M) else none

end HQCA.QubitHam
