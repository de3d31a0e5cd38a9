import Verif.Coef
import Mathlib.LinearAlgebra.Matrix.Notation
import Mathlib.Algebra.Module.LinearMap.End
import Mathlib.Tactic.FinCases
import Mathlib.Tactic.NoncommRing
import Mathlib.Tactic.Module

/-!
# Specification: what strings mean

Nothing here models repository code.  A register is a configuration of bits `ℕ → Bool`; a state is an
amplitude function on configurations; a single-qubit operator on qubit `k` is a `2 × 2` matrix acting on
bit `k`.  A string on `N` qubits acts on bits `0..N-1` and is the identity on all others, so this is the
usual `2^N × 2^N` matrix tensored with the identity.
-/

namespace HQCA

/-- A configuration of (infinitely many) bits. -/
abbrev Cfg := ℕ → Bool

/-- Linear operators on amplitude functions. -/
abbrev Oper (K : Type) [Field K] := Module.End K (Cfg → K)

/-- Single-qubit matrices, entry `m a b = ⟨a| m |b⟩`. -/
abbrev M2 (K : Type) := Matrix Bool Bool K

section
variable {K : Type} [Field K]

/-- The single-qubit operator `m` acting on bit `k`. -/
def site (k : ℕ) (m : M2 K) : Oper K where
  toFun ψ := fun b =>
    m (b k) false * ψ (Function.update b k false) + m (b k) true * ψ (Function.update b k true)
  map_add' ψ φ := by funext b; simp; ring
  map_smul' c ψ := by funext b; simp; ring

theorem site_apply (k : ℕ) (m : M2 K) (ψ : Cfg → K) (b : Cfg) :
    site k m ψ b =
      m (b k) false * ψ (Function.update b k false) + m (b k) true * ψ (Function.update b k true) :=
  rfl

theorem site_mul (k : ℕ) (m n : M2 K) : site k (m * n) = site k m * site k n := by
  ext ψ b
  simp only [Module.End.mul_apply, site_apply, Function.update_self, Function.update_idem,
    Matrix.mul_apply, Fintype.sum_bool]
  ring

theorem site_one (k : ℕ) : site k (1 : M2 K) = 1 := by
  ext ψ b
  simp only [site_apply, Module.End.one_apply]
  rcases h : b k
  · have : Function.update b k false = b := by rw [← h]; exact Function.update_eq_self k b
    simp [this]
  · have : Function.update b k true = b := by rw [← h]; exact Function.update_eq_self k b
    simp [this]

theorem site_add (k : ℕ) (m n : M2 K) : site k (m + n) = site k m + site k n := by
  ext ψ b
  simp only [site_apply, LinearMap.add_apply, Pi.add_apply, Matrix.add_apply]
  ring

theorem site_smul (k : ℕ) (c : K) (m : M2 K) : site k (c • m) = c • site k m := by
  ext ψ b
  simp only [site_apply, LinearMap.smul_apply, Pi.smul_apply, Matrix.smul_apply, smul_eq_mul]
  ring

theorem site_zero (k : ℕ) : site k (0 : M2 K) = 0 := by
  ext ψ b
  simp [site_apply]

theorem site_neg (k : ℕ) (m : M2 K) : site k (-m) = - site k m := by
  ext ψ b
  simp [site_apply]
  ring

/-- Scaling by `-1` (stated once: instance paths on `Oper` are awkward for `rw`). -/
theorem Oper.neg_one_smul (x : Oper K) : (-1 : K) • x = -x := _root_.neg_one_smul K x

/-- Operators on different qubits commute. -/
theorem site_comm {j k : ℕ} (h : j ≠ k) (m n : M2 K) :
    site j m * site k n = site k n * site j m := by
  ext ψ b
  simp only [Module.End.mul_apply, site_apply, Function.update_of_ne h, Function.update_of_ne h.symm]
  rw [Function.update_comm h, Function.update_comm h, Function.update_comm h, Function.update_comm h]
  ring

end

/-! ### The matrices named by letters -/

section
variable {K : Type} [Coef K]

/-- Pauli X. -/
def mX : M2 K := fun a b => if a = b then 0 else 1
/-- Pauli Z, `+1` on bit 0. -/
def mZ : M2 K := fun a b => if a = b then (if a then -1 else 1) else 0
/-- Pauli Y. -/
def mY : M2 K := fun a b => if a = b then 0 else (if a then I else -I)
/-- `|0⟩⟨1|`: lowers bit 1 to bit 0 (annihilation). -/
def mLow : M2 K := fun a b => if a = false ∧ b = true then 1 else 0
/-- `|1⟩⟨0|`: raises bit 0 to bit 1 (creation). -/
def mRaise : M2 K := fun a b => if a = true ∧ b = false then 1 else 0
/-- `|1⟩⟨1|`: occupied. -/
def mOcc : M2 K := fun a b => if a = true ∧ b = true then 1 else 0
/-- `|0⟩⟨0|`: empty. -/
def mEmp : M2 K := fun a b => if a = false ∧ b = false then 1 else 0

omit [Coef K] in
/-- Entrywise extensionality for `2 × 2` matrices. -/
theorem M2.ext {m n : M2 K} (h00 : m false false = n false false) (h01 : m false true = n false true)
    (h10 : m true false = n true false) (h11 : m true true = n true true) : m = n := by
  funext a b
  cases a <;> cases b <;> assumption

end

/-! ### Fock space -/

section
variable {K : Type} [Field K]

/-- `(-1)` to the number of occupied orbitals below `k`. -/
def fsign (b : Cfg) (k : ℕ) : K := (-1) ^ ((Finset.range k).filter (fun j => b j = true)).card

/-- Annihilation of orbital `k`: `(a_k ψ)(b) = ± ψ(b with k occupied)` if `k` is empty in `b`. -/
def ann (k : ℕ) : Oper K where
  toFun ψ := fun b => if b k then 0 else fsign b k * ψ (Function.update b k true)
  map_add' ψ φ := by funext b; by_cases h : b k <;> simp [h]; ring
  map_smul' c ψ := by funext b; by_cases h : b k <;> simp [h]; ring

/-- Creation of orbital `k`. -/
def cre (k : ℕ) : Oper K where
  toFun ψ := fun b => if b k then fsign b k * ψ (Function.update b k false) else 0
  map_add' ψ φ := by funext b; by_cases h : b k <;> simp [h]; ring
  map_smul' c ψ := by funext b; by_cases h : b k <;> simp [h]; ring

end

end HQCA
