import Mathlib.Analysis.SpecialFunctions.Pow.Real
import Mathlib.Algebra.Order.BigOperators.Ring.Finset

/-!
# Pivoted Cholesky decomposition of the two-electron integrals (`hamiltonian/molecular.py:383-446`)

The method first rotates the integrals with `rotate_spatial_ei2` (line 396), a name that is defined nowhere in the repository, so as it stands the
method raises `NameError`; the model starts from the matrix `V` of line 397.  Arrays are functions of their indices; `none` stands for a result with
`nan` or `inf` entries (square root of a negative number, division by zero) and for the `ValueError` of `argmax` of an empty list.
-/

namespace HQCA
namespace Cholesky

open Classical

noncomputable section

/-- `np.argmax` of the values of `f` at `lo, lo+1, ..., lo+n` (`molecular.py:423`): the first position of the largest one, as an absolute position. -/
def argmax (f : ℕ → ℝ) (lo : ℕ) : ℕ → ℕ
  | 0 => lo
  | n + 1 => if f (argmax f lo n) < f (lo + n + 1) then lo + n + 1 else argmax f lo n

/-- Exchanging two entries of the list of pivots (`molecular.py:425-427`). -/
def swap (pi : ℕ → ℕ) (a b : ℕ) : ℕ → ℕ := fun k => if k = a then pi b else if k = b then pi a else pi k

/-- The variables of the loop (`molecular.py:410-420`): diagonal, pivots, factor, error, number of rows. -/
structure St where
  d : ℕ → ℝ
  pi : ℕ → ℕ
  R : ℕ → ℕ → ℝ
  err : ℝ
  m : ℕ

/-- The inner loop over the remaining columns (`molecular.py:431-437`), for the positions `m+1, ..., m+n`: new row and diagonal. -/
def inner (V : ℕ → ℕ → ℝ) (s : St) (pi : ℕ → ℕ) : ℕ → (ℕ → ℝ) × (ℕ → ℝ)
  | 0 => (fun j => if j = pi s.m then Real.sqrt (s.d (pi s.m)) else 0, s.d)
  | n + 1 =>
    let rd := inner V s pi n
    let c := pi (s.m + n + 1)
    let ip := if 0 < s.m then ∑ k ∈ Finset.range s.m, s.R k (pi s.m) * s.R k c else 0
    let x := (V (pi s.m) c - ip) / rd.1 (pi s.m)
    (Function.update rd.1 c x, Function.update rd.2 c (rd.2 c - x ^ 2))

/-- One pass of the loop (`molecular.py:423-440`), for an `N` by `N` matrix. -/
def step (N : ℕ) (V : ℕ → ℕ → ℝ) (s : St) : Option St :=
  if N ≤ s.m then none else
    let i := argmax (fun j => s.d (s.pi j)) s.m (N - s.m - 1)
    let pi := swap s.pi s.m i
    if s.d (pi s.m) < 0 ∨ (s.d (pi s.m) = 0 ∧ s.m + 1 < N) then none else
      let rd := inner V s pi (N - s.m - 1)
      some { d := rd.2, pi := pi, R := fun k => if k = s.m then rd.1 else s.R k,
             err := ∑ i ∈ Finset.Ico (s.m + 1) N, rd.2 (pi i), m := s.m + 1 }

/-- The loop (`molecular.py:421`), at most `fuel` more passes. -/
def loop (N : ℕ) (V : ℕ → ℕ → ℝ) (tol : ℝ) : ℕ → St → Option St
  | 0, s => some s
  | fuel + 1, s => if tol < s.err then (step N V s).bind (loop N V tol fuel) else some s

/-- `pivoted_chol(M, err_tol)` up to the factor `R[:m,:]` (`molecular.py:410-442`); `m` rows are kept. -/
def run (N : ℕ) (V : ℕ → ℕ → ℝ) (M : ℕ) (tol : ℝ) : Option St :=
  loop N V tol M { d := fun i => V i i, pi := id, R := fun _ _ => 0, err := ∑ i ∈ Finset.range N, |V i i|, m := 0 }

end
end Cholesky
end HQCA
