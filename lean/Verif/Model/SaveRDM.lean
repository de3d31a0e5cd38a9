import Verif.Model.SpinBlocks
import Mathlib.Algebra.Order.Round
import Mathlib.Data.Real.Archimedean

/-!
# Model of writing a 2-RDM to a file and reading it back for purification

`RDM.save` (`hqca/tools/rdm/_spin_rdm.py:179-213`) with `spin=True`, and the part of `purify` (`hqca/maple/_purify.py:19, 32-48, 63-73`) that reads the file and builds the
density matrix that is returned.  The external program that purifies the block in between is left out (it is taken to return what it read).  Numbers are exact; the two
roundings on the way are arguments.
-/

namespace HQCA
namespace SaveRDM
noncomputable section
open SpinBlocks

/-- The text of a number (`_spin_rdm.py:205-209`): `round(x, precision)` and then `'{:f}'`, which prints six decimals.  `rnd d x` is `x` rounded to `d` decimals. -/
def printed (rnd : ℕ → ℝ → ℝ) (precision : ℕ) (x : ℝ) : ℝ := rnd 6 (rnd precision x)

open scoped Classical in
/-- The lines after the two first ones (`_spin_rdm.py:191, 203-210`): the nonzero elements in the order of `np.nonzero`, indices from one, real and imaginary part. -/
def lines (rnd : ℕ → ℝ → ℝ) (precision R : ℕ) (d : List ℕ → ℂ) : List (List ℕ × ℝ × ℝ) :=
  loop4 R fun i j k l => if d [i, j, k, l] = 0 then [] else
    [([i + 1, j + 1, k + 1, l + 1], printed rnd precision (d [i, j, k, l]).re, printed rnd precision (d [i, j, k, l]).im)]

/-- `save` with `spin=True` (`_spin_rdm.py:187-188`). -/
def saved (rnd : ℕ → ℝ → ℝ) (precision R : ℕ) (alp bet : List ℕ) (D : List ℕ → ℂ) : List (List ℕ × ℝ × ℝ) :=
  lines rnd precision R (block R alp bet D)

/-- The loop of the script (`_purify.py:37-44`): `New[i[1], i[2], i[3], i[4]] := i[5]`, on an array of zeros.  Indices here from zero. -/
def load (ls : List (List ℕ × ℝ × ℝ)) : List ℕ → ℝ :=
  ls.foldl (fun A x => fun ind => if x.1 = ind.map (· + 1) then x.2.1 else A ind) fun _ => 0

/-- The density matrix built from the file (`_purify.py:66-73`). -/
def restored (R : ℕ) (ls : List (List ℕ × ℝ × ℝ)) : List ℕ → ℂ := fromAB R fun ind => (load ls ind : ℂ)

end
end SaveRDM
end HQCA
