import Verif.Model.Pauli
import Verif.Model.Circ
import Mathlib.Analysis.Complex.Norm

/-!
# Model of `StandardProcess` (`hqca/processes/_process_counts.py`)
-/

namespace HQCA
namespace Process

/-- Python indexing of a string of characters `'0'`/`'1'`; `none` is `IndexError`. -/
def pyGet (l : List Bool) (i : ℤ) : Option Bool :=
  if 0 ≤ i then l[i.toNat]? else if -(l.length : ℤ) ≤ i then l[((l.length : ℤ) + i).toNat]? else none

/-- The loop over the letters for one record (`_process_counts.py:38-42`), from letter number `i`. -/
def phaseFrom (Nq : ℕ) (det : List Bool) : ℕ → PStr → Option ℤ
  | _, [] => some 1
  | i, z :: s =>
    if z = .I then phaseFrom Nq det (i + 1) s
    else
      match pyGet det ((Nq : ℤ) - i - 1) with
      | none => none
      | some c => (phaseFrom Nq det (i + 1) s).map (fun ph => if c then -ph else ph)

/-- The loop over the records (`_process_counts.py:35-44`): `val` and `total`. -/
def sums {K : Type} [Field K] (Nq : ℕ) (s : PStr) : List (List Bool × K) → Option (K × K)
  | [] => some (0, 0)
  | (det, n) :: rest =>
    match phaseFrom Nq det 0 s, sums Nq s rest with
    | some ph, some (v, t) => some (n * ph + v, n + t)
    | _, _ => none

/-- `process` for counts (`_process_counts.py:34-45`); `none` for an index error or a division by zero. -/
def counts {K : Type} [Field K] [DecidableEq K] (Nq : ℕ) (s : PStr) (c : List (List Bool × K)) : Option K :=
  match sums Nq s c with
  | none => none
  | some (v, t) => if t = 0 then none else some (v / t)

/-- `sgn` of one basis state (`_process_counts.py:26-32`): `b` is the index written with `Nq` binary digits. -/
def sgn (Nq l : ℕ) (s : PStr) : ℤ :=
  (List.range (min Nq s.length)).foldl (fun g i =>
    if s.getD i .I = .I then g else if Circ.bchar Nq l (Nq - i - 1) then -g else g) 1

/-- `process` for a state vector (`_process_counts.py:19-33`). -/
noncomputable def statevector (Nq : ℕ) (s : PStr) (ψ : ℕ → ℂ) : ℝ :=
  (List.range (2 ^ Nq)).foldl (fun val l =>
    if ‖ψ l‖ < 1e-14 then val else val + (ψ l * (starRingEnd ℂ) (ψ l) * (sgn Nq l s : ℂ)).re) 0

end Process
end HQCA
