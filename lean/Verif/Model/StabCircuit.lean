import Verif.Model.Stabilizer
import Verif.Spec.QCirc

/-!
# Measurement circuits of commuting strings (`tools/_stabilizer.py:306-428`) and the values read from them (`processes/_process_stabilizers.py:171-198`)

Rows of the array `m` are bit vectors (first half `Z`, second half `X`), all rows are treated alike by the loops over `k` and `s`.
-/

namespace HQCA
namespace StabCirc
open Stab

/-- The recorded gates (`apply_si`, `apply_cx`, `apply_h`). -/
inductive SG
  | si (i : ℕ)
  | cx (c t : ℕ)
  | h (i : ℕ)
  deriving DecidableEq

/-- `Z`-type symmetries on more than one qubit (`_stabilizer.py:314-319`). -/
def zSymm (N : ℕ) (E : ℕ → Vec) (piv : List ℕ) : List Vec :=
  ((free (2 * N) piv).map (nullVec (2 * N) E piv)).filter fun v =>
    (List.range N).all (fun i => v (i + N) = 0) && decide (1 < ((List.range N).filter fun i => v i ≠ 0).length)

/-- The rows of `self.m` (`construct_circuit`, `_stabilizer.py:307-327`); the array assignment raises if the number of nonzero rows is not
`2N` minus the number of null vectors. -/
def rows (s : S) : Option (List Vec) :=
  let r := eliminate s.l (2 * s.N) s.E
  let n := nonzeroRows s.l (2 * s.N) r.1
  if n = 2 * s.N - (free (2 * s.N) r.2).length then some ((List.range n).map (gm s.N r.1) ++ zSymm s.N r.1 r.2) else none

/-- What a gate does to one row (`_stabilizer.py:358-362`, `388-390` and `397-399`, `420-426`). -/
def act (N : ℕ) : SG → Vec → Vec
  | .si i, v =>
    if v i = 1 ∧ v (i + N) = 1 then Function.update v i 0
    else if v i = 0 ∧ v (i + N) = 1 then Function.update v i 1 else v
  | .cx c t, v => Function.update (Function.update v c (v c + v t)) (t + N) (v (t + N) + v (c + N))
  | .h i, v =>
    if v i = 0 ∧ v (i + N) = 1 then Function.update (Function.update v i 1) (i + N) 0
    else if v i = 1 ∧ v (i + N) = 0 then Function.update (Function.update v i 0) (i + N) 1 else v

/-- Appending a gate to `self.gates` and applying it to all rows. -/
def put (N : ℕ) (st : List Vec × List SG) (g : SG) : List Vec × List SG := (st.1.map (act N g), st.2 ++ [g])

/-- One qubit of `_simplify_y_qwc` (`_stabilizer.py:352-363`). -/
def yStep (N : ℕ) (st : List Vec × List SG) (i : ℕ) : List Vec × List SG :=
  if st.1.any (fun v => v i = 1 ∧ v (i + N) = 1) then put N st (.si i) else st

/-- Column sum (`_stabilizer.py:371-373`). -/
def rank (m : List Vec) (i : ℕ) : ℕ := (m.filter fun v => v i = 1).length

/-- First pair of qubits `j < i` on which a row has `X` (`_stabilizer.py:375-381`). -/
def firstPair (N : ℕ) (v : Vec) : Option (ℕ × ℕ) :=
  (List.range N).findSome? fun i => ((List.range i).find? fun j => v (i + N) = 1 ∧ v (j + N) = 1).map fun j => (i, j)

/-- The gate of one pass of `_sub` (`_stabilizer.py:370-401`); `none` is the return value `mat,True`. -/
def sub (N : ℕ) (m : List Vec) : Option SG :=
  (m.findSome? (firstPair N)).map fun ij =>
    if rank m ij.2 < rank m ij.1 ∨ rank m (ij.1 + N) < rank m (ij.2 + N) then .cx ij.1 ij.2 else .cx ij.2 ij.1

/-- The `while` loop (`_stabilizer.py:402-406`) with fuel; passes after the first one returning `True` change nothing. -/
def loop (N : ℕ) : ℕ → List Vec × List SG → Option (List Vec × List SG)
  | 0, _ => none
  | k + 1, st => match sub N st.1 with
    | none => some st
    | some g => loop N k (put N st g)

/-- One qubit of `_simplify_x_z_qwc` (`_stabilizer.py:413-427`). -/
def hStep (N : ℕ) (st : List Vec × List SG) (i : ℕ) : List Vec × List SG :=
  if st.1.any (fun v => v i = 0 ∧ v (i + N) = 1) then put N st (.h i) else st

/-- `simplify` (`_stabilizer.py:337-343`). -/
def simplify (fuel N : ℕ) (m : List Vec) : Option (List Vec × List SG) :=
  (loop N fuel ((List.range N).foldl (yStep N) (m, []))).map fun st => (List.range N).foldl (hStep N) st

/-- The object after `construct_circuit` and `simplify`: gates and the pairs of `T_M`. -/
structure Res where
  gates : List SG
  tm : List (PStr × PStr)

/-- `construct_circuit` and `simplify` (`_stabilizer.py:307-343`).  Equal keys of `T_M` have equal values, so that the order of insertion does not
matter. -/
def build (fuel : ℕ) (s : S) : Option Res := do
  let m0 ← rows s
  let st ← simplify fuel s.N m0
  some ⟨st.2, List.zipWith (fun u v => (checkToPauli s.N u, checkToPauli s.N v)) m0 st.1⟩

/-- The string whose outcomes are read off for a target with the generators `gens`
(`_measure_stabilizer_z_string`, `_process_stabilizers.py:186-195`); a missing key raises.  The code then takes `fetch[0]`, which always raises (`StabProcess.item`, C130); here the
only entry is taken, as intended. -/
def fetch {K : Type} [Coef K] (N : ℕ) (r : Res) (gens : List PStr) : Option PStr := do
  let ms ← gens.mapM fun g => (r.tm.find? fun t => decide (t.1 = g)).map (·.2)
  let p ← product (K := K) N ms
  some p.1

noncomputable section

/-- The circuit of the gates (`core/primitives/_base.py:3-20`), with `pi` read as the number. -/
def circuit : SG → List QG
  | .si i => [.rz (-(Real.pi / 2)) i]
  | .cx c t => [.cx c t]
  | .h i => [.rz (Real.pi / 2) i, .sx i, .rz (Real.pi / 2) i]

/-- The circuit as the code emits it: `pi` is not imported in `_base.py`, so `apply_si` and `apply_h` raise a `NameError`. -/
def emit : SG → Option (List QG)
  | .cx c t => some [.cx c t]
  | .si _ => none
  | .h _ => none

/-- All gates of a result, in order. -/
def emitAll (gs : List SG) : Option (List QG) := (gs.mapM emit).map List.flatten

end
end StabCirc
end HQCA
