import Verif.Model.Process
import Verif.Model.Transform
import Verif.Model.SpinOps
import Verif.Model.StabCircuit

/-!
# Model of `StabilizerProcess` (`hqca/processes/_process_stabilizers.py`)

The filters on measured records and the evaluation that follows.  Records are the strings of `'0'`/`'1'` with
their counts; `none` is an exception.
-/

namespace HQCA
namespace StabProcess
open Process

noncomputable section

/-- `for op in N: n += op.c*self.__measure_z_string({k:v},op.s)` (`_process_stabilizers.py:67-80`).  The coefficients are
complex; `round(.,5)` of the result is not modelled (exact arithmetic). -/
def eval (Nq : ℕ) (P : POp ℂ) (kv : List Bool × ℂ) : Option ℂ :=
  P.foldlM (fun n op => (Process.counts Nq op.1 [kv]).map fun m => n + op.2 * m) 0

/-- The phase `(-1)**(i//(No/2))` (`_process_stabilizers.py:60`), `No = 2 no`. -/
def ph (no i : ℕ) : ℂ := (-1) ^ (i / no)

/-- `_filter_diagonal_symmetries` (`_process_stabilizers.py:46-89`) with `No_as = no`, transform `T`; `original` is the
measured string. -/
def filterDiagonal (T : Term FStr ℂ → Option (POp ℂ)) (Nq no ne na nb : ℕ) (original : PStr)
    (c : List (List Bool × ℂ)) : Option (List (List Bool × ℂ)) :=
  if original = List.replicate Nq .Z then do
    let N ← SpinOps.sumPM ((List.range (2 * no)).map fun i => (1, i, i)) (2 * no)
    let Sz ← SpinOps.sumPM ((List.range (2 * no)).map fun i => (ph no i, i, i)) (2 * no)
    let N ← OpD.transform T N
    let Sz ← OpD.transform T Sz
    c.filterM fun kv => do
      let n ← eval Nq N kv
      let sz ← eval Nq Sz kv
      pure (decide (n = (ne : ℂ)) && decide (sz = (na : ℂ) - (nb : ℂ)))
  else some c

/-- `process` with this filter (`_process_stabilizers.py:222-260`), on counts. -/
def processDiagonal (T : Term FStr ℂ → Option (POp ℂ)) (Nq no ne na nb : ℕ) (original s : PStr)
    (c : List (List Bool × ℂ)) : Option ℂ :=
  (filterDiagonal T Nq no ne na nb original c).bind fun c' => Process.counts Nq s c'

/-- `_parity_check_simple` (`_process_stabilizers.py:30-44`); `none`: not exactly one ancilla (`sys.exit`) or an index
out of range. -/
def parityCheck (nqAnc nqTot nq ne : ℕ) (c : List (List Bool × ℂ)) : Option (List (List Bool × ℂ)) :=
  if nqAnc ≠ 1 then none
  else c.filterM fun kv => (pyGet kv.1 ((nqTot : ℤ) - 1 - nq)).map fun b => decide (b = decide (ne % 2 = 1))

/-- `_parity_check_spin` (`_process_stabilizers.py:202-219`). -/
def parityCheckSpin (nqAnc nqTot nq na nb : ℕ) (c : List (List Bool × ℂ)) : Option (List (List Bool × ℂ)) :=
  if nqAnc ≠ 2 then none
  else c.filterM fun kv => (pyGet kv.1 ((nqTot : ℤ) - nq - 1)).bind fun a =>
    if a = decide (na % 2 = 1) then (pyGet kv.1 ((nqTot : ℤ) - nq - 2)).map fun b => decide (b = decide (nb % 2 = 1))
    else some false

/-- `total` and `prod` (`_process_stabilizers.py:140-148`) for `n` symmetries, `n` not zero; `none`: left unassigned. -/
def wanted : ℕ → Option (ℤ × ℤ)
  | 1 => some (1, -1)
  | 2 => some (2, 1)
  | 3 => some (1, 1)
  | _ => none

/-- The test of one record (`_process_stabilizers.py:152-165`) from the values of the symmetries; `none` is the
`UnboundLocalError` of unassigned names. -/
def keep (g : List ℂ) : Option Bool :=
  (wanted g.length).map fun w => decide (g.prod = (w.2 : ℂ)) && decide ((w.1 : ℝ) = ‖g.sum‖)

/-- `_filter_encoded_symmetries` (`_process_stabilizers.py:92-169`): `zz` are the strings of `stab_circ.zz`, `tm` the
table `T_M`.  A circuit measured in the computational basis goes through the same code as `filterDiagonal`. -/
def filterEncoded (T : Term FStr ℂ → Option (POp ℂ)) (Nq no ne na nb : ℕ) (zz : List PStr) (tm : List (PStr × PStr))
    (original : PStr) (c : List (List Bool × ℂ)) : Option (List (List Bool × ℂ)) :=
  if original = List.replicate Nq .Z then filterDiagonal T Nq no ne na nb original c
  else if zz = [] then some c
  else c.filterM fun kv => do
    let g ← zz.mapM fun z => do
      let m ← (tm.find? fun t => decide (t.1 = z)).map (·.2)
      Process.counts Nq m [kv]
    keep g

/-- `A[key]` for an `Operator` and a number or a string as the key (`_operator.py:61-62`): the keys of the dictionary
are strings; `none` is `KeyError`. -/
def item (A : POp ℂ) (key : ℤ ⊕ PStr) : Option (PStr × ℂ) := A.find? fun t => decide (Sum.inr t.1 = key)

/-- `_measure_stabilizer_z_string` (`_process_stabilizers.py:171-199`); `paulis` is the table of decompositions
(`_stabilizer.py:176`). -/
def measureEncoded (Nq : ℕ) (tm : List (PStr × PStr)) (paulis : List (PStr × List PStr × ℂ)) (s : PStr)
    (c : List (List Bool × ℂ)) : Option ℂ := do
  let g ← (paulis.find? fun t => decide (t.1 = s)).map (·.2)
  let ms ← g.1.mapM fun p => (tm.find? fun t => decide (t.1 = p)).map (·.2)
  let p ← Stab.product (K := ℂ) Nq ms
  let f ← item [(p.1, p.2)] (.inl 0)
  let m ← Process.counts Nq f.1 c
  some (m * g.2)

/-- `process` for `stabilizer='encoded'` (`_process_stabilizers.py:222-225`). -/
def processEncoded (T : Term FStr ℂ → Option (POp ℂ)) (Nq no ne na nb : ℕ) (zz : List PStr) (tm : List (PStr × PStr))
    (paulis : List (PStr × List PStr × ℂ)) (original s : PStr) (c : List (List Bool × ℂ)) : Option ℂ :=
  (filterEncoded T Nq no ne na nb zz tm original c).bind fun c' => measureEncoded Nq tm paulis s c'

end
end StabProcess
end HQCA
