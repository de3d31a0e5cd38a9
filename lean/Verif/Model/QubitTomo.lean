import Verif.Model.Tomography

/-!
# Model of the tomography of qubit (sign-free) reduced density matrices

`hqca/tomography/_qubit_tomography.py`.  The transform is `Qubit`; grouping of Pauli strings into circuits is abstracted
into the function `meas` (what the processor returns for a string).
-/

namespace HQCA
namespace Tomo
variable {K : Type} [Coef K]

/-- `generate_qrdme` up to the transform (`_qubit_tomography.py:30-54`), with the index list the element keeps.  The
index handling of `QubitString` (`_qubit_string.py:74-105`) is that of `FermiString`: a swap rebinds, `pop` mutates the
caller's list (`callerInds`).  `none`: the `TomographyError`, or the `IndexError` of `QubitString` when it gets fewer
indices than operators. -/
def qrdmeOp (f : Flags) (ind : List ℕ) (N : ℕ) : Option (List ℕ × OpD FStr K) :=
  if f.real || f.imag then
    let n := ind.length / 2
    if ind.length < 2 * n then none else
    (Qubit.generate (half f.real + half f.imag) (opWord n ind) N).bind (fun a =>
      let ind' := callerInds (opWord n ind)
      if ind'.length < 2 * n then none else
      (Qubit.generate (half f.real - half f.imag) (opWord n ind'.reverse) N).map (fun b =>
        (ind', OpD.addStr (OpD.addStr [] a) b)))
  else none

/-- `generate_qrdme` with the qubit transform (`_qubit_tomography.py:55-56`): `qubOp`. -/
def qrdmeQub (f : Flags) (ind : List ℕ) (N : ℕ) : Option (List ℕ × POp K) :=
  (qrdmeOp f ind N).bind (fun r => (OpD.transform Transform.qubit r.2).map (fun q => (r.1, q)))

/-- The increments `nRDM[index] += value` for one element (`_qubit_tomography.py:238-259`): the permutations carry no
sign.  Orders other than 1 and 2 fill nothing. -/
def updatesQ (p : ℕ) (ind : List ℕ) (temp : K) : List (List ℕ × K) :=
  if p = 2 then
    (Rec.unorderedPermute (ind.drop 2).reverse).flatMap (fun i =>
      (Rec.unorderedPermute (ind.take 2)).flatMap (fun j =>
        [(j.1 ++ i.1, temp)] ++ (if sameSet i.1 j.1 then [] else [(i.1 ++ j.1, conj temp)])))
  else if p = 1 then
    [(ind, temp)] ++ (if ind.dedup.length = ind.length then [(ind.reverse, conj temp)] else [])
  else []

/-- `_build_qubit_RDM` (`_qubit_tomography.py:216-266`) from the values of the elements: the entry `idx`. -/
def buildQ (p : ℕ) (rs : List (List ℕ × K)) (idx : List ℕ) : K :=
  ((rs.flatMap (fun r => updatesQ p r.1 r.2)).map (fun u => if u.1 = idx then u.2 else 0)).sum

/-- `generate` with `tomo_type='rdm'` (`_qubit_tomography.py:302-310`): the elements of order 1 or 2; any other order
leaves `self.rdme` unset and raises. -/
def qelements (p : ℕ) (f : Flags) (alp bet : List ℕ) (meas : PStr → K) : Option (List (List ℕ × K)) :=
  if p = 1 ∨ p = 2 then
    (rdme p f alp bet).mapM (fun ind =>
      (qrdmeQub f ind (alp.length + bet.length)).map (fun r => (r.1, value meas r.2)))
  else none

/-- Generating, measuring and filling a qubit RDM (`construct(compact=False)`). -/
def qtomography (p : ℕ) (f : Flags) (alp bet : List ℕ) (meas : PStr → K) : Option (List ℕ → K) :=
  (qelements p f alp bet meas).map (buildQ p)

/-- `_build_compact_qubit_RDM` (`_qubit_tomography.py:268-299`): the values in the order of the elements. -/
def qcompact (p : ℕ) (f : Flags) (alp bet : List ℕ) (meas : PStr → K) : Option (List K) :=
  (qelements p f alp bet meas).map (fun rs => rs.map (·.2))

end Tomo
end HQCA
