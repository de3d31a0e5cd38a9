import Verif.Model.InverseJW

/-!
# Model of `hqca/transforms/_para_fermion.py`

Qubit-particle strings (letters `i + - p h`) to fermionic operators.  The letters `I` and any other letter are skipped by
the code (`_para_fermion.py:20`, `:46`); they are not representable here.
-/

namespace HQCA.ParaFermion
open HQCA.InverseJW (one zLoop)
variable {K : Type} [Coef K]

/-- `tem1` for one letter (`_para_fermion.py:22-45`): the fermionic letter itself, for `+`/`-` multiplied from the left by
`h - p` on the orbitals `r = Nq-qj-1-1`, `qj in range(q)` (lines 28-37; the same loop as `_inverse_jordan_wigner.py:32-40`,
`InverseJW.zLoop`). -/
def tem (N q : ℕ) (o : FL) : Option (OpD FStr K) :=
  if o = .cr ∨ o = .an then zLoop N q (OpD.addStr [] (one N q o, 1)) else some (OpD.addStr [] (one N q o, 1))

/-- One iteration of the main loop (`_para_fermion.py:16-47`). -/
def step (N : ℕ) (new : OpD FStr K) (x : FL × ℕ) : Option (OpD FStr K) :=
  if x.1 = .i then some new else (tem N x.2 x.1).bind (fun T => OpD.mul Fermi.mul T new)

/-- `ParaFermionTransform` (`_para_fermion.py:5-48`): letters from the last to the first. -/
def paraFermion (t : Term FStr K) : Option (OpD FStr K) :=
  t.1.zipIdx.reverse.foldlM (step t.1.length) (OpD.addStr [] (List.replicate t.1.length .i, t.2))

end HQCA.ParaFermion
