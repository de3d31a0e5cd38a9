import Verif.Model.RDM
import Verif.Model.Transform

/-!
# Model of the RDM elements: operators and measured values

`hqca/tomography/_tomography.py`.
-/

namespace HQCA
namespace Tomo
variable {K : Type} [Coef K]

/-- `real/2` with a Python Boolean. -/
def half (b : Bool) : K := if b then 1 / 2 else 0

/-- `zip(ind, '+'*n+'-'*n)`. -/
def opWord (n : ℕ) (ind : List ℕ) : List (ℕ × FL) :=
  ind.zip (List.replicate n FL.cr ++ List.replicate n FL.an)

/-- What `inds.pop(i+1)` leaves in the list object the contraction loop works on (`_fermi_string.py:246-260`), with fuel;
the zero branch pops too. -/
def popLoop : ℕ → List (ℕ × FL) → List ℕ
  | 0, l => l.map (·.1)
  | n + 1, l =>
    match Fermi.contractStep l with
    | .next l' => popLoop n l'
    | .zero =>
      let i := (l.map (·.1)).zip (l.map (·.1)).tail |>.findIdx (fun x => x.1 = x.2)
      (l.map (·.1)).eraseIdx (i + 1)
    | _ => l.map (·.1)

/-- The caller's index list after `FermiString(indices=inds, ops=...)` (`_fermi_string.py:216-271`): a swap rebinds the
local name to a fresh list, so only a list that needed no swap is modified, by the `pop` of each contraction. -/
def callerInds (l : List (ℕ × FL)) : List ℕ :=
  if l.isEmpty then [] else
  match Fermi.sortStep true l with
  | some _ => l.map (·.1)
  | none => if (l.map (·.1)).dedup.length = l.length then l.map (·.1) else popLoop l.length l

/-- `generate_rdme` up to the transform (`_tomography.py:38-64`), with the index list the element keeps; `none`: the
`TomographyError` for `not (real+imag)`, or the `IndexError` of `FermiString` when it gets fewer indices than operators. -/
def rdmeOp (f : Flags) (ind : List ℕ) (N : ℕ) : Option (List ℕ × OpD FStr K) :=
  if f.real || f.imag then
    let n := ind.length / 2
    if ind.length < 2 * n then none else
    (Fermi.generate true (half f.real + half f.imag) (opWord n ind) N).bind (fun a =>
      let ind' := callerInds (opWord n ind)
      if ind'.length < 2 * n then none else
      (Fermi.generate true (half f.real - half f.imag) (opWord n ind'.reverse) N).map (fun b =>
        (ind', OpD.addStr (OpD.addStr [] a) b)))
  else none

/-- `generate_rdme` with the transform `T` (`_tomography.py:65-66`): `qubOp`. -/
def rdmeQubT (T : Term FStr K → Option (POp K)) (f : Flags) (ind : List ℕ) (N : ℕ) : Option (List ℕ × POp K) :=
  (rdmeOp f ind N).bind (fun r => (OpD.transform T r.2).map (fun q => (r.1, q)))

/-- `generate_rdme` with the Jordan–Wigner transform. -/
def rdmeQub (f : Flags) (ind : List ℕ) (N : ℕ) : Option (List ℕ × POp K) := rdmeQubT Transform.jordanWigner f ind N

/-- The value of an element (`_tomography.py:256-272`); `meas s` is what the processor returns for the string `s`. -/
def value (meas : PStr → K) (Q : POp K) : K :=
  (Q.map (fun t => if t.1.all (· = .I) then t.2 else meas t.1 * t.2)).sum

/-- `_generate_*rdme` by order (`_tomography.py:351-361`). -/
def rdme (p : ℕ) (f : Flags) (alp bet : List ℕ) : List (List ℕ) :=
  match p with
  | 1 => rdme1 f alp bet
  | 2 => rdme2 f alp bet
  | 3 => rdme3 f alp bet
  | 4 => rdme4 f alp bet
  | _ => []

/-- Generating, measuring and filling an RDM of order `p`, with the transform `T`
(`_tomography.py:209-322, 344-361, 570-600`). -/
def tomographyT (T : Term FStr K → Option (POp K)) (p : ℕ) (f : Flags) (alp bet : List ℕ) (meas : PStr → K) :
    Option (List ℕ → K) :=
  ((rdme p f alp bet).mapM
    (fun ind => (rdmeQubT T f ind (alp.length + bet.length)).map (fun r => (r.1, value meas r.2)))).map (build p)

/-- Generating, measuring and filling an RDM of order `p` with the Jordan–Wigner transform. -/
def tomography (p : ℕ) (f : Flags) (alp bet : List ℕ) (meas : PStr → K) : Option (List ℕ → K) :=
  tomographyT Transform.jordanWigner p f alp bet meas

end Tomo
end HQCA
