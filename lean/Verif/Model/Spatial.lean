import Verif.Model.SpinRDM

/-!
# Model of the spatial RDM (`hqca/tools/rdm/_spatial_rdm.py`, `_functions.py:264-333, 365-412`)
-/

namespace HQCA
namespace Spatial
open SpinRDM
variable {K : Type} [Coef K]

/-- The lookups and array accesses of `spin_to_spatial` succeed: the lists have the same length, the alpha orbitals
index the new array of half the size and the beta orbitals the old one. -/
def ok (alp bet : List ℕ) : Bool :=
  alp.length == bet.length && alp.all (· < alp.length) && bet.all (· < alp.length + bet.length)

/-- `spin_to_spatial` of a four-index array (`_functions.py:382-396`). -/
def traced2 (alp bet : List ℕ) (D : List ℕ → K) : List ℕ → K :=
  RDM.writes (alp.flatMap (fun i => alp.flatMap (fun j => alp.flatMap (fun k => alp.map (fun l =>
    let p := partner alp bet i
    let q := partner alp bet j
    let r := partner alp bet k
    let s := partner alp bet l
    ([i, k, j, l], D [i, k, j, l] + D [p, r, q, s] + D [i, r, j, s] + D [p, k, q, l]))))))

/-- `spin_to_spatial` of a two-index array (`_functions.py:397-408`). -/
def traced1 (alp bet : List ℕ) (D : List ℕ → K) : List ℕ → K :=
  RDM.writes (alp.flatMap (fun i => alp.map (fun j =>
    ([i, j], D [i, j] + D [partner alp bet i, partner alp bet j]))))

/-- `SpatialRDM.reduce_order` of a two-particle RDM (`_spatial_rdm.py:28-44`), with `R` spatial orbitals.  `none` is the
division by zero. -/
def reduce (R : ℕ) (Ne : ℤ) (G : List ℕ → K) : Option (List ℕ → K) :=
  if Ne - 1 = 0 then none else
  some (fun ind => match ind with
    | [i, j] => ((List.range R).map (fun x => G [i, x, j, x])).sum * (1 / ((Ne - 1 : ℤ) : K))
    | _ => 0)

/-- `Sz_spatial` (`_functions.py:310-333`). -/
def sz (D1 : List ℕ → K) (alp bet : List ℕ) : Option K :=
  if ok alp bet then some (tr1 alp.length (traced1 alp bet (szMat alp bet)) D1) else none

/-- `S2_spatial` (`_functions.py:264-308`). -/
def s2 (G D1 : List ℕ → K) (alp bet : List ℕ) : Option K :=
  let R := alp.length
  if ok alp bet then
    some (tr2 R (traced2 alp bet (spsmTwo alp bet)) G + tr1 R (traced1 alp bet (spsmOne alp)) D1 +
      tr2 R (traced2 alp bet (sz2Two alp bet)) G + tr1 R (traced1 alp bet (sz2One alp bet)) D1 -
      tr1 R (traced1 alp bet (szMat alp bet)) D1)
  else none

/-- `SpatialRDM(rdm=D, ...).get_spin_properties()` for the spin 2-RDM `D` (`_spatial_rdm.py:46-61`). -/
def spinProperties (Ne : ℤ) (D : List ℕ → K) (alp bet : List ℕ) : Option (K × K) := do
  if ok alp bet then
    let G := traced2 alp bet D
    let D1 ← reduce alp.length Ne G
    let z ← sz D1 alp bet
    let s ← s2 G D1 alp bet
    return (z, s)
  else none

end Spatial
end HQCA
