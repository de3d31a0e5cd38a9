import Verif.Model.RDMAlg
import Verif.Model.VQEObjective

/-!
# Model of the initial energy of the storage objects

`StorageVQE._get_HF_rdm` (`hqca/vqe/_store_vqe.py:52-65`) and `StorageACSE._get_HF_rdm` (`hqca/acse/_store_acse.py:120-132`):
the same text except for the orbital labels.  The constructors call it (`_store_vqe.py:32`, `_store_acse.py:42, 52`).
-/

namespace HQCA
namespace HFStore
noncomputable section

/-- `alpha_mo['qubit']`, `beta_mo['qubit']` (`hamiltonian/molecular.py:251, 257`), used by `StorageACSE`. -/
def qubitLabels (no : ℕ) : List ℕ × List ℕ := (List.range no, (List.range no).map (· + no))

/-- `alpha_mo['active']`, `beta_mo['active']` (`hamiltonian/molecular.py:249, 255`), used by `StorageVQE`: `core` doubly
occupied frozen orbitals, `tot` orbitals in all. -/
def activeLabels (core tot no : ℕ) : List ℕ × List ℕ :=
  ((List.range no).map (· + core), (List.range no).map (· + core + tot))

/-- The dictionary `s2 = {0:0,0.5:0.75,-0.5:0.75,1:2}`, with the key `2*sz = Ne_alp - Ne_bet`; `none`: `KeyError`. -/
def s2 (twoSz : ℤ) : Option ℚ :=
  if twoSz = 0 then some 0 else if twoSz = 1 ∨ twoSz = -1 then some (3 / 4) else if twoSz = 2 then some 2 else none

/-- `occAlp+occBet` of `_build_hf_spin` (`tools/rdm/_spin_rdm.py:588-590`) with `Ne` and `2*Sz`: floor division. -/
def occ (alp bet : List ℕ) (ne twoSz : ℤ) : List ℕ :=
  RDM.hfOcc alp bet ((ne + twoSz) / 2).toNat ((ne - twoSz) / 2).toNat

/-- `RDM(order=2,rdm='hf',...)` (`_spin_rdm.py:26, 581-603`): the array has `r = len(alpha)+len(beta)` entries along each axis,
and the labels themselves are the indices written to; `none`: `IndexError`. -/
def build (alp bet : List ℕ) (ne twoSz : ℤ) : Option (List ℕ → ℂ) :=
  open Classical in if ∃ S ∈ Rec.permute (occ alp bet ne twoSz) 2 [], ∃ i ∈ S, alp.length + bet.length ≤ i then none
  else some (RDM.buildHF 2 (occ alp bet ne twoSz))

/-- `hf_rdm` (`_store_vqe.py:53-63`), for `na` alpha and `nb` beta electrons.  Simplified: `Ne_as = na + nb`, which holds when the
number of core electrons is even (`hamiltonian/molecular.py:62-64`). -/
def hfRDM (lab : List ℕ × List ℕ) (na nb : ℕ) : Option (List ℕ → ℂ) :=
  (s2 ((na : ℤ) - nb)).bind fun _ => build lab.1 lab.2 ((na : ℤ) + nb) ((na : ℤ) - nb)

/-- `e0` (`_store_vqe.py:64`, `_store_acse.py:131`), with the labels `lab`: `h1` and `V` are the integrals of the active
orbitals. -/
def e0 (lab : List ℕ × List ℕ) (no na nb : ℕ) (h1 : Fin (2 * no) → Fin (2 * no) → ℂ)
    (V : Fin (2 * no) → Fin (2 * no) → Fin (2 * no) → Fin (2 * no) → ℂ) (enc : ℝ) : Option ℝ :=
  (hfRDM lab na nb).map (VQEObj.evaluate (Ham.k2 h1 V ((na + nb : ℕ) : ℂ)) enc)

/-- `StorageACSE.e0`. -/
def acseE0 (no na nb : ℕ) := e0 (qubitLabels no) no na nb

/-- `StorageVQE.e0`. -/
def vqeE0 (core tot no na nb : ℕ) := e0 (activeLabels core tot no) no na nb

end
end HFStore
end HQCA
