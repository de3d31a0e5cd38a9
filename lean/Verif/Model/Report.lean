import Verif.Model.Analysis
import Verif.Model.SpinRDM

/-!
# Model of the reports of the storages (`hqca/acse/_store_acse.py:73-109`, `hqca/vqe/_store_vqe.py:67-82`)

What `analysis` prints for a two-body density matrix of a molecule; the printed matrices themselves are dropped.
-/

namespace HQCA
namespace Report
noncomputable section
open Analysis SpinRDM

/-- The numbers printed. -/
structure Out where
  /-- `Sz:` -/
  sz : ℝ
  /-- `S2:` -/
  s2 : ℝ
  /-- `N:` -/
  number : ℝ
  /-- `Eigenvalues of 2-RDM:` -/
  eig2 : Multiset ℝ
  /-- `Negative eigenvalue!` is printed. -/
  negative : Prop
  /-- `Eigenvalues of 1-RDM:` -/
  eig1 : Multiset ℝ

/-- `RDM.trace` (`_spin_rdm.py:339-347`): `switch` contracts the tensor to a matrix whose rows are the pairs of indices (`:644-660`); the trace of that. -/
def trace (r : ℕ) (D : List ℕ → ℂ) : ℂ := ((RDM.tuples r 2).map fun t => D (t ++ t)).sum

/-- `if abs(i)>1e-10: print(i)`. -/
def shown (s : Multiset ℝ) : Multiset ℝ := open Classical in s.filter fun e => 1e-10 < |e|

/-- `StorageACSE.analysis` (`_store_acse.py:73-109`); `none`: `ZeroDivisionError` for one electron, or an exception of the spin functions. -/
def acse (Ne : ℤ) (D : List ℕ → ℂ) (alp bet : List ℕ) : Option Out :=
  let r := alp.length + bet.length
  (spinProperties Ne D alp bet).bind fun s =>
    let e2 := shown (eigvalsh (block D (RDM.tuples r 2)))
    (RDM.reduceOrder 2 r Ne D).map fun D1 =>
      ⟨s.1.re, s.2.re, (trace r D).re, e2, ∃ e ∈ e2, e < 0, shown (eigvalsh (block1 D1 (List.range r) r))⟩

/-- `StorageVQE.analysis` (`_store_vqe.py:67-82`): the spin properties and the eigenvalues of the 2-RDM. -/
def vqe (Ne : ℤ) (D : List ℕ → ℂ) (alp bet : List ℕ) : Option (ℝ × ℝ × Multiset ℝ) :=
  (spinProperties Ne D alp bet).map fun s => (s.1.re, s.2.re, shown (eigvalsh (block D (RDM.tuples (alp.length + bet.length) 2))))

end
end Report
end HQCA
