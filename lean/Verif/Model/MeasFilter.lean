import Mathlib.Data.List.Basic
import Mathlib.Data.Int.Basic

/-!
# Model of the measurement filter (`hqca/storage/_quantum_storage.py:198-207, 324-407`) and of its use (`hqca/tomography/_tomography.py:840-849`)

The counter alone is also modelled in `Model/VQE` (C53); here the filters and the counts are included.  A filter is a value of an arbitrary type `F`; `cal j` is the filter obtained from the `j`-th execution of the calibration circuits.  The branches for complete and tensored
calibration and for noise differ in the circuits only and are not told apart.
-/

namespace HQCA
namespace MeasFilter
variable {F D : Type}

/-- The attributes `freq`, `n`, `_meas_filter`, and the number of calibrations executed so far. -/
structure St (F : Type) where
  freq : ℤ
  n : ℤ
  filt : F
  done : ℕ

/-- A calibration (`_quantum_storage.py:336-394`): `_meas_filter` is replaced, `n` is set to `freq-1`. -/
def calibrate (cal : ℕ → F) (freq : ℤ) (done : ℕ) : St F := ⟨freq, freq - 1, cal done, done + 1⟩

/-- `set_error_mitigation('measure', frequency=f)` (`_quantum_storage.py:205-207, 331-336`): `n` is zero, so the calibration is always executed. -/
def init (cal : ℕ → F) (f : ℤ) (done : ℕ) : St F := calibrate cal f done

/-- `_get_measurement_filter()` (`_quantum_storage.py:336, 397-398`). -/
def refresh (cal : ℕ → F) (s : St F) : St F := if s.n = 0 then calibrate cal s.freq s.done else { s with n := s.n - 1 }

/-- Reading the property `meas_filter` (`_quantum_storage.py:400-403`): the value and the new state. -/
def read (cal : ℕ → F) (s : St F) : F × St F := ((refresh cal s).filt, refresh cal s)

/-- Assigning the property (`_quantum_storage.py:405-407`). -/
def assign (s : St F) (b : F) : St F := { s with filt := b }

/-- The correction of the counts of one run (`_tomography.py:840-849`): one reading for every circuit, in their order. -/
def correct (cal : ℕ → F) (ap : F → D → D) : St F → List D → List D × St F
  | s, [] => ([], s)
  | s, j :: js =>
    let r := read cal s
    let rest := correct cal ap r.2 js
    (ap r.1 j :: rest.1, rest.2)

end MeasFilter
end HQCA
