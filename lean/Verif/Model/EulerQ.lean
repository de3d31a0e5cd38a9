import Verif.Model.EulerRun
import Verif.Model.MeasResid

/-!
# Model of a closed Euler run of the ACSE with the quantum solver (`hqca/acse/acse.py`, `_euler_acse.py`, `_quant_A_acse.py`)

As `Model/EulerRun.lean`, with `update='quantum'`, the driver's default (`acse.py:62`): the residual is measured on the ansatz followed by a step of the Hamiltonian.  The run is
written for any solver, so that the classical one is an instance as well.
-/

namespace HQCA
namespace EulerQ
noncomputable section
open ACSE EulerRun

/-- `_get_A` (`acse.py:417-435`, `481-486`, `562-573`) with `solveqACSE` (`_quant_A_acse.py:37-70`): `H` is `store.H.qubit_operator`, `d` the Hamiltonian step size. -/
def getA (o : Opt) (no na nb : ℕ) (H : List (PStr × ℂ)) (trotter : ℕ) (d : ℝ) (L : List (OpD FStr ℂ)) : Option (OpD FStr ℂ × ℝ) :=
  (MeasResid.statevector no na nb o.colA L H trotter d).bind fun A =>
    (Collect.quantum o.smin A).map fun x => (relTrunc (fun c : ℂ => ‖c‖) o.thr x.1, x.2)

variable (G : List (OpD FStr ℂ) → Option (OpD FStr ℂ × ℝ))

/-- `_run_acse` (`acse.py:599-601`, `_euler_acse.py:14-23`) and what `_check` reads; `G` is the solver. -/
def step (o : Opt) (no na nb : ℕ) (h1 : Fin (2 * no) → Fin (2 * no) → ℂ) (V : Fin (2 * no) → Fin (2 * no) → Fin (2 * no) → Fin (2 * no) → ℂ) (enc : ℝ)
    (s : Euler.St FStr ℂ) : Option (Euler.St FStr ℂ × Obs ℝ) :=
  let psi := (Euler.step 1 (o.eps : ℂ) s).psi
  (ACSEEn.energy no na nb o.col h1 V enc psi).bind fun e =>
    (G psi).map fun x => (⟨psi, x.1⟩, ⟨e, x.2, 0, 0, decide (psi.length = o.depth)⟩)

/-- The driver after `build` (`acse.py:357-401`). -/
def start : Option (Euler.St FStr ℂ) := (G []).map fun x => ⟨[], x.1⟩

/-- The ansatz and residual operator after `n` iterations. -/
def after (o : Opt) (no na nb : ℕ) (h1 : Fin (2 * no) → Fin (2 * no) → ℂ) (V : Fin (2 * no) → Fin (2 * no) → Fin (2 * no) → Fin (2 * no) → ℂ) (enc : ℝ) :
    ℕ → Option (Euler.St FStr ℂ)
  | 0 => start G
  | n + 1 => (after o no na nb h1 V enc n).bind fun s => (step G o no na nb h1 V enc s).map (·.1)

/-- `while not self.total.done: self._run_acse(); self._check()` (`acse.py:665-667`), at most `n` times. -/
def loop (P : Par ℝ) (o : Opt) (no na nb : ℕ) (h1 : Fin (2 * no) → Fin (2 * no) → ℂ) (V : Fin (2 * no) → Fin (2 * no) → Fin (2 * no) → Fin (2 * no) → ℂ)
    (enc : ℝ) : ℕ → St ℝ → Euler.St FStr ℂ → Option (St ℝ)
  | 0, d, _ => some d
  | n + 1, d, s => if d.done then some d else
      (step G o no na nb h1 V enc s).bind fun x => (check P d x.2).bind fun d' => loop P o no na nb h1 V enc n d' x.1

/-- `build()` and `run()` of a new object from the storage, at most `n` iterations. -/
def run (P : Par ℝ) (o : Opt) (no na nb : ℕ) (h1 : Fin (2 * no) → Fin (2 * no) → ℂ) (V : Fin (2 * no) → Fin (2 * no) → Fin (2 * no) → Fin (2 * no) → ℂ)
    (enc : ℝ) (n : ℕ) : Option (St ℝ) :=
  (HFStore.acseE0 no na nb h1 V enc).bind fun e =>
    (start G).bind fun s => loop G P o no na nb h1 V enc n (build e 0) s

end
end EulerQ
end HQCA
