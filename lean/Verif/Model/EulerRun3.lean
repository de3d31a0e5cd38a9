import Verif.Model.ClassResid

/-!
# Model of a closed Euler run of the ACSE with the classical solver and a tomography of order two or three for the residual

As `Model/EulerRun.lean` (`acse_method='euler'`, `update='c'`, `closed_ansatz=True`, state-vector backend, Jordan–Wigner transform), with the tomography given for the
residual (`tomo_A`, `acse.py:69`, `122`, `450`) of order `p`.  The energy is evaluated with a two-body tomography.
-/

namespace HQCA
namespace EulerRun3
noncomputable section
open ACSE EulerRun

/-- `_get_A` (`acse.py:422-425`, `436-449`, `481-486`, `562-573`) with `solvecACSE` (`_class_A_acse.py:36-125`). -/
def getA (p : ℕ) (o : Opt) (no na nb : ℕ) (h1 : Fin (2 * no) → Fin (2 * no) → ℂ) (V : Fin (2 * no) → Fin (2 * no) → Fin (2 * no) → Fin (2 * no) → ℂ)
    (L : List (OpD FStr ℂ)) : Option (OpD FStr ℂ × ℝ) :=
  (ClassResid.solve o.smin p false no na nb o.colA h1 V L).map fun x => (relTrunc (fun c : ℂ => ‖c‖) o.thr x.1, x.2)

/-- `_run_acse` (`acse.py:599-601`, `_euler_acse.py:14-23`) and what `_check` reads. -/
def step (p : ℕ) (o : Opt) (no na nb : ℕ) (h1 : Fin (2 * no) → Fin (2 * no) → ℂ) (V : Fin (2 * no) → Fin (2 * no) → Fin (2 * no) → Fin (2 * no) → ℂ) (enc : ℝ)
    (s : Euler.St FStr ℂ) : Option (Euler.St FStr ℂ × Obs ℝ) :=
  let psi := (Euler.step 1 (o.eps : ℂ) s).psi
  (ACSEEn.energy no na nb o.col h1 V enc psi).bind fun e =>
    (getA p o no na nb h1 V psi).map fun x => (⟨psi, x.1⟩, ⟨e, x.2, 0, 0, decide (psi.length = o.depth)⟩)

/-- The driver after `build` (`acse.py:357-401`): empty ansatz and the residual operator of the reference. -/
def start (p : ℕ) (o : Opt) (no na nb : ℕ) (h1 : Fin (2 * no) → Fin (2 * no) → ℂ) (V : Fin (2 * no) → Fin (2 * no) → Fin (2 * no) → Fin (2 * no) → ℂ) :
    Option (Euler.St FStr ℂ) :=
  (getA p o no na nb h1 V []).map fun x => ⟨[], x.1⟩

/-- The ansatz and residual operator after `n` iterations. -/
def after (p : ℕ) (o : Opt) (no na nb : ℕ) (h1 : Fin (2 * no) → Fin (2 * no) → ℂ) (V : Fin (2 * no) → Fin (2 * no) → Fin (2 * no) → Fin (2 * no) → ℂ) (enc : ℝ) :
    ℕ → Option (Euler.St FStr ℂ)
  | 0 => start p o no na nb h1 V
  | n + 1 => (after p o no na nb h1 V enc n).bind fun s => (step p o no na nb h1 V enc s).map (·.1)

/-- `while not self.total.done: self._run_acse(); self._check()` (`acse.py:665-667`), at most `n` times. -/
def loop (P : Par ℝ) (p : ℕ) (o : Opt) (no na nb : ℕ) (h1 : Fin (2 * no) → Fin (2 * no) → ℂ) (V : Fin (2 * no) → Fin (2 * no) → Fin (2 * no) → Fin (2 * no) → ℂ)
    (enc : ℝ) : ℕ → St ℝ → Euler.St FStr ℂ → Option (St ℝ)
  | 0, d, _ => some d
  | n + 1, d, s => if d.done then some d else
      (step p o no na nb h1 V enc s).bind fun x => (check P d x.2).bind fun d' => loop P p o no na nb h1 V enc n d' x.1

/-- `build()` and `run()` of a new object from the storage, at most `n` iterations. -/
def run (P : Par ℝ) (p : ℕ) (o : Opt) (no na nb : ℕ) (h1 : Fin (2 * no) → Fin (2 * no) → ℂ) (V : Fin (2 * no) → Fin (2 * no) → Fin (2 * no) → Fin (2 * no) → ℂ)
    (enc : ℝ) (n : ℕ) : Option (St ℝ) :=
  (HFStore.acseE0 no na nb h1 V enc).bind fun e =>
    (start p o no na nb h1 V).bind fun s => loop P p o no na nb h1 V enc n (build e 0) s

end
end EulerRun3
end HQCA
