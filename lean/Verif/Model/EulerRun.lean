import Verif.Model.ACSE
import Verif.Model.ACSEEnergy
import Verif.Model.Collect
import Verif.Model.Euler
import Verif.Model.HFStorage

/-!
# Model of a closed Euler run of the ACSE with the classical solver (`hqca/acse/acse.py`, `_euler_acse.py`, `_class_A_acse.py`)

`acse_method='euler'`, `update='c'`, `closed_ansatz=True` (the default), state-vector backend, Jordan–Wigner transform, default orbital order, two-body tomographies
of the real part for the energy and for the residual.  Each iteration adds the scaled residual operator to the ansatz, evaluates the energy, and takes the next
residual operator from the new state.
-/

namespace HQCA
namespace EulerRun
noncomputable section
open ACSE Resid

/-- Keywords: `epsilon` (`acse.py:120`), `S_min`, `S_thresh_rel`, `max_depth`; the colourings chosen by the graph library for the two tomographies. -/
structure Opt where
  eps : ℝ
  smin : ℝ
  thr : ℝ
  depth : ℕ
  col : List PStr → ℕ → ℕ
  colA : List PStr → ℕ → ℕ

/-- `np.real(D2.rdm)` (`_class_A_acse.py:69`). -/
def real2 {r : ℕ} (D : List ℕ → ℂ) : Fin r → Fin r → Fin r → Fin r → ℂ := fun a b c d => (((D [a.val, b.val, c.val, d.val]).re : ℝ) : ℂ)

/-- `_get_A` (`acse.py:422-425`, `436-449`, `481-486`, `562-573`) with `solvecACSE` (`_class_A_acse.py:39-53`, `68-125`): the residual operator and its norm.  For fewer than
three electrons and a two-body tomography the three-body matrix is zero (`_class_A_acse.py:40-46`); otherwise the two-body tomography raises `ResidualError`
(`_class_A_acse.py:62`). -/
def getA (o : Opt) (no na nb : ℕ) (h1 : Fin (2 * no) → Fin (2 * no) → ℂ) (V : Fin (2 * no) → Fin (2 * no) → Fin (2 * no) → Fin (2 * no) → ℂ)
    (L : List (OpD FStr ℂ)) : Option (OpD FStr ℂ × ℝ) :=
  if na + nb < 3 then
    (ACSEEn.state no na nb L).bind fun prep =>
      (StateTomo.run 2 ⟨true, false⟩ (Prepare.defaultOrbs no).1 (Prepare.defaultOrbs no).2 o.colA prep).bind fun D =>
        (Collect.classical o.smin (residual (Ham.k2 h1 V ((na + nb : ℕ) : ℂ)) (real2 D) fun _ _ _ _ _ _ => 0)).map fun x =>
          (relTrunc (fun c : ℂ => ‖c‖) o.thr x.1, x.2)
  else none

/-- `_run_acse` (`acse.py:599-601`, `_euler_acse.py:14-23`): the ansatz and residual operator afterwards, and what `_check` reads.  The Euler step sets neither `tr_taylor` nor
`tr_object`; the zeros stand for them and are not read with the convergence type `norm`. -/
def step (o : Opt) (no na nb : ℕ) (h1 : Fin (2 * no) → Fin (2 * no) → ℂ) (V : Fin (2 * no) → Fin (2 * no) → Fin (2 * no) → Fin (2 * no) → ℂ) (enc : ℝ)
    (s : Euler.St FStr ℂ) : Option (Euler.St FStr ℂ × Obs ℝ) :=
  let psi := (Euler.step 1 (o.eps : ℂ) s).psi
  (ACSEEn.energy no na nb o.col h1 V enc psi).bind fun e =>
    (getA o no na nb h1 V psi).map fun x => (⟨psi, x.1⟩, ⟨e, x.2, 0, 0, decide (psi.length = o.depth)⟩)

/-- The driver after `build` (`acse.py:357-401`): empty ansatz and the residual operator of the reference. -/
def start (o : Opt) (no na nb : ℕ) (h1 : Fin (2 * no) → Fin (2 * no) → ℂ) (V : Fin (2 * no) → Fin (2 * no) → Fin (2 * no) → Fin (2 * no) → ℂ) :
    Option (Euler.St FStr ℂ) :=
  (getA o no na nb h1 V []).map fun x => ⟨[], x.1⟩

/-- The ansatz and residual operator after `n` iterations. -/
def after (o : Opt) (no na nb : ℕ) (h1 : Fin (2 * no) → Fin (2 * no) → ℂ) (V : Fin (2 * no) → Fin (2 * no) → Fin (2 * no) → Fin (2 * no) → ℂ) (enc : ℝ) :
    ℕ → Option (Euler.St FStr ℂ)
  | 0 => start o no na nb h1 V
  | n + 1 => (after o no na nb h1 V enc n).bind fun s => (step o no na nb h1 V enc s).map (·.1)

/-- `while not self.total.done: self._run_acse(); self._check()` (`acse.py:665-667`), at most `n` times. -/
def loop (P : Par ℝ) (o : Opt) (no na nb : ℕ) (h1 : Fin (2 * no) → Fin (2 * no) → ℂ) (V : Fin (2 * no) → Fin (2 * no) → Fin (2 * no) → Fin (2 * no) → ℂ) (enc : ℝ) :
    ℕ → St ℝ → Euler.St FStr ℂ → Option (St ℝ)
  | 0, d, _ => some d
  | n + 1, d, s => if d.done then some d else
      (step o no na nb h1 V enc s).bind fun x => (check P d x.2).bind fun d' => loop P o no na nb h1 V enc n d' x.1

/-- `build()` and `run()` of a new object from the storage, at most `n` iterations. -/
def run (P : Par ℝ) (o : Opt) (no na nb : ℕ) (h1 : Fin (2 * no) → Fin (2 * no) → ℂ) (V : Fin (2 * no) → Fin (2 * no) → Fin (2 * no) → Fin (2 * no) → ℂ) (enc : ℝ)
    (n : ℕ) : Option (St ℝ) :=
  (HFStore.acseE0 no na nb h1 V enc).bind fun e =>
    (start o no na nb h1 V).bind fun s => loop P o no na nb h1 V enc n (build e 0) s

end
end EulerRun
end HQCA
