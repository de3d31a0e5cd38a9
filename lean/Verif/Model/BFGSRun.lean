import Verif.Model.BFGS
import Verif.Model.Optim
import Verif.Model.VQE
import Mathlib.Analysis.Real.Sqrt

/-!
# Model of the quasi-Newton optimizer as a whole (`hqca/opts/gradient/bfgs.py:17-161`) and of its use by the VQE driver

The pieces are in `Verif.Model.BFGS` (matrix updates), `Verif.Model.Optim` (line search) and `Verif.Model.VQE` (driver).  Objective and gradient are pure
functions on real vectors, the gradient routine being any function.  A line search is given a number of passes; `none` means that it has not ended within them.
Printing and counters are dropped, the criterion is the default one.
-/

namespace HQCA
namespace BFGSRun
open Matrix Optim BFGS
noncomputable section
variable {n : ℕ}

/-- `function` and `gradient` (`opts/core/_optimizers.py:33-45`). -/
structure Prob (n : ℕ) where
  f : (Fin n → ℝ) → ℝ
  g : (Fin n → ℝ) → Fin n → ℝ

/-- `phi`, `dphi`, `f_zed`, `g_zed` and the constants of `_line_search` (`bfgs.py:171-196`). -/
def search (P : Prob n) (x p g0 : Fin n → ℝ) (fz : ℝ) : WLS ℝ :=
  ⟨fun a => P.f (x + a • p), fun a => P.g (x + a • p) ⬝ᵥ p, fz, g0 ⬝ᵥ p, 6 / 10, 9 / 10⟩

/-- `np.linalg.norm`, `np.sqrt(np.sum(np.square(...)))` (`bfgs.py:87, 161`). -/
def norm (v : Fin n → ℝ) : ℝ := Real.sqrt (v ⬝ᵥ v)

/-- The attributes kept between steps (`bfgs.py:78-91`). -/
structure St (n : ℕ) where
  x0 : Fin n → ℝ
  g0 : Fin n → ℝ
  B0 : Matrix (Fin n) (Fin n) ℝ
  B0i : Matrix (Fin n) (Fin n) ℝ
  s0 : Fin n → ℝ
  bestX : Fin n → ℝ
  bestF : ℝ
  crit : ℝ
  stuck : Fin 3 → Fin n → ℝ
  ind : Fin 3

/-- `initialize` (`bfgs.py:22-91`), with `m` passes for the line search.  `none` also stands for the exception of the line search: it is caught by
`Optimizer.initialize` (`opts/opt.py:84-102`), but no attribute `best_f` has been set, so that `RunVQE.build` raises (`vqe.py:92`). -/
def init (P : Prob n) (start : Fin n → ℝ) (m : ℕ) : Option (St n) :=
  let g0 := P.g start
  let p := -((1 : Matrix (Fin n) (Fin n) ℝ) *ᵥ g0)
  match wRun (search P start p g0 (P.f start)) m with
  | .ended (some (a, _)) =>
    let s := a • p
    let x1 := start + s
    let g1 := P.g x1
    let y := g1 - g0
    some ⟨x1, g1, hessInit 1 s y, inv 1 s y, s, x1, P.f x1, norm g1, fun _ _ => 0, 0⟩
  | _ => none

/-- `next_step` (`bfgs.py:93-161`): the new state and whether it returned (`false`: the line search raised, and `Optimizer.next_step` recorded an error,
`opts/opt.py:120-124`); `none` when the line search has not ended within `m` passes. -/
def next (P : Prob n) (t : St n) (m : ℕ) : Option (St n × Bool) :=
  let stuck := Function.update t.stuck t.ind t.x0
  let x := if norm (stuck 0 - stuck 2) < 1 / 10 ^ 15 then t.x0 - (1 - 1 / 2 : ℝ) • t.s0 else t.x0
  let p := -(t.B0i *ᵥ t.g0)
  match wRun (search P x p t.g0 t.bestF) m with
  | .running _ _ _ => none
  | .ended none => some ({ t with x0 := x, stuck := stuck, ind := t.ind + 1 }, false)
  | .ended (some (a, _)) =>
    let s := a • p
    let x1 := x + s
    let y := P.g x1 - t.g0
    some (⟨x1, P.g x1, hess t.B0 s y, inv t.B0i s y, s, x1, P.f x1, norm (P.g x1), stuck, t.ind + 1⟩, true)

/-- The driver of a VQE calculation around the optimizer (`vqe.py:62-98, 171-200`): the optimizer, `total.done`, `best`, `log_E` (latest first), and whether an
error was recorded.  The stored density matrix is left out (see `Verif.Model.VQE`). -/
structure Run (n : ℕ) where
  opt : St n
  done : Bool
  best : ℝ
  logE : List ℝ
  error : Bool

/-- `build` (`vqe.py:84-96`).  Simplified: `best` before the first check is the lowest of zero and the energies evaluated; here it is set to `best_f`. -/
def build (P : Prob n) (start : Fin n → ℝ) (m : ℕ) : Option (Run n) := (init P start m).map fun t => ⟨t, false, t.bestF, [t.bestF], false⟩

/-- `_run_vqe` and `_check` (`vqe.py:171-194`), through `VQE.check`; `total.iter` is never increased. -/
def pass (P : Prob n) (D : VQE.Par ℝ) (r : Run n) (m : ℕ) : Option (Run n) :=
  (next P r.opt m).map fun q =>
    let e := r.error || !q.2
    let c := VQE.check D ⟨0, r.done, r.best, none, q.1.bestF :: r.logE⟩ ⟨[], q.1.bestF, q.1.crit, e⟩
    ⟨q.1, c.done, c.best, c.logE, e⟩

/-- `run` (`vqe.py:196-200`): one number of passes for each line search. -/
def loop (P : Prob n) (D : VQE.Par ℝ) : List ℕ → Run n → Option (Run n)
  | [], r => some r
  | m :: ms, r => if r.done then some r else (pass P D r m).bind (loop P D ms)

/-- `build` and `run`. -/
def whole (P : Prob n) (D : VQE.Par ℝ) (start : Fin n → ℝ) (m : ℕ) (ms : List ℕ) : Option (Run n) := (build P start m).bind (loop P D ms)

end
end BFGSRun
end HQCA
