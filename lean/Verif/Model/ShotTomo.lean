import Verif.Model.StateTomo
import Verif.Model.VQEObjective
import Mathlib.Data.Real.Basic

/-!
# Model of tomography from shots (`hqca/tomography/_tomography.py`)

The path of `StandardTomography` for the backends that return counts (the default `qasm_simulator` and devices): every basis has a circuit, named by the basis
(`_tomography.py:152-160`), whose qubits are measured (`_tomography.py:185-189`).  The outcomes of the shots of each circuit are an argument; the job hands them out by name
(`_tomography.py:822-827`).  Noise models and measurement filters are not used.
-/

namespace HQCA
namespace ShotTomo
noncomputable section
open Prim Tomo
open StateTomo (measurements dget)

/-- The record the circuit library writes for outcome `l`: the last qubit first. -/
def bits (Nq l : ℕ) : List Bool := (List.range Nq).map fun j => l.testBit (Nq - 1 - j)

/-- `get_counts` of the circuit library (`_tomography.py:826`): each record with its number of occurrences. -/
def getCounts (Nq : ℕ) (out : List ℕ) : List (List Bool × ℝ) := out.dedup.map fun l => (bits Nq l, (out.count l : ℝ))

/-- `simulate` for counts (`_tomography.py:693-714, 820-845`): `self.counts`.  `none`: no circuit (`circuits[0]`, `_tomography.py:714`), or a basis longer than the register. -/
def simulate (Nq : ℕ) (bases : List PStr) (shots : PStr → List ℕ) : Option (List (PStr × List (List Bool × ℝ))) :=
  if bases.isEmpty || bases.any (fun c => Nq < c.length) then none else some (bases.map fun b => (b, getCounts Nq (shots b)))

/-- `temp` for one element (`_tomography.py:257-272`) with `StandardProcess` on counts. -/
def value (Nq : ℕ) (mapping : List (PStr × PStr)) (counts : List (PStr × List (List Bool × ℝ))) (Q : POp ℂ) : Option ℂ :=
  (List.mapM (fun t : Term PStr ℂ =>
    if t.1.all (· = .I) then some t.2 else
    (dget mapping t.1).bind (fun get => (dget counts get).bind (fun c =>
      (Process.counts Nq t.1 c).map (fun z : ℝ => (z : ℂ) * t.2)))) Q).map List.sum

/-- `generate`, `set`, `simulate`, `construct` of an RDM of order `p` with a backend that returns counts (`_tomography.py:151-322, 344-361, 570-631, 633-845`): as `StateTomo.runT`. -/
def runT (T : Term FStr ℂ → Option (POp ℂ)) (p : ℕ) (f : Flags) (alp bet : List ℕ) (col : List PStr → ℕ → ℕ)
    (shots : PStr → List ℕ) : Option (List ℕ → ℂ) :=
  let Nq := alp.length + bet.length
  ((rdme p f alp bet).mapM (fun ind => rdmeQubT T f ind Nq)).bind (fun els =>
    (measurements f.real Nq col (els.map (·.2))).bind (fun m =>
      (simulate Nq m.1 shots).bind (fun sim =>
        if els.isEmpty then none else
        (els.mapM (fun e => (value Nq m.2 sim e.2).map (fun v => (e.1, v)))).map (build p))))

/-- `__test_vqe_function` (`vqe.py:99-126`) with a backend that returns counts: the circuits are those of `VQEObj.state`, the outcomes of their shots an argument. -/
def objective (d : ℝ) (no na nb : ℕ) (col : List PStr → ℕ → ℕ) (h1 : Fin (2 * no) → Fin (2 * no) → ℂ)
    (V : Fin (2 * no) → Fin (2 * no) → Fin (2 * no) → Fin (2 * no) → ℂ) (enc : ℝ) (ps : List ℂ) (shots : PStr → List ℕ) : Option ℝ :=
  (VQEObj.state d no na nb ps).bind fun _ =>
    (runT Transform.jordanWigner 2 ⟨true, false⟩ (Prepare.defaultOrbs no).1 (Prepare.defaultOrbs no).2 col shots).map
      (VQEObj.evaluate (Ham.k2 h1 V ((na + nb : ℕ) : ℂ)) enc)

end
end ShotTomo
end HQCA
