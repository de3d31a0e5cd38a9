import Verif.Model.Tomography
import Verif.Model.Grouping
import Verif.Model.Primitives
import Verif.Model.Process

/-!
# Model of the state-vector path of `StandardTomography` (`hqca/tomography/_tomography.py`)

Collecting the Pauli strings, simulating only the first basis and rotating its amplitudes to the other bases, and
reading the values back.  The circuit library (gates, unitary simulator) and the graph library enter through the gate
matrices of `Spec/QCirc` and an arbitrary colouring.
-/

namespace HQCA
namespace StateTomo
noncomputable section
open Prim Tomo

/-- `paulis` (`_tomography.py:598-603`): the distinct strings in order of first appearance. -/
def distinct (Qs : List (POp ℂ)) : List PStr :=
  (Qs.flatMap (fun Q => Q.map (·.1))).foldl (fun acc s => if s ∈ acc then acc else acc ++ [s]) []

/-- `ztype` (`_tomography.py:605-609`). -/
def ztype (s : PStr) : Bool := s.all (fun p => p = .I || p = .Z)

/-- Reading a dictionary written entry by entry: the last assignment counts; `none` is `KeyError`. -/
def dget {β : Type} (d : List (PStr × β)) (s : PStr) : Option β := (d.reverse.find? (fun x => x.1 = s)).map (·.2)

/-- `_generate_pauli_measurements` after the elements (`_tomography.py:598-631`), with `simplify=True` and the relation
`qwc`: the bases and the dictionary from strings to bases.  `col` is the colouring chosen for the strings given to the
graph library. -/
def measurements (real : Bool) (Nq : ℕ) (col : List PStr → ℕ → ℕ) (Qs : List (POp ℂ)) :
    Option (List PStr × List (PStr × PStr)) :=
  let paulis := distinct Qs
  let rest := if real then paulis.filter (fun s => !ztype s) else paulis
  let zpauli := if real then (paulis.filter ztype).reverse else []
  (Grouping.simplify .qwc (col rest) rest).map (fun r =>
    (if real then r.1 ++ [List.replicate Nq .Z] else r.1, r.2 ++ zpauli.map (fun z => (z, List.replicate Nq .Z))))

/-- The gates undoing one letter of the first basis (`_tomography.py:771-779`); `z` is written as two `s`. -/
def undoLetter (n : ℕ) : PL → List QG
  | .X => [.s n, .sx n, .s n]
  | .Y => [.s n, .sx n, .s n, .s n]
  | _ => []

/-- The gates of one letter of another basis (`_tomography.py:781-788`). -/
def redoLetter (n : ℕ) : PL → List QG
  | .X => [.s n, .sx n, .s n]
  | .Y => [.sx n, .s n]
  | _ => []

/-- `for n,i in enumerate(c0)` (`_tomography.py:771`). -/
def undoFrom (k : ℕ) : PStr → List QG
  | [] => []
  | p :: s => undoLetter k p ++ undoFrom (k + 1) s

/-- `for n, i in enumerate(c)` (`_tomography.py:781`). -/
def redoFrom (k : ℕ) : PStr → List QG
  | [] => []
  | p :: s => redoLetter k p ++ redoFrom (k + 1) s

/-- `simulate` for a state vector and local tomography (`_tomography.py:742-805, 845`), with `set` having appended the
basis gates to the first circuit only (`_tomography.py:150-194`): the dictionary from bases to amplitudes, and
`self.psi` (set when there is more than one basis).  `prep` is the state before the basis gates.  `none`: no basis
(`IndexError`), or a basis longer than the register. -/
def simulate (Nq : ℕ) (bases : List PStr) (prep : Cfg → ℂ) :
    Option (List (PStr × (ℕ → ℂ)) × Option (ℕ → ℂ)) :=
  match bases with
  | [] => none
  | c0 :: rest =>
    if (c0 :: rest).any (fun c => Nq < c.length) then none else
    let psi := circOp (measFrom 0 c0) prep
    let counts := psi :: rest.map (fun c => circOp (undoFrom 0 c0 ++ redoFrom 0 c) psi)
    some (((c0 :: rest).zip counts).map (fun x => (x.1, fun l => x.2 (cfgOf l))),
      if rest.isEmpty then none else some (fun l => circOp (undoFrom 0 c0) psi (cfgOf l)))

/-- `temp` for one element (`_tomography.py:257-272`), reading `self.mapping` and `self.counts`. -/
def valueSV (Nq : ℕ) (mapping : List (PStr × PStr)) (counts : List (PStr × (ℕ → ℂ))) (Q : POp ℂ) : Option ℂ :=
  (List.mapM (fun t : Term PStr ℂ =>
    if t.1.all (· = .I) then some t.2 else
    (dget mapping t.1).bind (fun get => (dget counts get).map (fun c =>
      (Process.statevector Nq t.1 c : ℂ) * t.2))) Q).map List.sum

/-- `generate`, `set`, `simulate`, `construct` of an RDM of order `p` with a state-vector backend
(`_tomography.py:151-322, 344-361, 570-631, 633-845`): transform `T`, `StandardProcess`.  `none` also for the
`sys.exit` of `construct` when there are no elements (`_tomography.py:217-220`).  The circuits are taken as created
(creating them raises, C80); the loop over the elements, the plan and the filling are the code's. -/
def runT (T : Term FStr ℂ → Option (POp ℂ)) (p : ℕ) (f : Flags) (alp bet : List ℕ) (col : List PStr → ℕ → ℕ)
    (prep : Cfg → ℂ) : Option (List ℕ → ℂ) :=
  let Nq := alp.length + bet.length
  ((rdme p f alp bet).mapM (fun ind => rdmeQubT T f ind Nq)).bind (fun els =>
    (measurements f.real Nq col (els.map (·.2))).bind (fun m =>
      (simulate Nq m.1 prep).bind (fun sim =>
        if els.isEmpty then none else
        (els.mapM (fun e => (valueSV Nq m.2 sim.1 e.2).map (fun v => (e.1, v)))).map (build p))))

/-- `runT` with the Jordan–Wigner transform. -/
def run (p : ℕ) (f : Flags) (alp bet : List ℕ) (col : List PStr → ℕ → ℕ) (prep : Cfg → ℂ) : Option (List ℕ → ℂ) :=
  runT Transform.jordanWigner p f alp bet col prep

end
end StateTomo
end HQCA
