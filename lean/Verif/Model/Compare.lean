import Verif.Model.GraphColour

/-!
# Model of `compare_tomography` (`hqca/tomography/_reduce_circuit.py:174-235`)

The attribute `colors` of the graph is part of the state: the strategy `default` adds to what an earlier pass has left there.  Printing and timing are dropped.
-/

namespace HQCA
namespace Compare
open Grouping GraphColour

/-- `graph.colors`: the colours in order of first use, each with its vertices. -/
abbrev Dict := List (ℕ × List ℕ)

/-- `try: self.colors[i].append(n) except: self.colors[i]=[n]` (`__graph.py:57-60`, `:76-80`). -/
def addVertex (D : Dict) (n k : ℕ) : Dict :=
  if k ∈ D.map (·.1) then D.map fun x => if x.1 = k then (x.1, x.2 ++ [n]) else x else D ++ [(k, [n])]

/-- The loop over `alg.a` (`__graph.py:56-60`, `:75-80`). -/
def addAll (D : Dict) (N : ℕ) (c : ℕ → ℕ) : Dict := (List.range N).foldl (fun D n => addVertex D n (c n)) D

/-- `graph.color(method, strategy)` (`__graph.py:32-81`) for a graph whose attribute `colors` is `D`, absent if `none`.  `greedy` calls an undefined name; `default` does not reset
the attribute, so that it raises if there is none and a vertex is coloured; `rlf` uses the undefined `np` if there is a vertex. -/
def colorState (m : Method) (s : Strategy) (E : List (ℕ × ℕ)) (N : ℕ) (D : Option Dict) : Option (Option Dict) :=
  match m, s with
  | .greedy, _ => none
  | .gt, .dflt =>
    match D with
    | none => if N = 0 then some none else none
    | some D => some (some (addAll D N (sequential E N (List.range N))))
  | .gt, .rlf => if N = 0 then some (some []) else none
  | .gt, .largestFirst => some (some (addAll [] N (sequential E N (ordering E N))))

/-- `ops` and `paulis` (`_reduce_circuit.py:217-234`); `max(sizes)` raises without a colour (`:222`). -/
def groups (items : List PStr) (D : Dict) : Option (List PStr × List (PStr × PStr)) :=
  if D = [] then none else
    ((List.range D.length).mapM fun v => (D.lookup v).bind fun m => largest (m.map fun i => items.getD i [])).bind fun ops =>
      (D.mapM fun x => (ops[x.1]?).map fun K => x.2.map fun p => (items.getD p [], K)).map fun ls => (ops, OpD.ofList ls.flatten)

/-- The loop over methods and strategies (`_reduce_circuit.py:207-234`): the attribute `colors` and the last result. -/
def passes (items : List PStr) (E : List (ℕ × ℕ)) : List (Method × Strategy) → Option Dict → Option (List PStr × List (PStr × PStr)) →
    Option (List PStr × List (PStr × PStr))
  | [], _, r => r
  | p :: ps, D, _ => (colorState p.1 p.2 E items.length D).bind fun D' => D'.bind fun d => (groups items d).bind fun r => passes items E ps (some d) (some r)

/-- `compare_tomography` (`_reduce_circuit.py:174-235`): the result of the last pass; without a pass `ops` is unbound. -/
def compare (ps : List (Method × Strategy)) (rel : Rel) (items : List PStr) : Option (List PStr × List (PStr × PStr)) :=
  (edges rel items).bind fun E => passes items E ps none none

end Compare
end HQCA
