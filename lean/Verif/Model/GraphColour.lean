import Verif.Model.Grouping

/-!
# Model of `Graph.color` (`hqca/tomography/__graph.py:32-81`)

The graph of `construct_simple_graph` has the vertices `0, ..., N-1` and a list of edges.  `graph_tool.topology.sequential_vertex_coloring` is not part of the repository; it
calls the routine of the same name of the Boost graph library, which is transcribed here.
-/

namespace HQCA
namespace GraphColour
open Grouping

/-- `get_total_degrees` (`__graph.py:66`): the number of edges at a vertex. -/
def degree (E : List (ℕ × ℕ)) (v : ℕ) : ℕ := (E.filter fun e => e.1 = v || e.2 = v).length

/-- `sorted(v, key=lambda i: g[i], reverse=True)` (`__graph.py:65-67`): stable, so that equal degrees stay in order. -/
def ordering (E : List (ℕ × ℕ)) (N : ℕ) : List ℕ := (List.range N).mergeSort fun i j => decide (degree E j ≤ degree E i)

/-- `mark[j] == i` of the Boost routine: some neighbour of `v` has the colour `j`. -/
def marked (E : List (ℕ × ℕ)) (c : ℕ → ℕ) (v j : ℕ) : Bool := E.any fun e => (e.1 = v && c e.2 = j) || (e.2 = v && c e.1 = j)

/-- One pass of the Boost routine: the least colour not marked, a new one if there is none.  The state is the colours and `max_color`. -/
def assign (E : List (ℕ × ℕ)) (s : (ℕ → ℕ) × ℕ) (v : ℕ) : (ℕ → ℕ) × ℕ :=
  let j := ((List.range s.2).find? fun j => !marked E s.1 v j).getD s.2
  (Function.update s.1 v j, if j = s.2 then s.2 + 1 else s.2)

/-- `sequential_vertex_coloring(g, order)`: all colours start as `N - 1`. -/
def sequential (E : List (ℕ × ℕ)) (N : ℕ) (order : List ℕ) : ℕ → ℕ := (order.foldl (assign E) (fun _ => N - 1, 0)).1

inductive Method
  | greedy
  | gt
deriving DecidableEq

inductive Strategy
  | dflt
  | rlf
  | largestFirst
deriving DecidableEq

/-- `color` (`__graph.py:32-81`).  `greedy` calls the undefined `greedy_color` (`:43`); `default` appends to `self.colors`, which does not exist, and the handler does so again
(`:56-61`), unless there is no vertex, when `graph.colors` is missing later (`_reduce_circuit.py:138`); `rlf` uses `np`, which is not imported (`:132`), unless there is no vertex. -/
def color (m : Method) (s : Strategy) (E : List (ℕ × ℕ)) (N : ℕ) : Option (ℕ → ℕ) :=
  match m, s with
  | .greedy, _ => none
  | .gt, .dflt => none
  | .gt, .rlf => if N = 0 then some fun _ => 0 else none
  | .gt, .largestFirst => some (sequential E N (ordering E N))

/-- `simplify_tomography` with its graph and colouring (`_reduce_circuit.py:100-172`). -/
def simplifyWith (m : Method) (s : Strategy) (rel : Rel) (items : List PStr) : Option (List PStr × List (PStr × PStr)) :=
  match items with
  | [op] => some ([op], [(op, op)])
  | _ => (edges rel items).bind fun E => (color m s E items.length).bind fun c => simplify rel c items

/-- The colouring of the default strategy as a function of the strings. -/
def dfltCol (items : List PStr) : ℕ → ℕ := sequential ((edges .qwc items).getD []) items.length (ordering ((edges .qwc items).getD []) items.length)

end GraphColour
end HQCA
