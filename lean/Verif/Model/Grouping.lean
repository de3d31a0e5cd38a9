import Verif.Model.Reduce

/-!
# Model of `simplify_tomography` (`hqca/tomography/_reduce_circuit.py`)

The graph library is not modelled: its colouring enters as an arbitrary function from vertices to colours.
-/

namespace HQCA
namespace Grouping

/-- The two named relations of `pauli_relation` (`_reduce_circuit.py:31-37`). -/
inductive Rel
  | qwc
  | mc
deriving DecidableEq

/-- `pauli_relation` (`_reduce_circuit.py:31-37`): true when the strings must be kept apart. -/
def related (rel : Rel) (A B : PStr) : Option Bool :=
  match rel with
  | .qwc => (Reduce.qwc A B).map (!·)
  | .mc => (Reduce.commute A B).map (!·)

/-- The pairs `(i, j)`, `i < j`, in the order visited (`_reduce_circuit.py:55-62`). -/
def visited (N : ℕ) : List (ℕ × ℕ) := (List.range N).flatMap (fun j => (List.range j).map (fun i => (i, j)))

/-- The edges of `construct_simple_graph` (`_reduce_circuit.py:39-82`): `none` if a comparison raises. -/
def edges (rel : Rel) (items : List PStr) : Option (List (ℕ × ℕ)) :=
  ((visited items.length).mapM (fun p =>
    (related rel (items.getD p.1 []) (items.getD p.2 [])).map (fun r => (p, r)))).map
      (fun l => (l.filter (·.2)).map (·.1))

/-- First letter different from `I` at position `j` (`_reduce_circuit.py:89-97`); `none`: index out of range. -/
def firstNonI : List PStr → ℕ → Option PL
  | [], _ => some .I
  | s :: ss, j =>
    match s[j]? with
    | none => none
    | some .I => firstNonI ss j
    | some p => some p

/-- `__find_largest_qwc` (`_reduce_circuit.py:84-98`). -/
def largest : List PStr → Option PStr
  | [] => none
  | a :: as => (List.range a.length).mapM (fun j => firstNonI (a :: as) j)

/-- The colours in the order in which `graph.colors` first sees them (`__graph.py:71-79`). -/
def colours (N : ℕ) (col : ℕ → ℕ) : List ℕ :=
  ((List.range N).map col).foldl (fun acc c => if c ∈ acc then acc else acc ++ [c]) []

/-- The vertices of a colour (`__graph.py:71-79`). -/
def members (N : ℕ) (col : ℕ → ℕ) (k : ℕ) : List ℕ := (List.range N).filter (fun i => col i = k)

/-- `ops` (`_reduce_circuit.py:131-139`): `none` for a missing colour (`KeyError`). -/
def bases (items : List PStr) (col : ℕ → ℕ) : Option (List PStr) :=
  (List.range (colours items.length col).length).mapM (fun v =>
    if v ∈ colours items.length col then
      largest ((members items.length col v).map (fun i => items.getD i []))
    else none)

/-- `paulis` (`_reduce_circuit.py:140-144`): a dictionary; later entries overwrite. -/
def paulis (items : List PStr) (col : ℕ → ℕ) (ops : List PStr) : Option (List (PStr × PStr)) :=
  ((colours items.length col).mapM (fun k => (ops[k]?).map (fun K =>
    (members items.length col k).map (fun p => (items.getD p [], K))))).map
      (fun ls => OpD.ofList ls.flatten)

/-- The check of one entry (`_reduce_circuit.py:152-160`). -/
def matches? (p meas : PStr) : Bool := (p.zip meas).all (fun x => x.1 = .I || x.2 = x.1)

/-- `simplify_tomography` (`_reduce_circuit.py:100-172`): bases to measure and the dictionary from strings to
bases; `none` is an exception or `sys.exit`. -/
def simplify (rel : Rel) (col : ℕ → ℕ) (items : List PStr) : Option (List PStr × List (PStr × PStr)) :=
  match items with
  | [op] => some ([op], [(op, op)])
  | _ =>
    match edges rel items with
    | none => none
    | some _ =>
      match bases items col with
      | none => none
      | some ops =>
        match paulis items col ops with
        | none => none
        | some d => if d.all (fun x => matches? x.1 x.2) then some (ops, d) else none

/-- What is asked of the graph library: adjacent vertices get different colours, and the colours are
`0, ..., k-1` without gaps. -/
def Proper (E : List (ℕ × ℕ)) (N : ℕ) (col : ℕ → ℕ) : Prop :=
  (∀ e ∈ E, col e.1 ≠ col e.2) ∧ ∃ k, ∀ v, v < k ↔ ∃ i < N, col i = v

end Grouping
end HQCA
