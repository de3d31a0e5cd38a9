import Mathlib.Data.List.Basic
import Mathlib.Data.Nat.Digits.Defs

/-!
# Running several tomographies as one job (`tomography/_tomography.py:946-1071`)

A tomography is its list of circuits, each a name (a list of characters) and a circuit of an arbitrary type; `run` gives the counts or state vector the
backend obtains from a circuit.  Transpilation and the choice of backend are left out (they are assumed to keep names and meaning).
The job looks results up by name; the library returns the first experiment with that name.
-/

namespace HQCA
namespace RunMultiple

variable {C R : Type}

/-- The character of a decimal digit. -/
def digit (n : ℕ) : Char := Char.ofNat (48 + n % 10)

/-- `'{:02}'.format(n)` (`_tomography.py:958`, `996`): the decimal digits, at least two. -/
def fmt2 (n : ℕ) : List Char :=
  if n < 100 then [digit (n / 10), digit n] else (Nat.digits 10 n).reverse.map digit

/-- The circuits of the job with their new names (`_tomography.py:954-959`, `988-1006`). -/
def renamed (ts : List (List (List Char × C))) : List (List Char × C) :=
  ts.zipIdx.flatMap fun tn => tn.1.map fun c => (c.1 ++ fmt2 tn.2, c.2)

/-- The experiment has this name. -/
def hasName (name : List Char) (c : List Char × C) : Bool := c.1 == name

/-- `job.result().get_counts(name)` (`_tomography.py:1018-1042`). -/
def fetch (run : C → R) (job : List (List Char × C)) (name : List Char) : Option R :=
  (job.find? (hasName name)).map fun c => run c.2

/-- `int(name[-2:])` for names ending in two digits (`_tomography.py:1069`). -/
def index (name : List Char) : ℕ :=
  ((name.drop (name.length - 2)).map fun c => c.toNat - 48).foldl (fun a d => 10 * a + d) 0

/-- `name[:-2]` (`_tomography.py:1070`). -/
def base (name : List Char) : List Char := name.take (name.length - 2)

/-- The tables of counts (`_tomography.py:1054-1055`): for every tomography a dictionary from names to results. -/
abbrev Tables (R : Type) := ℕ → List Char → Option R

/-- Storing one result (`_tomography.py:1067-1071`); an index past the end of the list raises. -/
def store (len : ℕ) (T : Tables R) (name : List Char) (res : R) : Option (Tables R) :=
  if index name < len then some fun n s => if n = index name ∧ s = base name then some res else T n s else none

/-- `run_multiple` (`_tomography.py:946-1071`).  With the measurement filter switched on the results are written into an empty dictionary of
dictionaries (`1057-1064`), which raises as soon as there is a circuit. -/
def runMultiple (filter : Bool) (run : C → R) (ts : List (List (List Char × C))) : Option (Tables R) :=
  let job := renamed ts
  if filter then (if job = [] then some fun _ _ => none else none) else
    job.foldlM (fun T c => (fetch run job c.1).bind fun r => store ts.length T c.1 r) fun _ _ => none

/-- The names the circuits have afterwards (`_tomography.py:996`: `c.name = c.name+...`). -/
def after (ts : List (List (List Char × C))) : List (List (List Char × C)) :=
  ts.zipIdx.map fun tn => tn.1.map fun c => (c.1 ++ fmt2 tn.2, c.2)

end RunMultiple
end HQCA
