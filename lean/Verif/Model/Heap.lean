import Verif.Model.Operator

/-!
# Object model of `hqca/operators/_operator.py`

Strings are mutable Python objects (`c` can be changed in place) that several operators may share.  A
reference is the pair of the string's immutable key `s` and its address; the heap gives the current
coefficient at each address.  An operator is the list of references its `OrderedDict` holds.
-/

namespace HQCA.Heap

/-- A reference to a string object: its key `s` (never changed after construction) and its address. -/
abbrev Ref (α : Type) := α × ℕ

/-- A dictionary `self.op` (`_operator.py:24`): references in insertion order. -/
abbrev Dict (α : Type) := List (Ref α)

/-- Objects alive: coefficients by address, operator objects, and string objects held by the caller. -/
structure St (α K : Type) where
  heap : List K
  ops : List (Dict α)
  strs : List (Ref α)
deriving DecidableEq

variable {α K : Type} [DecidableEq α] [Coef K]

/-- The coefficient currently stored in the referenced object. -/
def get (h : List K) (r : Ref α) : K := h.getD r.2 0

/-- `A in self` (`_operator.py:64-65`). -/
def hasKey (d : Dict α) (s : α) : Bool := d.any (fun u => u.1 = s)

/-- One string into a dictionary (`_operator.py:72-75` and `78-81`).  On an existing key the string's
`__add__` (`_pauli_string.py:116-122`) deep-copies the stored object, so a fresh object is stored;
otherwise the argument object itself is stored. -/
def addRef (hd : List K × Dict α) (r : Ref α) : List K × Dict α :=
  match hd.2.find? (fun u => u.1 = r.1) with
  | some old => (hd.1 ++ [get hd.1 old + get hd.1 r],
      hd.2.map (fun u => if u.1 = r.1 then (u.1, hd.1.length) else u))
  | none => (hd.1, hd.2 ++ [r])

/-- `clean` (`_operator.py:157-167`). -/
def clean (h : List K) (d : Dict α) : Dict α := d.filter (fun r => !small (get h r))

/-- `n.c *= -1` on one object (`_operator.py:150,154`). -/
def negRef (h : List K) (r : Ref α) : List K := h.set r.2 (-(get h r))

/-- A fresh string object added into a dictionary: `new += s*a` (`_operator.py:106,112`). -/
def addFresh (hd : List K × Dict α) (t : Term α K) : List K × Dict α :=
  addRef (hd.1 ++ [t.2], hd.2) (t.1, hd.1.length)

/-- The terms an operator currently shows to its user. -/
def view (h : List K) (d : Dict α) : OpD α K := d.map (fun r => (r.1, get h r))

/-- The operator object number `i`. -/
def St.op (σ : St α K) (i : ℕ) : Dict α := σ.ops.getD i []

/-- `ops[i] += string` for the reference `r` (`_operator.py:71-75`). -/
def St.addRefTo (σ : St α K) (i : ℕ) (r : Ref α) : St α K :=
  let p := addRef (σ.heap, σ.op i) r
  { σ with heap := p.1, ops := σ.ops.set i p.2 }

/-- One iteration of the loop in `self + A`: read entry `n` of the current dictionary of `A`
(`_operator.py:77-81`). -/
def St.visit (i j : ℕ) (σ : St α K) (n : ℕ) : St α K :=
  match (σ.op j)[n]? with
  | some r => σ.addRefTo i r
  | none => σ

/-- `self + A` for operators (`_operator.py:76-82`).  The loop `for op in A` iterates over the live
dictionary, which is also the one being updated when `A` is `self`: step `n` reads entry `n` of the
current dictionary. -/
def St.addOp (σ : St α K) (i j : ℕ) : St α K :=
  let τ := (List.range (σ.op j).length).foldl (St.visit i j) σ
  { τ with ops := τ.ops.set i (clean τ.heap (τ.op i)) }

/-- `self - A` for operators (`_operator.py:152-155`): negate the strings of `A` in place, then add. -/
def St.subOp (σ : St α K) (i j : ℕ) : St α K :=
  St.addOp { σ with heap := (σ.op j).foldl negRef σ.heap } i j

/-- `self - string` (`_operator.py:149-151`). -/
def St.subRefTo (σ : St α K) (i : ℕ) (r : Ref α) : St α K :=
  St.addRefTo { σ with heap := negRef σ.heap r } i r

/-- The product loop of `__mul__` (`_operator.py:101-121`) into a new operator: every product string is a
fresh object; `none` is an exception from the string product. -/
def mulNew (sm : Term α K → Term α K → Option (Term α K)) (h : List K) (A B : Dict α) :
    Option (List K × Dict α) :=
  ((OpD.mulPairs (view h A) (view h B)).mapM (fun p => sm p.1 p.2)).map (fun l =>
    let p := l.foldl addFresh (h, [])
    (p.1, clean p.1 p.2))

/-- `self*A - A*self` (`_operator.py:194-200`).  The two products are temporaries; the result is the first
one.  (The `except` branch evaluates the same expression again, so an exception is raised again.) -/
def St.commutator (sm : Term α K → Term α K → Option (Term α K)) (σ : St α K) (i j : ℕ) :
    Option (St α K) :=
  (mulNew sm σ.heap (σ.op i) (σ.op j)).bind (fun p =>
    (mulNew sm p.1 (σ.op j) (σ.op i)).map (fun q =>
      let n := σ.ops.length
      let τ := St.subOp { σ with heap := q.1, ops := σ.ops ++ [p.2, q.2] } n (n + 1)
      { τ with ops := τ.ops.take (n + 1) }))

/-- What a caller can do. -/
inductive Cmd (α K : Type)
  /-- construct a string -/
  | newStr (s : α) (c : K)
  /-- `Operator()` -/
  | newOp
  /-- `ops[i] += strs[j]` -/
  | addStr (i j : ℕ)
  /-- `ops[i] += ops[j]` -/
  | addOp (i j : ℕ)
  /-- `ops.append(ops[i] * ops[j])` -/
  | mul (i j : ℕ)
  /-- `ops.append(ops[i].commutator(ops[j]))` -/
  | comm (i j : ℕ)
  /-- `ops[i] -= strs[j]` -/
  | subStr (i j : ℕ)
  /-- `ops[i] -= ops[j]` -/
  | subOp (i j : ℕ)
deriving DecidableEq

/-- One command on the object heap; `none` is an exception. -/
def step (sm : Term α K → Term α K → Option (Term α K)) (σ : St α K) : Cmd α K → Option (St α K)
  | .newStr s c => some { σ with heap := σ.heap ++ [c], strs := σ.strs ++ [(s, σ.heap.length)] }
  | .newOp => some { σ with ops := σ.ops ++ [[]] }
  | .addStr i j => σ.strs[j]?.bind (fun r => if i < σ.ops.length then some (σ.addRefTo i r) else none)
  | .addOp i j => if i < σ.ops.length ∧ j < σ.ops.length then some (σ.addOp i j) else none
  | .mul i j => if i < σ.ops.length ∧ j < σ.ops.length then
      (mulNew sm σ.heap (σ.op i) (σ.op j)).map (fun p => { σ with heap := p.1, ops := σ.ops ++ [p.2] })
      else none
  | .comm i j => if i < σ.ops.length ∧ j < σ.ops.length then σ.commutator sm i j else none
  | .subStr i j => σ.strs[j]?.bind (fun r => if i < σ.ops.length then some (σ.subRefTo i r) else none)
  | .subOp i j => if i < σ.ops.length ∧ j < σ.ops.length then some (σ.subOp i j) else none

/-- A history of commands. -/
def run (sm : Term α K → Term α K → Option (Term α K)) (σ : St α K) : List (Cmd α K) → Option (St α K)
  | [] => some σ
  | c :: cs => (step sm σ c).bind (fun τ => run sm τ cs)

/-- The state of a fresh interpreter. -/
def St.init : St α K := ⟨[], [], []⟩

end HQCA.Heap
