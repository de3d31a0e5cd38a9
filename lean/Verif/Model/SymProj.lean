import Verif.Model.Operator
import Verif.Model.Pauli
import Verif.Model.Fermi

/-!
# Model of `hqca/tomography/__symmetry_project.py` (`SymmetryProjection`)

The symmetry-projected tomography replaces the Pauli image of an RDM element by a combination of fewer Pauli strings
with the same expectation value on states of fixed particle number and spin.  Linear algebra of numpy
(`matrix_rank`, `solve`) and the two thresholds are parameters; printing is left out.  Exceptions and the
endless loop of the column search are `none`.  Only the branch for an `Operator` is modelled (the branch for a
single string joins integers and raises).
-/

namespace HQCA.SymProj
variable {K : Type} [Coef K]

/-- The numerical routines used: `abs(c)<1e-10` of `Operator.null`, `abs(x)>1e-10`
(`__symmetry_project.py:329`), `np.linalg.matrix_rank` and `np.linalg.solve` (both on a matrix given by its columns;
`none`: `LinAlgError`). -/
structure Num (K : Type) where
  tiny : K → Bool
  keep : K → Bool
  rank : List (List K) → ℕ
  solve : List (List K) → List K → Option (List K)

/-- Is the letter `+` or `-`? -/
def FLodd : FL → Bool
  | .cr => true
  | .an => true
  | _ => false

/-- Is the letter `p` or `h`? -/
def FLcon : FL → Bool
  | .p => true
  | .h => true
  | _ => false

/-- `Recursive(choices=[l]).choose()` (`_functions.py:52-70`) for one list of length `n`: the next letter is taken
from the end of the list first. -/
def choose : ℕ → List FL → List (List FL)
  | 0, _ => [[]]
  | n+1, l => (List.range (n+1)).reverse.flatMap
      (fun m => (choose n (l.eraseIdx m)).map (fun r => l.getD m .i :: r))

/-- `Recursive.simplify` (`_functions.py:72-83`): first occurrences. -/
def simplify (l : List (List FL)) : List (List FL) :=
  l.foldl (fun new r => if r ∈ new then new else new ++ [r]) []

/-- `na` or `nb` (`__symmetry_project.py:95-100`): the sum of `(-1)**(s=='+')` over the sites with `sel`. -/
def imbal (sel : ℕ → Bool) (sites : List ℕ) (o : List FL) : ℤ :=
  ((o.zip sites).map (fun x => if sel x.2 then (if x.1 = .cr then -1 else 1) else 0)).sum

/-- The test of the filter (`__symmetry_project.py:101`): `not na==0 and not nb==0`. -/
def szBad (alp sites : List ℕ) (o : List FL) : Bool :=
  decide (imbal (fun q => q ∈ alp) sites o ≠ 0) && decide (imbal (fun q => q ∉ alp) sites o ≠ 0)

/-- `perm.total` after the filter loop (`__symmetry_project.py:84-105`); the loop pops the offending strings one at a
time. -/
def perms (alp : List ℕ) (skip : Bool) (sites : List ℕ) (E : List FL) : List (List FL) :=
  let t := simplify (choose E.length E)
  if skip then t else t.filter (fun o => !szBad alp sites o)

/-- `permC` (`__symmetry_project.py:106-114`).  For `nC=0` the code's list is `['p']`, not used. -/
def permC (nC : ℕ) : List (List FL) :=
  (List.range (2 ^ nC)).map (fun i =>
    (List.range nC).map (fun t => if i / 2 ^ (nC - 1 - t) % 2 = 0 then FL.p else FL.h))

/-- `top` (`__symmetry_project.py:135-143`): the letters with `+`/`-` replaced from `p` and `p`/`h` from `q`; `none`:
`IndexError`. -/
def fill : List FL → List FL → List FL → Option (List FL)
  | [], _, _ => some []
  | x :: xs, p, q =>
    if FLodd x then
      match p with
      | [] => none
      | a :: p' => (fill xs p' q).map (fun r => a :: r)
    else if FLcon x then
      match q with
      | [] => none
      | a :: q' => (fill xs p q').map (fun r => a :: r)
    else (fill xs p q).map (fun r => x :: r)

/-- The string constructed from letters (`FermiString(...)`, or `QubitString(...)` for local tomography). -/
def gen (loc : Bool) (c : K) (l : List (ℕ × FL)) (N : ℕ) : Option (Term FStr K) :=
  if loc then Qubit.generate c l N else Fermi.generate true c l N

/-- `(Operator()+new).transform(transform)` (`__symmetry_project.py:152`, `166`, `190`). -/
def image (T : Term FStr K → Option (POp K)) (t : Term FStr K) : Option (POp K) :=
  OpD.transform T (OpD.addStr [] t)

/-- `count(s)` (`__symmetry_project.py:211-222`): numbers of `I` and of `X`. -/
def count (s : PStr) : ℕ × ℕ := ((s.filter (fun x => x = .I)).length, (s.filter (fun x => x = .X)).length)

/-- `sorted(key_list, key=count, reverse=True)` (`__symmetry_project.py:223-226`). -/
def sortKeys (l : List PStr) : List PStr :=
  l.mergeSort (fun a b => decide ((count b).1 < (count a).1) ||
    (decide ((count b).1 = (count a).1) && decide ((count b).2 ≤ (count a).2)))

/-- State of the loop over the letter strings: the Pauli basis once found, and one row per string kept. -/
structure Rows (K : Type) where
  basis : Option (List PStr)
  rows : List (List FL × POp K)

/-- Outcome of the loop. -/
inductive Out (K : Type)
  | full                    -- `self.qubOp = op.transform(transform)` and return
  | ok (r : Rows K)

/-- Coefficient given to a letter string (`__symmetry_project.py:144-187`): the number of Pauli strings of its image
until the Pauli basis is known, then the size of the basis. -/
def rowCoef (loc : Bool) (T : Term FStr K → Option (POp K)) (ind : List ℕ) (N : ℕ) (basis : Option (List PStr))
    (top : List FL) : Option K :=
  match basis with
  | some b => some (b.length : K)
  | none => ((gen loc (2 ^ ind.length) (ind.zip top) N).bind (image T)).map (fun n => (n.length : K))

/-- One pass of the loop (`__symmetry_project.py:135-242`) for the letters `top`; `dim` is `dimNe*dimCe`. -/
def rowStep (num : Num K) (loc : Bool) (T : Term FStr K → Option (POp K)) (ind : List ℕ) (N dim : ℕ)
    (r : Rows K) (top : List FL) : Option (Out K) :=
  match rowCoef loc T ind N r.basis top with
  | none => none
  | some c =>
    match (gen loc c (ind.zip top) N).bind (image T) with
    | none => none
    | some new =>
      if dim > new.length then some .full
      else if OpD.null num.tiny new then some (.ok r)
      else
        let b := r.basis.getD (sortKeys (new.map (fun t => t.1)))
        if new.all (fun t => decide (t.1 ∈ b)) then some (.ok ⟨some b, r.rows ++ [(top, new)]⟩) else none

/-- The two nested loops (`__symmetry_project.py:133-242`). -/
def rowLoop (num : Num K) (loc : Bool) (T : Term FStr K → Option (POp K)) (ind : List ℕ) (N dim : ℕ) :
    Rows K → List (List FL) → Option (Out K)
  | r, [] => some (.ok r)
  | r, top :: tops =>
    match rowStep num loc T ind N dim r top with
    | some (.ok r') => rowLoop num loc T ind N dim r' tops
    | o => o

/-- Entry of `pauli_to_op` (`__symmetry_project.py:238-242`). -/
def entryOf (new : POp K) (s : PStr) : K :=
  match new.find? (fun t => decide (t.1 = s)) with
  | some t => conj t.2
  | none => 0

/-- Column of `pauli_to_op` of the Pauli string `s`. -/
def column (rows : List (List FL × POp K)) (s : PStr) : List K := rows.map (fun r => entryOf r.2 s)

/-- The search for independent columns (`__symmetry_project.py:268-306`).  `none`: exception or endless loop (no
column is left after the last one added); `some none`: `error=True`. -/
def pick (rank : List (List K) → ℕ) (cols : List (List K)) (dim : ℕ) : ℕ → List ℕ → Option (Option (List ℕ))
  | 0, _ => none
  | n+1, added =>
    if added.length = dim then some (some added)
    else
      match added.getLast? with
      | none => if cols = [] then none else pick rank cols dim n [0]
      | some a =>
        let cand := (List.range' a (cols.length - a)).filter (fun i => i ∉ added)
        if cand = [] then none
        else
          match cand.find? (fun i =>
              decide (rank (added.map (fun k => cols.getD k []) ++ [cols.getD i []]) = added.length + 1)) with
          | some i => pick rank cols dim n (added ++ [i])
          | none => some none

/-- `v_f` (`__symmetry_project.py:313-319`); `none`: `KeyError` of `op_basis`. -/
def target (tops : List (List FL)) (op : OpD FStr K) : Option (List K) :=
  op.foldlM (fun v t =>
    if isZero t.2 then some v
    else
      let o := t.1.filter (fun x => x ≠ .i)
      if o ∈ tops then some (v.set (tops.idxOf o) t.2) else none)
    (List.replicate tops.length 0)

/-- The final operator (`__symmetry_project.py:327-335`). -/
def final (num : Num K) (basis : List PStr) (added : List ℕ) (x : List K) : POp K :=
  (added.zip x).foldl (fun A a => if num.keep a.2 then OpD.addStr A (basis.getD a.1 [], a.2) else A) []

/-- `SymmetryProjection(op, transform, alp, bet, skip_sz=skip, local_tomography=loc).qubOp`
(`__symmetry_project.py:17-337`).  The branch for an odd number of alpha or beta excitations evaluates `op[0]`, a
`KeyError` (`:82`). -/
def project (num : Num K) (loc : Bool) (T : Term FStr K → Option (POp K)) (alp : List ℕ) (skip : Bool)
    (op : OpD FStr K) : Option (POp K) :=
  match op with
  | [] => none
  | first :: _ =>
    if first.1 = [] then none
    else
      let l := first.1.filter (fun x => x ≠ .i)
      let ind := (Fermi.pairs first.1).map (fun x => x.1)
      let E := l.filter FLodd
      let sites := ((Fermi.pairs first.1).filter (fun x => FLodd x.2)).map (fun x => x.1)
      let nC := (l.filter FLcon).length
      if E = [] then OpD.transform T op
      else if (sites.filter (fun q => q ∈ alp)).length % 2 = 1 ∨ (sites.filter (fun q => q ∉ alp)).length % 2 = 1 then
        none
      else
        let P := perms alp skip sites E
        let dim := P.length * 2 ^ nC
        match OpD.transform T op with
        | none => none
        | some new =>
          if OpD.null num.tiny new then some new
          else
            match (P.flatMap (fun p => (permC nC).map (fun q => (p, q)))).mapM (fun x => fill l x.1 x.2) with
            | none => none
            | some tops =>
              match rowLoop num loc T ind first.1.length dim ⟨none, []⟩ tops with
              | none => none
              | some .full => OpD.transform T op
              | some (.ok r) =>
                match r.basis with
                | none => none
                | some basis =>
                  match pick num.rank (basis.map (column r.rows)) r.rows.length (r.rows.length + 1) [] with
                  | none => none
                  | some none => OpD.transform T op
                  | some (some added) =>
                    match target (r.rows.map (fun x => x.1)) op with
                    | none => none
                    | some v =>
                      match num.solve (added.map (fun k => column r.rows (basis.getD k []))) v with
                      | none => none
                      | some x => some (final num basis added x)

end HQCA.SymProj
