import Verif.Model.Circ

/-!
# Model of `_partial_trace_matrix` and `_partial_trace_symbolic_matrix`
(`hqca/tools/_operator_tools.py:96-194`)
-/

namespace HQCA
namespace PTrace
variable {K : Type} [Coef K]

/-- `'{:0{}b}'.format(i,w)` for `i < 2^w`; width 0 still prints one digit. -/
def fmt (w i : ℕ) : List Bool := (List.range (max w 1)).map (Circ.bchar w i)

/-- The dictionary `keys` (`_operator_tools.py:130`): `none` is a `KeyError`. -/
def key (n : ℕ) (w : List Bool) : Option ℕ := (List.range (2 ^ n)).find? (fun i => fmt n i == w)

/-- Pointers `q`, `s` and the strings `bra`, `ket`. -/
abbrev St := ℕ × ℕ × List Bool × List Bool

/-- One round of the loop over `r` (`_operator_tools.py:139-149`); `none`: string index out of range. -/
def step (qb : List ℕ) (i j basis : List Bool) (st : St) (r : ℕ) : Option St :=
  match st with
  | (q, s, bra, ket) =>
    if r ∈ qb then
      match basis[q]? with
      | some t => some (q + 1, s, bra.set r t, ket.set r t)
      | none => none
    else
      match i[s]?, j[s]? with
      | some t, some u => some (q, s + 1, bra.set r t, ket.set r u)
      | _, _ => none

/-- The row and column read for one `(l, m, basis)` (`_operator_tools.py:136-151`). -/
def pair (n : ℕ) (qb : List ℕ) (i j basis : List Bool) : Option (ℕ × ℕ) :=
  match (List.range n).foldlM (step qb i j basis) (0, 0, List.replicate n false, List.replicate n false) with
  | none => none
  | some (_, _, bra, ket) =>
    match key n bra, key n ket with
    | some b, some k => some (b, k)
    | _, _ => none

/-- The accumulation into `new[l,m]` (`_operator_tools.py:135`, `152-153`). -/
def entryAt (n : ℕ) (qb : List ℕ) (M : Mat K) (l m : ℕ) : Option K :=
  (List.range (2 ^ qb.length)).foldlM (fun acc b =>
    (pair n qb (fmt (n - qb.length) l) (fmt (n - qb.length) m) (fmt qb.length b)).map
      (fun p => acc + M p.1 p.2)) 0

/-- `_partial_trace_matrix` (`_operator_tools.py:119-157`) of a numeric `2^n` matrix: the result has size
`2^(n-len(qb))`.  `none` when some index is out of range, some key missing, or `len(qb) > n`
(`2**nd` is then not an integer). -/
def matrix (n : ℕ) (qb : List ℕ) (M : Mat K) : Option (Mat K) :=
  if qb.length ≤ n ∧ (List.range (2 ^ (n - qb.length))).all (fun l => (List.range (2 ^ (n - qb.length))).all
      (fun m => (entryAt n qb M l m).isSome)) then
    some (fun l m => (entryAt n qb M l m).getD 0)
  else none

/-- `_partial_trace_symbolic_matrix` (`_operator_tools.py:159-194`): the same loops, but reading
`mat[ind_ket,ind_bra]`. -/
def symbolic (n : ℕ) (qb : List ℕ) (M : Mat K) : Option (Mat K) :=
  matrix n qb (fun i j => M j i)

end PTrace
end HQCA
