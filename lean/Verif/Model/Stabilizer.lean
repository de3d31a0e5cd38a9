import Mathlib.Data.ZMod.Basic
import Verif.Model.Pauli

/-!
# Model of `hqca/tools/_stabilizer.py`, class `Stabilizer`

A numpy array of 0/1 floats that is always reduced with `np.mod(…,2)` is modelled by a function with values
in `ZMod 2`; the array bounds are carried separately (indices outside the bounds are never read).
The prints under `verbose` are not modelled.
-/

namespace HQCA
namespace Stab

/-- A vector of bits, indexed from zero. -/
abbrev Vec := ℕ → ZMod 2

/-- A bit as a matrix entry. -/
def bit (b : Bool) : ZMod 2 := if b then 1 else 0

/-- `_pauli_to_check` (`_stabilizer.py:60-68`): first half Z-bits, second half X-bits.  A string shorter than
`N` raises an `IndexError` (`none`). -/
def pauliToCheck (N : ℕ) (p : PStr) : Option Vec :=
  if p.length < N then none else
    some (fun i =>
      if i < N then bit ((p.getD i .I).r)
      else if i < 2 * N then bit ((p.getD (i % N) .I).l) else 0)

/-- `_check_to_pauli` (`_stabilizer.py:70-83`); the coefficient is 1. -/
def checkToPauli (N : ℕ) (v : Vec) : PStr :=
  (List.range N).map (fun i =>
    if v i = 1 then (if v (i + N) = 1 then .Y else .Z)
    else (if v (i + N) = 1 then .X else .I))

/-- The loop filling `self.G` (`_stabilizer.py:26-33` and `39-46`): `n` counts the strings, `seen` says
whether `add` is already `-1`. -/
def fill (N : ℕ) : List PStr → ℕ → Bool → (ℕ → Vec) → Option ((ℕ → Vec) × Bool)
  | [], _, seen, G => some (G, seen)
  | p :: ps, n, seen, G =>
    if p = List.replicate N PL.I then fill N ps (n + 1) true G
    else do
      let v ← pauliToCheck N p
      fill N ps (n + 1) seen (Function.update G (if seen then n - 1 else n) v)

/-- The object after `__init__`: number of qubits, number of columns kept, the columns of `G`. -/
structure S where
  N : ℕ
  l : ℕ
  G : ℕ → Vec

/-- `__init__` (`_stabilizer.py:9-58`); `paulis` are the strings of the list, or the keys of the operator.
An empty argument raises. -/
def init : List PStr → Option S
  | [] => none
  | p :: ps => do
    let N := p.length
    let r ← fill N (p :: ps) 0 false (fun _ _ => 0)
    some ⟨N, if r.2 then (p :: ps).length - 1 else (p :: ps).length, r.1⟩

/-- The parity-check matrix `self.E` (`_stabilizer.py:51-53`): row `r` is column `r` of `G` with its two
halves exchanged. -/
def S.E (s : S) : ℕ → Vec := fun r j =>
  if j < s.N then s.G r (j + s.N) else if j < 2 * s.N then s.G r (j - s.N) else 0

/-- First row `r` with `a ≤ r < l` having a one in column `c` (`_stabilizer.py:104-116`). -/
def findRow (E : ℕ → Vec) (a l c : ℕ) : Option ℕ :=
  (List.range' a (l - a)).find? (fun r => E r c = 1)

/-- `self.E[[a,r]]=self.E[[r,a]]` (`_stabilizer.py:113`). -/
def swap (E : ℕ → Vec) (a r : ℕ) : ℕ → Vec := fun i =>
  if i = a then E r else if i = r then E a else E i

/-- The loop over rows (`_stabilizer.py:124-133`): every other row with a one in column `c` has the pivot
row added.  The pivot row itself is never changed, so the rows can be treated one by one. -/
def clear (E : ℕ → Vec) (a l c : ℕ) : ℕ → Vec := fun r =>
  if r = a then E r else if r < l ∧ E r c = 1 then E r + E a else E r

/-- One column of `gaussian_elimination` (`_stabilizer.py:97-133`).  `c + adjust` is the number of pivots
found so far; the `break` at `c + adjust == l` leaves the state unchanged for all later columns. -/
def column (l : ℕ) (st : (ℕ → Vec) × List ℕ) (c : ℕ) : (ℕ → Vec) × List ℕ :=
  let a := st.2.length
  if a = l then st
  else if st.1 a c = 1 then (clear st.1 a l c, st.2 ++ [c])
  else match findRow st.1 (a + 1) l c with
    | some r => (clear (swap st.1 a r) a l c, st.2 ++ [c])
    | none => st

/-- The elimination loop of `gaussian_elimination` (`_stabilizer.py:93-133`): final `self.E` and
`self.pivot`. -/
def eliminate (l w : ℕ) (E : ℕ → Vec) : (ℕ → Vec) × List ℕ :=
  (List.range w).foldl (column l) (E, [])

/-- Number of rows of the reduced matrix that are not zero (`_stabilizer.py:137-145`). -/
def nonzeroRows (l w : ℕ) (E : ℕ → Vec) : ℕ :=
  ((List.range l).filter (fun r => (List.range w).any (fun j => E r j ≠ 0))).length

/-- Column `k` of `self.Gm` (`_stabilizer.py:149-151`): row `k` of the reduced matrix, halves exchanged
back. -/
def gm (N : ℕ) (E : ℕ → Vec) (k : ℕ) : Vec := fun u =>
  if u < N then E k (u + N) else if u < 2 * N then E k (u - N) else 0

/-- One position `u` of the decomposition loop (`_stabilizer.py:159-168`); the flag is `not done`. -/
def decU (n : ℕ) (g : ℕ → Vec) (st : Vec × List ℕ × Bool) (u : ℕ) : Vec × List ℕ × Bool :=
  if st.1 u = 0 then st
  else match (List.range n).find? (fun w => g w u = 1) with
    | some w => (st.1 + g w, st.2.1 ++ [w], true)
    | none => st

/-- One pass of the `while` loop (`_stabilizer.py:157-168`). -/
def decPass (N n : ℕ) (g : ℕ → Vec) (t : Vec) (soln : List ℕ) : Vec × List ℕ × Bool :=
  (List.range (2 * N)).foldl (decU n g) (t, soln, false)

/-- The `while not done` loop (`_stabilizer.py:154-168`) with fuel; `none` means the fuel ran out. -/
def decLoop (N n : ℕ) (g : ℕ → Vec) : ℕ → Vec → List ℕ → Option (List ℕ)
  | 0, _, _ => none
  | k + 1, t, soln =>
    let r := decPass N n g t soln
    if r.2.2 then decLoop N n g k r.1 r.2.1 else some r.2.1

/-- The product `prod` (`_stabilizer.py:172-175`). -/
def product {K : Type} [Coef K] (N : ℕ) (ps : List PStr) : Option (Term PStr K) :=
  ps.foldlM (fun acc p => Pauli.mul acc (p, 1)) (List.replicate N PL.I, 1)

/-- The entry of `self.paulis` for column `v` (`_stabilizer.py:153-176`): key, strings, coefficient. -/
def decompose {K : Type} [Coef K] (fuel : ℕ) (s : S) (v : ℕ) : Option (PStr × List PStr × K) := do
  let E := (eliminate s.l (2 * s.N) s.E).1
  let n := nonzeroRows s.l (2 * s.N) E
  let soln ← decLoop s.N n (gm s.N E) fuel (s.G v) []
  let ps := soln.map (fun i => checkToPauli s.N (gm s.N E i))
  let pr ← product s.N ps
  some (checkToPauli s.N (s.G v), ps, pr.2)

/-- Free columns, in order (`indep_var`, `_stabilizer.py:199-217`). -/
def free (w : ℕ) (piv : List ℕ) : List ℕ := (List.range w).filter (fun c => c ∉ piv)

/-- Entry `n` of the null vector belonging to the free column `f` (`_stabilizer.py:219-244`): the symbolic
vector `X` with the free variable `f` set to one and the others to zero.  For a pivot column `n`, `Np` is the
number of pivots before it.  The sympy arithmetic is modelled by its value. -/
def nullVec (w : ℕ) (E : ℕ → Vec) (piv : List ℕ) (f n : ℕ) : ZMod 2 :=
  if n ∈ piv then
    let Np := ((List.range n).filter (fun c => c ∈ piv)).length
    ((List.range' (n + 1) (w - (n + 1))).filter (fun m => m ∉ piv)).foldl
      (fun acc m => acc + E Np m * (if m = f then 1 else 0)) 0
  else if n < w then (if n = f then 1 else 0) else 0

/-- The string of a null vector (`_stabilizer.py:285-298`). -/
def nullStr (N : ℕ) (v : Vec) : PStr :=
  (List.range N).map (fun s =>
    if v s = 0 ∧ v (s + N) = 0 then .I
    else if v s = 1 ∧ v (s + N) = 0 then .Z
    else if v s = 0 ∧ v (s + N) = 1 then .X
    else .Y)

/-- `find_symmetry_generators` (`_stabilizer.py:185-304`): the list `self.null_basis`. -/
def generators (s : S) : List PStr :=
  let r := eliminate s.l (2 * s.N) s.E
  (free (2 * s.N) r.2).map (fun f => nullStr s.N (nullVec (2 * s.N) r.1 r.2 f))

end Stab
end HQCA
