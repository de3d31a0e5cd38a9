import Verif.Model.RDM
import Mathlib.Data.Nat.Factorial.Basic

/-!
# Model of `hqca/tools/rdm/_spin_rdm.py` (`RDM`)

A tensor of shape `(r,)*2p` is a function on index lists.
-/

namespace HQCA
namespace RDM
variable {K : Type} [Coef K]

/-- Assignments `rdm[ind] = v` one after the other: the last one to an index stands, other entries keep zero. -/
def writes (ws : List (List ℕ × K)) : List ℕ → K :=
  fun ind => ((ws.filter (fun w => w.1 = ind)).getLast?.map (·.2)).getD 0

/-- Occupied spin orbitals (`_spin_rdm.py:588-589`), `na` and `nb` the numbers of alpha and beta electrons. -/
def hfOcc (alp bet : List ℕ) (na nb : ℕ) : List ℕ := alp.take na ++ bet.take nb

/-- `_build_hf_spin` (`_spin_rdm.py:581-603`). -/
def buildHF (p : ℕ) (occ : List ℕ) : List ℕ → K :=
  writes ((Rec.permute occ p []).flatMap (fun S =>
    (Rec.unorderedPermute S).flatMap (fun c => (Rec.unorderedPermute S).map (fun a =>
      (c.1 ++ a.1, ((c.2 * a.2 : ℤ) : K))))))

/-- `reduce_order` (`_spin_rdm.py:375-402`) of a `p`-tensor on `r` orbitals; `none`: `ZeroDivisionError` for
`Ne = p-1`. The entries are only summed for `p = 2, 3`. -/
def reduceOrder (p r : ℕ) (Ne : ℤ) (D : List ℕ → K) : Option (List ℕ → K) :=
  if Ne - p + 1 = 0 then none else
  some (fun ind =>
    (match p, ind with
    | 3, [i, j, k, l] => ((List.range r).map (fun x => D [i, j, x, k, l, x])).sum
    | 2, [i, j] => ((List.range r).map (fun x => D [i, x, j, x])).sum
    | _, _ => 0) * (1 / ((Ne - p + 1 : ℤ) : K)))

/-- All index tuples of length `n` in row-major order. -/
def tuples (r : ℕ) : ℕ → List (List ℕ)
  | 0 => [[]]
  | n + 1 => (List.range r).flatMap (fun i => (tuples r n).map (i :: ·))

/-- `np.nonzero` of a `p`-tensor (`_spin_rdm.py:468-469`): index tuples of the nonzero entries. -/
def nonzero (r p : ℕ) (A : List ℕ → K) : List (List ℕ) := (tuples r (2 * p)).filter (fun t => !isZero (A t))

/-- `newCre[i] > newCre[i+1]` for no `i` (`_spin_rdm.py:486-488`). -/
def ascending : List ℕ → Bool
  | a :: b :: l => decide (a ≤ b) && ascending (b :: l)
  | _ => true

/-- The lists `CreTerms`, `AnnTerms` (`_spin_rdm.py:474-512`) from the index tuples of the two factors. -/
def terms (c1 c2 : List (List ℕ)) : List (List ℕ) :=
  c1.foldl (fun acc c => c2.foldl (fun acc s =>
    if c.any (· ∈ s) || !ascending (c ++ s) || decide (c ++ s ∈ acc) then acc else acc ++ [c ++ s]) acc) []

/-- `sumTerms` (`_spin_rdm.py:519-537`). -/
def sumTerms (p q : ℕ) (A B : List ℕ → K) (i j : List ℕ) : K :=
  (((Rec.unorderedPermute i).flatMap (fun c => (Rec.unorderedPermute j).map (fun a =>
      A (c.1.take p ++ a.1.take p) * B (c.1.drop p ++ a.1.drop p) * ((c.2 * a.2 : ℤ) : K)))).sum
    * (1 / (((Rec.unorderedPermute i).length * (Rec.unorderedPermute j).length : ℕ) : K)))
    * (((p + q).factorial : K) / ((p.factorial * q.factorial : ℕ) : K))

/-- `__mul__` by an RDM (`_spin_rdm.py:428-545`), `p`, `q` the orders of the factors. -/
def wedge (r p q : ℕ) (A B : List ℕ → K) : List ℕ → K :=
  let non1 := nonzero r p A
  let non2 := nonzero r q B
  let cre := terms (non1.map (·.take p)) (non2.map (·.take q))
  let ann := terms (non1.map (·.drop p)) (non2.map (·.drop q))
  writes (cre.flatMap (fun i => ann.flatMap (fun j =>
    (Rec.unorderedPermute i).flatMap (fun c => (Rec.unorderedPermute j).map (fun a =>
      (c.1 ++ a.1, sumTerms p q A B i j * ((c.2 * a.2 : ℤ) : K)))))))

/-- A numpy array: shape and row-major data. -/
structure Arr (K : Type) where
  shape : List ℕ
  data : List K

/-- Row-major position of an index. -/
def ravel : List ℕ → List ℕ → ℕ
  | _ :: sh, i :: idx => i * sh.prod + ravel sh idx
  | _, _ => 0

/-- `a[idx]`; `none`: `IndexError`. -/
def Arr.get (a : Arr K) (idx : List ℕ) : Option K :=
  if idx.length = a.shape.length ∧ ∀ x ∈ idx.zip a.shape, x.1 < x.2 then a.data[ravel a.shape idx]? else none

/-- `np.reshape`; `none`: `ValueError` for a different number of entries. -/
def Arr.reshape (a : Arr K) (sh : List ℕ) : Option (Arr K) :=
  if sh.prod = a.shape.prod then some ⟨sh, a.data⟩ else none

/-- `contract` (`_spin_rdm.py:652-660`). -/
def contract (p r : ℕ) (a : Arr K) : Option (Arr K) :=
  if p = 1 then some a else a.reshape [r ^ p, r ^ p]

/-- `expand` (`_spin_rdm.py:661-667`). -/
def expand (p r : ℕ) (a : Arr K) : Option (Arr K) :=
  if p = 1 then some a else a.reshape (List.replicate (2 * p) r)

/-- `switch` (`_spin_rdm.py:645-650`). -/
def switch (p r : ℕ) (a : Arr K) : Option (Arr K) :=
  if a.shape.length = 2 ∧ p ≠ 1 then expand p r a else contract p r a

end RDM
end HQCA
