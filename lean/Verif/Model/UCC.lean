import Verif.Model.Transform

/-!
# Model of `hqca/vqe/_ucc.py` and of `VariationalAnsatz.assign` (`hqca/vqe/_ansatz.py`)
-/

namespace HQCA
namespace UCC

/-- `alp_occ`, `bet_occ` (`_ucc.py:21-30`): members of the group that are in `quantstore.initial`. -/
def occ (group initial : List ℕ) : List ℕ := group.filter (fun a => a ∈ initial)

/-- `alp_vir`, `bet_vir` (`_ucc.py:21-30`). -/
def vir (group initial : List ℕ) : List ℕ := group.filter (fun a => a ∉ initial)

/-- Single excitations of one spin (`_ucc.py:38-43`). -/
def singles (o v : List ℕ) : List (List ℕ) := o.flatMap (fun i => v.map (fun j => [i, j]))

/-- Double excitations within one spin (`_ucc.py:47-64`). -/
def doublesSame (o v : List ℕ) : List (List ℕ) :=
  o.flatMap (fun i => o.flatMap (fun k =>
    if k ≤ i then [] else v.flatMap (fun l => v.flatMap (fun j => if j ≤ l then [] else [[i, k, l, j]]))))

/-- Double excitations with one electron of each spin (`_ucc.py:65-71`). -/
def doublesMixed (ao av bo bv : List ℕ) : List (List ℕ) :=
  ao.flatMap (fun i => bo.flatMap (fun k => bv.flatMap (fun l =>
    av.flatMap (fun j => if j ≤ i then [] else [[i, k, l, j]]))))

/-- `getUCCAnsatz` (`_ucc.py:9-72`): the index list of the ansatz; `none` is the raised error. -/
def getUCC (alpha beta initial : List ℕ) (sing doub trip quad : Bool) : Option (List (List ℕ)) :=
  let ao := occ alpha initial
  let av := vir alpha initial
  let bo := occ beta initial
  let bv := vir beta initial
  if !sing && (trip || quad) then none
  else some ((if sing then singles ao av ++ singles bo bv else []) ++
    (if doub then doublesSame ao av ++ doublesSame bo bv ++ doublesMixed ao av bo bv else []))

variable {K : Type} [Coef K]

/-- The letters `'+'*dim+'-'*dim` with the indices `t` (`_ansatz.py:20`, `24-29`).  Only even lengths are meant;
for those `zip` pairs all of them. -/
def word (t : List ℕ) : List (ℕ × FL) :=
  t.zip (List.replicate (t.length / 2) .cr ++ List.replicate (t.length / 2) .an)

/-- The operator `new` of one excitation (`_ansatz.py:21`, `24-35`): `new += FermiString(p,t)`, then
`new -= FermiString(p,t[::-1])`, which negates the fresh string and adds it.  The indices of an excitation are
distinct, so building the string leaves the list `t` as it is. -/
def gen (p : K) (t : List ℕ) (N : ℕ) : Option (OpD FStr K) := do
  let a ← Fermi.generate true p (word t) N
  let b ← Fermi.generate true p (word t.reverse) N
  pure (OpD.addStr (OpD.addStr [] a) (b.1, b.2 * (-1)))

/-- `assign` (`_ansatz.py:17-38`); `tiny p` stands for `abs(p)<1e-10`. -/
def assign (tiny : K → Bool) (T : Term FStr K → Option (OpD PStr K)) (N : ℕ) (ts : List (List ℕ)) (ps : List K) :
    Option (List (Term PStr K)) :=
  (((ts.zip ps).filter (fun x => !tiny x.2)).mapM (fun x => (gen x.2 x.1 N).bind (OpD.transform T))).map List.flatten

end UCC
end HQCA
