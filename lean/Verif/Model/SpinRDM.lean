import Verif.Model.RDMAlg

/-!
# Model of the spin expectation values (`hqca/tools/rdm/_functions.py:122-262, 335-355`, `_spin_rdm.py:539-554`)

Only plain orbital lists are modelled (`alpha['active']` on a list raises, so that both lists become the active ones); this is how
`get_spin_properties` calls the functions.
-/

namespace HQCA
namespace SpinRDM
variable {K : Type} [Coef K]

/-- `a2b`, `b2a` (`_functions.py:154-155`): the last entry of a repeated key stands. -/
def partner (xs ys : List ℕ) (x : ℕ) : ℕ := ((xs.zip ys).reverse.lookup x).getD 0

/-- Accumulated updates `m[ind] += v`. -/
def adds (ws : List (List ℕ × K)) (ind : List ℕ) : K := ((ws.filter (fun w => w.1 = ind)).map (·.2)).sum

/-- `get_Sz_mat` (`:122-139`). -/
def szMat (alp bet : List ℕ) : List ℕ → K :=
  RDM.writes (alp.map (fun pa => ([pa, pa], 1 / 2)) ++ bet.map (fun pb => ([pb, pb], -(1 / 2))))

/-- The pairs of the double loops (`:156-159`, `:192-195`): `pa, pb, qa, qb`. -/
def loops (alp bet : List ℕ) : List (ℕ × ℕ × ℕ × ℕ) :=
  alp.flatMap (fun pa => bet.map (fun qb => (pa, partner alp bet pa, partner bet alp qb, qb)))

/-- `sz2_2` of `get_Sz2_mat` (`:141-169`). -/
def sz2Two (alp bet : List ℕ) : List ℕ → K :=
  adds ((loops alp bet).flatMap (fun t =>
    let (pa, pb, qa, qb) := t
    [([pa, qa, pa, qa], if pa = qa then 0 else 1 / 4), ([pb, qb, pb, qb], if pb = qb then 0 else 1 / 4),
      ([pb, qa, pb, qa], -(1 / 4)), ([pa, qb, pa, qb], -(1 / 4))]))

/-- `sz2_1` (`:170-173`). -/
def sz2One (alp bet : List ℕ) : List ℕ → K :=
  adds (alp.map (fun pa => ([pa, pa], 1 / 4)) ++ bet.map (fun pb => ([pb, pb], 1 / 4)))

/-- `spsm_2` of `get_SpSm_mat` (`:192-196`). -/
def spsmTwo (alp bet : List ℕ) : List ℕ → K :=
  RDM.writes ((loops alp bet).map (fun t => ([t.1, t.2.2.2, t.2.2.1, t.2.1], -1)))

/-- `spsm_1` (`:197-198`). -/
def spsmOne (alp : List ℕ) : List ℕ → K := RDM.writes (alp.map (fun pa => ([pa, pa], 1)))

/-- `reduce(np.dot,(A,B)).trace()` of matrices. -/
def tr1 (r : ℕ) (A B : List ℕ → K) : K :=
  ((List.range r).map (fun i => ((List.range r).map (fun j => A [i, j] * B [j, i])).sum)).sum

/-- The same for contracted four-index arrays (`contract`: rows are the first two indices). -/
def tr2 (r : ℕ) (A B : List ℕ → K) : K :=
  ((List.range r).map (fun i => ((List.range r).map (fun j => ((List.range r).map (fun k => ((List.range r).map (fun l =>
    A [i, j, k, l] * B [k, l, i, j])).sum)).sum)).sum)).sum

/-- The lookups and array accesses succeed: the lists have the same length (`beta[i]`, `alpha[i]`) and the indices are in range. -/
def ok (alp bet : List ℕ) : Bool :=
  alp.length == bet.length && alp.all (· < alp.length + bet.length) && bet.all (· < alp.length + bet.length)

/-- `Sz` (`:335-355`). -/
def Sz (D1 : List ℕ → K) (alp bet : List ℕ) : Option K :=
  if ok alp bet then some (tr1 (alp.length + bet.length) (szMat alp bet) D1) else none

/-- `S2` (`:223-262`). -/
def S2 (D2 D1 : List ℕ → K) (alp bet : List ℕ) : Option K :=
  let r := alp.length + bet.length
  if ok alp bet then
    some (tr2 r (spsmTwo alp bet) D2 + tr1 r (spsmOne alp) D1 + tr2 r (sz2Two alp bet) D2 + tr1 r (sz2One alp bet) D1 -
      tr1 r (szMat alp bet) D1)
  else none

/-- `get_spin_properties` of a 2-RDM (`_spin_rdm.py:539-554`). -/
def spinProperties (Ne : ℤ) (D : List ℕ → K) (alp bet : List ℕ) : Option (K × K) := do
  let D1 ← RDM.reduceOrder 2 (alp.length + bet.length) Ne D
  let sz ← Sz D1 alp bet
  let s2 ← S2 D D1 alp bet
  return (sz, s2)

end SpinRDM
end HQCA
