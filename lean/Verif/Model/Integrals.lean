import Mathlib.Algebra.BigOperators.Group.Finset.Basic
import Mathlib.Algebra.Ring.Defs
import Mathlib.Data.List.Range
import Mathlib.Logic.Function.Basic

/-!
# Model of the spin-orbital expansion of integrals

`hqca/tools/_chemistry.py:184-223, 266-517`.  Arrays are functions of their indices; an in-place update of an entry or a
row is `Function.update`.  `U` is the matrix called `U_a` or `U_b`, `s2s` the dictionary `spin2spac`, `N` the number of
spatial orbitals.  Index errors are not modelled (the dictionary is total).
-/

namespace HQCA
namespace Ints
variable {R : Type} [CommRing R]

/-- The lists of orbitals chosen by `region` (`_chemistry.py:195-203, 285-296, 410-421`): inactive, active, virtual for
`'full'`, active, inactive for `'active'`. -/
structure Orbs where
  inactive : List ℕ
  active : List ℕ
  virt : List ℕ

def Orbs.full (o : Orbs) : List ℕ := o.inactive ++ o.active ++ o.virt
def Orbs.act (o : Orbs) : List ℕ := o.active ++ o.inactive

/-- `for a in range(N): row += U[P,a]*x[a]` for a row `row` and rows `x[a]` of any shape. -/
def accRow {ι : Type} (N : ℕ) (u : ℕ → R) (x : ℕ → ι → R) (row : ι → R) : ι → R :=
  (List.range N).foldl (fun row a => fun c => row c + u a * x a c) row

/-- `for b in range(N): e += u[b]*x[b]`. -/
def accEntry (N : ℕ) (u : ℕ → R) (x : ℕ → R) (e : R) : R := (List.range N).foldl (fun e b => e + u b * x b) e

/-- `temp1` and `new_ei`. -/
structure St1 (R : Type) where
  temp : ℕ → ℕ → R
  new : ℕ × ℕ → R

/-- One pass of `for i in alpha` (`_chemistry.py:205-213`): `temp1[P,:]` accumulates, the entries `new_ei[i,j]` are set to
zero and accumulated. -/
def step1 (N : ℕ) (U ei : ℕ → ℕ → R) (s2s : ℕ → ℕ) (orbs : List ℕ) (st : St1 R) (i : ℕ) : St1 R :=
  let t := Function.update st.temp (s2s i) (accRow N (U (s2s i)) ei (st.temp (s2s i)))
  ⟨t, orbs.foldl (fun e j => Function.update e (i, j) (accEntry N (U (s2s j)) (t (s2s i)) 0)) st.new⟩

/-- One spin block of `generate_spin_1ei` (`_chemistry.py:204-213` and `214-223`), with a fresh `temp1`. -/
def block1 (N : ℕ) (U ei : ℕ → ℕ → R) (s2s : ℕ → ℕ) (orbs : List ℕ) (new : ℕ × ℕ → R) : ℕ × ℕ → R :=
  (orbs.foldl (step1 N U ei s2s orbs) ⟨fun _ _ => 0, new⟩).new

/-- `generate_spin_1ei` (`_chemistry.py:184-223`) for the lists of alpha and beta orbitals, onto an array `new`. -/
def spin1 (N : ℕ) (Ua Ub ei : ℕ → ℕ → R) (s2s : ℕ → ℕ) (alpha beta : List ℕ) (new : ℕ × ℕ → R) : ℕ × ℕ → R :=
  block1 N Ub ei s2s beta (block1 N Ua ei s2s alpha new)

/-- `region='full'` starts from zeros (`_chemistry.py:195-198`). -/
def spin1Full (N : ℕ) (Ua Ub ei : ℕ → ℕ → R) (s2s : ℕ → ℕ) (alpha beta : Orbs) : ℕ × ℕ → R :=
  spin1 N Ua Ub ei s2s alpha.full beta.full (fun _ => 0)

/-- `region='active'` (`_chemistry.py:199-203`) works on a given array, zeros if there is none. -/
def spin1Active (N : ℕ) (Ua Ub ei : ℕ → ℕ → R) (s2s : ℕ → ℕ) (alpha beta : Orbs) (new : Option (ℕ × ℕ → R)) : ℕ × ℕ → R :=
  spin1 N Ua Ub ei s2s alpha.act beta.act (new.getD (fun _ => 0))

/-- `temp1`, `temp2`, `temp3`, `new_ei` of the two-body routines. -/
structure St2 (R : Type) where
  t1 : ℕ → ℕ × ℕ × ℕ → R
  t2 : ℕ × ℕ → ℕ × ℕ → R
  t3 : ℕ × ℕ × ℕ → ℕ → R
  new : ℕ × ℕ × ℕ × ℕ → R

/-- `for l in ...` (`_chemistry.py:317-323`): `new_ei[i,k,j,l] += ...`; `same` is the test `j==l` of the same-spin
blocks. -/
def loopL (N : ℕ) (U' : ℕ → ℕ → R) (s2s : ℕ → ℕ) (same : Bool) (orbs' : List ℕ) (i j k : ℕ) (row : ℕ → R)
    (new : ℕ × ℕ × ℕ × ℕ → R) : ℕ × ℕ × ℕ × ℕ → R :=
  orbs'.foldl (fun e l => if same = true ∧ j = l then e else
    Function.update e (i, k, j, l) (accEntry N (U' (s2s l)) row (e (i, k, j, l)))) new

/-- `for k in ...` (`_chemistry.py:311-323`). -/
def loopK (N : ℕ) (U' : ℕ → ℕ → R) (s2s : ℕ → ℕ) (same : Bool) (orbs' : List ℕ) (i j : ℕ) (m : ℕ × ℕ → R)
    (st : (ℕ × ℕ × ℕ → ℕ → R) × (ℕ × ℕ × ℕ × ℕ → R)) : (ℕ × ℕ × ℕ → ℕ → R) × (ℕ × ℕ × ℕ × ℕ → R) :=
  orbs'.foldl (fun st k => if same = true ∧ i = k then st else
    let key := (s2s i, s2s j, s2s k)
    let t3 := Function.update st.1 key (accRow N (U' (s2s k)) (fun c d => m (c, d)) (st.1 key))
    (t3, loopL N U' s2s same orbs' i j k (t3 key) st.2)) st

/-- `for j in ...` (`_chemistry.py:307-323`). -/
def loopJ (N : ℕ) (U U' : ℕ → ℕ → R) (s2s : ℕ → ℕ) (same : Bool) (orbs orbs' : List ℕ) (i : ℕ) (m : ℕ × ℕ × ℕ → R)
    (st : (ℕ × ℕ → ℕ × ℕ → R) × (ℕ × ℕ × ℕ → ℕ → R) × (ℕ × ℕ × ℕ × ℕ → R)) :
    (ℕ × ℕ → ℕ × ℕ → R) × (ℕ × ℕ × ℕ → ℕ → R) × (ℕ × ℕ × ℕ × ℕ → R) :=
  orbs.foldl (fun st j =>
    let key := (s2s i, s2s j)
    let t2 := Function.update st.1 key (accRow N (U (s2s j)) (fun b x => m (b, x.1, x.2)) (st.1 key))
    (t2, loopK N U' s2s same orbs' i j (t2 key) st.2)) st

/-- One pass of the outer loop of a spin block (`_chemistry.py:303-323`). -/
def step2 (N : ℕ) (U U' : ℕ → ℕ → R) (ei : ℕ → ℕ → ℕ → ℕ → R) (s2s : ℕ → ℕ) (same : Bool) (orbs orbs' : List ℕ) (st : St2 R)
    (i : ℕ) : St2 R :=
  let t1 := Function.update st.t1 (s2s i) (accRow N (U (s2s i)) (fun a x => ei a x.1 x.2.1 x.2.2) (st.t1 (s2s i)))
  let r := loopJ N U U' s2s same orbs orbs' i (t1 (s2s i)) (st.t2, st.t3, st.new)
  ⟨t1, r.1, r.2.1, r.2.2⟩

/-- One spin block (`_chemistry.py:300-323`, `324-343`, `344-367`, `368-391`), with fresh temporary arrays: `U`, `orbs`
for electron one, `U'`, `orbs'` for electron two. -/
def block2 (N : ℕ) (U U' : ℕ → ℕ → R) (ei : ℕ → ℕ → ℕ → ℕ → R) (s2s : ℕ → ℕ) (same : Bool) (orbs orbs' : List ℕ)
    (new : ℕ × ℕ × ℕ × ℕ → R) : ℕ × ℕ × ℕ × ℕ → R :=
  (orbs.foldl (step2 N U U' ei s2s same orbs orbs') ⟨fun _ _ => 0, fun _ _ => 0, fun _ _ => 0, new⟩).new

/-- `generate_spin_2ei` (`_chemistry.py:266-391`), onto an array `new`: blocks alpha-alpha, alpha-beta, beta-alpha,
beta-beta. -/
def spin2 (N : ℕ) (Ua Ub : ℕ → ℕ → R) (ei : ℕ → ℕ → ℕ → ℕ → R) (s2s : ℕ → ℕ) (alpha beta : List ℕ)
    (new : ℕ × ℕ × ℕ × ℕ → R) : ℕ × ℕ × ℕ × ℕ → R :=
  block2 N Ub Ub ei s2s true beta beta (block2 N Ub Ua ei s2s false beta alpha
    (block2 N Ua Ub ei s2s false alpha beta (block2 N Ua Ua ei s2s true alpha alpha new)))

/-- `generate_spin_2ei_phys` (`_chemistry.py:393-517`): the same loops with the second and third axes of the integrals and
of every temporary array exchanged. -/
def spin2Phys (N : ℕ) (Ua Ub : ℕ → ℕ → R) (ei : ℕ → ℕ → ℕ → ℕ → R) (s2s : ℕ → ℕ) (alpha beta : List ℕ)
    (new : ℕ × ℕ × ℕ × ℕ → R) : ℕ × ℕ × ℕ × ℕ → R :=
  spin2 N Ua Ub (fun a b c d => ei a c b d) s2s alpha beta new

/-- `region='full'` and `'active'` (`_chemistry.py:285-296`). -/
def spin2Full (N : ℕ) (Ua Ub : ℕ → ℕ → R) (ei : ℕ → ℕ → ℕ → ℕ → R) (s2s : ℕ → ℕ) (alpha beta : Orbs) : ℕ × ℕ × ℕ × ℕ → R :=
  spin2 N Ua Ub ei s2s alpha.full beta.full (fun _ => 0)

def spin2Active (N : ℕ) (Ua Ub : ℕ → ℕ → R) (ei : ℕ → ℕ → ℕ → ℕ → R) (s2s : ℕ → ℕ) (alpha beta : Orbs)
    (new : Option (ℕ × ℕ × ℕ × ℕ → R)) : ℕ × ℕ × ℕ × ℕ → R :=
  spin2 N Ua Ub ei s2s alpha.act beta.act (new.getD (fun _ => 0))

end Ints
end HQCA
