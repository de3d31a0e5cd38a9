import Mathlib.Algebra.Order.Field.Basic
import Mathlib.Algebra.BigOperators.Group.Finset.Basic
import Mathlib.Algebra.BigOperators.Ring.Finset
import Mathlib.Logic.Function.Basic
import Verif.Model.Operator

/-!
# Model of the ACSE driver (`hqca/acse/acse.py`) and of the truncations of its search direction

Energies are elements of an ordered field (floats are idealised; real parts are taken by the code).  What one iteration
computes (`_run_acse`) is an arbitrary observation: the energy of the new density matrix, the norm of the residual, the two
trust-region quantities and whether the ansatz has `max_depth` terms.  Printing and the logs other than `log_E` are
dropped.
-/

namespace HQCA
namespace ACSE
variable {F : Type} [Field F] [LinearOrder F] [IsStrictOrderedRing F]

/-- `convergence_type` (`acse.py:746`, `759`): the trust-region criterion, the norm of the residual, or any other value
(including the default of the keyword, `acse.py:62`). -/
inductive Conv where
  | trust | norm | other
deriving DecidableEq

/-- Keywords of the driver (`acse.py:55-121`). -/
structure Par (F : Type) where
  maxIter : ℕ
  conv : Conv
  crit : F
  tsCrit : F
  objCrit : F

/-- What `_check` reads after an iteration: `evaluate(rdm)`, `norm`, `tr_taylor`, `tr_object`, `len(psi)==max_depth`. -/
structure Obs (F : Type) where
  en : F
  norm : F
  taylor : F
  object : F
  deep : Bool

/-- The driver: `total.iter`, `total.done`, `best`, `e_k`, `log_E` (latest entry first) and `increasing` (0 stands for the
missing attribute, `acse.py:730-733`). -/
structure St (F : Type) where
  iter : ℕ
  done : Bool
  best : F
  ek : F
  logE : List F
  inc : ℕ

/-- After `build` (`acse.py:375-403`): `Cache()`, `best = e_k`, `log_E = [e_k]`.  `increasing` is not touched by `build`,
so `inc` is what an earlier run of the same object left (0 for a new object). -/
def build (e : F) (inc : ℕ) : St F := ⟨0, false, e, e, [e], inc⟩

/-- `avg_En` (`acse.py:701-709`): the mean of the last `min(3, total.iter+1)` entries of `log_E`. -/
def avg (iter : ℕ) (log : List F) : F :=
  let w := log.take (min 3 (iter + 1))
  w.sum / (w.length : F)

/-- The criteria of `acse.py:746-763`; `none` is the raised `QuantumRunError`. -/
def criteria (P : Par F) (o : Obs F) : Option Bool :=
  match P.conv with
  | .trust => some (decide (|o.taylor| ≤ max P.tsCrit P.crit) || decide (|o.object| ≤ max P.objCrit P.crit))
  | .norm => some (decide (o.norm < P.crit))
  | .other => none

/-- `_check` (`acse.py:681-767`).  When the ansatz has `max_depth` terms the code evaluates
`copy(psi) + copy(A) > max_depth` (`acse.py:693`), a comparison that the ansatz does not define: an exception. -/
def check (P : Par F) (s : St F) (o : Obs F) : Option (St F) :=
  let best := if s.iter = 0 then s.ek else s.best
  let iter := s.iter + 1
  if iter ≠ P.maxIter ∧ o.deep = true then none
  else
    let log := o.en :: s.logE
    let up := decide (avg iter log ≤ o.en)
    let inc := if up then s.inc + 1 else s.inc
    match criteria P o with
    | none => none
    | some c =>
      some { iter := iter
             done := s.done || decide (iter = P.maxIter) || (up && decide (3 ≤ inc)) || c
             best := if o.en < best then o.en else best
             ek := o.en
             logE := log
             inc := inc }

/-- `run` (`acse.py:658-667`): `while not total.done: _run_acse(); _check()`, for the observations that successive
iterations would make.  The result when they are exhausted is the state reached so far. -/
def run (P : Par F) : List (Obs F) → St F → Option (St F)
  | [], s => some s
  | o :: os, s => if s.done then some s else (check P s o).bind (run P os)

section GetA
variable {α K : Type} [DecidableEq α]

/-- The first loop of the relative truncation in `_get_A` (`acse.py:562-567`): the coefficient of largest modulus (the
last one among equals), starting from 0.  `mag` is `abs`. -/
def maxVal [Zero K] (mag : K → F) (A : OpD α K) : K :=
  A.foldl (fun m t => if mag t.2 ≥ mag m then t.2 else m) 0

/-- The second loop (`acse.py:568-570`): the truncated generator.  `abs(S_thresh_rel*max_val)` is the product of the
moduli. -/
def relTrunc [Zero K] [Add K] (mag : K → F) (thr : F) (A : OpD α K) : OpD α K :=
  A.foldl (fun new t => if mag t.2 ≥ |thr| * mag (maxVal mag A) then new.addStr t else new) []

end GetA

section Trunc
variable {ι : Type} [DecidableEq ι] [Fintype ι]

/-- The arguments of `truncation` (`_tools_acse.py:39-49`).  `pair` is the index of the element with creation and
annihilation indices exchanged, as looked up in `mapping` (`_tools_acse.py:113-115`), `none` when there is none; `added` is `k_added`
(`_tools_acse.py:76-81`, empty unless `include`).  `abs` selects the method. -/
structure TPar (F ι : Type) where
  vector : ι → F
  gradient : ι → F
  pair : ι → Option ι
  abs : Bool
  thresh : F
  added : List ι

/-- `deltas` (`_tools_acse.py:83`). -/
def deltas (P : TPar F ι) (i : ι) : F := P.vector i * P.gradient i

/-- Whether the element is below the threshold (`_tools_acse.py:125-134`). -/
def below (P : TPar F ι) (i : ι) : Bool :=
  if P.abs then decide (|P.vector i| < P.thresh * (99999 / 100000))
  else decide (deltas P i > P.thresh * (99999 / 100000))

/-- `descent` (`_tools_acse.py:136-137`). -/
def descent (P : TPar F ι) (temp : ι → F) (i : ι) : F := (∑ k, temp k * P.gradient k) - (deltas P i + deltas P i)

/-- The loop of `truncation` (`_tools_acse.py:101-145`) on the list of indices still to check; `none` is the `KeyError` of
the lookup, or the exception of `check.remove(pair)` when the pair is not in the list. -/
def truncLoop (P : TPar F ι) : List ι → (ι → F) → Option (ι → F)
  | [], temp => some temp
  | t :: rest, temp =>
    match P.pair t with
    | none => none
    | some p =>
      if t = p then truncLoop P rest temp
      else if p ∈ rest then
        if t ∈ P.added then truncLoop P (rest.erase p) temp
        else if below P t = true ∧ ¬ 0 ≤ descent P temp t then
          truncLoop P (rest.erase p) (Function.update (Function.update temp t 0) p 0)
        else truncLoop P (rest.erase p) temp
      else none
  termination_by l => l.length
  decreasing_by
    · simp
    all_goals exact Nat.lt_succ_of_le (List.length_erase_le)

/-- `truncation` (`_tools_acse.py:39-159`) for the order `crit` of the indices produced by the sort. -/
def truncation (P : TPar F ι) (crit : List ι) : Option (ι → F) := truncLoop P crit P.vector

/-- `mapping[' '.join([str(k) for k in inds])]` with `inds = keys[target][2:] + keys[target][:2]`
(`_tools_acse.py:113-115`) and the mapping of the driver from its own list of keys (`acse.py:383-386`: the last index of
equal keys); `none` is the `KeyError`. -/
def pairLookup (keys : List (List ℕ)) (t : Fin keys.length) : Option (Fin keys.length) :=
  (List.finRange keys.length).reverse.find? (fun j => keys[j.val] = (keys[t.val]).drop 2 ++ (keys[t.val]).take 2)

end Trunc
end ACSE
end HQCA
