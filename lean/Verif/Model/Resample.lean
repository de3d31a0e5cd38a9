import Mathlib.Analysis.SpecialFunctions.Pow.Real

/-!
# Error estimate of a tomography by resampling (`tomography/_tomography.py:857-914`)

`P` are the measured bases, `K` the bit strings.  A dictionary is a list of key-value pairs with different keys.  The random generator is an arbitrary
function `pick t p l n` (the `n` entries of `l` drawn without replacement for basis `p` in sample `t`; `none` is numpy's `ValueError`).  Building the RDM
from the counts and applying the user's function is one function `g` of the tables of counts; `none` stands for `nan`.
-/

namespace HQCA
namespace Resample

variable {P K : Type} [DecidableEq K]

/-- `self.counts`. -/
abbrev Tab (P K : Type) := List (P × List (K × ℕ))

/-- The list of single outcomes (`_tomography.py:876-879`). -/
def expand (c : List (K × ℕ)) : List K := c.flatMap fun kv => List.replicate kv.2 kv.1

/-- Adding one outcome to a dictionary (`_tomography.py:904-907`). -/
def incr : List (K × ℕ) → K → List (K × ℕ)
  | [], j => [(j, 1)]
  | (k, v) :: c, j => if k = j then (k, v + 1) :: c else (k, v) :: incr c j

/-- The dictionary of a list of outcomes (`_tomography.py:901-907`). -/
def tally (l : List K) : List (K × ℕ) := l.foldl incr []

/-- New tables of counts (`getRandomRDMFromCounts`, `_tomography.py:898-910`). -/
def resample (pick : ℕ → P → List K → ℕ → Option (List K)) (t n : ℕ) (lists : List (P × List K)) : Option (Tab P K) :=
  lists.mapM fun pl => (pick t pl.1 pl.2 n).map fun r => (pl.1, tally r)

/-- The size of a sample (`_tomography.py:870-871`). -/
def sampleSize (Ns size : ℕ) : ℕ := if Ns * 8 ≤ size then Ns / 8 else size

noncomputable section

/-- `np.std` of a non-empty list; `none` is the `nan` of an empty one (`_tomography.py:894`). -/
def std (l : List ℝ) : Option ℝ :=
  if l = [] then none else
    let mu := l.sum / l.length
    some (Real.sqrt ((l.map fun x => (x - mu) ^ 2).sum / l.length))

/-- `evaluate_error` (`_tomography.py:857-896`) with `tq` the quantile of the t distribution: the confidence interval, and the tables of counts the object
holds afterwards (`_tomography.py:910`). -/
def evaluateError (pick : ℕ → P → List K → ℕ → Option (List K)) (g : Tab P K → Option ℝ) (tq : ℝ) (Ns samples size : ℕ)
    (counts : Tab P K) : Option (Option ℝ × Tab P K) :=
  let n := sampleSize Ns size
  let lists := counts.map fun pc => (pc.1, expand pc.2)
  ((List.range samples).mapM fun t => resample pick t n lists).map fun tabs =>
    ((std (tabs.filterMap g)).map fun s => s * Real.sqrt (n / Ns) * tq, tabs.getLastD counts)

end
end Resample
end HQCA
