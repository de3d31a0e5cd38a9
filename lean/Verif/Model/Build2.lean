import Verif.Coef
import Mathlib.Algebra.BigOperators.Group.List.Basic

/-!
# Model of `build_2rdm` (`hqca/tools/rdm/_qubit_rdm.py:504-659`)

The wave function is a dictionary from determinant strings to amplitudes, in insertion order; character `i` of a
string is the occupation of orbital `i`.  An index beyond the end of a determinant raises in the code and reads
as empty here; the theorems assume that all indices are in range.  The array `rdm2` is a function of four
indices, and the statements of the loops are replayed in the order of the code.
-/

namespace HQCA
namespace Build2

/-- A determinant string. -/
abbrev Det := List Bool

/-- `new_det` (`_qubit_rdm.py:518-524`). -/
def newDet (i k l j : ℕ) (d : Det) : Det := (((d.set j false).set l false).set k true).set i true

/-- `delta` (`_qubit_rdm.py:525-530`). -/
def delta (a b : ℕ) : ℤ := if a = b then 1 else 0

/-- `det_phase` with `start = 0`, the only value used (`_qubit_rdm.py:531-537`). -/
def detPhase (d : Det) (place : ℕ) : ℤ :=
  (List.range place).foldl (fun p i => if d.getD i false then p * (-1) else p) 1

/-- A truth value used as a number. -/
def b2i (b : Bool) : ℤ := if b then 1 else 0

/-- `int(det[x])`. -/
def occ (d : Det) (x : ℕ) : ℤ := b2i (d.getD x false)

/-- `phase_2e_oper` (`_qubit_rdm.py:515-570`): the phase and the new determinant. -/
def phase2e (I K L J : ℕ) (d : Det) : ℤ × Det :=
  let a1 := b2i (L ≤ J)
  let b1 := b2i (K ≤ L)
  let b2 := b2i (K ≤ J)
  let c1 := b2i (I ≤ K)
  let c2 := b2i (I ≤ L)
  let c3 := b2i (I ≤ J)
  let eps1 : ℤ := if a1 % 2 = 1 then -1 else 1
  let eps2 : ℤ := if (b1 + b2) % 2 = 1 then -1 else 1
  let eps3 : ℤ := if (c1 + c2 + c3) % 2 = 1 then -1 else 1
  let t2 := 1 - delta L J
  let t1 := 1 - delta I K
  let t7 := eps1 * eps2 * eps3
  let t6 := detPhase d J * detPhase d L * detPhase d K * detPhase d I
  let t5 := occ d L * occ d J
  let t3 := delta I L + delta I J + 1 - occ d I
  let t4 := delta K L + delta K J + 1 - occ d K
  (t1 * t2 * t3 * t4 * t5 * t6 * t7, newDet I K L J d)

section
variable {C : Type} [Coef C]

/-- A wave function. -/
abbrev Wf (C : Type) := List (Det × C)

/-- An index of the array. -/
abbrev Ix := ℕ × ℕ × ℕ × ℕ

/-- The two kinds of assignment to the array: `rdm2[x] = 0` and `rdm2[x] += v`. -/
inductive Ev (C : Type)
  | zero (x : Ix)
  | add (x : Ix) (v : C)

/-- The effect of one assignment. -/
def step (T : Ix → C) : Ev C → Ix → C
  | .zero x => Function.update T x 0
  | .add x v => Function.update T x (T x + v)

/-- A sequence of assignments. -/
def run (T : Ix → C) (es : List (Ev C)) : Ix → C := es.foldl step T

/-- The body of the innermost loop for one determinant (`_qubit_rdm.py:601-610`, `626-635`, `649-658`). -/
def adds (wf : Wf C) (i k l j : ℕ) (t : Det × C) : List (Ev C) :=
  let r := phase2e i k l j t.1
  if r.1 = 0 then []
  else match wf.lookup r.2 with
    | none => []
    | some c =>
      [.add (i, k, l, j) (-1 * (r.1 : C) * t.2 * conj c), .add (k, i, j, l) (-1 * (r.1 : C) * t.2 * conj c),
       .add (i, k, j, l) (1 * (r.1 : C) * t.2 * conj c), .add (k, i, l, j) (1 * (r.1 : C) * t.2 * conj c)]

/-- The body for one set of indices.  `skip` is `none` for region `'full'` and the list of inactive orbitals
for region `'active'`; entries whose indices are all inactive are left as they are. -/
def quad (skip : Option (List ℕ)) (wf : Wf C) (q : Ix) : List (Ev C) :=
  let (i, k, l, j) := q
  match skip with
  | none => wf.flatMap (adds wf i k l j)
  | some inact =>
    if i ∈ inact ∧ j ∈ inact ∧ k ∈ inact ∧ l ∈ inact then []
    else [.zero (i, k, l, j), .zero (k, i, l, j), .zero (k, i, j, l), .zero (i, k, j, l)] ++ wf.flatMap (adds wf i k l j)

/-- The index loops of the alpha-alpha and beta-beta blocks (`_qubit_rdm.py:586-591`, `612-617`). -/
def same (o : List ℕ) : List Ix :=
  o.flatMap fun i => o.flatMap fun k => if i < k then o.flatMap fun l => o.flatMap fun j => if l < j then [(i, k, l, j)] else [] else []

/-- The index loops of the alpha-beta block (`_qubit_rdm.py:637-640`). -/
def mixed (a b : List ℕ) : List Ix :=
  a.flatMap fun i => a.flatMap fun j => b.flatMap fun k => b.map fun l => (i, k, l, j)

/-- The orbitals of one spin: `inactive`, `active`, `virtual`. -/
structure Orbs where
  inactive : List ℕ
  active : List ℕ
  virt : List ℕ

/-- The orbitals looped over (`_qubit_rdm.py:578-579`, `584-585`). -/
def Orbs.occ (o : Orbs) : List ℕ := o.inactive ++ o.active

/-- `build_2rdm(wf, alpha, beta)` (`region='full'`). -/
def full (wf : Wf C) (alpha beta : Orbs) : Ix → C :=
  run (fun _ => 0) ((same alpha.occ).flatMap (quad none wf) ++ (same beta.occ).flatMap (quad none wf) ++
    (mixed alpha.occ beta.occ).flatMap (quad none wf))

/-- `build_2rdm(wf, alpha, beta, region='active', rdm2=T)`. -/
def activeRegion (wf : Wf C) (alpha beta : Orbs) (T : Ix → C) : Ix → C :=
  run T ((same alpha.occ).flatMap (quad (some alpha.inactive) wf) ++
    (same beta.occ).flatMap (quad (some beta.inactive) wf) ++
    (mixed alpha.occ beta.occ).flatMap (quad (some (alpha.inactive ++ beta.inactive)) wf))

end
end Build2
end HQCA
