import Mathlib.Algebra.BigOperators.Fin
import Mathlib.Data.List.FinRange
import Verif.Model.Fermi
import Verif.Model.Transform

/-!
# Model of the molecular and fermionic Hamiltonians

`hqca/hamiltonian/molecular.py`, `hqca/hamiltonian/fermionic.py`: the reduced Hamiltonian matrix and the operator forms, from
given spin-orbital integrals.  Orbitals of the active space are `Fin r`; `active` gives their spin-orbital indices.  The
active space of the full calculation is the identity map.  Integrals are elements of the coefficient field.
-/

namespace HQCA
namespace Ham
variable {K : Type} [Coef K] {r : ℕ}

/-- The effective one-body integrals `core_1e` (`molecular.py:160-170`): integrals in the active space plus the mean field
of the frozen core orbitals.  With no core orbitals they are the plain integrals. -/
def core1e (h : ℕ → ℕ → K) (V : ℕ → ℕ → ℕ → ℕ → K) (active : Fin r → ℕ) (core : List ℕ) (i j : Fin r) : K :=
  core.foldl (fun x k => x + V (active i) k (active j) k - V (active i) k k (active j)) (0 + h (active i) (active j))

/-- `K2` (`molecular.py:154-193`, `fermionic.py:141-150`) for one-body integrals `h1` and two-body integrals `V`, `ne`
being the number of electrons: every `K2[...] += ...` of the loops contributes to the entry it names. -/
def k2 (h1 : Fin r → Fin r → K) (V : Fin r → Fin r → Fin r → Fin r → K) (ne : K) (a b c d : Fin r) : K :=
  V a b c d * (1 / 2) + ∑ i, ∑ j, ∑ k,
    ((if (a, b, c, d) = (i, k, j, k) then h1 i j / (4 * (ne - 1)) else 0)
      + (if (a, b, c, d) = (k, i, k, j) then h1 i j / (4 * (ne - 1)) else 0)
      + (if (a, b, c, d) = (i, k, k, j) then -(h1 i j / (4 * (ne - 1))) else 0)
      + (if (a, b, c, d) = (k, i, j, k) then -(h1 i j / (4 * (ne - 1))) else 0))

/-- `observable` of a two-body density matrix (`tools/rdm/_compact_rdm.py:276-280`, `_spin_rdm.py:333-337`): the trace of
the product of the two matrices with pair indices. -/
def observable (H D : Fin r → Fin r → Fin r → Fin r → K) : K := ∑ a, ∑ b, ∑ c, ∑ d, H a b c d * D c d a b

/-- `_en_c` of an active-space calculation (`molecular.py:197-205`): core energy plus nuclear energy. -/
def coreEnergy (h : ℕ → ℕ → K) (V : ℕ → ℕ → ℕ → ℕ → K) (core : List ℕ) (nuc : K) : K :=
  core.foldl (fun e i => core.foldl (fun e j => e + 1 / 2 * V i j i j - 1 / 2 * V i j j i) (e + h i i)) 0 + nuc

/-- The one-electron terms passed to `FermiString` in `_build_operator` (`molecular.py:288-302`, `fermionic.py:262-276`).
`skip` is the test `abs(..) <= int_thresh`. -/
def oneTerms (skip : K → Bool) (h1 : Fin r → Fin r → K) : List (K × List (ℕ × FL)) :=
  (List.finRange r).flatMap fun p => (List.finRange r).flatMap fun q =>
    if skip (h1 p q) then [] else [(h1 p q, [(p.val, .cr), (q.val, .an)])]

/-- The two-electron terms (`molecular.py:308-341`, `fermionic.py:282-315`), with the tests on coinciding indices. -/
def twoTerms (skip : K → Bool) (V : Fin r → Fin r → Fin r → Fin r → K) : List (K × List (ℕ × FL)) :=
  (List.finRange r).flatMap fun p => (List.finRange r).flatMap fun q2 =>
    if p = q2 then [] else
      let i1 := if p = q2 then 1 else 0
      (List.finRange r).flatMap fun s =>
        let i2 := if s = p then 1 else 0
        let i3 := if s = q2 then 1 else 0
        if i1 + i2 + i3 = 3 then [] else
          (List.finRange r).flatMap fun q =>
            let i4 := if q = p then 1 else 0
            let i5 := if q = q2 then 1 else 0
            let i6 := if q = s then 1 else 0
            if 3 ≤ i1 + i2 + i3 + i4 + i5 + i6 then []
            else if q = s then []
            else if skip (V p q2 q s) then []
            else [(1 / 2 * V p q2 q s, [(p.val, .cr), (q2.val, .cr), (s.val, .an), (q.val, .an)])]

/-- `ferOp` before it is cleaned (`molecular.py:282-341`): `ferOp += FermiString(...)` for the terms in order; `none` for
an exception. -/
def fermiOp (skip : K → Bool) (h1 : Fin r → Fin r → K) (V : Fin r → Fin r → Fin r → Fin r → K) : Option (OpD FStr K) :=
  ((oneTerms skip h1 ++ twoTerms skip V).mapM (fun t => Fermi.generate true t.1 t.2 r)).map (fun l => l.foldl OpD.addStr [])

/-- `qubOp` and `ferOp` of `FermionicHamiltonian` (`fermionic.py:322-328`): `for i in new: qubOp += i`. -/
def qubitOp (T : Term FStr K → Option (POp K)) (skip : K → Bool) (h1 : Fin r → Fin r → K)
    (V : Fin r → Fin r → Fin r → Fin r → K) : Option (POp K × OpD FStr K) :=
  (fermiOp skip h1 V).bind fun A => (OpD.transform T A).map fun n => (n.foldl OpD.addStr [], A)

/-- A call of `Operator.clean` with the given arguments (`operators/_operator.py:157`): the method takes none, any
argument is a `TypeError`. -/
def cleanCall {α : Type} (args : List K) (A : OpD α K) : Option (OpD α K) :=
  match args with
  | [] => some A.clean
  | _ :: _ => none

/-- The same of `MolecularHamiltonian` (`molecular.py:349-372`): transform, keep `abs(c) > int_thresh` (`above`), call
`clean(1e-8)` (`tol`) on both operators, add the constant `en_c` to the qubit operator. -/
def molecularOps (T : Term FStr K → Option (POp K)) (skip above : K → Bool) (tol : K) (h1 : Fin r → Fin r → K)
    (V : Fin r → Fin r → Fin r → Fin r → K) (enc : K) : Option (POp K × OpD FStr K) :=
  (fermiOp skip h1 V).bind fun A => (OpD.transform T A).bind fun n =>
    (cleanCall [tol] ((n.filter (fun t => above t.2)).foldl OpD.addStr [])).bind fun Q =>
      (cleanCall [tol] A).map fun A' => (Q.addStr (List.replicate r .I, enc), A')

end Ham
end HQCA
