import Verif.Model.ACSE
import Verif.Model.Euler

/-!
# Model of building, stepping and resetting an ACSE run (`hqca/acse/acse.py`, `hqca/acse/_store_acse.py`)

The Euler method with a state-vector backend.  The circuits are arguments: `meas` is the density matrix measured for an ansatz (`_generate_circuit().rdm`), `resid`
the residual operator and norm that `_get_A` computes for an ansatz, `en` is `np.real(store.evaluate(rdm))`; `none` is a raised exception.  The convergence
parameters and `max_depth` are those of `ACSE.Par` and `depth`.
-/

namespace HQCA
namespace Restart
open ACSE
variable {α K F R : Type} [DecidableEq α] [Coef K] [Field F] [LinearOrder F] [IsStrictOrderedRing F]

/-- What the circuits of a calculation return, and the settings. -/
structure Env (α K F R : Type) where
  meas : List (OpD α K) → Option R
  resid : List (OpD α K) → Option (OpD α K × F)
  en : R → F
  par : Par F
  depth : ℕ
  closed : ℤ
  eps : K

/-- The storage: `use_initial`, `psi` (`none` for an object that is no ansatz, as the default string of `initial`), `e0` and `rdm`. -/
structure Store (α K F R : Type) where
  useInitial : Bool
  psi : Option (List (OpD α K))
  e0 : F
  rdm : R

/-- The run: `psi` (`None` before the first build, `acse.py:110`), `A`, and what the loop keeps. -/
structure Obj (α K F R : Type) where
  store : Store α K F R
  psi : Option (List (OpD α K))
  A : OpD α K
  drv : St F

/-- `StorageACSE.__init__` for a fermionic Hamiltonian (`_store_acse.py:47-57`, `120-133`): `e0` is the energy of the Hartree-Fock matrix, which is also `rdm`; the ansatz is
the given one, or an empty one.  `initial` is `none` for the default string. -/
def storage (E : Env α K F R) (hf : R) (useInitial : Bool) (initial : Option (List (OpD α K))) : Store α K F R :=
  ⟨useInitial, if useInitial then initial else some [], E.en hf, hf⟩

/-- A new run object (`acse.py:110`): no ansatz yet.  `increasing` is not set. -/
def new (st : Store α K F R) : Obj α K F R := ⟨st, none, [], ACSE.build 0 0⟩

/-- `build` (`acse.py:329-403`).  With `use_initial` the ansatz is a copy of the one of the run and the energy that of `store.rdm` (evaluating it does not raise, so the
handler of `acse.py:339-344` is not reached); otherwise both are taken from the storage.  `_get_A` (`acse.py:400`) generates the circuit of the ansatz, which for `None`
raises at `op.transform` (`acse.py:262-263`, `305`); for a string as well. -/
def build (E : Env α K F R) (s : Obj α K F R) : Option (Obj α K F R) :=
  let psi := if s.store.useInitial then s.psi else s.store.psi
  let e := if s.store.useInitial then E.en s.store.rdm else s.store.e0
  psi.bind fun L => (E.resid L).map fun x => ⟨s.store, some L, x.1, ACSE.build e s.drv.inc⟩

/-- `reset` (`acse.py:650-656`). -/
def reset (E : Env α K F R) (full : Bool) (s : Obj α K F R) : Option (Obj α K F R) :=
  build E { s with store := { s.store with useInitial := !full } }

/-- `next_step` (`acse.py:634-637`) with the Euler method (`acse.py:599-601`, `_euler_acse.py:14-23`): the new ansatz, its density matrix stored, the new residual
operator, and `_check`. -/
def next (E : Env α K F R) (s : Obj α K F R) : Option (Obj α K F R) :=
  s.psi.bind fun L =>
    let psi := (Euler.step E.closed E.eps ⟨L, s.A⟩).psi
    (E.meas psi).bind fun r => (E.resid psi).bind fun x =>
      (check E.par s.drv ⟨E.en r, x.2, 0, 0, decide (psi.length = E.depth)⟩).map fun d =>
        ⟨{ s.store with rdm := r }, some psi, x.1, d⟩

/-- `n` calls of `next_step`. -/
def steps (E : Env α K F R) : ℕ → Obj α K F R → Option (Obj α K F R)
  | 0, s => some s
  | n + 1, s => (next E s).bind (steps E n)

/-- The calls a user makes on a run. -/
inductive Call where
  | build | next | reset (full : Bool)
deriving DecidableEq

/-- One call. -/
def call (E : Env α K F R) : Call → Obj α K F R → Option (Obj α K F R)
  | .build, s => build E s
  | .next, s => next E s
  | .reset f, s => reset E f s

/-- A sequence of calls. -/
def calls (E : Env α K F R) : List Call → Obj α K F R → Option (Obj α K F R)
  | [], s => some s
  | c :: cs, s => (call E c s).bind (calls E cs)

end Restart
end HQCA
