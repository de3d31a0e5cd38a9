import Verif.Model.Integrals

/-!
# Model of `gen_spin_1ei_lr` (`hqca/tools/_chemistry.py:225-264`)

One-body integrals between two sets of orbitals: one matrix for the left index and one for the right.  Index errors are not modelled.
-/

namespace HQCA
namespace Ints
variable {R : Type} [CommRing R]

/-- One pass of `for i in alpha` (`_chemistry.py:245-253`); the right matrix is indexed `Ua_r[b,Q]`. -/
def step1LR (N : ℕ) (Ul Ur ei : ℕ → ℕ → R) (s2s : ℕ → ℕ) (orbs : List ℕ) (st : St1 R) (i : ℕ) : St1 R :=
  let t := Function.update st.temp (s2s i) (accRow N (Ul (s2s i)) ei (st.temp (s2s i)))
  ⟨t, orbs.foldl (fun e j => Function.update e (i, j) (accEntry N (fun b => Ur b (s2s j)) (t (s2s i)) 0)) st.new⟩

/-- One spin block (`_chemistry.py:244-253` and `254-263`), with a fresh `temp1`. -/
def block1LR (N : ℕ) (Ul Ur ei : ℕ → ℕ → R) (s2s : ℕ → ℕ) (orbs : List ℕ) (new : ℕ × ℕ → R) : ℕ × ℕ → R :=
  (orbs.foldl (step1LR N Ul Ur ei s2s orbs) ⟨fun _ _ => 0, new⟩).new

/-- `gen_spin_1ei_lr` (`_chemistry.py:225-264`): with `full` the inactive and active orbitals and an array of zeros, otherwise the active orbitals and the given array.
Without an array the first assignment raises, or nothing is returned if there is no orbital (`none`). -/
def spin1LR (N : ℕ) (Ual Uar Ubl Ubr ei : ℕ → ℕ → R) (s2s : ℕ → ℕ) (full : Bool) (alpha beta : Orbs) (new : Option (ℕ × ℕ → R)) : Option (ℕ × ℕ → R) :=
  let a := if full then alpha.inactive ++ alpha.active else alpha.active
  let b := if full then beta.inactive ++ beta.active else beta.active
  (if full then some (fun _ => 0) else new).map fun e => block1LR N Ubl Ubr ei s2s b (block1LR N Ual Uar ei s2s a e)

end Ints
end HQCA
