import Verif.Model.SpinRDM

/-!
# Model of the spin blocks of a density matrix and of cumulants (`hqca/tools/rdm/_spin_rdm.py:74-176, 605-645`)

Tensors are functions on index lists, `R` is the number of spatial orbitals (`self.R`).
-/

namespace HQCA
namespace SpinBlocks
variable {K : Type} [Coef K]
open SpinRDM

/-- Storing a number in the array `np.zeros((r,r,r,r))` of floats (`:79`): numpy keeps the real part (with a warning). -/
def store (c : K) : K := (c + conj c) / 2

/-- The quadruple loop `for i, for j, for k, for l` over `range(R)` (`:80-87`, `:119-126`). -/
def loop4 {β : Type} (R : ℕ) (f : ℕ → ℕ → ℕ → ℕ → List β) : List β :=
  (List.range R).flatMap (fun i => (List.range R).flatMap (fun j => (List.range R).flatMap (fun k =>
    (List.range R).flatMap (fun l => f i j k l))))

/-- `aa = rdm - rdm.transpose(1,0,2,3)` (`:78`). -/
def aaBlock (f : List ℕ → K) (i k j l : ℕ) : K := f [i, k, j, l] - f [k, i, j, l]

/-- `_generate_from_ab_block` (`:74-97`), called by `RDM(rdm='alpha-beta', fragment=f)`; `f` has shape `(R,R,R,R)`. -/
def fromAB (R : ℕ) (f : List ℕ → K) : List ℕ → K :=
  adds (loop4 R (fun i j k l =>
    let I := i + R
    let J := j + R
    let K' := R + k
    let L := l + R
    [([i, k, j, l], store (aaBlock f i k j l)), ([I, K', J, L], store (aaBlock f i k j l)),
     ([i, K', j, L], store (f [i, k, j, l])), ([I, k, J, l], store (f [i, k, j, l])),
     ([K', i, j, L], store (-f [i, k, j, l])), ([k, I, J, l], store (-f [i, k, j, l]))]))

/-- `spatial_rdm` of a 2-RDM (`:113-133`). -/
def spatial2 (R : ℕ) (D : List ℕ → K) : List ℕ → K :=
  adds (loop4 R (fun i j k l =>
    let I := R + i
    let J := R + j
    let K' := R + k
    let L := R + l
    [([i, k, j, l], D [i, K', j, L]), ([i, k, j, l], D [I, k, J, l]), ([i, k, j, l], D [i, k, j, l]),
     ([i, k, j, l], D [I, K', J, L])]))

/-- `spatial_rdm` of a 1-RDM (`:134-141`). -/
def spatial1 (R : ℕ) (D : List ℕ → K) : List ℕ → K :=
  adds ((List.range R).flatMap (fun i => (List.range R).flatMap (fun j =>
    [([i, j], D [R + i, R + j]), ([i, j], D [i, j])])))

/-- `antisymmetric_block` (`:159-173`); `symmetric_block` (`:143-157`) is the same with `bet := alp`. -/
def block (R : ℕ) (alp bet : List ℕ) (D : List ℕ → K) : List ℕ → K :=
  adds (alp.flatMap (fun i => alp.flatMap (fun j => bet.flatMap (fun k => bet.map (fun l =>
    ([i % R, k % R, j % R, l % R], D [i, k, j, l]))))))

/-- `cumulant` of a 2-RDM (`:611-615`), with `__sub__` (`:404-426`). -/
def cumulant (r : ℕ) (Ne : ℤ) (D : List ℕ → K) : Option (List ℕ → K) := do
  let D1 ← RDM.reduceOrder 2 r Ne D
  pure (fun t => D t - RDM.wedge r 1 1 D1 D1 t)

/-- `reconstruct` of a 2-RDM with the default arguments (`:617-643`): the zero 3-RDM for fewer than three electrons, else
`D1*D1*D1 + ((D-D1*D1)*D1)*3`. -/
def reconstruct (r : ℕ) (Ne : ℤ) (D : List ℕ → K) : Option (List ℕ → K) :=
  if Ne < 3 then some (fun _ => 0) else do
    let D1 ← RDM.reduceOrder 2 r Ne D
    let a := RDM.wedge r 2 1 (RDM.wedge r 1 1 D1 D1) D1
    let w := fun t => D t - RDM.wedge r 1 1 D1 D1 t
    let b := fun t => RDM.wedge r 2 1 w D1 t * 3
    pure (fun t => a t + b t)

end SpinBlocks
end HQCA
