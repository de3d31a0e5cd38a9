import Verif.Model.Taper
import Verif.Model.Transform

/-!
# Model of `parity_free` (`hqca/transforms/_functions.py:103-111`)
-/

namespace HQCA.Taper
variable {K : Type} [Coef K]

/-- The symmetries, qubits and eigenvalues passed by `parity_free` (`_functions.py:104-110`); `r` is `1/np.sqrt(2)`. -/
def paritySyms (Na Nb : ℕ) (pa pb : K) : List (PStr × ℕ × K) :=
  [(List.replicate Na .I ++ List.replicate Nb .Z, Na + Nb - 1, pb),
   (List.replicate Na .Z ++ List.replicate (Nb - 1) .I, Na - 1, pa)]

/-- The transform returned by `parity_free` for one string (`_functions.py:46-67,75-101`): the given transform, then one
change of basis and trimming for each symmetry.  `null` is 0 for the first transform returned and 1 for the second. -/
def parityFree (r null : K) (Na Nb : ℕ) (pa pb : K) (T : Term FStr K → Option (POp K)) (t : Term FStr K) : Option (POp K) :=
  (T t).bind (modifyAll r null (paritySyms Na Nb pa pb))

end HQCA.Taper
