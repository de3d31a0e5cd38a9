import Verif.Model.RDMAlg
import Mathlib.Algebra.BigOperators.Intervals

/-!
# Model of the sums, differences and multiples of RDMs (`hqca/tools/rdm/_spin_rdm.py:352-373, 404-448`) and of `observable` (`:333-337`)
-/

namespace HQCA
namespace RDM
variable {K : Type} [Coef K]

/-- The attributes of `RDM` (`_spin_rdm.py:26-31`) used by the arithmetic: `p`, `alp`, `bet`, `Ne`, `rdm`. -/
structure Obj (K : Type) where
  p : ℕ
  alp : List ℕ
  bet : List ℕ
  Ne : ℤ
  arr : Arr K

/-- `self.r` (`_spin_rdm.py:27`). -/
def Obj.r (o : Obj K) : ℕ := o.alp.length + o.bet.length

/-- `self.expand()` (`_spin_rdm.py:661-667`), which stores the new array in the object. -/
def Obj.expand (o : Obj K) : Option (Obj K) := (RDM.expand o.p o.r o.arr).map fun a => { o with arr := a }

/-- numpy arithmetic of two arrays of the same shape; `none` otherwise (simplified: numpy broadcasts some shapes). -/
def Arr.op (f : K → K → K) (a b : Arr K) : Option (Arr K) :=
  if a.shape = b.shape then some ⟨a.shape, List.zipWith f a.data b.data⟩ else none

/-- The common part of `__add__` (`_spin_rdm.py:352-373`) and `__sub__` (`:404-425`), `f` the operation; `none` is `sys.exit` for different systems, or an exception.  The result, and `self` and
the argument afterwards. -/
def Obj.op (f : K → K → K) (a b : Obj K) : Option (Obj K × Obj K × Obj K) :=
  if a.alp = b.alp ∧ a.bet = b.bet ∧ a.p = b.p then
    a.expand.bind fun a' => b.expand.bind fun b' => (Arr.op f a'.arr b'.arr).map fun s => (⟨a.p, a.alp, a.bet, a.Ne, s⟩, a', b')
  else none

/-- `__add__` (`_spin_rdm.py:352-373`). -/
def Obj.add (a b : Obj K) : Option (Obj K × Obj K × Obj K) := Obj.op (fun x y => x + y) a b

/-- `__sub__` (`_spin_rdm.py:404-425`). -/
def Obj.sub (a b : Obj K) : Option (Obj K × Obj K × Obj K) := Obj.op (fun x y => x - y) a b

/-- `__mul__` by a python `int` or `float` (`_spin_rdm.py:437-446`); the form of the array is kept. -/
def Obj.scale (a : Obj K) (c : K) : Obj K := ⟨a.p, a.alp, a.bet, a.Ne, ⟨a.arr.shape, a.arr.data.map (· * c)⟩⟩

/-- `observable` (`_spin_rdm.py:333-337`): `np.dot(H, rdm).trace()` for a matrix `H` with `r**p` rows, and the object afterwards; `none` if the array is not such a matrix after `contract` (simplified: an
exception of `reshape` or `np.dot`).  The entries of an array are read by their position. -/
def Obj.observable (H : ℕ → ℕ → K) (o : Obj K) : Option (K × Obj K) :=
  (RDM.contract o.p o.r o.arr).bind fun m =>
    if m.shape = [o.r ^ o.p, o.r ^ o.p] then
      (RDM.expand o.p o.r m).map fun a =>
        (∑ i ∈ Finset.range (o.r ^ o.p), ∑ j ∈ Finset.range (o.r ^ o.p), H i j * (m.get [j, i]).getD 0, { o with arr := a })
    else none

end RDM
end HQCA
