import Verif.Model.StateTomo

/-!
# Model of storing a generated tomography: `StandardTomography.save`, `load` and `preset=True`

`hqca/tomography/_tomography.py:83-143`.  An object holds the attributes the methods read and set; an attribute that was never set is `none`, and reading it is an
exception.  `simulate` and `construct` are those of `StateTomo` (state-vector backend).
-/

namespace HQCA
namespace TomoFile
noncomputable section
open Tomo StateTomo

/-- The attributes.  `axes` is the number of axes of `self.dim`; `rdme` holds index lists and qubit operators; `keys` is `rdme_keys`. -/
structure Obj where
  op : Option (List PStr)
  mapping : Option (List (PStr × PStr))
  rdme : Option (List (List ℕ × POp ℂ))
  keys : Option (List (List ℕ))
  real : Option Bool
  imag : Option Bool
  p : ℕ
  axes : ℕ

/-- `StandardTomography(QuantStore, order=q)` (`_tomography.py:83-113`). -/
def fresh (q : ℕ) : Obj := ⟨none, none, none, none, none, none, q, 2 * q⟩

/-- `_preset_configuration` in the constructor (`_tomography.py:104-107`, `130-143`): the attributes of `Tomo`, then the axes. -/
def preset (q : ℕ) (t : Obj) : Option Obj :=
  match t.mapping, t.op, t.rdme, t.real, t.imag with
  | some m, some o, some r, some re, some im => some { fresh q with mapping := some m, op := some o, rdme := some r, real := some re, imag := some im, p := t.p, axes := 2 * t.p }
  | _, _, _, _, _ => none

/-- `generate` (`_tomography.py:351-361`, `570-631`). -/
def generate (T : Term FStr ℂ → Option (POp ℂ)) (f : Flags) (alp bet : List ℕ) (col : List PStr → ℕ → ℕ) (t : Obj) : Option Obj :=
  let Nq := alp.length + bet.length
  ((Tomo.rdme t.p f alp bet).mapM fun ind => rdmeQubT T f ind Nq).bind fun els =>
    (measurements f.real Nq col (els.map (·.2))).map fun m =>
      { t with op := some m.1, mapping := some m.2, rdme := some els, keys := some (els.map (·.1)), real := some f.real, imag := some f.imag }

/-- What is in the file (`_tomography.py:115-118`). -/
structure File where
  op : List PStr
  mapping : List (PStr × PStr)
  rdme : List (List ℕ × POp ℂ)
  real : Bool
  imag : Bool

/-- `save` (`_tomography.py:115-118`). -/
def save (t : Obj) : Option File :=
  match t.op, t.mapping, t.rdme, t.real, t.imag with
  | some o, some m, some r, some re, some im => some ⟨o, m, r, re, im⟩
  | _, _, _, _, _ => none

/-- `load` (`_tomography.py:120-128`): the entry for `real` is not read; the order is half the length of the first index list (`IndexError` without elements); the axes stay. -/
def load (F : File) (t : Obj) : Option Obj :=
  match F.rdme with
  | [] => none
  | e :: _ => some { t with op := some F.op, mapping := some F.mapping, rdme := some F.rdme, p := e.1.length / 2, imag := some F.imag }

/-- Filling an array with `axes` axes by elements of order `p` (`_tomography.py:254-309`): with too few axes `IndexError`; with more, numpy adds to the whole subarray. -/
def fill (axes p : ℕ) (vals : List (List ℕ × ℂ)) : Option (List ℕ → ℂ) :=
  if axes < 2 * p then none else some fun ind => build p vals (ind.take (2 * p))

/-- `set`, `simulate` and `construct` (`_tomography.py:145-322`, `633-845`), as in `StateTomo.runT`: the RDM's order, number of axes and entries. -/
def measure (Nq : ℕ) (prep : Cfg → ℂ) (t : Obj) : Option (ℕ × ℕ × (List ℕ → ℂ)) :=
  match t.op, t.mapping, t.rdme with
  | some o, some m, some els =>
    (simulate Nq o prep).bind fun sim => if els.isEmpty then none else
      (els.mapM fun e => (valueSV Nq m sim.1 e.2).map fun v => (e.1, v)).bind fun vals => (fill t.axes t.p vals).map fun D => (t.p, t.axes, D)
  | _, _, _ => none

end
end TomoFile
end HQCA
