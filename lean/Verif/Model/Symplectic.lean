import Verif.Model.Pauli

/-!
# Model of the symplectic helpers: `hqca/transforms/_jordan_wigner.py:44-51`, `hqca/operators/quantum_strings/_pauli_string.py:61-74`
-/

namespace HQCA
namespace Pauli
variable {K : Type} [Coef K]

/-- `symplectic_product` (`_jordan_wigner.py:44-51`): bits of the product and its coefficient, for arrays of one length (numpy raises otherwise; its broadcasting of
length-one arrays is not modelled). -/
def symplecticProduct (l1 r1 l2 r2 : List Bool) (c1 c2 : K) : Option (List Bool × List Bool × K) :=
  if r1.length = l1.length ∧ l2.length = l1.length ∧ r2.length = l1.length then
    let l := List.zipWith xor l1 l2
    let r := List.zipWith xor r1 r2
    let L := List.zipWith (fun a b => b2i a + b2i b) l1 l2
    let R := List.zipWith (fun a b => b2i a + b2i b) r1 r2
    let e1 := (List.zipWith (· - ·) (List.zipWith (fun a b => b2i (a && b)) r1 l2) (List.zipWith (fun a b => b2i (a && b)) r2 l1)).sum
    let e2 := (List.zipWith (· - ·) (List.zipWith (· * ·) L R) (List.zipWith (fun a b => b2i (a && b)) l r)).sum
    some (l, r, c1 * c2 * (I ^ e1 * I ^ e2))
  else none

/-- `skew` (`_pauli_string.py:70-74`): `self.r[i]*P.r[i+n] - P.r[i]*self.r[i+n]` for `i < n`; `none` for an `IndexError`. -/
def skew (s t : PStr) : Option ℤ :=
  (List.range s.length).foldl (fun v i => v.bind fun v =>
    (s.map PL.r)[i]?.bind fun a => (t.map PL.r)[i + s.length]?.bind fun b => (t.map PL.r)[i]?.bind fun c => (s.map PL.r)[i + s.length]?.map fun d =>
      v + (b2i a * b2i b - b2i c * b2i d)) (some 0)

/-- `symm` (`_pauli_string.py:61-68`). -/
def symm (s t : PStr) : Option ℤ :=
  ((List.range s.length).foldl (fun v i => v.bind fun v =>
    (s.map PL.r)[i]?.bind fun a => (t.map PL.r)[i + s.length]?.bind fun b => (t.map PL.r)[i]?.bind fun c => (s.map PL.r)[i + s.length]?.map fun d =>
      v + b2i a * b2i b + b2i c * b2i b + b2i c * b2i d + b2i a * b2i d) (some 0)).map fun v => -v

end Pauli
end HQCA
