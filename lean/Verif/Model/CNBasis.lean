import Verif.Model.Circ

/-!
# Model of `Circ._cN_basis` and `Circ.get_cN` (`hqca/tools/_gates.py:68-90`)
-/

namespace HQCA
namespace CNBasis
open Circ

/-- `for s in b: temp += int(s)` (`_gates.py:73-75`) for the string of `k`. -/
def weight (n k : ℕ) : ℕ := (List.range n).foldl (fun t i => t + if bchar n k i then 1 else 0) 0

/-- `self.cNi` (`_gates.py:68-78`). -/
def cNi (n : ℕ) : List ℕ := (List.range (n + 1)).foldl (fun acc i => (List.range (2 ^ n)).foldl (fun acc k => if weight n k = i then acc ++ [k] else acc) acc) []

/-- `t1[n,:] = self.m[r,:]` (`_gates.py:83-84`); rows not assigned stay zero. -/
def rows {K : Type} [Coef K] (n : ℕ) (m : Mat K) : Mat K := fun a b => match (cNi n)[a]? with | some r => m r b | none => 0

/-- `t2[:,n] = t1[:,c]` (`_gates.py:85-86`). -/
def cols {K : Type} [Coef K] (n : ℕ) (m : Mat K) : Mat K := fun a b => match (cNi n)[b]? with | some c => m a c | none => 0

/-- `get_cN` (`_gates.py:80-90`). -/
def getCN {K : Type} [Coef K] (n : ℕ) (m : Mat K) : Mat K := cols n (rows n m)

end CNBasis
end HQCA
