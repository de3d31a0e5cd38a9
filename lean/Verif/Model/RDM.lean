import Verif.Coef
import Mathlib.Data.List.Basic
import Mathlib.Data.List.Dedup

/-!
# Model of the RDM enumeration and filling

`hqca/tools/rdm/_functions.py` (`Recursive`), `hqca/tomography/_tomography.py` (`_generate_*rdme`,
`_build_fermionic_RDM`), `hqca/tools/rdm/_spin_rdm.py`.
-/

namespace HQCA
namespace Rec

variable {α : Type}

/-- The inner branch of `unordered_permute` (`_functions.py:115-120`) with `d` choices left; `s*=(-1)**n` accumulates
over the loop.  A finished list is recorded with its sign (`_functions.py:104-106`). -/
def inner : ℕ → List α → List α → ℤ → List (List α × ℤ)
  | 0, temp, _, s => [(temp, s)]
  | d + 1, temp, ch, s =>
    (ch.zipIdx.foldl (fun (st : ℤ × List (List α × ℤ)) (x : α × ℕ) =>
      (st.1 * (-1) ^ x.2, st.2 ++ inner d (temp ++ [x.1]) (ch.eraseIdx x.2) (st.1 * (-1) ^ x.2))) (s, [])).2

/-- `Recursive(choices=l).unordered_permute()` (`_functions.py:101-120`): `total`. -/
def unorderedPermute (l : List α) : List (List α × ℤ) :=
  l.zipIdx.flatMap (fun x => inner (l.length - 1) [x.1] (l.eraseIdx x.2) ((-1) ^ x.2))

/-- `permute` (`_functions.py:85-99`) from a partial choice `temp`. -/
def permute (ch : List ℕ) : ℕ → List ℕ → List (List ℕ)
  | 0, temp => [temp]
  | d + 1, temp =>
    ch.flatMap (fun i =>
      match temp.getLast? with
      | none => permute ch d (temp ++ [i])
      | some t => if i > t then permute ch d (temp ++ [i]) else [])

end Rec

namespace Tomo

/-- Flags `real`, `imag`. -/
structure Flags where
  real : Bool
  imag : Bool

/-- `imag and not real`: diagonal elements are skipped. -/
def Flags.skipDiag (f : Flags) : Bool := f.imag && !f.real

/-- One block of `_generate_1rdme` (`_tomography.py:378-383`). -/
def block1 (f : Flags) (g : List ℕ) : List (List ℕ) :=
  g.flatMap (fun i => g.flatMap (fun j =>
    if i > j then [] else if f.skipDiag && i == j then [] else [[i, j]]))

/-- `_generate_1rdme` (`_tomography.py:364-395`). -/
def rdme1 (f : Flags) (alp bet : List ℕ) : List (List ℕ) := block1 f alp ++ block1 f bet

/-- A same-spin block of `_generate_2rdme` (`_tomography.py:413-422`). -/
def block2 (f : Flags) (Na : ℕ) (g : List ℕ) : List (List ℕ) :=
  g.flatMap (fun i => g.flatMap (fun k => if i ≥ k then [] else
    g.flatMap (fun l => g.flatMap (fun j =>
      if j ≥ l ∨ i * Na + k > j * Na + l then []
      else if f.skipDiag && i * Na + k == j * Na + l then [] else [[i, k, l, j]]))))

/-- The alpha-beta block (`_tomography.py:437-445`). -/
def blockAB (f : Flags) (Na : ℕ) (alp bet : List ℕ) : List (List ℕ) :=
  alp.flatMap (fun i => bet.flatMap (fun k =>
    bet.flatMap (fun l => alp.flatMap (fun j =>
      if i * Na + k > j * Na + l then []
      else if f.skipDiag && i * Na + k == j * Na + l then [] else [[i, k, l, j]]))))

/-- `_generate_2rdme` (`_tomography.py:399-449`). -/
def rdme2 (f : Flags) (alp bet : List ℕ) : List (List ℕ) :=
  block2 f alp.length alp ++ block2 f alp.length bet ++ blockAB f alp.length alp bet

/-- `generate_indices` of `_generate_3rdme` (`_tomography.py:474-494`). -/
def block3 (f : Flags) (N : ℕ) (g1 g2 g3 : List ℕ) : List (List ℕ) :=
  g1.flatMap (fun i => g2.flatMap (fun k => if i ≥ k then [] else
    g3.flatMap (fun m => if k ≥ m then [] else
      g3.flatMap (fun n => g2.flatMap (fun l => if l ≥ n then [] else
        g1.flatMap (fun j =>
          if i * N ^ 2 + k * N + m > j * N ^ 2 + l * N + n ∨ j ≥ l then []
          else if f.skipDiag && i * N ^ 2 + k * N + m == j * N ^ 2 + l * N + n then []
          else [[i, k, m, n, l, j]]))))))

/-- `_generate_3rdme` (`_tomography.py:452-502`). -/
def rdme3 (f : Flags) (alp bet : List ℕ) : List (List ℕ) :=
  block3 f alp.length alp alp alp ++ block3 f alp.length alp alp bet ++ block3 f alp.length alp bet bet ++
    block3 f alp.length bet bet bet

/-- `generate_indices` of `_generate_4rdme` (`_tomography.py:528-556`), with its test `o>=m`. -/
def block4 (f : Flags) (N : ℕ) (g1 g2 g3 g4 : List ℕ) : List (List ℕ) :=
  g1.flatMap (fun i => g2.flatMap (fun k => if i ≥ k then [] else
    g3.flatMap (fun m => if k ≥ m then [] else
      g4.flatMap (fun o => if o ≥ m then [] else
        g4.flatMap (fun p => g3.flatMap (fun n => if n ≥ p then [] else
          g2.flatMap (fun l => if l ≥ n then [] else
            g1.flatMap (fun j =>
              if i * N ^ 3 + k * N ^ 2 + m * N + o > j * N ^ 3 + l * N ^ 2 + n * N + p ∨ j ≥ l then []
              else if f.skipDiag && i * N ^ 3 + k * N ^ 2 + m * N + o == j * N ^ 3 + l * N ^ 2 + n * N + p then []
              else [[i, k, m, o, p, n, l, j]]))))))))

/-- `_generate_4rdme` (`_tomography.py:507-564`). -/
def rdme4 (f : Flags) (alp bet : List ℕ) : List (List ℕ) :=
  block4 f alp.length alp alp alp alp ++ block4 f alp.length alp alp alp bet ++
    block4 f alp.length alp alp bet bet ++ block4 f alp.length alp bet bet bet ++
    block4 f alp.length bet bet bet bet

/-- `set(a)==set(b)`. -/
def sameSet (a b : List ℕ) : Bool := a.all (· ∈ b) && b.all (· ∈ a)

/-- The increments `nRDM[index] += value` made for one element with indices `ind` and value `temp`
(`_tomography.py:275-308`). -/
def updates {K : Type} [Coef K] (p : ℕ) (ind : List ℕ) (temp : K) : List (List ℕ × K) :=
  if p = 1 then
    [(ind, temp)] ++ (if ind.dedup.length = ind.length then [(ind.reverse, conj temp)] else [])
  else
    (Rec.unorderedPermute (ind.drop p).reverse).flatMap (fun i =>
      (Rec.unorderedPermute (ind.take p)).flatMap (fun j =>
        [(j.1 ++ i.1, temp * ((i.2 * j.2 : ℤ) : K))] ++
          (if sameSet i.1 j.1 then [] else [(i.1 ++ j.1, conj temp * ((i.2 * j.2 : ℤ) : K))])))

/-- `_build_fermionic_RDM` (`_tomography.py:248-315`) from the values of the elements: the entry `idx` of the tensor.
Orders other than 1 to 4 are not filled by the code and not modelled; indices are assumed in range. -/
def build {K : Type} [Coef K] (p : ℕ) (rs : List (List ℕ × K)) (idx : List ℕ) : K :=
  ((rs.flatMap (fun r => updates p r.1 r.2)).map (fun u => if u.1 = idx then u.2 else 0)).sum

end Tomo
end HQCA
