import Verif.Model.Pauli
import Verif.Model.Fermi

/-!
# Model of the fermion/qubit → Pauli transforms

`hqca/transforms/_jordan_wigner.py`, `_qubit.py`, `_parity.py`, `_bravyi_kitaev.py`.  All four have the same
shape: start from `c · I…I` and, letter by letter, replace `new` by `tem*new` with a two-term operator
`tem`.  Letters outside `+ - p h i` (which raise `TransformError`) are not representable.
-/

namespace HQCA
namespace Transform
variable {K : Type} [Coef K]

/-- `c1,c2` for `+`/`-` (`_jordan_wigner.py:30`): `0.5, ((o=='-')-0.5)*1j`; for `p`/`h`
(`_jordan_wigner.py:34`): `0.5, (o=='h')-0.5`. -/
def c2 : FL → K
  | .an => (1 - 1/2) * I
  | .cr => (0 - 1/2) * I
  | .h => 1 - 1/2
  | _ => 0 - 1/2

/-- The two strings `(s1, s2)` used for letter `o` on qubit `q` of `N`. -/
abbrev Table := ℕ → ℕ → FL → PStr × PStr

/-- `tem` (`_jordan_wigner.py:38-40`): `tem = Operator(); tem += s1; tem += s2`. -/
def tem (tab : Table) (N q : ℕ) (o : FL) : POp K :=
  OpD.addStr (OpD.addStr [] ((tab N q o).1, 1/2)) ((tab N q o).2, c2 o)

/-- Loop body (`_jordan_wigner.py:22-41`): skip `i`, else `new = tem*new`. -/
def step (tm : ℕ → FL → POp K) (new : POp K) (a : ℕ × FL) : Option (POp K) :=
  if a.2 = .i then some new else OpD.mul Pauli.mul (tm a.1 a.2) new

/-- The whole loop, over the letters in the order `l`. -/
def loop (tm : ℕ → FL → POp K) (new : POp K) (l : List (ℕ × FL)) : Option (POp K) :=
  l.foldlM (step tm) new

/-- `enumerate(op.s)`: letters with their qubit. -/
def letters (s : FStr) : List (ℕ × FL) := s.zipIdx.map (fun x => (x.2, x.1))

/-- Starting value (`_jordan_wigner.py:18-20`). -/
def start (t : Term FStr K) : POp K := OpD.addStr [] (List.replicate t.1.length .I, t.2)

/-- Strings of the Jordan–Wigner transform (`_jordan_wigner.py:27-34`). -/
def jwTab : Table := fun N q o =>
  if o = .cr ∨ o = .an then
    (List.replicate q .Z ++ [.X] ++ List.replicate (N-q-1) .I,
     List.replicate q .Z ++ [.Y] ++ List.replicate (N-q-1) .I)
  else
    (List.replicate q .I ++ [.I] ++ List.replicate (N-q-1) .I,
     List.replicate q .I ++ [.Z] ++ List.replicate (N-q-1) .I)

/-- `JordanWignerTransform` (`_jordan_wigner.py:13-42`): letters processed last to first. -/
def jordanWigner (t : Term FStr K) : Option (POp K) :=
  loop (tem jwTab t.1.length) (start t) (letters t.1).reverse

/-- Strings of the qubit transform (`_qubit.py:25-32`). -/
def quTab : Table := fun N q o =>
  if o = .cr ∨ o = .an then
    (List.replicate q .I ++ [.X] ++ List.replicate (N-q-1) .I,
     List.replicate q .I ++ [.Y] ++ List.replicate (N-q-1) .I)
  else
    (List.replicate q .I ++ [.I] ++ List.replicate (N-q-1) .I,
     List.replicate q .I ++ [.Z] ++ List.replicate (N-q-1) .I)

/-- `QubitTransform` (`_qubit.py:6-37`), without the letter `z` (only `QubitZString` has it, a class that
does not exist in the repository). -/
def qubit (t : Term FStr K) : Option (POp K) :=
  loop (tem quTab t.1.length) (start t) (letters t.1).reverse

/-- Strings of the parity transform (`_parity.py:13-31`). -/
def parTab : Table := fun N q o =>
  if q = 0 then
    if o = .cr ∨ o = .an then
      ([.X] ++ List.replicate (N-q-1) .X, [.Y] ++ List.replicate (N-q-1) .X)
    else
      ([.I] ++ List.replicate (N-q-1) .I, [.Z] ++ List.replicate (N-q-1) .I)
  else
    if o = .cr ∨ o = .an then
      (List.replicate (q-1) .I ++ [.Z, .X] ++ List.replicate (N-q-1) .X,
       List.replicate (q-1) .I ++ [.I, .Y] ++ List.replicate (N-q-1) .X)
    else
      (List.replicate (q-1) .I ++ [.I, .I] ++ List.replicate (N-q-1) .I,
       List.replicate (q-1) .I ++ [.Z, .Z] ++ List.replicate (N-q-1) .I)

/-- `ParityTransform` (`_parity.py:5-35`): letters processed first to last. -/
def parity (t : Term FStr K) : Option (POp K) :=
  loop (tem parTab t.1.length) (start t) (letters t.1)

/-! ### Bravyi–Kitaev sets

The recursive functions take the block length `n`; the code halves it as a float and floors it, and `n` is
always a power of two, so here the argument is the exponent.  Sets are lists (only membership is used). -/

/-- `_find_flip_set.recursive_update` (`_bravyi_kitaev.py:57-66`) on a block of length `2^k`. -/
def flipRec : ℕ → ℕ → List ℕ
  | 0, _ => []
  | k+1, j =>
    if j < 2^k then flipRec k j
    else if j < 2^(k+1) - 1 then (flipRec k (j - 2^k)).map (· + 2^k)
    else (flipRec k (j - 2^k)).map (· + 2^k) ++ [2^k - 1]

/-- `_find_update_set.recursive_update` (`_bravyi_kitaev.py:79-86`). -/
def updateRec : ℕ → ℕ → List ℕ
  | 0, _ => []
  | k+1, j =>
    if j < 2^k then updateRec k j ++ [2^(k+1) - 1]
    else (updateRec k (j - 2^k)).map (· + 2^k)

/-- `_find_parity_set.recursive_update` (`_bravyi_kitaev.py:99-106`). -/
def parityRec : ℕ → ℕ → List ℕ
  | 0, _ => []
  | k+1, j =>
    if 2^k ≤ j then (parityRec k (j - 2^k)).map (· + 2^k) ++ [2^k - 1]
    else parityRec k j

/-- `N` rounded up to a power of two (`_bravyi_kitaev.py:19-22`): the exponent `ceil(log2(Nq))`. -/
def bkExp (N : ℕ) : ℕ := Nat.clog 2 N

/-- Removal of the elements `>= Nq` (`_bravyi_kitaev.py:68-75`, and alike). -/
def flipSet (N q : ℕ) : List ℕ := (flipRec (bkExp N) q).filter (· < N)
/-- Update set (`_bravyi_kitaev.py:87-95`). -/
def updateSet (N q : ℕ) : List ℕ := (updateRec (bkExp N) q).filter (· < N)
/-- Parity set (`_bravyi_kitaev.py:107-115`). -/
def paritySet (N q : ℕ) : List ℕ := (parityRec (bkExp N) q).filter (· < N)
/-- `remainder` (`_bravyi_kitaev.py:26-27`) and `rho` (`:28-33`). -/
def rhoSet (N q : ℕ) : List ℕ :=
  if q % 2 = 0 then paritySet N q else (paritySet N q).filter (fun i => !(i ∈ flipSet N q))

/-- `for i in S: s = s[:i]+L+s[i+1:]`. -/
def setAll (s : PStr) (S : List ℕ) (L : PL) : PStr := S.foldl (fun s i => s.set i L) s

/-- Strings of the Bravyi–Kitaev transform (`_bravyi_kitaev.py:126-146`). -/
def bkTab : Table := fun N q o =>
  let one := List.replicate N .I
  if o = .cr ∨ o = .an then
    ((setAll (setAll one (updateSet N q) .X) (paritySet N q) .Z).set q .X,
     (setAll (setAll one (updateSet N q) .X) (rhoSet N q) .Z).set q .Y)
  else
    (one, (setAll one (flipSet N q) .Z).set q .Z)

/-- `temp` of the Bravyi–Kitaev transform (`_bravyi_kitaev.py:138-149`): two one-term operators added (with
cleaning) to an empty one. -/
def bkTem (N q : ℕ) (o : FL) : POp K :=
  OpD.add (OpD.add [] (OpD.addStr [] ((bkTab N q o).1, 1/2))) (OpD.addStr [] ((bkTab N q o).2, c2 o))

/-- `BravyiKitaevTransform` (`_bravyi_kitaev.py:118-151`) for `Nq ≥ 1`, with the default
`alternating=False`. -/
def bravyiKitaev (t : Term FStr K) : Option (POp K) :=
  loop (bkTem t.1.length) (start t) (letters t.1)

end Transform
end HQCA
