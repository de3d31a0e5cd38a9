import Verif.Coef

/-!
# Model of `hqca/tools/_state.py`

A basis index `i` stands for the string `self.b[i] = '{:0{}b}'.format(i,n)`; here vectors and matrices are functions of these
strings (lists of bits), so `self.gb` is membership in the list of all strings of the given length.
-/

namespace HQCA
namespace DensMat
variable {K : Type} [Coef K]

/-- `self.b`, in the order of the code (`_state.py:24`, `93`). -/
def strings : ℕ → List (List Bool)
  | 0 => [[]]
  | n + 1 => (strings n).map (false :: ·) ++ (strings n).map (true :: ·)

/-- `State.m` with the orientation of the array: a column of `2^n` rows as created (`_state.py:25-26`), a row after a
multiplication (`_state.py:60`, `.T`). -/
structure State (K : Type) where
  col : Bool
  m : List Bool → K

/-- `State(size)` (`_state.py:14-27`). -/
def State.new : State K := ⟨true, fun b => if b.all (! ·) then 1 else 0⟩

/-- `State.__mul__` (`_state.py:59-81`) without the printing: `self.m = np.dot(circ.m,self.m).T`; `none`: the shapes do not
fit. -/
def State.mul (n : ℕ) (U : List Bool → List Bool → K) (s : State K) : Option (State K) :=
  if s.col || n = 0 then some ⟨false, fun i => ((strings n).map fun j => U i j * s.m j).sum⟩ else none

/-- `np.outer(state.m,np.conj(state.m).T)` (`_state.py:101`); `outer` flattens its arguments. -/
def outer (s : State K) : List Bool → List Bool → K := fun i j => s.m i * Coef.conj (s.m j)

/-- `b[:i]+b[i+1:]`. -/
def del (b : List Bool) (i : ℕ) : List Bool := b.take i ++ b.drop (i + 1)

/-- `reduce_str` (`_state.py:123-126`). -/
def reduceStr (b : List Bool) (q : List ℕ) : List Bool := q.reverse.foldl del b

/-- The test `i[q]==j[q]` for all `q` (`_state.py:132-135`); `none`: `IndexError`. -/
def agree (q : List ℕ) (i j : List Bool) : Option Bool :=
  q.foldlM (fun use k => match i[k]?, j[k]? with
    | some a, some b => some (use && (a == b))
    | _, _ => none) true

/-- `new.m[x,y] += v`. -/
def accum (M : List Bool → List Bool → K) (x y : List Bool) (v : K) : List Bool → List Bool → K :=
  fun x' y' => if x' = x ∧ y' = y then M x' y' + v else M x' y'

/-- `DensityMatrix.partial_trace` (`_state.py:122-138`).  `none`: a reduced string is not a basis string of the smaller
system (`KeyError`), or `IndexError`, or a negative size; tracing over everything too, since `'{:0{}b}'.format(0,0)` is
`'0'` and not the empty string.  `n ≥ 1`. -/
def partialTrace (n : ℕ) (rho : List Bool → List Bool → K) (q : List ℕ) : Option (List Bool → List Bool → K) :=
  if n ≤ q.length then none
  else if (strings n).all (fun b => (reduceStr b q).length = n - q.length) then
    (strings n).foldlM (fun M i => (strings n).foldlM (fun M j =>
      (agree q i j).map fun use => if use then accum M (reduceStr i q) (reduceStr j q) (rho i j) else M) M) (fun _ _ => 0)
  else none

end DensMat
end HQCA
