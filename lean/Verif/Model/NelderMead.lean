import Mathlib.Algebra.Order.Field.Basic
import Mathlib.Algebra.BigOperators.Fin
import Mathlib.Data.List.FinRange
import Mathlib.Logic.Function.Basic

/-!
# Model of the Nelder-Mead optimizer (`hqca/opts/simplex/neldermead.py`)

Numbers are elements of an ordered field.  The dimension is `n+1` (at least one; dimension zero divides by zero when the
centroid is computed), so the simplex has `n+2` points.  The random number drawn by the stuck check is an argument of the
step.  The initial simplex is an argument of `init` (`neldermead.py:39-57` only chooses its points).  The criterion
(standard deviations) is in `NMCrit`; counters and printing are dropped.
-/

namespace HQCA
namespace NM
variable {F : Type} [Field F] [LinearOrder F] [IsStrictOrderedRing F] {n : ℕ}

/-- `simp_x` and `simp_f` (`neldermead.py:37-38`). -/
structure Simplex (F : Type) (n : ℕ) where
  x : Fin (n + 2) → Fin (n + 1) → F
  f : Fin (n + 2) → F

/-- The inner loop of `order_points` (`neldermead.py:248-254`): `low_x, low_f`.  The comparison reads `simp_f[ind[j]]`,
the update `simp_f[j]`. -/
def scan {m : ℕ} (f : Fin m → F) (ind : Fin m → Fin m) (i : Fin m) : Fin m × F :=
  (List.finRange m).foldl (fun a j => if i < j ∧ a.2 > f (ind j) then (j, f j) else a) (i, f (ind i))

/-- One pass of the outer loop (`neldermead.py:246-257`). -/
def pass {m : ℕ} (f : Fin m → F) (ind : Fin m → Fin m) (i : Fin m) : Fin m → Fin m :=
  let low := (scan f ind i).1
  Function.update (Function.update ind i (ind low)) low (ind i)

/-- The final `ind` of `order_points` (`neldermead.py:245-257`). -/
def order {m : ℕ} (f : Fin m → F) : Fin m → Fin m := (List.finRange m).foldl (pass f) id

/-- `order_points` (`neldermead.py:244-264`). -/
def orderPoints (s : Simplex F n) : Simplex F n := ⟨s.x ∘ order s.f, s.f ∘ order s.f⟩

/-- `M_x` (`neldermead.py:234-238`): the mean of all rows but the last. -/
def centroid (s : Simplex F n) : Fin (n + 1) → F := fun k => (∑ i : Fin (n + 1), s.x i.castSucc k) * (1 / ((n : F) + 1))

/-- `B_x`, `W_x` and the values `B_f`, `W_f`, `X_f` of `reassign` (`neldermead.py:220-232`). -/
def bestX (s : Simplex F n) : Fin (n + 1) → F := s.x 0
def bestF (s : Simplex F n) : F := s.f 0
def worstX (s : Simplex F n) : Fin (n + 1) → F := s.x (Fin.last (n + 1))
def worstF (s : Simplex F n) : F := s.f (Fin.last (n + 1))
def secondF (s : Simplex F n) : F := s.f (Fin.last n).castSucc

/-- `set_parameters` (`neldermead.py:16-24`). -/
structure Par (F : Type) where
  alpha : F
  beta : F
  gamma : F
  delta : F

/-- The optimizer between steps: the ordered simplex and the memory of the stuck check. -/
structure St (F : Type) (n : ℕ) where
  s : Simplex F n
  stuck : Fin 3 → Fin (n + 1) → F
  ind : Fin 3

/-- `initialize` from the points of the initial simplex (`neldermead.py:58-67`). -/
def init (f : (Fin (n + 1) → F) → F) (x : Fin (n + 2) → Fin (n + 1) → F) : St F n :=
  ⟨orderPoints ⟨x, fun i => f (x i)⟩, fun _ _ => 0, 0⟩

/-- `_reflect` and `_check_stuck` (`neldermead.py:69-98`): the reflected point and the new memory.  `diff<1e-10` is
compared squared. -/
def reflect (P : Par F) (ρ : F) (t : St F n) : (Fin (n + 1) → F) × (Fin 3 → Fin (n + 1) → F) × Fin 3 :=
  let M := centroid t.s
  let W := worstX t.s
  let R := M + P.alpha • (M - W)
  let stuck := Function.update t.stuck t.ind R
  let R' := if ∑ k, (stuck 0 k - stuck 2 k) ^ 2 < (1 / 10 ^ 10) ^ 2 then M + ρ • (M - W) else R
  (R', stuck, t.ind + 1)

/-- Replacing the last row (`_update`, `neldermead.py:100-121`, `176-177`). -/
def replaceLast (s : Simplex F n) (x : Fin (n + 1) → F) (fx : F) : Simplex F n :=
  ⟨Function.update s.x (Fin.last (n + 1)) x, Function.update s.f (Fin.last (n + 1)) fx⟩

/-- `_contract` (`neldermead.py:129-140`): the better of the two contracted points. -/
def contract (P : Par F) (f : (Fin (n + 1) → F) → F) (s : Simplex F n) (R : Fin (n + 1) → F) :
    (Fin (n + 1) → F) × F :=
  let M := centroid s
  let W := worstX s
  let wm := W + P.gamma • (M - W)
  let rm := M + P.gamma • (R - M)
  if f rm ≤ f wm then (rm, f rm) else (wm, f wm)

/-- `_shrink` (`neldermead.py:142-151`). -/
def shrink (P : Par F) (f : (Fin (n + 1) → F) → F) (s : Simplex F n) : Simplex F n :=
  let x' : Fin (n + 2) → Fin (n + 1) → F := fun i => if i = 0 then s.x 0 else bestX s + P.delta • (s.x i - bestX s)
  ⟨x', fun i => if i = 0 then s.f 0 else f (x' i)⟩

/-- `next_step` before `clean_up` (`neldermead.py:153-184`): the new simplex for the reflected point `R`. -/
def move (P : Par F) (f : (Fin (n + 1) → F) → F) (s : Simplex F n) (R : Fin (n + 1) → F) : Simplex F n :=
  if f R ≤ secondF s then
    if f R > bestF s then replaceLast s R (f R)
    else
      let E := R + P.beta • (R - centroid s)
      if f E < bestF s then replaceLast s E (f E) else replaceLast s R (f R)
  else
    let C := contract P f s R
    if C.2 < worstF s then replaceLast s C.1 C.2 else shrink P f s

/-- `next_step` (`neldermead.py:153-190`). -/
def step (P : Par F) (f : (Fin (n + 1) → F) → F) (t : St F n) (ρ : F) : St F n :=
  let r := reflect P ρ t
  ⟨orderPoints (move P f t.s r.1), r.2.1, r.2.2⟩

/-- The optimizer after a sequence of steps, with the random numbers drawn. -/
def run (P : Par F) (f : (Fin (n + 1) → F) → F) (x : Fin (n + 2) → Fin (n + 1) → F) (ρs : List F) : St F n :=
  ρs.foldl (step P f) (init f x)

end NM
end HQCA
