import Mathlib.Algebra.Order.Field.Basic
import Mathlib.Algebra.Order.AbsoluteValue.Basic

/-!
# Model of the line search of `hqca/acse/_line_search_acse.py`

Floating-point numbers are elements of an ordered field `F`; `sq` stands for `np.sqrt`.  `phi` and `dphi` are the two
callbacks (`phi` gives the energy at a step, `dphi` the residual vector and the slope).  Values that numpy would make
`inf` or `nan` (zero denominators, singular systems, square roots of negative numbers) are modelled as an exception
(`none`): python floats raise there, numpy scalars propagate `nan`.  Printing is dropped.
-/

namespace HQCA
namespace LineSearch
variable {F : Type} [Field F] [LinearOrder F] [IsStrictOrderedRing F] {V : Type}

/-- `_quadratic_interpolate` (`_line_search_acse.py:285-300`). -/
def quadInterp (l h fl fh gl : F) : Option F :=
  let Del := h - l
  if Del = 0 then none else
  let a := (fh - gl * Del - fl) / Del ^ 2
  if a = 0 then none else some (-gl / (2 * a) + l)

/-- The solution `(alp, bet)` of the 2x2 system of `_cubic_interpolate` (`_line_search_acse.py:318-327`). -/
def cubicCoef (l h m fl fh fm gl : F) : Option (F × F) :=
  let A := h - l
  let B := m - l
  let det := A ^ 3 * B ^ 2 - A ^ 2 * B ^ 3
  let b1 := fh - gl * A - fl
  let b2 := fm - gl * B - fl
  if det = 0 then none else some ((b1 * B ^ 2 - A ^ 2 * b2) / det, (A ^ 3 * b2 - B ^ 3 * b1) / det)

/-- `_cubic_interpolate` (`_line_search_acse.py:302-337`). -/
def cubicInterp (sq : F → F) (l h m fl fh fm gl : F) : Option F :=
  (cubicCoef l h m fl fh fm gl).bind fun ab =>
    let qa := 3 * ab.1
    let qb := 2 * ab.2 - 6 * l * ab.1
    let qc := 3 * l ^ 2 * ab.1 - 2 * ab.2 * l + gl
    if qa = 0 then none else
    if qb ^ 2 - 4 * qa * qc < 0 then none else
    let s := sq (qb ^ 2 - 4 * qa * qc)
    let p := -qb / (2 * qa) + s / (2 * qa)
    let q := -qb / (2 * qa) - s / (2 * qa)
    if p > l ∧ p < h then some p else some q

/-- The safeguards after interpolation (`_line_search_acse.py:204-218`). -/
def safeguard (l h j : F) : F :=
  let sign : F := if l > h then -1 else 1
  if |h - j| < 5 / 100 * (h - l) then 1 / 4 * (l + 3 * h)
  else if |l - j| < 5 / 100 * (h - l) then 1 / 4 * (3 * l + h)
  else if sign * j > sign * h ∨ sign * j < l * sign then 1 / 2 * (l + h)
  else j

/-- The arguments of `line_search_nocedal` (`_line_search_acse.py:173-178`); `fzed`, `gzed` are the energy and slope
at zero the caller passes. -/
structure Cfg (F V : Type) where
  phi : F → F
  dphi : F → V × F
  sq : F → F
  c1 : F
  c2 : F
  maxIters : ℕ
  alpMax : F
  fzed : F
  gzed : F

/-- What `_zoom` and the search return (`alp_star, f_star, g_star, gs, err`), with the steps at which `phi` was
evaluated, in order. -/
structure Res (F V : Type) where
  alp : F
  f : F
  g : V
  gs : F
  err : Bool
  evals : List F

/-- The variables of `_zoom` at the head of the loop: `m` is `alp_m, f_m` and `gj` is `g_j, gj` when already bound. -/
structure ZSt (F V : Type) where
  l : F
  h : F
  fl : F
  fh : F
  gl : F
  m : Option (F × F)
  gj : Option (V × F)
  evals : List F

/-- The next trial step (`_line_search_acse.py:190-218`). -/
def trial (C : Cfg F V) (s : ZSt F V) : Option F :=
  (match s.m with
   | none => quadInterp s.l s.h s.fl s.fh s.gl
   | some (m, fm) => cubicInterp C.sq s.l s.h m s.fl s.fh fm s.gl).map (safeguard s.l s.h)

/-- `f_j > f_zed + c1*alp_j*gzed or f_j >= f_l` (`_line_search_acse.py:222`). -/
def tooHigh (C : Cfg F V) (s : ZSt F V) (j : F) : Bool :=
  decide (C.phi j > C.fzed + C.c1 * j * C.gzed) || decide (C.phi j ≥ s.fl)

/-- The body of the loop of `_zoom` after the trial (`_line_search_acse.py:220-261`): the new variables and `done`. -/
def zoomBody (C : Cfg F V) (s : ZSt F V) (j : F) : ZSt F V × Bool :=
  if tooHigh C s j then
    ({ s with m := some (s.h, s.fh), h := j, fh := C.phi j, evals := s.evals ++ [j] }, false)
  else
    let gj := C.dphi j
    let done := decide (|gj.2| ≤ -C.c2 * C.gzed)
    if gj.2 * (s.h - s.l) ≥ 0 then
      ({ l := j, h := s.l, fl := C.phi j, fh := s.fl, gl := gj.2, m := some (s.h, s.fh), gj := some gj,
         evals := s.evals ++ [j] }, done)
    else
      ({ l := j, h := s.h, fl := C.phi j, fh := s.fh, gl := gj.2, m := some (s.l, s.fl), gj := some gj,
         evals := s.evals ++ [j] }, done)

/-- The answer of `_zoom` at the iteration limit (`_line_search_acse.py:267-281`): the lowest of the three points.
`g_j` is whatever was last bound. -/
def zoomErr (C : Cfg F V) (s : ZSt F V) (j : F) : Res F V :=
  let gj := s.gj.getD (C.dphi j)
  let fj := C.phi j
  if fj ≤ s.fl ∧ fj ≤ s.fh then ⟨j, fj, gj.1, gj.2, true, s.evals⟩
  else if s.fl ≤ fj ∧ s.fl ≤ s.fh ∧ s.l ≠ 0 then ⟨s.l, s.fl, (C.dphi s.l).1, (C.dphi s.l).2, true, s.evals⟩
  else if s.fh ≤ fj ∧ s.fh ≤ s.fl then ⟨s.h, s.fh, (C.dphi s.h).1, (C.dphi s.h).2, true, s.evals⟩
  else ⟨j, fj, gj.1, gj.2, true, s.evals⟩

/-- The loop of `_zoom` (`_line_search_acse.py:187-283`); `n` is `max_iters - iters`. -/
def zoom (C : Cfg F V) : ℕ → ZSt F V → Option (Res F V)
  | n, s => (trial C s).bind fun j =>
    let b := zoomBody C s j
    match n with
    | 0 => some (zoomErr C b.1 j)
    | n + 1 =>
      if b.2 then
        let gj := b.1.gj.getD (C.dphi j)
        some ⟨j, C.phi j, gj.1, gj.2, false, b.1.evals⟩
      else zoom C n b.1

/-- One pass of the main loop up to the update of the bracket (`_line_search_acse.py:357-378`): the result when the
search ends there. -/
def mainExit (C : Cfg F V) (first : Bool) (ev : List F) (alp0 f0 g0 alp1 : F) : Option (Option (Res F V)) :=
  let f1 := C.phi alp1
  let z := zoom C C.maxIters ⟨alp0, alp1, f0, f1, g0, none, none, ev⟩
  if f1 > C.fzed + C.c1 * alp1 * C.gzed ∨ (f1 ≥ f0 ∧ first = false) then some z
  else
    let g1 := C.dphi alp1
    if |g1.2| ≤ -C.c2 * C.gzed then some (some ⟨alp1, f1, g1.1, g1.2, false, ev⟩)
    else if g1.2 ≥ 0 then some z
    else none

/-- The main loop (`_line_search_acse.py:356-391`); the first argument is the number of further passes allowed.  At the
limit the answer pairs the energy at `alp_1` with the next step. -/
def mainLoop (C : Cfg F V) : ℕ → Bool → List F → F → F → F → F → Option (Res F V)
  | 0, first, evals, alp0, f0, g0, alp1 =>
    (mainExit C first (evals ++ [alp1]) alp0 f0 g0 alp1).getD
      (some ⟨min (2 * alp1) C.alpMax, C.phi alp1, (C.dphi alp1).1, (C.dphi alp1).2, true, evals ++ [alp1]⟩)
  | n + 1, first, evals, alp0, f0, g0, alp1 =>
    (mainExit C first (evals ++ [alp1]) alp0 f0 g0 alp1).getD
      (mainLoop C n false (evals ++ [alp1]) alp1 (C.phi alp1) (C.dphi alp1).2 (min (2 * alp1) C.alpMax))

/-- `w1` (`_line_search_acse.py:392-394`). -/
def w1 (C : Cfg F V) (r : Res F V) : Bool := decide (r.f ≤ C.fzed + C.c1 * r.alp * C.gzed)

/-- `w2` (`_line_search_acse.py:393-395`). -/
def w2 (C : Cfg F V) (r : Res F V) : Bool := decide (r.gs ≥ C.gzed * C.c2)

/-- `line_search_nocedal` (`_line_search_acse.py:173-405`) started at `alp_1`; with `iters = 1` initially the main loop
runs `max_iters` times at most (once when `max_iters` is zero). -/
def search (C : Cfg F V) (alp1 : F) : Option (Res F V) :=
  (mainLoop C (C.maxIters - 1) true [] 0 C.fzed C.gzed alp1).map fun r =>
    if w1 C r && w2 C r && r.err then { r with err := false } else r

/-- The tracking of the best energy in `LineSearchACSE.phi` (`_line_search_acse.py:38-40`, `81-104`), over the evaluated
steps: `best_en`, `best_alp`, and whether `best_rdm`/`best_circ` were ever set. -/
def best (phi : F → F) (evals : List F) : F × F × Bool :=
  evals.foldl (fun b a => if phi a < b.1 then (phi a, a, true) else b) (0, 1, false)

/-- The object after `LineSearchACSE.run`: the reported step and energy, the error flag, and the step whose state
was put into the storage. -/
structure Run (F : Type) where
  alp : F
  f : F
  err : Bool
  stored : F

/-- `LineSearchACSE.run` (`_line_search_acse.py:43-79`): a step other than the best seen is an error; the storage gets
the state of the best step (an exception when no evaluated energy was below zero: `best_circ` is unset). -/
def run (C : Cfg F V) (alp1 : F) : Option (Run F) :=
  (search C alp1).bind fun r =>
    let b := best C.phi r.evals
    if b.2.2 then some ⟨r.alp, r.f, r.err || decide (b.2.1 ≠ r.alp), b.2.1⟩ else none

end LineSearch
end HQCA
