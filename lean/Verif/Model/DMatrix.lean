import Verif.Model.Fermi

/-!
# Model of `FermiString.order_as_D_matrix` (`hqca/operators/quantum_strings/_fermi_string.py:108-169`)
-/

namespace HQCA.DMat
variable {K : Type} [Coef K]

/-- Letters of one orbital written with `+` and `-` only (`_fermi_string.py:119-128`). -/
def expandLetter (n : ℕ) : FL → List (ℕ × FL)
  | .p => [(n, .cr), (n, .an)]
  | .h => [(n, .an), (n, .cr)]
  | .cr => [(n, .cr)]
  | .an => [(n, .an)]
  | .i => []

/-- The initial `ops`, `inds` (`_fermi_string.py:118-128`), as one list of pairs. -/
def expand (s : FStr) : List (ℕ × FL) := s.zipIdx.flatMap (fun x => expandLetter x.2 x.1)

/-- Number of places where adjacent characters differ (`_fermi_string.py:137-140`). -/
def switches : List (ℕ × FL) → ℕ
  | a :: b :: l => (if a.2 = b.2 then 0 else 1) + switches (b :: l)
  | _ => 0

/-- `switch==1 and ops[0]=='+'` (`_fermi_string.py:141`). -/
def ordered (w : List (ℕ × FL)) : Bool :=
  switches w = 1 && (w.head?.map (·.2) = some .cr)

/-- First adjacent `-`,`+` (`_fermi_string.py:146-147`): letters before, the two letters, letters after. -/
def findSwap : List (ℕ × FL) → Option (List (ℕ × FL) × (ℕ × FL) × (ℕ × FL) × List (ℕ × FL))
  | a :: b :: l =>
    if a.2 ≠ b.2 ∧ a.2 = .an then some ([], a, b, l)
    else (findSwap (b :: l)).map (fun r => (a :: r.1, r.2))
  | _ => none

/-- One entry of the returned list: `[c, inds, ops, N]` (`_fermi_string.py:167`). -/
abbrev Entry (K : Type) := K × List (ℕ × FL)

/-- The body of `subroutine` from the loop on (`_fermi_string.py:129-167`), with fuel; `none` means the fuel
ran out or a nested constructor raised.  Nested results are appended to `temp` before the entry itself.  In
the equal-index case the coefficient is multiplied by `-1` twice (lines 159 and 164). -/
def loop (N : ℕ) : ℕ → K → List (ℕ × FL) → Option (List (Entry K))
  | 0, _, _ => none
  | n + 1, c, w =>
    if w.isEmpty then some [(c, w)]
    else if ordered w then some [(c, w)]
    else
      match findSwap w with
      | none => loop N n c w
      | some (pre, a, b, post) =>
        if a.1 = b.1 then
          match Fermi.generate true c (pre ++ post) N with
          | none => none
          | some t =>
            match loop N n t.2 (expand t.1), loop N n (- -c) (pre ++ (a.1, b.2) :: (b.1, a.2) :: post) with
            | some r, some r' => some (r ++ r')
            | _, _ => none
        else loop N n (-c) (pre ++ b :: a :: post)

/-- `order_as_D_matrix` with a given amount of fuel (`_fermi_string.py:168-169`). -/
def orderAsD (fuel : ℕ) (A : Term FStr K) : Option (List (Entry K)) :=
  loop A.1.length fuel A.2 (expand A.1)

end HQCA.DMat
