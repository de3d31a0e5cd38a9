import Verif.Model.Circ
import Mathlib.Analysis.SpecialFunctions.Trigonometric.Basic

/-!
# Model of the gates of `Circ` (`hqca/tools/_gates.py`)

Every method multiplies `self.m` from the left by one or more matrices; it is modelled by the list of these
multiplications in the order in which they are made.  Counters and the qasm text are left out.
-/

namespace HQCA
namespace Gates

/-- One left multiplication: a single-qubit matrix, or the `hold` matrix of controls and a target. -/
inductive G (K : Type)
  | sq (g : M2 K) (i : ℕ)
  | ct (ctl : List ℕ) (j : ℕ)

/-- Apply one of them to the matrix of an `n`-qubit circuit. -/
def app {K : Type} [Coef K] (n : ℕ) (m : Mat K) : G K → Mat K
  | .sq g i => Circ.applySqg n g i m
  | .ct ctl j => Circ.applyCtl n ctl j m

/-- Apply a sequence. -/
def run {K : Type} [Coef K] (n : ℕ) (p : List (G K)) (m : Mat K) : Mat K := p.foldl (app n) m

noncomputable section
open Real

/-- `x`, `y`, `z`, `h`, `sx` (`_gates.py:253-275`). -/
def x (i : ℕ) : List (G ℂ) := [.sq Circ.gx i]
def y (i : ℕ) : List (G ℂ) := [.sq Circ.gy i]
def z (i : ℕ) : List (G ℂ) := [.sq Circ.gz i]
def h (i : ℕ) : List (G ℂ) := [.sq (Circ.gh ((1 / √2 : ℝ) : ℂ)) i]
def sx (i : ℕ) : List (G ℂ) := [.sq Circ.gsx i]
/-- `ph` (`_gates.py:277-281`). -/
def ph (i : ℕ) (θ : ℝ) : List (G ℂ) := [.sq (Circ.gph (cos θ : ℝ) (sin θ : ℝ)) i]
/-- `s`, `si`, `t`, `ti` (`_gates.py:299-309`). -/
def s (i : ℕ) : List (G ℂ) := ph i (π / 2)
def si (i : ℕ) : List (G ℂ) := ph i (-π / 2)
def t (i : ℕ) : List (G ℂ) := ph i (π / 4)
def ti (i : ℕ) : List (G ℂ) := ph i (-π / 4)
/-- `Rx`, `Rz`, `Ry` (`_gates.py:375-391`). -/
def Rx (i : ℕ) (θ : ℝ) : List (G ℂ) := [.sq (Circ.gRx (cos (θ / 2) : ℝ) (sin (θ / 2) : ℝ)) i]
def Rz (i : ℕ) (θ : ℝ) : List (G ℂ) := [.sq (Circ.gRz (cos (θ / 2) : ℝ) (sin (θ / 2) : ℝ)) i]
def Ry (i : ℕ) (θ : ℝ) : List (G ℂ) := [.sq (Circ.gRy (cos (θ / 2) : ℝ) (sin (θ / 2) : ℝ)) i]
/-- `Cx` (`_gates.py:329-349`). -/
def Cx (i j : ℕ) : List (G ℂ) := [.ct [i] j]
/-- `Toff` (`_gates.py:225-246`), `Toff4` (`196-217`). -/
def Toff (i j k : ℕ) : List (G ℂ) := [.ct [i, j] k]
def Toff4 (i j k l : ℕ) : List (G ℂ) := [.ct [i, j, k] l]
/-- `Cy` (`_gates.py:324-327`). -/
def Cy (i j : ℕ) : List (G ℂ) := si j ++ Cx i j ++ s j
/-- `Cxr` (`_gates.py:351-354`). -/
def Cxr (i j : ℕ) : List (G ℂ) := x i ++ Cx i j ++ x i
/-- `Cs` (`_gates.py:356-361`). -/
def Cs (i j : ℕ) : List (G ℂ) := Cx i j ++ Rz j (-π / 4) ++ Cx i j ++ Rz j (π / 4) ++ ph i (π / 4)
/-- `Cz` (`_gates.py:363-366`). -/
def Cz (i j : ℕ) : List (G ℂ) := h j ++ Cx i j ++ h j
/-- `CRy` (`_gates.py:368-372`). -/
def CRy (i j : ℕ) (θ : ℝ) : List (G ℂ) := Ry j (θ / 2) ++ Cx i j ++ Ry j (-θ / 2) ++ Cx i j
/-- `Ch` with `nCx=2` (`_gates.py:152-160`). -/
def Ch2 (i j : ℕ) : List (G ℂ) :=
  Rz j π ++ Ry j (π / 4) ++ Cx i j ++ Ry j (-π / 4) ++ Rz j (-π / 2) ++ Cx i j ++ Rz j (-π / 2) ++ ph i (π / 2)
/-- `Ch` with `nCx=1` (`_gates.py:161-164`). -/
def Ch1 (i j : ℕ) : List (G ℂ) := Ry j (π / 4) ++ Cx i j ++ Ry j (-π / 4)
/-- `Sw` (`_gates.py:167-174`). -/
def Sw (i j : ℕ) : List (G ℂ) := Cx i j ++ Cx j i ++ Cx i j
/-- `SRy` (`_gates.py:179-184`). -/
def SRy (i j : ℕ) (θ : ℝ) : List (G ℂ) := Cx j i ++ x j ++ CRy i j θ ++ x j ++ Cx j i
/-- `Sh` with the default `nCx=2` (`_gates.py:186-191`). -/
def Sh2 (i j : ℕ) : List (G ℂ) := Cx j i ++ x j ++ Ch2 i j ++ x j ++ Cx j i
/-- `Sh` with `nCx=1` (`_gates.py:186-191`, `161-164`). -/
def Sh1 (i j : ℕ) : List (G ℂ) := Cx j i ++ x j ++ Ch1 i j ++ x j ++ Cx j i
/-- `CCS` (`_gates.py:219-222`). -/
def CCS (i j k l : ℕ) : List (G ℂ) := Toff4 i j l k ++ Toff4 i j k l ++ Toff4 i j l k
/-- `Fred` (`_gates.py:248-251`). -/
def Fred (i j k : ℕ) : List (G ℂ) := Toff i k j ++ Toff i j k ++ Toff i k j

end
end Gates
end HQCA
