import Verif.Spec.Fock

/-!
# Spin operators of a list of spatial orbitals

A spatial orbital is a pair (α spin orbital, β spin orbital).
-/

namespace HQCA
variable {K : Type} [Coef K]

/-- `S₊ = Σ a†_α a_β`. -/
def spinUp (l : List (ℕ × ℕ)) : Oper K := (l.map (fun p => cre p.1 * ann p.2)).sum

/-- `S₋ = Σ a†_β a_α`. -/
def spinDown (l : List (ℕ × ℕ)) : Oper K := (l.map (fun p => cre p.2 * ann p.1)).sum

/-- `S_x = (S₊ + S₋)/2`. -/
def spinX (l : List (ℕ × ℕ)) : Oper K := (1 / 2 : K) • (spinUp l + spinDown l)

/-- `S_y = (S₊ − S₋)/(2i)`. -/
def spinY (l : List (ℕ × ℕ)) : Oper K := (1 / (2 * I) : K) • (spinUp l - spinDown l)

/-- `S_z = Σ (n_α − n_β)/2`. -/
def spinZ (l : List (ℕ × ℕ)) : Oper K :=
  (1 / 2 : K) • (l.map (fun p => cre p.1 * ann p.1 - cre p.2 * ann p.2)).sum

/-- The physical `S² = S_x² + S_y² + S_z²`. -/
def spinSq (l : List (ℕ × ℕ)) : Oper K := spinX l * spinX l + spinY l * spinY l + spinZ l * spinZ l

/-- Number of occupied orbitals of `l` in the configuration. -/
def occ (l : List ℕ) (b : Cfg) : ℕ := (l.filter (fun i => b i)).length

end HQCA
