import Verif.Spec.DenF

/-!
# Encodings of occupation numbers (specification)
-/

namespace HQCA
variable {K : Type} [Coef K]

/-- `P` acts on encoded configurations as `F` acts on occupation numbers: pulling an amplitude `ψ` on
encoded configurations back along `enc` turns `P` into `F`. For a bijective `enc` this is
`P = U F U⁻¹` with `U` the relabelling of basis states. -/
def Encodes (enc : Cfg → Cfg) (P F : Oper K) : Prop :=
  ∀ (ψ : Cfg → K) (b : Cfg), P ψ (enc b) = F (fun b' => ψ (enc b')) b

/-- Parity of the occupations in `S`. -/
def parOver (S : Finset ℕ) (b : Cfg) : Bool := decide (Odd (S.filter (fun j => b j = true)).card)

/-- Parity encoding on the first `N` orbitals: qubit `i` stores the parity of orbitals `0..i`. -/
def parityEnc (N : ℕ) (b : Cfg) : Cfg := fun i =>
  if i < N then parOver (Finset.range (i+1)) b else b i

/-- The orbitals stored by Bravyi–Kitaev qubit `i`: the largest aligned block of `2^m` orbitals ending
at `i`. -/
def bkWindow (i : ℕ) : Finset ℕ :=
  (Finset.range (i+1)).filter (fun j => ∃ m ≤ i, 2^m ∣ i+1 ∧ j / 2^m = i / 2^m)

/-- Bravyi–Kitaev encoding on the first `N` orbitals. -/
def bkEnc (N : ℕ) (b : Cfg) : Cfg := fun i => if i < N then parOver (bkWindow i) b else b i

end HQCA
