import Verif.Model.IntegralsPyscf
import Verif.Props.Integrals

/-!
# C140: spin-orbital integrals in chemists' order
-/

namespace HQCA.Props
open HQCA HQCA.Ints
variable {R : Type} [CommRing R]

/-- Spec: the integral `(ij|kl)` of four spin orbitals, electron one in `i`, `j` and electron two in `k`, `l`; zero unless the spins match. -/
def chemInt (N : ℕ) (Ua Ub : ℕ → ℕ → R) (ei : ℕ → ℕ → ℕ → ℕ → R) (s2s : ℕ → ℕ) (alpha beta : List ℕ) (i j k l : ℕ) : R :=
  if (i ∈ alpha ∧ j ∈ alpha ∨ i ∈ beta ∧ j ∈ beta) ∧ (k ∈ alpha ∧ l ∈ alpha ∨ k ∈ beta ∧ l ∈ beta) then
    rot2 N (if i ∈ alpha then Ua else Ub) (if k ∈ alpha then Ua else Ub) ei (s2s i) (s2s j) (s2s k) (s2s l)
  else 0

/-- **C140.**  The routine adds the integral `(ij|kl)` of the spin orbitals to entry `i, j, k, l` of the array it works on, for every choice of integrals and rotations. -/
theorem C140_chemists (N : ℕ) (Ua Ub : ℕ → ℕ → R) (ei : ℕ → ℕ → ℕ → ℕ → R) (s2s : ℕ → ℕ) (alpha beta : List ℕ)
    (new : ℕ × ℕ × ℕ × ℕ → R) (g : GoodOrbs s2s alpha beta) (i j k l : ℕ) :
    spin2Pyscf N Ua Ub ei s2s alpha beta new (i, j, k, l) = new (i, j, k, l) + chemInt N Ua Ub ei s2s alpha beta i j k l := by
  unfold spin2Pyscf
  show block2 _ _ _ _ _ _ _ _ _ (i, k, j, l) = _
  rw [block2_eq _ _ _ _ _ _ _ _ _ g.nodupB g.injB g.nodupB g.injB, block2_eq _ _ _ _ _ _ _ _ _ g.nodupB g.injB g.nodupA g.injA,
    block2_eq _ _ _ _ _ _ _ _ _ g.nodupA g.injA g.nodupB g.injB, block2_eq _ _ _ _ _ _ _ _ _ g.nodupA g.injA g.nodupA g.injA]
  simp only [add_assoc]
  refine congrArg₂ (· + ·) rfl ?_
  unfold chemInt
  have gi := g.apart i
  have gj := g.apart j
  have gk := g.apart k
  have gl := g.apart l
  by_cases a1 : i ∈ alpha <;> by_cases a2 : j ∈ alpha <;> by_cases a3 : k ∈ alpha <;> by_cases a4 : l ∈ alpha <;>
    by_cases b1 : i ∈ beta <;> by_cases b2 : j ∈ beta <;> by_cases b3 : k ∈ beta <;> by_cases b4 : l ∈ beta <;>
    first
    | (exact absurd b1 (gi a1))
    | (exact absurd b2 (gj a2))
    | (exact absurd b3 (gk a3))
    | (exact absurd b4 (gl a4))
    | simp [a1, a2, a3, a4, b1, b2, b3, b4]

/-- The two routines agree, up to the order of the indices, except where both creation or both annihilation orbitals are the same. -/
theorem C140_agrees (N : ℕ) (Ua Ub : ℕ → ℕ → R) (ei : ℕ → ℕ → ℕ → ℕ → R) (s2s : ℕ → ℕ) (alpha beta : Orbs)
    (g : GoodOrbs s2s alpha.full beta.full) (i j k l : ℕ) (hik : i ≠ k) (hjl : j ≠ l) :
    spin2PyscfFull N Ua Ub ei s2s alpha beta (i, j, k, l) = spin2Full N Ua Ub ei s2s alpha beta (i, k, j, l) := by
  unfold spin2PyscfFull spin2Full
  rw [C140_chemists N Ua Ub ei s2s _ _ _ g, C56_two_body N Ua Ub ei s2s _ _ _ g]
  congr 1
  unfold chemInt spinInt
  have gi := g.apart i
  have gj := g.apart j
  have gk := g.apart k
  have gl := g.apart l
  by_cases a1 : i ∈ alpha.full <;> by_cases a2 : j ∈ alpha.full <;> by_cases a3 : k ∈ alpha.full <;> by_cases a4 : l ∈ alpha.full <;>
    by_cases b1 : i ∈ beta.full <;> by_cases b2 : j ∈ beta.full <;> by_cases b3 : k ∈ beta.full <;> by_cases b4 : l ∈ beta.full <;>
    first
    | (exact absurd b1 (gi a1))
    | (exact absurd b2 (gj a2))
    | (exact absurd b3 (gk a3))
    | (exact absurd b4 (gl a4))
    | simp [a1, a2, a3, a4, b1, b2, b3, b4, hik, hjl]

/-- **C140, energies.**  Contracted with an antisymmetric two-body density matrix both routines give the same number. -/
theorem C140_energy (N M : ℕ) (Ua Ub : ℕ → ℕ → R) (ei : ℕ → ℕ → ℕ → ℕ → R) (s2s : ℕ → ℕ) (alpha beta : Orbs)
    (g : GoodOrbs s2s alpha.full beta.full) (D : ℕ → ℕ → ℕ → ℕ → R) (h1 : ∀ i j l, D i i j l = 0) (h2 : ∀ i k j, D i k j j = 0) :
    ∑ i ∈ Finset.range M, ∑ k ∈ Finset.range M, ∑ j ∈ Finset.range M, ∑ l ∈ Finset.range M, spin2PyscfFull N Ua Ub ei s2s alpha beta (i, j, k, l) * D i k j l =
      ∑ i ∈ Finset.range M, ∑ k ∈ Finset.range M, ∑ j ∈ Finset.range M, ∑ l ∈ Finset.range M, spin2Full N Ua Ub ei s2s alpha beta (i, k, j, l) * D i k j l := by
  refine Finset.sum_congr rfl fun i _ => Finset.sum_congr rfl fun k _ => Finset.sum_congr rfl fun j _ => Finset.sum_congr rfl fun l _ => ?_
  by_cases hik : i = k
  · subst hik; rw [h1, mul_zero, mul_zero]
  · by_cases hjl : j = l
    · subst hjl; rw [h2, mul_zero, mul_zero]
    · rw [C140_agrees N Ua Ub ei s2s alpha beta g i j k l hik hjl]

/-- **C140 fails** as documented: the text promises the indices of `generate_spin_2ei`, electron one first and electron two second, but the entries are elsewhere. -/
theorem C140_documented_fails : ∃ (ei : ℕ → ℕ → ℕ → ℕ → ℤ) (alpha beta : Orbs), GoodOrbs (fun i => i % 1) alpha.full beta.full ∧
    spin2Full 1 (fun _ _ => 1) (fun _ _ => 1) ei (fun i => i % 1) alpha beta (0, 1, 0, 1) = 1 ∧
    spin2PyscfFull 1 (fun _ _ => 1) (fun _ _ => 1) ei (fun i => i % 1) alpha beta (0, 1, 0, 1) = 0 := by
  refine ⟨fun _ _ _ _ => 1, ⟨[], [0], []⟩, ⟨[], [1], []⟩, ?_, ?_, ?_⟩
  · constructor <;> simp [Orbs.full]
  · decide +kernel
  · decide +kernel

/-- The diagonal repulsion of an orbital with itself, which `generate_spin_2ei` leaves out. -/
example : spin2PyscfFull (R := ℤ) 1 (fun _ _ => 1) (fun _ _ => 1) (fun _ _ _ _ => 5) (fun i => i % 1) ⟨[], [0], []⟩ ⟨[], [1], []⟩ (0, 0, 0, 0) = 5 ∧
    spin2Full (R := ℤ) 1 (fun _ _ => 1) (fun _ _ => 1) (fun _ _ _ _ => 5) (fun i => i % 1) ⟨[], [0], []⟩ ⟨[], [1], []⟩ (0, 0, 0, 0) = 0 := by decide +kernel

end HQCA.Props
