import Verif.Spec.Mat

/-!
# Partial trace (specification)
-/

namespace HQCA

/-- Bit of qubit `k` in the basis state number `i` of `n` qubits; qubit 0 is most significant. -/
def qbit (n i k : ℕ) : Bool := decide (i / 2 ^ (n - 1 - k) % 2 = 1)

/-- Basis state number `i` of `n` qubits restricted to the qubits listed in `ks`. -/
def sub (n : ℕ) (ks : List ℕ) (i : ℕ) : ℕ := idx ks.length (fun a => qbit n i (ks.getD a 0))

/-- The qubits that are not traced, in order. -/
def keptQ (n : ℕ) (qb : List ℕ) : List ℕ := (List.range n).filter (fun k => k ∉ qb)

/-- `P` is the partial trace of `M` over the qubits `qb`: entry `(l, m)` is the sum of the entries `(i, j)` of `M`
that agree on the traced qubits and restrict to `l` and `m` on the others. -/
def IsPTrace {K : Type} [Field K] (n : ℕ) (qb : List ℕ) (M P : ℕ → ℕ → K) : Prop :=
  ∀ l < 2 ^ (n - qb.length), ∀ m < 2 ^ (n - qb.length),
    P l m = ∑ i ∈ Finset.range (2 ^ n), ∑ j ∈ Finset.range (2 ^ n),
      if (∀ q ∈ qb, qbit n i q = qbit n j q) ∧ sub n (keptQ n qb) i = l ∧ sub n (keptQ n qb) j = m
      then M i j else 0

end HQCA
