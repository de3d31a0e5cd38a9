import Verif.Spec.Den

/-!
# States with one qubit inserted (specification for tapering)
-/

namespace HQCA
variable {K : Type} [Coef K]

/-- Configuration with bit `q` removed. -/
def dropBit (q : ℕ) (b : Cfg) : Cfg := fun i => if i < q then b i else b (i + 1)

/-- Configuration with bit value `x` inserted at `q`. -/
def addBit (q : ℕ) (x : Bool) (b : Cfg) : Cfg :=
  fun i => if i < q then b i else if i = q then x else b (i - 1)

/-- The product state: qubit `q` in the single-qubit state `v`, the other qubits in the state `φ`. -/
def ins (q : ℕ) (v : Bool → K) (φ : Cfg → K) : Cfg → K := fun b => v (b q) * φ (dropBit q b)

/-- Partial inner product with the single-qubit covector `w` on qubit `q`. -/
def con (q : ℕ) (w : Bool → K) (ψ : Cfg → K) : Cfg → K :=
  fun b => w false * ψ (addBit q false b) + w true * ψ (addBit q true b)

/-- A single-qubit matrix applied to a single-qubit state. -/
def mapp (m : M2 K) (v : Bool → K) : Bool → K := fun a => m a false * v false + m a true * v true

/-- `v` is an eigenvector of the letter `p` with eigenvalue `e`. -/
def IsEig (p : PL) (e : K) (v : Bool → K) : Prop := ∀ a, mapp (pmat p) v a = e * v a

/-- Several inserted qubits, in the order in which they are removed. -/
def insAll : List (ℕ × (Bool → K)) → (Cfg → K) → (Cfg → K)
  | [], φ => φ
  | (q, v) :: l, φ => ins q v (insAll l φ)

/-- Several partial inner products, in the same order. -/
def conAll : List (ℕ × (Bool → K)) → (Cfg → K) → (Cfg → K)
  | [], ψ => ψ
  | (q, w) :: l, ψ => conAll l (con q w ψ)

namespace Taper

/-- One qubit to taper: position, letter, eigenvalue, an eigenvector and a dual eigenvector. -/
structure Q (K : Type) where
  q : ℕ
  p : PL
  e : K
  v : Bool → K
  w : Bool → K

/-- The arguments given to `trim_operator`. -/
def args (l : List (Q K)) : List (ℕ × PL × K) := l.map (fun x => (x.q, x.p, x.e))

def vs (l : List (Q K)) : List (ℕ × (Bool → K)) := l.map (fun x => (x.q, x.v))
def ws (l : List (Q K)) : List (ℕ × (Bool → K)) := l.map (fun x => (x.q, x.w))

/-- `v` is an eigenvector and `w` a dual eigenvector for the same nonzero eigenvalue, normalised. -/
structure Good (x : Q K) : Prop where
  eig : IsEig x.p x.e x.v
  dual : ∀ b, x.w false * pmat x.p false b + x.w true * pmat x.p true b = x.e * x.w b
  norm : x.w false * x.v false + x.w true * x.v true = 1
  ne : x.e ≠ 0
  np : x.p ≠ .I

/-- `ψ` lies in the common eigenspace: each letter `x.p` on qubit `x.q` has the value `x.e`. -/
def InSector (l : List (Q K)) (ψ : Cfg → K) : Prop := ∀ x ∈ l, site x.q (pmat x.p) ψ = x.e • ψ

end Taper

end HQCA
