import Verif.Props.PairLayer
import Verif.Props.Euler
import Verif.Proofs.TransformExact

/-!
# C115: layers given by fermionic terms that move at most one electron of each spin
-/

namespace HQCA
namespace Props
open Instr Prim Prepare ACSEEn Ham UCC
noncomputable section

/-! ### Adjoint of a string -/

/-- The string with creation and annihilation exchanged. -/
def dagS (s : FStr) : FStr := s.map Fermi.conjLetter

/-- The sign from reversing the order of the ladder letters. -/
def sgnS : FStr → ℂ
  | [] => 1
  | x :: s => (if isOdd x = true ∧ (s.countP isOdd) % 2 = 1 then -1 else 1) * sgnS s

theorem isOdd_eq (x : FL) : isOdd x = x.odd := by cases x <;> rfl

theorem isOdd_conj (x : FL) : isOdd (Fermi.conjLetter x) = isOdd x := by cases x <;> rfl

theorem countP_dagS (s : FStr) : (dagS s).countP isOdd = s.countP isOdd := by
  unfold dagS
  rw [List.countP_map]
  congr 1
  funext x
  exact isOdd_conj x

theorem fop_denF_comm (k j : ℕ) (x : FL) (s : FStr) (hk : k < j) :
    (denF j s * fop k x : Oper ℂ) = (if isOdd x = true ∧ (s.countP isOdd) % 2 = 1 then (-1 : ℂ) else 1) • (fop k x * denF j s) := by
  induction s generalizing j with
  | nil => simp [denF]
  | cons y s ih =>
    rw [denF, mul_assoc, ih (j + 1) (by omega), mul_smul_comm, ← mul_assoc, fop_swap_lt hk, smul_mul_assoc, smul_smul, mul_assoc]
    congr 1
    rw [List.countP_cons, ← isOdd_eq, ← isOdd_eq]
    cases hx : isOdd x <;> cases hy : isOdd y <;> simp [esign] <;>
      rcases Nat.mod_two_eq_zero_or_one (s.countP isOdd) with h | h <;> simp [h, Nat.add_mod]

theorem sgnS_conj (s : FStr) : (starRingEnd ℂ) (sgnS s) = sgnS s := by
  induction s with
  | nil => simp [sgnS]
  | cons x s ih => rw [sgnS, map_mul, ih]; split <;> simp

theorem sgnS_sq (s : FStr) : sgnS s * sgnS s = 1 := by
  induction s with
  | nil => simp [sgnS]
  | cons x s ih =>
    rw [sgnS, mul_mul_mul_comm, ih]; split <;> simp

theorem isAdj_denF (k : ℕ) (s : FStr) : IsAdj (denF k s : Oper ℂ) (sgnS s • denF k (dagS s)) := by
  induction s generalizing k with
  | nil => simpa [denF, sgnS, dagS] using (IsAdj.one (K := ℂ))
  | cons x s ih =>
    have h := (isAdj_fop (K := ℂ) k x).mul (ih (k + 1))
    have e : ((sgnS s • denF (k + 1) (dagS s)) * fop k (Fermi.conjLetter x) : Oper ℂ) = sgnS (x :: s) • denF k (dagS (x :: s)) := by
      rw [smul_mul_assoc, fop_denF_comm k (k + 1) _ _ (by omega), smul_smul, countP_dagS, isOdd_conj, sgnS, mul_comm]
      rfl
    rw [e] at h
    exact h

theorem dagS_dagS (s : FStr) : dagS (dagS s) = s := by
  unfold dagS
  rw [List.map_map]
  conv_rhs => rw [← List.map_id s]
  refine List.map_congr_left fun x _ => ?_
  cases x <;> rfl

theorem dagS_inj {s t : FStr} (h : dagS s = dagS t) : s = t := by rw [← dagS_dagS s, h, dagS_dagS]

/-! ### Anti-Hermitian operators -/

/-- With every term the negative of its adjoint. -/
def AntiTerms (A : OpD FStr ℂ) : Prop := ∀ t ∈ A, (dagS t.1, -(sgnS t.1 * (starRingEnd ℂ) t.2)) ∈ A

theorem AntiTerms.perm {A : OpD FStr ℂ} (hA : AntiTerms A) (hU : UniqueKeys A) :
    (A.map fun t => (dagS t.1, -(sgnS t.1 * (starRingEnd ℂ) t.2))).Perm A := by
  have hn : A.Nodup := List.Nodup.of_map _ hU
  have hi : Function.Injective (fun t : Term FStr ℂ => ((dagS t.1, -(sgnS t.1 * (starRingEnd ℂ) t.2)) : Term FStr ℂ)) := by
    intro a b h
    simp only [Prod.mk.injEq, neg_inj] at h
    have h1 := dagS_inj h.1
    refine Prod.ext h1 ?_
    have h2 := h.2
    rw [h1] at h2
    have h3 : sgnS b.1 ≠ 0 := fun h0 => by have := sgnS_sq b.1; rw [h0] at this; simp at this
    exact (starRingEnd ℂ).injective (mul_left_cancel₀ h3 h2)
  refine List.Subperm.perm_of_length_le (List.subperm_of_subset (hn.map hi) ?_) (by simp)
  intro u hu
  obtain ⟨t, ht, rfl⟩ := List.mem_map.mp hu
  exact hA t ht

theorem isAdj_denD (A : OpD FStr ℂ) : IsAdj (denD (denF 0) A) (denD (denF 0) (A.map fun t => (dagS t.1, sgnS t.1 * (starRingEnd ℂ) t.2))) := by
  induction A with
  | nil => simpa [OpD.denD_nil, conj_zero] using (IsAdj.one (K := ℂ)).smul 0
  | cons t A ih =>
    rw [List.map_cons, OpD.denD_cons, OpD.denD_cons]
    refine IsAdj.add ?_ ih
    have := (isAdj_denF 0 t.1).smul t.2
    rw [smul_smul] at this
    rw [mul_comm]
    exact this

theorem denD_neg_map (A : OpD FStr ℂ) (f : Term FStr ℂ → FStr) (g : Term FStr ℂ → ℂ) :
    denD (denF 0) (A.map fun t => (f t, -g t)) = -(denD (denF 0) (A.map fun t => (f t, g t)) : Oper ℂ) := by
  induction A with
  | nil => simp [OpD.denD_nil]
  | cons t A ih =>
    rw [List.map_cons, List.map_cons, OpD.denD_cons, OpD.denD_cons, ih, neg_add]
    congr 1
    ext ψ b
    simp

theorem AntiTerms.isAdj {A : OpD FStr ℂ} (hA : AntiTerms A) (hU : UniqueKeys A) :
    IsAdj (-(denD (denF 0) A : Oper ℂ)) (denD (denF 0) A) := by
  have h := (isAdj_denD A).smul (-1 : ℂ)
  have e : (denD (denF 0) (A.map fun t => (dagS t.1, -(sgnS t.1 * (starRingEnd ℂ) t.2))) : Oper ℂ) = denD (denF 0) A := by
    unfold denD
    exact ((hA.perm hU).map _).sum_eq
  rw [denD_neg_map] at e
  have h1 : ((-1 : ℂ) • denD (denF 0) A : Oper ℂ) = -denD (denF 0) A := by ext ψ b; simp
  have h2 : (conj (-1 : ℂ) • denD (denF 0) (A.map fun t => (dagS t.1, sgnS t.1 * (starRingEnd ℂ) t.2)) : Oper ℂ) = denD (denF 0) A := by
    rw [← e]
    have : conj (-1 : ℂ) = -1 := by show (starRingEnd ℂ) (-1) = -1; simp
    rw [this]
    ext ψ b
    simp
  rw [h1, h2] at h
  exact h

theorem isReal_fop (k : ℕ) (x : FL) : IsReal (fop k x) := by
  cases x
  · exact IsReal.one
  · exact isReal_cre k
  · exact isReal_ann k
  · exact (isReal_cre k).mul (isReal_ann k)
  · exact (isReal_ann k).mul (isReal_cre k)

theorem isReal_denF (k : ℕ) (s : FStr) : IsReal (denF k s) := by
  induction s generalizing k with
  | nil => exact IsReal.one
  | cons x s ih => exact (isReal_fop k x).mul (ih (k + 1))

theorem isReal_denD (A : OpD FStr ℂ) (h : ∀ t ∈ A, (starRingEnd ℂ) t.2 = t.2) : IsReal (denD (denF 0) A) := by
  induction A with
  | nil => intro ψ b; rw [OpD.denD_nil]; simp
  | cons t A ih =>
    rw [OpD.denD_cons]
    have h1 := (isReal_denF 0 t.1).smul t.2 (h t (by simp))
    have h2 := ih fun u hu => h u (by simp [hu])
    intro ψ b
    have e1 := h1 ψ b
    have e2 := h2 ψ b
    simp only [LinearMap.add_apply, Pi.add_apply, map_add] at *
    rw [e1, e2]

/-! ### The theorem -/

/-- A layer of real terms on `no` spatial orbitals that each move at most one alpha and at most one beta electron, together with their negative adjoints, from
which the transform drops nothing. -/
structure OneEachLayer (no : ℕ) (A : OpD FStr ℂ) : Prop where
  uniq : UniqueKeys A
  len : ∀ t ∈ A, t.1.length = 2 * no
  ne : ∀ t ∈ A, t.2 ≠ 0
  real : ∀ t ∈ A, (starRingEnd ℂ) t.2 = t.2
  one : ∀ t ∈ A, OneEach no t.1
  anti : AntiTerms A
  exact : ∀ C, OpD.transform Transform.jordanWigner A = some C → denPO C = denD (denF 0) A

theorem OneEachLayer.ok {no : ℕ} {A : OpD FStr ℂ} (h : OneEachLayer no A) : LayerOK no A :=
  oneEach_ok no A h.len (fun t ht => Or.inl (h.ne t ht)) h.one fun C hC => by
    rw [h.exact C hC]
    exact ⟨isReal_denD A h.real, h.anti.isAdj h.uniq⟩

/-- **C115, partial.** The energy of an ansatz whose layers consist of real terms that each move at most one alpha and at most one beta electron, whatever the order
of the terms in the dictionaries and the Pauli strings that cancel: it is the core energy plus the expectation value of the second-quantized Hamiltonian in the
normalised state `Π exp(c P) |HF⟩`, which has the numbers of electrons of the reference.  Missing: one electron; layers with terms that move two electrons of the same
spin; layers that lose part of a term to the cleaning at `1e-12`. -/
theorem C115_one_each_partial (no na nb : ℕ) (hno : 0 < no) (ha : na ≤ no) (hb : nb ≤ no) (hne : na + nb ≠ 1)
    (col : List PStr → ℕ → ℕ) (hcol : ColouringOK col) (h1 : Fin (2 * no) → Fin (2 * no) → ℂ)
    (V : Fin (2 * no) → Fin (2 * no) → Fin (2 * no) → Fin (2 * no) → ℂ) (hh : ∀ a b, h1 a b = h1 b a)
    (hV : ∀ a b c d, V a b c d = V c d a b) (enc : ℝ) (L : List (OpD FStr ℂ)) (hL : ∀ A ∈ L, OneEachLayer no A) :
    ∃ (psi : List (Term PStr ℂ)) (Us : List (Oper ℂ)) (Ψ : Cfg →₀ ℂ) (E : ℝ),
      strings L = some psi ∧ List.Forall₂ (fun t U => IsExp (t.2 • (denP 0 t.1 : Oper ℂ)) U) psi Us ∧
      (Ψ : Cfg → ℂ) = Us.reverse.prod (ket (hfCfg no na nb)) ∧ pair Ψ Ψ = 1 ∧ InS (InSec no (2 * no) na (na + nb)) Ψ ∧
      ACSEEn.energy no na nb col h1 V enc L = some E ∧
      |E - ((pair Ψ (secondQ h1 V Ψ)).re + enc)|
        ≤ 2 ^ (2 * no) * 1e-28 * ∑ a, ∑ b, ∑ c, ∑ e, ‖k2 h1 V ((na + nb : ℕ) : ℂ) a b c e‖ :=
  C115_energy_partial no na nb hno ha hb hne col hcol h1 V hh hV enc L fun A hA => (hL A hA).ok

/-- Two spatial orbitals: an alpha excitation, a pair excitation, then the alpha excitation conditioned on a beta orbital, then the adjoints. -/
def interleaved : OpD FStr ℂ :=
  [([.cr, .an, .i, .i], 1), ([.cr, .an, .cr, .an], -2), ([.cr, .an, .p, .i], 3),
    ([.an, .cr, .cr, .an], 5), ([.an, .cr, .i, .i], 1), ([.cr, .an, .an, .cr], -5), ([.an, .cr, .an, .cr], 2), ([.an, .cr, .p, .i], 3)]

example : OneEachLayer 2 interleaved := by
  have hGI : ∀ t ∈ interleaved, Transform.nLetters t.1 ≤ 4 ∧ ∃ z, GI z ∧ t.2 = z * (1 / 2 ^ 0) := by
    intro t ht
    simp only [interleaved, List.mem_cons, List.not_mem_nil, or_false] at ht
    rcases ht with rfl | rfl | rfl | rfl | rfl | rfl | rfl | rfl
    · exact ⟨by decide, 1, ⟨1, 0, by simp⟩, by norm_num⟩
    · exact ⟨by decide, -2, ⟨-2, 0, by simp⟩, by norm_num⟩
    · exact ⟨by decide, 3, ⟨3, 0, by simp⟩, by norm_num⟩
    · exact ⟨by decide, 5, ⟨5, 0, by simp⟩, by norm_num⟩
    · exact ⟨by decide, 1, ⟨1, 0, by simp⟩, by norm_num⟩
    · exact ⟨by decide, -5, ⟨-5, 0, by simp⟩, by norm_num⟩
    · exact ⟨by decide, 2, ⟨2, 0, by simp⟩, by norm_num⟩
    · exact ⟨by decide, 3, ⟨3, 0, by simp⟩, by norm_num⟩
  have hlen : ∀ t ∈ interleaved, t.1.length = 2 * 2 := by simp [interleaved]
  refine ⟨by simp [UniqueKeys, interleaved], hlen, by simp [interleaved], by simp [interleaved, map_ofNat], ?_, ?_, ?_⟩
  · simp [interleaved, OneEach]
  · intro t ht
    simp only [interleaved, List.mem_cons, List.not_mem_nil, or_false] at ht ⊢
    rcases ht with rfl | rfl | rfl | rfl | rfl | rfl | rfl | rfl <;> simp [dagS, sgnS, Fermi.conjLetter, isOdd, map_ofNat]
  · intro C hC
    obtain ⟨C', c1, _, c3, _⟩ := Transform.transform_exact Transform.jordanWigner (denF 0) Transform.jw_spec 4 0 (by norm_num) interleaved _ hlen hGI
    rw [hC] at c1
    cases c1
    exact c3

end
end Props
end HQCA
