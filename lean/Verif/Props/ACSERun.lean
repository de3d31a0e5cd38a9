import Verif.Model.ACSERun
import Verif.Props.ACSE
import Verif.Props.ACSEEnergy
import Verif.Props.ACSELayers
import Verif.Props.HFStorage

/-!
# C120: a whole run of the ACSE driver is variational
-/

namespace HQCA
namespace Props
open ACSE ACSEEn ACSERun HFStore Ham Prepare
noncomputable section

/-- The accuracy of one evaluation: amplitudes below `1e-14` are ignored by the state-vector backend. -/
def tolE (no ne : ℕ) (h1 : Fin (2 * no) → Fin (2 * no) → ℂ) (V : Fin (2 * no) → Fin (2 * no) → Fin (2 * no) → Fin (2 * no) → ℂ) : ℝ :=
  2 ^ (2 * no) * 1e-28 * ∑ a, ∑ b, ∑ c, ∑ e, ‖k2 h1 V (ne : ℂ) a b c e‖

/-- `E` is, within the accuracy, the energy of a normalised state with `na` alpha and `nb` beta electrons. -/
def IsEnergy (no na nb : ℕ) (h1 : Fin (2 * no) → Fin (2 * no) → ℂ)
    (V : Fin (2 * no) → Fin (2 * no) → Fin (2 * no) → Fin (2 * no) → ℂ) (enc E : ℝ) : Prop :=
  ∃ Ψ : Cfg →₀ ℂ, pair Ψ Ψ = 1 ∧ (∀ b, Ψ b ≠ 0 → InSec no (2 * no) na (na + nb) b) ∧
    |E - ((pair Ψ (secondQ h1 V Ψ)).re + enc)| ≤ tolE no (na + nb) h1 V

theorem observe_ok (no na nb : ℕ) (hno : 0 < no) (ha : na ≤ no) (hb : nb ≤ no) (hne : na + nb ≠ 1)
    (col : List PStr → ℕ → ℕ) (hcol : ColouringOK col) (h1 : Fin (2 * no) → Fin (2 * no) → ℂ)
    (V : Fin (2 * no) → Fin (2 * no) → Fin (2 * no) → Fin (2 * no) → ℂ) (hh : ∀ a b, h1 a b = h1 b a)
    (hV : ∀ a b c d, V a b c d = V c d a b) (enc : ℝ) (xs : List (List (OpD FStr ℂ) × Obs ℝ)) (hL : ∀ x ∈ xs, ∀ A ∈ x.1, LayerOK no A)
    (hd : ∀ x ∈ xs, x.2.deep = false) :
    ∃ os, xs.mapM (observe no na nb col h1 V enc) = some os ∧ os.length = xs.length ∧
      ∀ o ∈ os, o.deep = false ∧ IsEnergy no na nb h1 V enc o.en := by
  induction xs with
  | nil => exact ⟨[], rfl, rfl, by simp⟩
  | cons x xs ih =>
    obtain ⟨os, e1, e2, e3⟩ := ih (fun y hy => hL y (by simp [hy])) (fun y hy => hd y (by simp [hy]))
    obtain ⟨_, _, Ψ, E, _, _, _, a1, a2, a3, a4⟩ := C115_energy_partial no na nb hno ha hb hne col hcol h1 V hh hV enc x.1 (hL x (by simp))
    refine ⟨{ x.2 with en := E } :: os, ?_, by simp [e2], ?_⟩
    · have ho : observe no na nb col h1 V enc x = some { x.2 with en := E } := by unfold observe; rw [a3]; rfl
      simp [e1, ho]
    · intro o ho
      rcases List.mem_cons.mp ho with rfl | ho
      · exact ⟨hd x (by simp), Ψ, a1, a2, a4⟩
      · exact e3 o ho

/-- **C120, partial.** A run of the ACSE driver from the Hartree–Fock reference completes; it makes at most `max_iter` iterations and has ended once that many have
been offered.  The energy it reports is not above the Hartree–Fock energy, it is within the accuracy of one evaluation the energy of a normalised state with the
numbers of electrons of the reference, and it is not below the lowest energy of these states by more than that.  Missing: what `C115_energy_partial` and
`C113_acse_partial` miss (one electron, other spins, layers without conserving groups), and reaching the maximal depth, where `_check` raises. -/
theorem C120_run_partial (P : Par ℝ) (hP : 0 < P.maxIter) (hc : P.conv ≠ .other) (old : ℕ) (no na nb : ℕ) (hno : 0 < no) (ha : na ≤ no) (hb : nb ≤ no)
    (hne : na + nb ≠ 1) (hsz : SpinOK na nb)
    (col : List PStr → ℕ → ℕ) (hcol : ColouringOK col) (h1 : Fin (2 * no) → Fin (2 * no) → ℂ)
    (V : Fin (2 * no) → Fin (2 * no) → Fin (2 * no) → Fin (2 * no) → ℂ) (hh : ∀ a b, h1 a b = h1 b a)
    (hV : ∀ a b c d, V a b c d = V c d a b) (enc : ℝ) (xs : List (List (OpD FStr ℂ) × Obs ℝ)) (hL : ∀ x ∈ xs, ∀ A ∈ x.1, LayerOK no A)
    (hd : ∀ x ∈ xs, x.2.deep = false) :
    ∃ s, whole P old no na nb col h1 V enc xs = some s ∧ s.iter ≤ P.maxIter ∧ (P.maxIter ≤ xs.length → s.done = true) ∧
      s.best ≤ (pair (det (hfCfg no na nb)) (secondQ h1 V (det (hfCfg no na nb) : Cfg →₀ ℂ))).re + enc ∧
      IsEnergy no na nb h1 V enc s.best ∧
      ∀ E0 : ℝ, (∀ φ : Cfg →₀ ℂ, pair φ φ = 1 → (∀ b, φ b ≠ 0 → InSec no (2 * no) na (na + nb) b) → E0 ≤ (pair φ (secondQ h1 V φ)).re) →
        E0 + enc - tolE no (na + nb) h1 V ≤ s.best := by
  obtain ⟨os, e1, e2, e3⟩ := observe_ok no na nb hno ha hb hne col hcol h1 V hh hV enc xs hL hd
  have hE := C113_acse_partial no na nb ha hb hne hsz h1 V hh hV enc
  obtain ⟨s, hs, hdone⟩ := C40_completes P hP hc ((pair (det (hfCfg no na nb)) (secondQ h1 V (det (hfCfg no na nb) : Cfg →₀ ℂ))).re + enc) old os
    (fun o ho => (e3 o ho).1)
  obtain ⟨i1, _, _⟩ := C40_max_iter P hP _ old os s hs
  obtain ⟨k, _, _, _, hm, hle⟩ := C40_best P hP _ old os s hs
  have hen : IsEnergy no na nb h1 V enc s.best := by
    rcases List.mem_cons.mp hm with h | h
    · refine ⟨det (hfCfg no na nb), det_norm _, ?_, ?_⟩
      · intro b hb0
        by_cases hbe : b = hfCfg no na nb
        · rw [hbe]; exact hfCfg_sec no na nb ha hb
        · exact absurd (Finsupp.single_eq_of_ne hbe) hb0
      · rw [h, sub_self, abs_zero]
        unfold tolE
        positivity
    · obtain ⟨o, ho, h⟩ := List.mem_map.mp h
      rw [← h]
      exact (e3 o (List.mem_of_mem_take ho)).2
  refine ⟨s, ?_, i1, fun h => hdone (by omega), hle _ (by simp), hen, fun E0 h0 => ?_⟩
  · unfold whole
    rw [hE, Option.bind_some, e1, Option.bind_some]
    exact hs
  · obtain ⟨Ψ, a1, a2, a3⟩ := hen
    have := h0 Ψ a1 a2
    have := (abs_le.mp a3).1
    linarith

/-- Two electrons in two spatial orbitals, at most two iterations: the first ends with a double excitation, the second with a double and a single excitation
followed by the double excitation again.  The run has ended. -/
example : ∃ A B s, excLayer 2 [([1, 3, 2, 0], (1 : ℂ))] = some A ∧ excLayer 2 [([1, 3, 2, 0], (1 : ℂ)), ([1, 0], 1)] = some B ∧
    whole ⟨2, .norm, 1e-3, 0, 0⟩ 0 2 1 1 (fun _ i => i) (fun a b => if a.val % 2 = b.val % 2 then 0 else -1)
      (fun a b c e => if a = c ∧ b = e then 1 else 0) (1 / 2) [([A], ⟨0, 1, 1, 1, false⟩), ([B, A], ⟨0, 1 / 2, 1, 1, false⟩)] = some s ∧
    s.done = true := by
  have hr : conj (1 : ℂ) = 1 := map_one _
  have hl : tinyC (1 : ℂ) = false := by simp [tinyC]; norm_num
  obtain ⟨A, _, hA, oA, _⟩ := excLayer_ok 2 [([1, 3, 2, 0], (1 : ℂ))]
    (fun x hx => by rw [List.mem_singleton] at hx; rw [hx]; exact goodExc_double 1 hr hl) (List.pairwise_singleton _ _)
  obtain ⟨B, _, hB, oB, _⟩ := excLayer_ok 2 [([1, 3, 2, 0], (1 : ℂ)), ([1, 0], 1)] (fun x hx => by
      simp only [List.mem_cons, List.not_mem_nil, or_false] at hx
      rcases hx with rfl | rfl
      · exact goodExc_double 1 hr hl
      · exact goodExc_single 1 hr hl) (by rw [List.pairwise_pair]; decide)
  obtain ⟨s, hs, _, hd, _⟩ := C120_run_partial ⟨2, .norm, 1e-3, 0, 0⟩ (by norm_num) (by simp) 0 2 1 1 (by norm_num) (by norm_num) (by norm_num) (by norm_num)
    (by unfold SpinOK; simp) (fun _ i => i) colouring_id (fun a b => if a.val % 2 = b.val % 2 then 0 else -1)
    (fun a b c e => if a = c ∧ b = e then 1 else 0) (fun a b => by simp only [eq_comm]) (fun a b c e => by simp only [eq_comm]) (1 / 2)
    [([A], ⟨0, 1, 1, 1, false⟩), ([B, A], ⟨0, 1 / 2, 1, 1, false⟩)] (by simp [oA, oB]) (by simp)
  exact ⟨A, B, s, hA, hB, hs, hd (by simp)⟩

end
end Props
end HQCA
