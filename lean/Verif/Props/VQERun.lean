import Verif.Model.VQERun
import Verif.Props.BFGSRun
import Verif.Props.HFStorage

/-!
# C125: a whole VQE calculation
-/

namespace HQCA
namespace Props
noncomputable section
open Ham VQEObj Prepare UCC HFStore

/-- The accuracy of one evaluation. -/
def vqeTol (no na nb : ℕ) (h1 : Fin (2 * no) → Fin (2 * no) → ℂ) (V : Fin (2 * no) → Fin (2 * no) → Fin (2 * no) → Fin (2 * no) → ℂ) : ℝ :=
  2 ^ (2 * no) * 1e-28 * ∑ a, ∑ b, ∑ c, ∑ e, ‖k2 h1 V ((na + nb : ℕ) : ℂ) a b c e‖

/-- **C125.**  A VQE calculation with the quasi-Newton optimizer, for any number of iterations: every evaluation returns; the recorded energies never increase and are not
above the Hartree-Fock energy; the energy reported is that of the normalised cluster state of the parameters reported, which has the electrons of the reference; a normal
end means that the finite-difference gradient is short. -/
theorem C125_partial (d : ℝ) (hd : d ≠ 0) (no na nb : ℕ) (hno : 0 < no) (ha : na ≤ no) (hb : nb ≤ no) (hne : na + nb ≠ 1) (hsz : SpinOK na nb)
    (col : List PStr → ℕ → ℕ) (hcol : ColouringOK col) (h1 : Fin (2 * no) → Fin (2 * no) → ℂ)
    (V : Fin (2 * no) → Fin (2 * no) → Fin (2 * no) → Fin (2 * no) → ℂ) (hh : ∀ a b, h1 a b = h1 b a)
    (hV : ∀ a b c d, V a b c d = V c d a b) (enc : ℝ) (D : VQE.Par ℝ) (m : ℕ) (ms : List ℕ) (r : BFGSRun.Run (VQERun.nPar no na nb))
    (h : VQERun.whole d no na nb col h1 V enc D m ms = some r) :
    (∀ x : Fin (VQERun.nPar no na nb) → ℝ, objective d no na nb col h1 V enc (List.ofFn fun i => (x i : ℂ)) ≠ none) ∧
    (∃ l, r.logE = r.best :: l) ∧ r.logE.Pairwise (· ≤ ·) ∧
    (∀ e ∈ r.logE, e ≤ (pair (det (hfCfg no na nb)) (secondQ h1 V (det (hfCfg no na nb) : Cfg →₀ ℂ))).re + enc + vqeTol no na nb h1 V) ∧
    (∃ (l : List ℕ) (ts : List (List ℕ)) (Us : List (Oper ℂ)) (Ψ : Cfg →₀ ℂ),
      initial (defaultOrbs no).1 (defaultOrbs no).2 na nb = some l ∧
      getUCC (defaultOrbs no).1 (defaultOrbs no).2 l true true false false = some ts ∧ ts.length = VQERun.nPar no na nb ∧
      List.Forall₂ (fun x U => IsExp ((x.2 / (d : ℂ)) • (excOp x.1 - excOp x.1.reverse : Oper ℂ)) U)
        ((ts.zip (List.ofFn fun i => (r.opt.bestX i : ℂ))).filter (fun x => !tinyC x.2)) Us ∧
      (Ψ : Cfg → ℂ) = Us.reverse.prod (ket (hfCfg no na nb)) ∧ pair Ψ Ψ = 1 ∧ InS (InSec no (2 * no) na (na + nb)) Ψ ∧
      |r.best - ((pair Ψ (secondQ h1 V Ψ)).re + enc)| ≤ vqeTol no na nb h1 V) ∧
    (r.done = true → r.error = true ∨
      BFGSRun.norm (VQE.grad (VQERun.energy d no na nb col h1 V enc) true (1 / 10 ^ 7) r.opt.bestX) ≤ max |D.thresh| D.crit) := by
  unfold VQERun.whole at h
  rw [Option.bind_eq_some_iff] at h
  obtain ⟨E0, -, h⟩ := h
  obtain ⟨b1, b2, b3, b4, b5⟩ := C124_run _ D _ m ms r h
  have hreal : ∀ x : Fin (VQERun.nPar no na nb) → ℝ, ∀ p ∈ List.ofFn (fun i => (x i : ℂ)), conj p = p := by
    intro x p hp
    obtain ⟨i, rfl⟩ := List.mem_ofFn.mp hp
    exact Complex.conj_ofReal _
  refine ⟨fun x => ?_, b2, b3, fun e he => ?_, ?_, b5⟩
  · obtain ⟨l, ts, Us, Ψ, E, -, -, -, -, -, -, a7, -⟩ := C111_objective_partial d hd no na nb hno ha hb hne col hcol h1 V hh hV enc _ (hreal x)
    rw [a7]
    simp
  · obtain ⟨E, E1, c1, c2, c3⟩ := C113_zero_parameters_partial d hd no na nb hno ha hb hne hsz col hcol h1 V hh hV enc
      (List.ofFn fun i : Fin (VQERun.nPar no na nb) => (((fun _ => 0 : Fin (VQERun.nPar no na nb) → ℝ) i : ℝ) : ℂ))
      (fun p hp => by obtain ⟨i, rfl⟩ := List.mem_ofFn.mp hp; exact Complex.ofReal_zero)
    rw [C113_vqe_partial no na nb ha hb hne hsz h1 V hh hV enc] at c2
    have e1 := b4 e he
    have e2 : (VQERun.problem d no na nb col h1 V enc).f (fun _ => 0) = E := by
      show VQERun.energy d no na nb col h1 V enc (fun _ => 0) = E
      unfold VQERun.energy
      rw [c1]
      rfl
    rw [e2] at e1
    have e3 := (abs_le.mp c3).2
    rw [← Option.some.inj c2] at e3
    unfold vqeTol
    linarith
  · obtain ⟨l, ts, Us, Ψ, E, a1, a2, a3, a4, a5, a6, a7, a8⟩ := C111_objective_partial d hd no na nb hno ha hb hne col hcol h1 V hh hV enc _ (hreal r.opt.bestX)
    have e2 : r.best = E := by
      rw [b1]
      show VQERun.energy d no na nb col h1 V enc r.opt.bestX = E
      unfold VQERun.energy
      rw [a7]
      rfl
    rw [e2]
    refine ⟨l, ts, Us, Ψ, a1, a2, ?_, a3, a4, a5, a6, a8⟩
    unfold VQERun.nPar
    rw [a1, Option.bind_some, a2]
    rfl

/-- **C125** (variational).  The energy reported is not below the lowest energy of the states with the electrons of the reference, up to the accuracy of one evaluation. -/
theorem C125_minimal_partial (d : ℝ) (hd : d ≠ 0) (no na nb : ℕ) (hno : 0 < no) (ha : na ≤ no) (hb : nb ≤ no) (hne : na + nb ≠ 1) (hsz : SpinOK na nb)
    (col : List PStr → ℕ → ℕ) (hcol : ColouringOK col) (h1 : Fin (2 * no) → Fin (2 * no) → ℂ)
    (V : Fin (2 * no) → Fin (2 * no) → Fin (2 * no) → Fin (2 * no) → ℂ) (hh : ∀ a b, h1 a b = h1 b a)
    (hV : ∀ a b c d, V a b c d = V c d a b) (enc : ℝ) (D : VQE.Par ℝ) (m : ℕ) (ms : List ℕ) (r : BFGSRun.Run (VQERun.nPar no na nb))
    (h : VQERun.whole d no na nb col h1 V enc D m ms = some r) (E0 : ℝ)
    (hE : ∀ Ψ : Cfg →₀ ℂ, pair Ψ Ψ = 1 → InS (InSec no (2 * no) na (na + nb)) Ψ → E0 ≤ (pair Ψ (secondQ h1 V Ψ)).re) :
    E0 + enc - vqeTol no na nb h1 V ≤ r.best := by
  obtain ⟨-, -, -, -, ⟨l, ts, Us, Ψ, -, -, -, -, -, a5, a6, a8⟩, -⟩ := C125_partial d hd no na nb hno ha hb hne hsz col hcol h1 V hh hV enc D m ms r h
  have := (abs_le.mp a8).1
  have := hE Ψ a5 a6
  linarith

/-- A constant objective: the first line search ends at once. -/
theorem init_const {n : ℕ} (P : BFGSRun.Prob n) (c : ℝ) (hf : ∀ x, P.f x = c) (hg : ∀ x, P.g x = 0) (start : Fin n → ℝ) : ∃ t, BFGSRun.init P start 1 = some t := by
  have hw : ∀ p, Optim.wRun (BFGSRun.search P start p (P.g start) (P.f start)) 1 = .ended (some (1, c)) := by
    intro p
    have e : BFGSRun.search P start p (P.g start) (P.f start) = ⟨fun _ => c, fun _ => 0, c, 0, 6 / 10, 9 / 10⟩ := by
      unfold BFGSRun.search
      congr 1
      · funext a; exact hf _
      · funext a; rw [hg, zero_dotProduct]
      · exact hf _
      · rw [hg, zero_dotProduct]
    rw [e, Optim.wRun, Optim.wRun, Optim.wPass]
    simp
  unfold BFGSRun.init
  dsimp only
  rw [hw]
  exact ⟨_, rfl⟩

/-- Two electrons in two spatial orbitals without interaction: the optimizer is built, and the energy reported is the constant `enc`. -/
example : ∃ r, VQERun.whole 1 2 1 1 (fun _ i => i) 0 0 (1 / 2) ⟨0, 0, 10⟩ 1 [] = some r ∧ r.best = 1 / 2 := by
  have key : ∀ x : Fin (VQERun.nPar 2 1 1) → ℝ, VQERun.energy 1 2 1 1 (fun _ i => i) 0 0 (1 / 2) x = 1 / 2 := by
    intro x
    obtain ⟨l, ts, Us, Ψ, E, -, -, -, -, a5, a6, a7, a8⟩ := C111_objective_partial 1 one_ne_zero 2 1 1 (by norm_num) (by norm_num) (by norm_num)
      (by norm_num) (fun _ i => i) colouring_id 0 0 (fun _ _ => rfl) (fun _ _ _ _ => rfl) (1 / 2) (List.ofFn fun i => (x i : ℂ))
      (fun p hp => by obtain ⟨i, rfl⟩ := List.mem_ofFn.mp hp; exact Complex.conj_ofReal _)
    unfold VQERun.energy
    rw [a7]
    have z1 : (secondQ (0 : Fin (2 * 2) → Fin (2 * 2) → ℂ) 0 Ψ) = 0 := by
      simp [secondQ]
    have z2 : pair Ψ (0 : Cfg → ℂ) = 0 := by simp [pair]
    have z3 : ∀ a b c e, k2 (0 : Fin (2 * 2) → Fin (2 * 2) → ℂ) 0 ((1 + 1 : ℕ) : ℂ) a b c e = 0 := by
      intro a b c e
      simp [k2]
    rw [z1, z2] at a8
    simp only [z3, norm_zero, Finset.sum_const_zero, mul_zero] at a8
    have := abs_nonpos_iff.mp a8
    simp only [Complex.zero_re, zero_add] at this
    simpa using sub_eq_zero.mp this
  have hg : ∀ x, (VQERun.problem 1 2 1 1 (fun _ i => i) 0 0 (1 / 2)).g x = 0 := by
    intro x
    funext i
    show VQE.grad _ true _ x i = 0
    unfold VQE.grad
    rw [if_pos rfl, key, key, sub_self, zero_div]
  obtain ⟨t, ht⟩ := init_const (VQERun.problem 1 2 1 1 (fun _ i => i) 0 0 (1 / 2)) (1 / 2) key hg (fun _ => 0)
  refine ⟨⟨t, false, t.bestF, [t.bestF], false⟩, ?_, ?_⟩
  · unfold VQERun.whole
    rw [C113_vqe_partial 2 1 1 (by norm_num) (by norm_num) (by norm_num) (Or.inl (by norm_num)) 0 0 (fun _ _ => rfl) (fun _ _ _ _ => rfl)]
    rw [Option.bind_some]
    unfold BFGSRun.whole BFGSRun.build
    rw [ht]
    rfl
  · show t.bestF = _
    rw [(C124_start _ _ _ _ ht).1.value]
    exact key _

end
end Props
end HQCA
