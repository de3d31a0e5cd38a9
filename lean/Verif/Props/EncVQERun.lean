import Verif.Model.EncVQERun
import Verif.Props.EncVQE
import Verif.Props.VQERun

/-!
# C150: whole VQE calculations with the parity and Bravyi–Kitaev transforms
-/

namespace HQCA.Props
open HQCA.Transform HQCA.Ham HQCA.Prepare HQCA.EncEn HQCA.UCC HQCA.HFStore
noncomputable section

theorem signed_det (no na nb : ℕ) : signed no na nb (det (K := ℂ) (hfCfg no na nb)) = det (hfCfg no na nb) := by
  classical
  ext b
  rw [signed_apply]
  by_cases h : b = hfCfg no na nb
  · rw [h, parOver_hf]; simp [sg]
  · have : det (K := ℂ) (hfCfg no na nb) b = 0 := by unfold det; rw [Finsupp.single_apply, if_neg (Ne.symm h)]
    rw [this, mul_zero]

/-- The reversed integrals do not contribute for the reference. -/
theorem twist_det (no na nb : ℕ) (h1 : Fin (2 * no) → Fin (2 * no) → ℂ) (V : Fin (2 * no) → Fin (2 * no) → Fin (2 * no) → Fin (2 * no) → ℂ) :
    pair (det (K := ℂ) (hfCfg no na nb)) (secondQ (twist1 (hfCfg no na nb) h1) (twist2 (hfCfg no na nb) V) (det (K := ℂ) (hfCfg no na nb))) =
      pair (det (K := ℂ) (hfCfg no na nb)) (secondQ h1 V (det (K := ℂ) (hfCfg no na nb))) := by
  rw [← energy_signed, signed_det, flip_det]

/-- **C149, zero parameters.** The objective of vanishing parameters is the Hartree–Fock energy with either transform. -/
theorem C149_zero_parameters (T : Term FStr ℂ → Option (POp ℂ)) (hT : T = parity ∨ T = bravyiKitaev) (d : ℝ) (hd : d ≠ 0)
    (no na nb : ℕ) (hno : 0 < no) (ha : na ≤ no) (hb : nb ≤ no) (hne : na + nb ≠ 1)
    (col : List PStr → ℕ → ℕ) (hcol : ColouringOK col) (h1 : Fin (2 * no) → Fin (2 * no) → ℂ)
    (V : Fin (2 * no) → Fin (2 * no) → Fin (2 * no) → Fin (2 * no) → ℂ) (hh : ∀ a b, h1 a b = h1 b a)
    (hV : ∀ a b c d, V a b c d = V c d a b) (enc : ℝ) (ps : List ℂ) (hp : ∀ p ∈ ps, p = 0) :
    ∃ E : ℝ, objective T d no na nb col h1 V enc ps = some E ∧
      |E - ((pair (det (K := ℂ) (hfCfg no na nb)) (secondQ h1 V (det (K := ℂ) (hfCfg no na nb)))).re + enc)| ≤ vqeTol no na nb h1 V := by
  obtain ⟨l, ts, Us, Ψ, E, _, _, a3, a4, _, _, a7, a8⟩ :=
    C149_objective_partial T hT d hd no na nb hno ha hb hne col hcol h1 V hh hV enc ps (by
      intro p h
      rw [hp p h, conj_zero])
  refine ⟨E, a7, ?_⟩
  have hf : (ts.zip ps).filter (fun x => !tinyC x.2) = [] := by
    rw [List.filter_eq_nil_iff]
    intro x hx
    have := hp x.2 (List.of_mem_zip hx).2
    rw [this]
    simp [tinyC]
    norm_num
  rw [hf] at a3
  cases a3
  have : Ψ = det (hfCfg no na nb) := by
    apply DFunLike.coe_injective
    rw [a4]
    funext b
    rw [det_eq]
    simp [ket, delta]
  rw [this, twist_det] at a8
  exact a8

/-- **C150, partial.**  A VQE calculation with the quasi-Newton optimizer and the parity or Bravyi–Kitaev transform: every evaluation returns; the recorded energies never
increase and are not above the Hartree–Fock energy; the energy reported is the expectation value, in the normalised cluster state of the parameters reported, of the Hamiltonian
with the integrals of `twist1` and `twist2` reversed; a normal end means that the finite-difference gradient is short.  Missing: the energy of the given Hamiltonian
(C149). -/
theorem C150_run_partial (T : Term FStr ℂ → Option (POp ℂ)) (hT : T = parity ∨ T = bravyiKitaev) (d : ℝ) (hd : d ≠ 0)
    (no na nb : ℕ) (hno : 0 < no) (ha : na ≤ no) (hb : nb ≤ no) (hne : na + nb ≠ 1)
    (col : List PStr → ℕ → ℕ) (hcol : ColouringOK col) (h1 : Fin (2 * no) → Fin (2 * no) → ℂ)
    (V : Fin (2 * no) → Fin (2 * no) → Fin (2 * no) → Fin (2 * no) → ℂ) (hh : ∀ a b, h1 a b = h1 b a)
    (hV : ∀ a b c d, V a b c d = V c d a b) (enc : ℝ) (D : VQE.Par ℝ) (m : ℕ) (ms : List ℕ) (r : BFGSRun.Run (VQERun.nPar no na nb))
    (h : EncVQERun.whole T d no na nb col h1 V enc D m ms = some r) :
    (∀ x : Fin (VQERun.nPar no na nb) → ℝ, objective T d no na nb col h1 V enc (List.ofFn fun i => (x i : ℂ)) ≠ none) ∧
    (∃ l, r.logE = r.best :: l) ∧ r.logE.Pairwise (· ≤ ·) ∧
    (∀ e ∈ r.logE, e ≤ (pair (det (hfCfg no na nb)) (secondQ h1 V (det (hfCfg no na nb) : Cfg →₀ ℂ))).re + enc + vqeTol no na nb h1 V) ∧
    (∃ (l : List ℕ) (ts : List (List ℕ)) (Us : List (Oper ℂ)) (Ψ : Cfg →₀ ℂ),
      initial (defaultOrbs no).1 (defaultOrbs no).2 na nb = some l ∧
      getUCC (defaultOrbs no).1 (defaultOrbs no).2 l true true false false = some ts ∧ ts.length = VQERun.nPar no na nb ∧
      List.Forall₂ (fun x U => IsExp ((x.2 / (d : ℂ)) • (excOp x.1 - excOp x.1.reverse : Oper ℂ)) U)
        ((ts.zip (List.ofFn fun i => (r.opt.bestX i : ℂ))).filter (fun x => !tinyC x.2)) Us ∧
      (Ψ : Cfg → ℂ) = Us.reverse.prod (ket (hfCfg no na nb)) ∧ pair Ψ Ψ = 1 ∧ InS (InSec no (2 * no) na (na + nb)) Ψ ∧
      |r.best - ((pair Ψ (secondQ (twist1 (hfCfg no na nb) h1) (twist2 (hfCfg no na nb) V) Ψ)).re + enc)| ≤ vqeTol no na nb h1 V) ∧
    (r.done = true → r.error = true ∨
      BFGSRun.norm (VQE.grad (EncVQERun.energy T d no na nb col h1 V enc) true (1 / 10 ^ 7) r.opt.bestX) ≤ max |D.thresh| D.crit) := by
  unfold EncVQERun.whole at h
  rw [Option.bind_eq_some_iff] at h
  obtain ⟨E0, -, h⟩ := h
  obtain ⟨b1, b2, b3, b4, b5⟩ := C124_run _ D _ m ms r h
  have hreal : ∀ x : Fin (VQERun.nPar no na nb) → ℝ, ∀ p ∈ List.ofFn (fun i => (x i : ℂ)), conj p = p := by
    intro x p hp
    obtain ⟨i, rfl⟩ := List.mem_ofFn.mp hp
    exact Complex.conj_ofReal _
  refine ⟨fun x => ?_, b2, b3, fun e he => ?_, ?_, b5⟩
  · obtain ⟨l, ts, Us, Ψ, E, -, -, -, -, -, -, a7, -⟩ := C149_objective_partial T hT d hd no na nb hno ha hb hne col hcol h1 V hh hV enc _ (hreal x)
    rw [a7]
    simp
  · obtain ⟨E, c1, c3⟩ := C149_zero_parameters T hT d hd no na nb hno ha hb hne col hcol h1 V hh hV enc
      (List.ofFn fun i : Fin (VQERun.nPar no na nb) => (((fun _ => 0 : Fin (VQERun.nPar no na nb) → ℝ) i : ℝ) : ℂ))
      (fun p hp => by obtain ⟨i, rfl⟩ := List.mem_ofFn.mp hp; exact Complex.ofReal_zero)
    have e1 := b4 e he
    have e2 : (EncVQERun.problem T d no na nb col h1 V enc).f (fun _ => 0) = E := by
      show EncVQERun.energy T d no na nb col h1 V enc (fun _ => 0) = E
      unfold EncVQERun.energy
      rw [c1]
      rfl
    rw [e2] at e1
    have e3 := (abs_le.mp c3).2
    linarith
  · obtain ⟨l, ts, Us, Ψ, E, a1, a2, a3, a4, a5, a6, a7, a8⟩ :=
      C149_objective_partial T hT d hd no na nb hno ha hb hne col hcol h1 V hh hV enc _ (hreal r.opt.bestX)
    have e2 : r.best = E := by
      rw [b1]
      show EncVQERun.energy T d no na nb col h1 V enc r.opt.bestX = E
      unfold EncVQERun.energy
      rw [a7]
      rfl
    rw [e2]
    refine ⟨l, ts, Us, Ψ, a1, a2, ?_, a3, a4, a5, a6, a8⟩
    unfold VQERun.nPar
    rw [a1, Option.bind_some, a2]
    rfl

/-- **C150, without reversed integrals.** Then the energy reported is not below the lowest energy of the states with the electrons of the reference, up to the accuracy of one
evaluation. -/
theorem C150_minimal_partial (T : Term FStr ℂ → Option (POp ℂ)) (hT : T = parity ∨ T = bravyiKitaev) (d : ℝ) (hd : d ≠ 0)
    (no na nb : ℕ) (hno : 0 < no) (ha : na ≤ no) (hb : nb ≤ no) (hne : na + nb ≠ 1)
    (col : List PStr → ℕ → ℕ) (hcol : ColouringOK col) (h1 : Fin (2 * no) → Fin (2 * no) → ℂ)
    (V : Fin (2 * no) → Fin (2 * no) → Fin (2 * no) → Fin (2 * no) → ℂ) (hh : ∀ a b, h1 a b = h1 b a)
    (hV : ∀ a b c d, V a b c d = V c d a b) (h0 : twist1 (hfCfg no na nb) h1 = h1) (h0' : twist2 (hfCfg no na nb) V = V)
    (enc : ℝ) (D : VQE.Par ℝ) (m : ℕ) (ms : List ℕ) (r : BFGSRun.Run (VQERun.nPar no na nb))
    (h : EncVQERun.whole T d no na nb col h1 V enc D m ms = some r) (E0 : ℝ)
    (hE : ∀ Ψ : Cfg →₀ ℂ, pair Ψ Ψ = 1 → InS (InSec no (2 * no) na (na + nb)) Ψ → E0 ≤ (pair Ψ (secondQ h1 V Ψ)).re) :
    E0 + enc - vqeTol no na nb h1 V ≤ r.best := by
  obtain ⟨-, -, -, -, ⟨l, ts, Us, Ψ, -, -, -, -, -, a5, a6, a8⟩, -⟩ := C150_run_partial T hT d hd no na nb hno ha hb hne col hcol h1 V hh hV enc D m ms r h
  rw [h0, h0'] at a8
  have := (abs_le.mp a8).1
  have := hE Ψ a5 a6
  linarith

/-- **C150, two spatial orbitals.** One electron of each spin in two spatial orbitals, spin-conserving Hamiltonian: the energy reported is that of the normalised cluster
state of the parameters reported. -/
theorem C150_two_orbitals (T : Term FStr ℂ → Option (POp ℂ)) (hT : T = parity ∨ T = bravyiKitaev) (d : ℝ) (hd : d ≠ 0)
    (col : List PStr → ℕ → ℕ) (hcol : ColouringOK col) (h1 : Fin (2 * 2) → Fin (2 * 2) → ℂ) (V : Fin (2 * 2) → Fin (2 * 2) → Fin (2 * 2) → Fin (2 * 2) → ℂ)
    (hh : ∀ a b, h1 a b = h1 b a) (hV : ∀ a b c d, V a b c d = V c d a b) (hs : ∀ a b, a.val / 2 ≠ b.val / 2 → h1 a b = 0)
    (hs' : ∀ a b c d, ¬ (a.val / 2 = c.val / 2 ∧ b.val / 2 = d.val / 2) → V a b c d = 0) (enc : ℝ) (D : VQE.Par ℝ) (m : ℕ) (ms : List ℕ)
    (r : BFGSRun.Run (VQERun.nPar 2 1 1)) (h : EncVQERun.whole T d 2 1 1 col h1 V enc D m ms = some r) :
    ∃ (l : List ℕ) (ts : List (List ℕ)) (Us : List (Oper ℂ)) (Ψ : Cfg →₀ ℂ),
      initial (defaultOrbs 2).1 (defaultOrbs 2).2 1 1 = some l ∧
      getUCC (defaultOrbs 2).1 (defaultOrbs 2).2 l true true false false = some ts ∧ ts.length = VQERun.nPar 2 1 1 ∧
      List.Forall₂ (fun x U => IsExp ((x.2 / (d : ℂ)) • (excOp x.1 - excOp x.1.reverse : Oper ℂ)) U)
        ((ts.zip (List.ofFn fun i => (r.opt.bestX i : ℂ))).filter (fun x => !tinyC x.2)) Us ∧
      (Ψ : Cfg → ℂ) = Us.reverse.prod (ket (hfCfg 2 1 1)) ∧ pair Ψ Ψ = 1 ∧
      |r.best - ((pair Ψ (secondQ h1 V Ψ)).re + enc)| ≤ vqeTol 2 1 1 h1 V := by
  obtain ⟨-, -, -, -, ⟨l, ts, Us, Ψ, a1, a2, a3, a4, a5, a6, -, a8⟩, -⟩ := C150_run_partial T hT d hd 2 1 1 (by norm_num) (by norm_num) (by norm_num) (by norm_num) col hcol h1 V hh hV
    enc D m ms r h
  obtain ⟨t1, t2⟩ := twist_two h1 V hs hs'
  rw [t1, t2] at a8
  exact ⟨l, ts, Us, Ψ, a1, a2, a3, a4, a5, a6, a8⟩

/-- Two electrons in two spatial orbitals without interaction: the optimizer is built, and the energy reported is the constant `enc`. -/
example : ∃ r, EncVQERun.whole parity 1 2 1 1 (fun _ i => i) 0 0 (1 / 2) ⟨0, 0, 10⟩ 1 [] = some r ∧ r.best = 1 / 2 := by
  have key : ∀ x : Fin (VQERun.nPar 2 1 1) → ℝ, EncVQERun.energy parity 1 2 1 1 (fun _ i => i) 0 0 (1 / 2) x = 1 / 2 := by
    intro x
    obtain ⟨l, ts, Us, Ψ, E, -, -, -, -, a5, a6, a7, a8⟩ := C149_objective_partial parity (Or.inl rfl) 1 one_ne_zero 2 1 1 (by norm_num) (by norm_num) (by norm_num)
      (by norm_num) (fun _ i => i) colouring_id 0 0 (fun _ _ => rfl) (fun _ _ _ _ => rfl) (1 / 2) (List.ofFn fun i => (x i : ℂ))
      (fun p hp => by obtain ⟨i, rfl⟩ := List.mem_ofFn.mp hp; exact Complex.conj_ofReal _)
    unfold EncVQERun.energy
    rw [a7]
    obtain ⟨t1, t2⟩ := twist_two 0 0 (fun _ _ _ => rfl) (fun _ _ _ _ _ => rfl)
    rw [t1, t2] at a8
    have z1 : (secondQ (0 : Fin (2 * 2) → Fin (2 * 2) → ℂ) 0 Ψ) = 0 := by
      simp [secondQ]
    have z2 : pair Ψ (0 : Cfg → ℂ) = 0 := by simp [pair]
    have z3 : ∀ a b c e, k2 (0 : Fin (2 * 2) → Fin (2 * 2) → ℂ) 0 ((1 + 1 : ℕ) : ℂ) a b c e = 0 := by
      intro a b c e
      simp [k2]
    rw [z1, z2] at a8
    simp only [z3, norm_zero, Finset.sum_const_zero, mul_zero] at a8
    have := abs_nonpos_iff.mp a8
    simp only [Complex.zero_re, zero_add] at this
    simpa using sub_eq_zero.mp this
  have hg : ∀ x, (EncVQERun.problem parity 1 2 1 1 (fun _ i => i) 0 0 (1 / 2)).g x = 0 := by
    intro x
    funext i
    show VQE.grad _ true _ x i = 0
    unfold VQE.grad
    rw [if_pos rfl, key, key, sub_self, zero_div]
  obtain ⟨t, ht⟩ := init_const (EncVQERun.problem parity 1 2 1 1 (fun _ i => i) 0 0 (1 / 2)) (1 / 2) key hg (fun _ => 0)
  refine ⟨⟨t, false, t.bestF, [t.bestF], false⟩, ?_, ?_⟩
  · unfold EncVQERun.whole
    rw [C113_vqe_partial 2 1 1 (by norm_num) (by norm_num) (by norm_num) (Or.inl (by norm_num)) 0 0 (fun _ _ => rfl) (fun _ _ _ _ => rfl)]
    rw [Option.bind_some]
    unfold BFGSRun.whole BFGSRun.build
    rw [ht]
    rfl
  · show t.bestF = _
    rw [(C124_start _ _ _ _ ht).1.value]
    exact key _

end
end HQCA.Props
