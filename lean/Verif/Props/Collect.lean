import Verif.Model.Collect
import Verif.Props.Euler
import Verif.Props.QResidual
import Verif.Props.QubitParticle

/-!
# C114: generator and norm of a residual
-/

namespace HQCA
namespace Props
open Collect Resid Ham Filter Topology
noncomputable section

variable {r : ℕ}

/-- Frobenius norm (specification). -/
def frob (A : Fin r → Fin r → Fin r → Fin r → ℂ) : ℝ := Real.sqrt (∑ i, ∑ k, ∑ j, ∑ l, ‖A i k j l‖ ^ 2)

/-- The entries of modulus at least `S` (specification). -/
def cutAt (S : ℝ) (A : Fin r → Fin r → Fin r → Fin r → ℂ) : Fin r → Fin r → Fin r → Fin r → ℂ :=
  open Classical in fun i k j l => if S ≤ ‖A i k j l‖ then A i k j l else 0

theorem kept_cutAt (S : ℝ) (A : Fin r → Fin r → Fin r → Fin r → ℂ) (i k j l : Fin r) :
    kept (above S) (A i k j l) = cutAt S A i k j l := by
  classical
  unfold kept above cutAt
  by_cases h : S ≤ ‖A i k j l‖ <;> simp [h]

theorem keptSq_eq (S : ℝ) (A : Fin r → Fin r → Fin r → Fin r → ℂ) : Real.sqrt (keptSq S A) = frob (cutAt S A) := by
  unfold keptSq resTerms frob
  simp only [map_sum_flatMap, finRange_sum]
  congr 1
  refine Finset.sum_congr rfl fun i _ => Finset.sum_congr rfl fun k _ => Finset.sum_congr rfl fun j _ =>
    Finset.sum_congr rfl fun l _ => ?_
  rw [← kept_cutAt]
  split
  · rename_i h
    unfold kept
    rw [if_pos h.2, List.map_singleton, List.sum_singleton]
    show ((starRingEnd ℂ) (-A i k j l) * (-A i k j l)).re = _
    rw [mul_comm, Complex.mul_conj, Complex.ofReal_re, Complex.normSq_eq_norm_sq, norm_neg]
  · rename_i h
    have : kept (above S) (A i k j l) = 0 := by
      unfold kept
      split
      · rename_i hk
        by_contra hz
        refine h ⟨?_, hk⟩
        rw [← Bool.not_eq_true]
        intro hz'
        exact hz (Coef.isZero_iff _ |>.mp hz')
      · rfl
    rw [this]
    simp

theorem frob_cut_le (S : ℝ) (A : Fin r → Fin r → Fin r → Fin r → ℂ) : frob (cutAt S A) ≤ frob A := by
  unfold frob
  refine Real.sqrt_le_sqrt ?_
  refine Finset.sum_le_sum fun i _ => Finset.sum_le_sum fun k _ => Finset.sum_le_sum fun j _ => Finset.sum_le_sum fun l _ => ?_
  unfold cutAt
  split
  · exact le_rfl
  · simp

/-- **C114, classical solver.**  For every residual and threshold the solver returns minus the operator of the entries at or above the
threshold and half the Frobenius norm of the whole residual. -/
theorem C114_classical (S : ℝ) (A : Fin r → Fin r → Fin r → Fin r → ℂ) :
    ∃ B, classical S A = some (B, frob A / 2) ∧ UniqueKeys B ∧
      denD (denF 0) B = ∑ i, ∑ k, ∑ j, ∑ l, (-cutAt S A i k j l) • (gop i k j l : Oper ℂ) := by
  obtain ⟨B, b1, b2, b3⟩ := C74_operator (above S) A
  refine ⟨B, ?_, b2, by rw [b3]; simp only [kept_cutAt]⟩
  unfold classical
  rw [b1, Option.bind_some, if_pos]
  · show some (B, 0.5 * frob A) = _
    rw [show (0.5 : ℝ) * frob A = frob A / 2 by ring]
  · rw [keptSq_eq]
    have := frob_cut_le S A
    show frob (cutAt S A) - frob A < _
    linarith [show (0 : ℝ) < 1e-8 by norm_num]

/-- **C114, quantum solver, partial.**  The solver returns minus the operator of the entries at or above the threshold and half
their Frobenius norm, when the entries below the threshold change the norm by less than `1e-8`; otherwise it stops with an
`AssertionError`. -/
theorem C114_quantum_partial (S : ℝ) (A : Fin r → Fin r → Fin r → Fin r → ℂ) :
    (frob A - frob (cutAt S A) < 1e-8 → ∃ B, quantum S A = some (B, frob (cutAt S A) / 2) ∧ UniqueKeys B ∧
      denD (denF 0) B = ∑ i, ∑ k, ∑ j, ∑ l, (-cutAt S A i k j l) • (gop i k j l : Oper ℂ)) ∧
    (1e-8 ≤ frob A - frob (cutAt S A) → quantum S A = none) := by
  obtain ⟨B, b1, b2, b3⟩ := C74_operator (above S) A
  have hle := frob_cut_le S A
  have habs : |Real.sqrt (keptSq S A) - fullNorm A| = frob A - frob (cutAt S A) := by
    rw [keptSq_eq, abs_sub_comm]
    exact abs_of_nonneg (by linarith [show fullNorm A = frob A from rfl])
  refine ⟨fun h => ⟨B, ?_, b2, by rw [b3]; simp only [kept_cutAt]⟩, fun h => ?_⟩
  · unfold quantum
    rw [b1, Option.bind_some, habs, if_pos h, keptSq_eq, show (0.5 : ℝ) * frob (cutAt S A) = frob (cutAt S A) / 2 by ring]
  · unfold quantum
    rw [b1, Option.bind_some, habs, if_neg (not_lt.2 h)]

theorem sqrt_add_le (X Y c : ℝ) (hY : 0 ≤ Y) (hc : 0 ≤ c) (h : X ≤ Y + c ^ 2) : Real.sqrt X ≤ Real.sqrt Y + c := by
  have hp := Real.sqrt_nonneg Y
  rw [Real.sqrt_le_left (by positivity)]
  nlinarith [Real.sq_sqrt hY, mul_nonneg hp hc]

theorem frob_drop (S : ℝ) (A : Fin r → Fin r → Fin r → Fin r → ℂ) (hS : 0 ≤ S) :
    frob A ≤ frob (cutAt S A) + r ^ 2 * S := by
  have h0 : 0 ≤ ∑ i, ∑ k, ∑ j, ∑ l, ‖cutAt S A i k j l‖ ^ 2 := by positivity
  have h1 : ∑ i, ∑ k, ∑ j, ∑ l, ‖A i k j l‖ ^ 2 ≤ ∑ i, ∑ k, ∑ j, ∑ l, ‖cutAt S A i k j l‖ ^ 2 + (r ^ 2 * S) ^ 2 := by
    have e : ((r : ℝ) ^ 2 * S) ^ 2 = ∑ _i : Fin r, ∑ _k : Fin r, ∑ _j : Fin r, ∑ _l : Fin r, S ^ 2 := by
      simp only [Finset.sum_const, Finset.card_univ, Fintype.card_fin, nsmul_eq_mul]
      ring
    rw [e, ← Finset.sum_add_distrib]
    refine Finset.sum_le_sum fun i _ => ?_
    rw [← Finset.sum_add_distrib]
    refine Finset.sum_le_sum fun k _ => ?_
    rw [← Finset.sum_add_distrib]
    refine Finset.sum_le_sum fun j _ => ?_
    rw [← Finset.sum_add_distrib]
    refine Finset.sum_le_sum fun l _ => ?_
    unfold cutAt
    split
    · nlinarith [sq_nonneg S]
    · rename_i h
      have := not_le.1 h
      simp only [norm_zero]
      nlinarith [norm_nonneg (A i k j l)]
  exact sqrt_add_le _ _ _ h0 (by positivity) h1

/-- **C114.**  Thresholds below `1e-8 / r²` never stop the quantum solver: in particular the driver's default `1e-10` with fewer than
ten spin orbitals. -/
theorem C114_quantum_safe (S : ℝ) (hS : 0 ≤ S) (hr : r ^ 2 * S < 1e-8) (A : Fin r → Fin r → Fin r → Fin r → ℂ) :
    ∃ B n, quantum S A = some (B, n) ∧ |n - frob A / 2| ≤ r ^ 2 * S / 2 ∧
      denD (denF 0) B = ∑ i, ∑ k, ∑ j, ∑ l, (-cutAt S A i k j l) • (gop i k j l : Oper ℂ) := by
  have h := frob_drop S A hS
  obtain ⟨B, b1, _, b3⟩ := (C114_quantum_partial S A).1 (by linarith)
  refine ⟨B, _, b1, ?_, b3⟩
  have := frob_cut_le S A
  rw [abs_sub_comm, abs_of_nonneg (by linarith)]
  linarith

theorem frob_ge (A : Fin r → Fin r → Fin r → Fin r → ℂ) (i k j l : Fin r) : ‖A i k j l‖ ≤ frob A := by
  unfold frob
  refine Real.le_sqrt_of_sq_le ?_
  calc ‖A i k j l‖ ^ 2 ≤ ∑ l, ‖A i k j l‖ ^ 2 :=
        Finset.single_le_sum (f := fun l => ‖A i k j l‖ ^ 2) (fun _ _ => by positivity) (Finset.mem_univ l)
    _ ≤ ∑ j, ∑ l, ‖A i k j l‖ ^ 2 :=
        Finset.single_le_sum (f := fun j => ∑ l, ‖A i k j l‖ ^ 2) (fun _ _ => by positivity) (Finset.mem_univ j)
    _ ≤ ∑ k, ∑ j, ∑ l, ‖A i k j l‖ ^ 2 :=
        Finset.single_le_sum (f := fun k => ∑ j, ∑ l, ‖A i k j l‖ ^ 2) (fun _ _ => by positivity) (Finset.mem_univ k)
    _ ≤ _ := Finset.single_le_sum (f := fun i => ∑ k, ∑ j, ∑ l, ‖A i k j l‖ ^ 2) (fun _ _ => by positivity) (Finset.mem_univ i)

/-- **C114 is violated** by the quantum solver: a nearly converged residual, all of whose entries are below the threshold but not all below
`1e-8`, stops it with an `AssertionError`, while the classical solver returns the zero operator. -/
theorem C114_quantum_fails (S : ℝ) (A : Fin r → Fin r → Fin r → Fin r → ℂ) (hS : ∀ i k j l, ‖A i k j l‖ < S)
    (i k j l : Fin r) (h : 1e-8 ≤ ‖A i k j l‖) : quantum S A = none := by
  refine (C114_quantum_partial S A).2 ?_
  have h0 : cutAt S A = fun _ _ _ _ => 0 := by
    funext a b c d
    exact if_neg (not_le.2 (hS a b c d))
  have h1 : frob (cutAt S A) = 0 := by
    rw [h0]
    simp [frob]
  rw [h1, sub_zero]
  exact h.trans (frob_ge A i k j l)

/-- Signs of a residual with one pair of opposite elements and their exchanges. -/
def tinySign (i k j l : Fin 4) : ℤ :=
  if (i, k) = (0, 1) ∧ (j, l) = (2, 3) ∨ (i, k) = (1, 0) ∧ (j, l) = (3, 2) then 1
  else if (i, k) = (0, 1) ∧ (j, l) = (3, 2) ∨ (i, k) = (1, 0) ∧ (j, l) = (2, 3) then -1
  else if (i, k) = (2, 3) ∧ (j, l) = (0, 1) ∨ (i, k) = (3, 2) ∧ (j, l) = (1, 0) then -1
  else if (i, k) = (2, 3) ∧ (j, l) = (1, 0) ∨ (i, k) = (3, 2) ∧ (j, l) = (0, 1) then 1 else 0

def tinyRes (i k j l : Fin 4) : ℂ := 5e-7 * (tinySign i k j l : ℂ)

/-- The solver's default threshold is `1e-6`: the antisymmetric residual with entries `±5e-7` stops it. -/
example : (∀ i k j l, tinyRes j l i k = -tinyRes i k j l) ∧ (∀ i k j l, tinyRes k i j l = -tinyRes i k j l) ∧
    quantum 1e-6 tinyRes = none := by
  have h1 : ∀ i k j l, tinySign j l i k = -tinySign i k j l := by decide +kernel
  have h2 : ∀ i k j l, tinySign k i j l = -tinySign i k j l := by decide +kernel
  have h3 : ∀ i k j l, tinySign i k j l = 0 ∨ tinySign i k j l = 1 ∨ tinySign i k j l = -1 := by decide +kernel
  refine ⟨fun i k j l => ?_, fun i k j l => ?_, C114_quantum_fails _ _ (fun i k j l => ?_) 0 1 2 3 ?_⟩
  · unfold tinyRes; rw [h1]; push_cast; ring
  · unfold tinyRes; rw [h2]; push_cast; ring
  · unfold tinyRes
    rcases h3 i k j l with h | h | h <;> rw [h] <;> norm_num
  · unfold tinyRes
    rw [show tinySign 0 1 2 3 = 1 by decide]
    norm_num

/-- **C114, sign-free particles.**  With the driver's default norm the solver returns the operator of the entries at or above the threshold in sign-free
operators and half the Frobenius norm. -/
theorem C114_particle_partial (S : ℝ) (A : Fin r → Fin r → Fin r → Fin r → ℂ) :
    ∃ B, particle S .none A = some (B, frob A / 2) ∧ UniqueKeys B ∧
      denD (denQ 0) B = ∑ i, ∑ k, ∑ j, ∑ l, (-cutAt S A i k j l) •
        (qcre i.val * (qcre k.val * (qann l.val * qann j.val)) : Oper ℂ) := by
  obtain ⟨L, e1, e2, e3⟩ := mapM_qgenerate r (resTerms (above S) A) (fun t ht => ⟨by
    unfold resTerms at ht
    simp only [List.mem_flatMap, List.mem_finRange, true_and] at ht
    obtain ⟨i, k, j, l, ht⟩ := ht
    split at ht
    · rw [List.mem_singleton] at ht; subst ht; simp
    · simp at ht, resTerms_ok (above S) A t ht⟩)
  have hU : UniqueKeys ([] : OpD FStr ℂ) := List.nodup_nil
  refine ⟨L.foldl OpD.addStr [], ?_, OpD.foldl_addStr_unique L [] hU, ?_⟩
  · unfold particle
    rw [e1, Option.bind_some]
    show some (_, 0.5 * frob A) = _
    rw [show (0.5 : ℝ) * frob A = frob A / 2 by ring]
  · rw [OpD.denD_foldl_addStr _ _ _ hU, OpD.denD_nil, zero_add, e2]
    unfold resTerms
    simp only [map_sum_flatMap, finRange_sum]
    refine Finset.sum_congr rfl fun i _ => Finset.sum_congr rfl fun k _ => Finset.sum_congr rfl fun j _ =>
      Finset.sum_congr rfl fun l _ => ?_
    rw [← kept_cutAt]
    split
    · rename_i h
      unfold kept
      rw [if_pos h.2]
      simp [qwordOf, qmat, qcre, qann]
    · rename_i h
      have : kept (above S) (A i k j l) = 0 := by
        unfold kept
        split
        · rename_i hk
          by_contra hz
          refine h ⟨?_, hk⟩
          rw [← Bool.not_eq_true]
          intro hz'
          exact hz (Coef.isZero_iff _ |>.mp hz')
        · rfl
      rw [this]
      simp

/-- **C114 is violated** by the solver for sign-free particles: with every other norm the driver accepts, and with the solver's own default,
it raises an exception whatever the residual. -/
theorem C114_particle_fails (S : ℝ) (o : Ord) (ho : o ≠ .none) (A : Fin r → Fin r → Fin r → Fin r → ℂ) :
    particle S o A = none := by
  unfold particle npNorm
  cases ((resTerms (above S) A).mapM (fun t => Qubit.generate t.1 t.2 r)) with
  | none => rfl
  | some L => cases o <;> first | exact absurd rfl ho | rfl

theorem measured_anti (d : ℝ) (φ : Cfg →₀ ℂ) (i k j l : Fin r) :
    measured d (rdm2 (evState φ)) j l i k = -measured d (rdm2 (evState φ)) i k j l := by
  unfold measured
  have h : rdm2 (evState φ) j l i k = (starRingEnd ℂ) (rdm2 (evState φ) i k j l) := by
    have e : ∀ a b c d : Fin r, rdm2 (evState φ) a b c d = rdm φ [a.val, b.val] [c.val, d.val] := fun a b c d => by
      unfold rdm2 rdm rdmOp
      simp [evState, mul_assoc]
    rw [e, e]
    exact rdm_herm φ _ _
  rw [h, Complex.conj_im]
  push_cast
  ring

/-- **C114.**  The generator returned by the quantum solver is anti-Hermitian, whatever the propagated state: its exponentials are
unitary. -/
theorem C114_antihermitian (S d : ℝ) (φ : Cfg →₀ ℂ) (B : OpD FStr ℂ) (n : ℝ)
    (h : quantum S (measured d (rdm2 (evState φ) (r := r))) = some (B, n)) :
    IsAdj (-denD (denF 0) B : Oper ℂ) (denD (denF 0) B) := by
  set A := measured d (rdm2 (evState φ) (r := r)) with hA
  obtain ⟨B', b1, _, b3⟩ := C74_operator (above S) A
  have hB : B = B' := by
    unfold quantum at h
    rw [b1, Option.bind_some] at h
    split at h
    · exact (Prod.mk.inj (Option.some.inj h)).1.symm
    · cases h
  rw [hB, b3]
  refine residual_antiherm (fun i k j l => kept (above S) (A i k j l)) ?_ ?_
  · intro i k j l
    unfold kept
    split
    · exact Complex.conj_ofReal _
    · exact map_zero _
  · intro i k j l
    unfold kept above
    have := measured_anti d φ i k j l
    rw [← hA] at this
    rw [this, norm_neg]
    split <;> simp

/-- **C114, Hamiltonian given in parts.**  The residual collected from the separate runs tends to the one of the sum of the parts. -/
theorem C114_parts (Hs : List (List (PStr × ℂ))) (hr : ∀ H ∈ Hs, ∀ t ∈ H, t.2.im = 0) (n : ℕ) (hn : n ≠ 0) (ψ : Cfg →₀ ℂ)
    (i k j l : Fin r) (hG : (rdm2 (evState ψ) i k j l).im = 0) (ψd : List (PStr × ℂ) → ℝ → Cfg →₀ ℂ)
    (hψ : ∀ H ∈ Hs, ∀ d, (ψd H d : Cfg → ℂ) = circOp (Instr.gatesOf (Instr.applyH n d H)) ψ) :
    Tendsto (fun d => (measuredAll d (Hs.map fun H => rdm2 (evState (ψd H d))) i k j l).re) (𝓝[≠] 0)
      (𝓝 (pair ψ ((gop i k j l * (Hs.map denPO).sum - (Hs.map denPO).sum * gop i k j l : Oper ℂ) ψ)).re) := by
  induction Hs with
  | nil =>
    unfold measuredAll
    simp [pair]
  | cons H Hs ih =>
    have e1 := C77_limit H (hr H (by simp)) n hn ψ (gop i k j l) hG (ψd H) (hψ H (by simp))
    have e2 := ih (fun H h => hr H (by simp [h])) (fun H h => hψ H (by simp [h]))
    have e3 := e1.add e2
    refine (e3.congr fun d => ?_).trans (le_of_eq (congrArg 𝓝 ?_))
    · unfold measuredAll
      rw [List.map_cons, List.map_cons, List.sum_cons, Complex.add_re]
      rfl
    · have g : ∀ (G X Y : Oper ℂ), G * (X + Y) - (X + Y) * G = (G * X - X * G) + (G * Y - Y * G) := fun G X Y => by noncomm_ring
      rw [List.map_cons, List.sum_cons, g, LinearMap.add_apply, pair_add_right, Complex.add_re]

end
end Props
end HQCA
