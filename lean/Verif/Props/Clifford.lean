import Verif.Model.Clifford
import Verif.Proofs.Primitives
import Verif.Proofs.Operator
import Verif.Proofs.Transform

/-!
# C79: Clifford basis changes of operators and circuits
-/

set_option linter.unusedSectionVars false

namespace HQCA
namespace Props
open Cliff Prim

/-- Single-qubit matrix of the gates of a letter. -/
noncomputable def cm : CL → M2 ℂ
  | .I => 1
  | .H => mat2 r2 r2 r2 (-r2)
  | .S => mat2 1 0 0 Complex.I
  | .V => mat2 1 0 0 (-Complex.I) * mat2 r2 r2 r2 (-r2) * mat2 1 0 0 Complex.I

/-- Its inverse. -/
noncomputable def cmInv : CL → M2 ℂ
  | .S => mat2 1 0 0 (-Complex.I)
  | u => cm u

theorem circOp_gatesOne (n : ℕ) (u : CL) : circOp (gatesOne n u) = site n (cm u) := by
  cases u <;> simp [gatesOne, cm, circOp, site_one, opQ, site_mul, mul_assoc]

theorem cm_inv (u : CL) : cm u * cmInv u = 1 ∧ cmInv u * cm u = 1 := by
  have h : r2 ^ 2 = 1 / 2 := by rw [sq, r2_sq]
  have i2 : Complex.I ^ 2 = -1 := Complex.I_sq
  have i3 : Complex.I ^ 3 = -Complex.I := by rw [pow_succ, i2]; ring
  have i4 : Complex.I ^ 4 = 1 := by rw [pow_succ, i3]; linear_combination -i2
  cases u <;> simp only [cm, cmInv, mat2_mul, one_eq, and_self] <;> (try constructor) <;> apply M2.ext <;> simp only [mat2] <;>
    simp <;> ring_nf <;> simp only [h, i2, i3, i4] <;> ring_nf

/-- The rows `H` and `V` of the table are conjugation by the gates. -/
theorem table_conj (u : CL) (hu : u = .H ∨ u = .V) (p q : PL) (b : Bool) (h : table u p = some (q, b)) :
    (if b then (-1 : ℂ) else 1) • pmat q = cm u * pmat p * cmInv u := by
  have h2 : r2 ^ 2 = 1 / 2 := by rw [sq, r2_sq]
  have i2 : Complex.I ^ 2 = -1 := Complex.I_sq
  have i3 : Complex.I ^ 3 = -Complex.I := by rw [pow_succ, i2]; ring
  have i4 : Complex.I ^ 4 = 1 := by rw [pow_succ, i3]; linear_combination -i2
  have i5 : Complex.I ^ 5 = Complex.I := by rw [pow_succ, i4]; ring
  rcases hu with rfl | rfl <;> cases p <;>
    (simp only [table, Option.some.injEq, Prod.mk.injEq] at h; obtain ⟨rfl, rfl⟩ := h) <;>
    simp only [cm, cmInv, pmat, mX_eq, mY_eq, mZ_eq, one_eq, mat2_mul] <;> apply M2.ext <;>
    simp only [mat2, Matrix.smul_apply, smul_eq_mul, if_true, if_false, Bool.false_eq_true] <;> ring_nf <;>
    simp only [h2, i2, i3, i4, i5] <;> ring_nf

/-- The operator of the whole specification. -/
noncomputable def cop (k : ℕ) : List CL → Oper ℂ
  | [] => 1
  | u :: U => cop (k + 1) U * site k (cm u)

/-- The inverse of `cop`. -/
noncomputable def copInv (k : ℕ) : List CL → Oper ℂ
  | [] => 1
  | u :: U => site k (cmInv u) * copInv (k + 1) U

theorem circOp_gatesFrom (k : ℕ) (U : List CL) : circOp (gatesFrom k U) = cop k U := by
  induction U generalizing k with
  | nil => rfl
  | cons u U ih => rw [gatesFrom, circOp_append, ih, circOp_gatesOne, cop]

theorem cop_inv (k : ℕ) (U : List CL) : cop k U * copInv k U = 1 ∧ copInv k U * cop k U = 1 := by
  induction U generalizing k with
  | nil => simp [cop, copInv]
  | cons u U ih =>
    obtain ⟨h1, h2⟩ := ih (k + 1)
    constructor
    · rw [cop, copInv, mul_assoc, ← mul_assoc (site k (cm u)), ← site_mul, (cm_inv u).1, site_one, one_mul, h1]
    · rw [cop, copInv, mul_assoc, ← mul_assoc (copInv (k + 1) U), h2, one_mul, ← site_mul, (cm_inv u).2, site_one]

theorem site_cop (j k : ℕ) (h : j < k) (m : M2 ℂ) (U : List CL) : site j m * cop k U = cop k U * site j m := by
  induction U generalizing k with
  | nil => simp [cop]
  | cons u U ih => rw [cop, ← mul_assoc, ih (k + 1) (by omega), mul_assoc, site_comm (by omega : j ≠ k), mul_assoc]

theorem site_copInv (j k : ℕ) (h : j < k) (m : M2 ℂ) (U : List CL) : site j m * copInv k U = copInv k U * site j m := by
  induction U generalizing k with
  | nil => simp [copInv]
  | cons u U ih => rw [copInv, ← mul_assoc, site_comm (by omega : j ≠ k), mul_assoc, ih (k + 1) (by omega), mul_assoc]

theorem letters_conj (U : List CL) (hU : ∀ u ∈ U, u = .H ∨ u = .V) (s : PStr) (hl : s.length = U.length) (c : ℂ) (k : ℕ) :
    ∃ r, letters (s.zip U) c = some r ∧ r.1.length = s.length ∧
      r.2 • denP k r.1 = cop k U * (c • denP k s) * copInv k U := by
  induction U generalizing s c k with
  | nil =>
    have : s = [] := List.length_eq_zero_iff.mp hl
    subst this
    exact ⟨([], c), rfl, rfl, by simp [cop, copInv, denP]⟩
  | cons u U ih =>
    cases s with
    | nil => simp at hl
    | cons p s =>
      have hu := hU u (by simp)
      obtain ⟨⟨q, b⟩, hq⟩ : ∃ r, table u p = some r := by
        rcases hu with rfl | rfl <;> cases p <;> exact ⟨_, rfl⟩
      obtain ⟨r, e1, e2, e3⟩ := ih (fun v hv => hU v (by simp [hv])) s (by simpa using hl) (if b then -c else c) (k + 1)
      refine ⟨(q :: r.1, r.2), ?_, by simp [e2], ?_⟩
      · rw [List.zip_cons_cons, letters, hq]
        simp [e1]
      · have hm := table_conj u hu p q b hq
        have hc : (if b then -c else c) = (if b then (-1 : ℂ) else 1) * c := by split <;> ring
        have hm' : (site k (cm u) * site k (pmat p) * site k (cmInv u) : Oper ℂ)
            = (if b then (-1 : ℂ) else 1) • site k (pmat q) := by
          rw [← site_mul, ← site_mul, ← hm, site_smul]
        have e3' : r.2 • (denP (k + 1) r.1 : Oper ℂ)
            = (if b then (-1 : ℂ) else 1) • (c • (cop (k + 1) U * denP (k + 1) s * copInv (k + 1) U)) := by
          rw [e3, hc, mul_smul, mul_smul_comm, smul_mul_assoc, mul_smul_comm, smul_mul_assoc]
        show r.2 • (site k (pmat q) * denP (k + 1) r.1 : Oper ℂ) = _
        rw [cop, copInv, denP, ← mul_smul_comm, e3', mul_smul_comm, ← smul_mul_assoc, ← hm']
        rw [mul_smul_comm, mul_smul_comm, smul_mul_assoc]
        congr 1
        have c1 := fun m => site_cop k (k + 1) (by omega) m U
        have c2 : ∀ m : M2 ℂ, site k m * denP (k + 1) s = denP (k + 1) s * site k m := fun m => by
          rw [denP_site_lt (Nat.lt_succ_self k)]
        generalize cop (k + 1) U = C at *
        generalize copInv (k + 1) U = D at *
        generalize (denP (k + 1) s : Oper ℂ) = P at *
        calc site k (cm u) * site k (pmat p) * site k (cmInv u) * (C * P * D)
            = site k (cm u) * site k (pmat p) * (site k (cmInv u) * C) * P * D := by simp only [mul_assoc]
          _ = site k (cm u) * (site k (pmat p) * C) * (site k (cmInv u) * P) * D := by rw [c1]; simp only [mul_assoc]
          _ = (site k (cm u) * C) * site k (pmat p) * P * site k (cmInv u) * D := by rw [c1, c2]; simp only [mul_assoc]
          _ = _ := by rw [c1]; simp only [mul_assoc]

/-- **C79, gates `H` and `V`.** The operator returned by the basis change is the conjugate of the operator by the unitary of the
circuit `apply_clifford_operation`. Missing: the gate `S` (`C79_S_fails`) and qubits without a gate (`C79_identity_raises`). -/
theorem C79_clifford_partial (U : List CL) (hU : ∀ u ∈ U, u = .H ∨ u = .V) (A : POp ℂ)
    (hA : ∀ t ∈ A, t.1.length = U.length) :
    ∃ (B : POp ℂ) (C C' : Oper ℂ), clifford U A = some B ∧ UniqueKeys B ∧ C = circOp (gatesFrom 0 U) ∧ C * C' = 1 ∧ C' * C = 1 ∧
      denPO B = C * denPO A * C' := by
  have hg : ∀ t ∈ A, letters (t.1.zip U) t.2 = some ((letters (t.1.zip U) t.2).getD ([], 0)) := by
    intro t ht
    obtain ⟨r, e, _⟩ := letters_conj U hU t.1 (hA t ht) t.2 0
    rw [e]; rfl
  refine ⟨(A.map fun t => (letters (t.1.zip U) t.2).getD ([], 0)).foldl OpD.addStr [], cop 0 U, copInv 0 U, ?_, ?_, (circOp_gatesFrom 0 U).symm, (cop_inv 0 U).1, (cop_inv 0 U).2, ?_⟩
  · unfold clifford
    rw [OpD.mapM_total _ _ _ hg]
    rfl
  · exact OpD.foldl_addStr_unique _ _ OpD.uniqueKeys_nil
  · unfold denPO
    rw [OpD.denD_foldl_addStr _ _ _ OpD.uniqueKeys_nil, OpD.denD_nil, zero_add]
    clear hg
    induction A with
    | nil => simp [OpD.denD_nil]
    | cons t A ih =>
      obtain ⟨r, e1, _, e3⟩ := letters_conj U hU t.1 (hA t (by simp)) t.2 0
      rw [List.map_cons, OpD.denD_cons, OpD.denD_cons, ih (fun u hu => hA u (by simp [hu])), mul_add, add_mul, e1]
      simp only [Option.getD_some]
      rw [e3]

/-- **C79 is violated** for the gate `S`: no invertible operator conjugates the Pauli operators into what the table gives, so
the result is no basis change at all (in particular not the one of the circuit). -/
theorem C79_S_fails : ∃ B : PL → POp ℂ, (∀ p, clifford [.S] [([p], 1)] = some (B p)) ∧
    ¬ ∃ C C' : Oper ℂ, C * C' = 1 ∧ C' * C = 1 ∧ ∀ p, denPO (B p) = C * denP 0 [p] * C' := by
  refine ⟨fun p => match p with
    | .X => [([.Y], -1)] | .Y => [([.X], -1)] | .Z => [([.Z], 1)] | .I => [([.I], 1)], ?_, ?_⟩
  · intro p
    cases p <;> rfl
  · rintro ⟨C, C', h1, h2, h⟩
    have hX := h .X
    have hY := h .Y
    have hZ := h .Z
    have hxy : ∀ P Q : Oper ℂ, (C * P * C') * (C * Q * C') = C * (P * Q) * C' := by
      intro P Q
      calc (C * P * C') * (C * Q * C') = C * P * (C' * C) * Q * C' := by simp only [mul_assoc]
        _ = _ := by rw [h2, mul_one]; simp only [mul_assoc]
    have e := hxy (denP 0 [.X]) (denP 0 [.Y])
    rw [← hX, ← hY] at e
    have m1 : (denP 0 [PL.X] * denP 0 [PL.Y] : Oper ℂ) = Complex.I • denP 0 [PL.Z] := by
      simp only [denP, mul_one, pmat, ← site_mul, ← site_smul]
      congr 1
      rw [mX_eq, mY_eq, mZ_eq, mat2_mul]
      apply M2.ext <;> simp [mat2]
    have m2 : (denP 0 [PL.Y] * denP 0 [PL.X] : Oper ℂ) = (-Complex.I) • denP 0 [PL.Z] := by
      simp only [denP, mul_one, pmat, ← site_mul, ← site_smul]
      congr 1
      rw [mX_eq, mY_eq, mZ_eq, mat2_mul]
      apply M2.ext <;> simp [mat2]
    rw [m1, mul_smul_comm, smul_mul_assoc, ← hZ] at e
    simp only [denPO, OpD.denD_cons, OpD.denD_nil, add_zero, smul_mul_smul_comm, m2] at e
    have e' := congrFun (LinearMap.congr_fun e (fun _ => 1)) (fun _ => false)
    simp [denP, pmat, mZ_eq, mat2, site_apply] at e'
    have := congrArg Complex.im e'
    simp at this
    norm_num at this

/-- **C79 is violated** for qubits left alone: a letter `I` in the specification, which the circuit skips, raises. -/
theorem C79_identity_raises (U V : List CL) (s t : PStr) (p : PL) (c : ℂ) (A : POp ℂ) (h : s.length = U.length) :
    clifford (U ++ .I :: V) ((s ++ p :: t, c) :: A) = none := by
  have : ∀ (s : PStr) (U : List CL), s.length = U.length → ∀ c : ℂ, letters ((s ++ p :: t).zip (U ++ .I :: V)) c = none := by
    intro s
    induction s with
    | nil =>
      intro U h c
      have : U = [] := List.length_eq_zero_iff.mp h.symm
      subst this
      rfl
    | cons q s ih =>
      intro U h c
      cases U with
      | nil => simp at h
      | cons u U =>
        rw [List.cons_append, List.cons_append, List.zip_cons_cons, letters]
        cases table u q with
        | none => rfl
        | some r => simp [ih U (by simpa using h)]
  unfold clifford
  rw [List.mapM_cons, this s U h]
  rfl

example : clifford (K := GQ) [.H, .V] [([.Z, .Y], 1), ([.Y, .I], 2)] = some [([.X, .Z], -1), ([.Y, .I], -2)] := by decide +kernel

end Props
end HQCA
