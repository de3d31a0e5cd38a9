import Verif.Model.ParityFree
import Verif.Proofs.Parity
import Verif.Proofs.TransformExact
import Verif.Props.Taper

/-!
# `parity_free`: removing the two qubits fixed by the spin parities
-/

set_option linter.unusedSectionVars false

namespace HQCA.Props
open HQCA.Taper HQCA.Transform

section
variable {K : Type} [Coef K]

/-- Specification: the sign `(-1)^(number of occupied orbitals in S)`. -/
def parOp (S : Finset ℕ) : Oper K where
  toFun ψ := fun b => (if parOver S b then -1 else 1) * ψ b
  map_add' ψ φ := by funext b; simp [mul_add]
  map_smul' c ψ := by funext b; simp

theorem parOp_apply (S : Finset ℕ) (ψ : Cfg → K) (b : Cfg) : parOp S ψ b = sg (parOver S b) * ψ b := rfl

theorem parOp_comm (S T : Finset ℕ) : (parOp S * parOp T : Oper K) = parOp T * parOp S := by
  ext ψ b
  simp only [Module.End.mul_apply, parOp_apply]
  ring

theorem parOp_empty : (parOp ∅ : Oper K) = 1 := by
  ext ψ b
  rw [parOp_apply, parOver_empty]
  simp [sg]

theorem parOp_insert (a : ℕ) (S : Finset ℕ) (h : a ∉ S) : (parOp (insert a S) : Oper K) = site a mZ * parOp S := by
  ext ψ b
  rw [parOp_apply, parOver_insert a S b h, sg_xor, Module.End.mul_apply, site_mZ_apply, parOp_apply, sg]
  ring

theorem denP_replicate_Z (k n : ℕ) : (denP k (List.replicate n .Z) : Oper K) = parOp (Finset.Ico k (k + n)) := by
  induction n generalizing k with
  | zero => simp [denP, parOp_empty]
  | succ n ih =>
    rw [List.replicate_succ, denP, ih, pmat, ← parOp_insert _ _ (by simp)]
    congr 1
    ext x; simp; omega

theorem denP_append' (k : ℕ) (s t : PStr) : (denP k (s ++ t) : Oper K) = denP k s * denP (k + s.length) t := by
  induction s generalizing k with
  | nil => simp [denP]
  | cons x s ih =>
    rw [List.cons_append, denP, ih, denP, mul_assoc]
    congr 3
    simp; omega

/-- The sign of a set after one bit is changed. -/
theorem parOver_update (S : Finset ℕ) (b : Cfg) (k : ℕ) (x : Bool) (h : x ≠ b k) :
    parOver S (Function.update b k x) = xor (parOver S b) (decide (k ∈ S)) := by
  rw [← parOver_flip, flipBit]
  congr 2
  revert h; cases x <;> cases b k <;> simp

theorem parOver_update_of_not_mem (S : Finset ℕ) (b : Cfg) (k : ℕ) (x : Bool) (h : k ∉ S) :
    parOver S (Function.update b k x) = parOver S b := by
  unfold parOver
  congr 3
  apply Finset.filter_congr
  intro j hj
  rw [Function.update_of_ne (by rintro rfl; exact h hj)]

/-- Operators on other qubits commute with the sign. -/
theorem parOp_site (S : Finset ℕ) (k : ℕ) (m : M2 K) (h : k ∉ S) : (parOp S * site k m : Oper K) = site k m * parOp S := by
  ext ψ b
  simp only [Module.End.mul_apply, parOp_apply, site_apply, parOver_update_of_not_mem S b k _ h]
  ring

theorem parOp_cre (S : Finset ℕ) (k : ℕ) : (parOp S * cre k : Oper K) = (sg (decide (k ∈ S)) : K) • (cre k * parOp S) := by
  ext ψ b
  simp only [Module.End.mul_apply, parOp_apply, LinearMap.smul_apply, Pi.smul_apply, smul_eq_mul]
  show sg (parOver S b) * (if b k then fsign b k * ψ (Function.update b k false) else 0) =
    sg (decide (k ∈ S)) * (if b k then fsign b k * parOp S ψ (Function.update b k false) else 0)
  cases hb : b k
  · simp
  · have := sg_sq (K := K) (decide (k ∈ S))
    simp only [if_true, parOp_apply]
    rw [parOver_update S b k false (by rw [hb]; simp), sg_xor]
    linear_combination (-(sg (parOver S b) * fsign b k * ψ (Function.update b k false))) * this

theorem parOp_ann (S : Finset ℕ) (k : ℕ) : (parOp S * ann k : Oper K) = (sg (decide (k ∈ S)) : K) • (ann k * parOp S) := by
  ext ψ b
  simp only [Module.End.mul_apply, parOp_apply, LinearMap.smul_apply, Pi.smul_apply, smul_eq_mul]
  show sg (parOver S b) * (if b k then 0 else fsign b k * ψ (Function.update b k true)) =
    sg (decide (k ∈ S)) * (if b k then 0 else fsign b k * parOp S ψ (Function.update b k true))
  cases hb : b k
  · have := sg_sq (K := K) (decide (k ∈ S))
    simp only [Bool.false_eq_true, if_false, parOp_apply]
    rw [parOver_update S b k true (by rw [hb]; simp), sg_xor]
    linear_combination (-(sg (parOver S b) * fsign b k * ψ (Function.update b k true))) * this
  · simp

/-- A letter and the sign. -/
theorem parOp_fop (S : Finset ℕ) (k : ℕ) (x : FL) :
    (parOp S * fop k x : Oper K) = (sg (x.odd && decide (k ∈ S)) : K) • (fop k x * parOp S) := by
  have h2 := sg_sq (K := K) (decide (k ∈ S))
  cases x
  case i => simp [fop, FL.odd, sg]
  case cr => simpa [fop, FL.odd] using parOp_cre S k
  case an => simpa [fop, FL.odd] using parOp_ann S k
  case p =>
    simp only [fop, FL.odd, Bool.false_and]
    rw [← mul_assoc, parOp_cre, smul_mul_assoc, mul_assoc, parOp_ann, mul_smul_comm, smul_smul, h2, mul_assoc]
    simp [sg]
  case h =>
    simp only [fop, FL.odd, Bool.false_and]
    rw [← mul_assoc, parOp_ann, smul_mul_assoc, mul_assoc, parOp_cre, mul_smul_comm, smul_smul, h2, mul_assoc]
    simp [sg]

theorem parOp_denF_out (S : Finset ℕ) (k : ℕ) (s : FStr) (h : ∀ i < s.length, k + i ∉ S) :
    (parOp S * denF k s : Oper K) = denF k s * parOp S := by
  induction s generalizing k with
  | nil => simp [denF]
  | cons x s ih =>
    have h0 : k ∉ S := by simpa using h 0 (by simp)
    rw [denF, ← mul_assoc, parOp_fop, show (x.odd && decide (k ∈ S)) = false by simp [h0], sg]
    simp only [Bool.false_eq_true, if_false, one_smul]
    rw [mul_assoc, ih (k + 1) (fun i hi => by have := h (i + 1) (by simpa using hi); rwa [show k + 1 + i = k + (i + 1) by omega]),
      mul_assoc]

theorem parOp_denF_in (S : Finset ℕ) (k : ℕ) (s : FStr) (h : ∀ i < s.length, k + i ∈ S) :
    (parOp S * denF k s : Oper K) = ((-1) ^ nOdd s : K) • (denF k s * parOp S) := by
  induction s generalizing k with
  | nil => simp [denF, nOdd]
  | cons x s ih =>
    have h0 : k ∈ S := by simpa using h 0 (by simp)
    have hn : ((-1) ^ nOdd (x :: s) : K) = sg (x.odd && decide (k ∈ S)) * (-1) ^ nOdd s := by
      cases x <;> simp [nOdd, FL.odd, sg, h0, pow_succ]
    rw [denF, ← mul_assoc, parOp_fop, smul_mul_assoc, mul_assoc,
      ih (k + 1) (fun i hi => by have := h (i + 1) (by simpa using hi); rwa [show k + 1 + i = k + (i + 1) by omega]),
      mul_smul_comm, smul_smul, hn, mul_assoc]

theorem denF_append' (k : ℕ) (s t : FStr) : (denF k (s ++ t) : Oper K) = denF k s * denF (k + s.length) t := by
  induction s generalizing k with
  | nil => simp [denF]
  | cons x s ih =>
    rw [List.cons_append, denF, ih, denF, mul_assoc]
    congr 3
    simp; omega

/-- Specification: a string with an even number of ladder letters on the first `Na` orbitals, and on the others. -/
def ConservesParity (Na : ℕ) (s : FStr) : Prop := Even (nOdd (s.take Na)) ∧ Even (nOdd (s.drop Na))

theorem conserves_comm (Na Nb : ℕ) (s : FStr) (hs : s.length = Na + Nb) (h : ConservesParity Na s) :
    (parOp (Finset.range Na) * denF 0 s : Oper K) = denF 0 s * parOp (Finset.range Na) ∧
      (parOp (Finset.Ico Na (Na + Nb)) * denF 0 s : Oper K) = denF 0 s * parOp (Finset.Ico Na (Na + Nb)) := by
  have hl : (s.take Na).length = Na := by simp; omega
  have e : (denF 0 s : Oper K) = denF 0 (s.take Na) * denF Na (s.drop Na) := by
    conv_lhs => rw [← List.take_append_drop Na s, denF_append', hl, zero_add]
  rw [e]
  constructor
  · rw [← mul_assoc, parOp_denF_in _ _ _ (fun i hi => by simp; omega), h.1.neg_one_pow, one_smul, mul_assoc,
      parOp_denF_out _ _ _ (fun i hi => by simp), mul_assoc]
  · rw [← mul_assoc, parOp_denF_out _ _ _ (fun i hi => by simp; omega), mul_assoc,
      parOp_denF_in _ _ _ (fun i hi => by simp at hi ⊢; omega), h.2.neg_one_pow, one_smul, mul_assoc]

theorem ins_parOp (S : Finset ℕ) (q : ℕ) (v : Bool → K) (h : ∀ i ∈ S, i < q) (φ : Cfg → K) :
    ins q v (parOp S φ) = parOp S (ins q v φ) := by
  funext b
  have : parOver S (dropBit q b) = parOver S b := by
    unfold parOver
    congr 3
    apply Finset.filter_congr
    intro j hj
    simp [dropBit, h j hj]
  simp only [ins, parOp_apply, this]
  ring

/-- Eigenstates of the sign are the states supported on configurations of that parity. -/
theorem parOp_eig (S : Finset ℕ) (odd : Bool) (ψ : Cfg → K) :
    parOp S ψ = (sg odd : K) • ψ ↔ ∀ b, ψ b ≠ 0 → parOver S b = odd := by
  have h2 : (2 : K) ≠ 0 := Coef.two_ne_zero'
  constructor
  · intro h b hb
    have := congrFun h b
    simp only [parOp_apply, Pi.smul_apply, smul_eq_mul] at this
    have := mul_right_cancel₀ hb this
    by_contra hne
    revert this hne
    cases parOver S b <;> cases odd <;> simp [sg] <;> intro h
    · exact h2 (by linear_combination h)
    · exact h2 (by linear_combination -h)
  · intro h
    funext b
    simp only [parOp_apply, Pi.smul_apply, smul_eq_mul]
    by_cases hb : ψ b = 0
    · simp [hb]
    · rw [h b hb]

end

theorem modifyOne_unique (r null : ℂ) (tau : PStr) (q : ℕ) (e : ℂ) (A B : POp ℂ) (h : modifyOne r null tau q e A = some B) :
    UniqueKeys B := by
  unfold modifyOne at h
  obtain ⟨R, _, h⟩ := Option.bind_eq_some_iff.mp h
  unfold trim at h
  split at h
  · obtain ⟨l, _, rfl⟩ := Option.map_eq_some_iff.mp h
    exact OpD.foldl_addStr_unique _ _ OpD.uniqueKeys_nil
  · cases h

/-- The embedding of one tapering step, as a linear map. -/
noncomputable def embOne (tau : PStr) (q : ℕ) (e : ℂ) : (Cfg → ℂ) →ₗ[ℂ] (Cfg → ℂ) where
  toFun φ := denPO (symU rt tau q) (ins q (fun b => if b then e else 1) φ)
  map_add' φ χ := by rw [ins_add, map_add]
  map_smul' c φ := by rw [ins_smul, map_smul]; rfl

/-- The identity has every symmetry, so the embedding of a step is determined by the symmetry alone. -/
theorem embOne_spec (tau : PStr) (q : ℕ) (h : tau[q]? = some .Z ∨ tau[q]? = some .Y) (e : ℂ) (he : e = 1 ∨ e = -1) :
    Function.Injective (embOne tau q e) ∧ ∀ ψ, denP 0 tau ψ = e • ψ ↔ ∃ φ, ψ = embOne tau q e φ := by
  obtain ⟨B, emb, _, _, h3, h4, _, _, _, h8⟩ := tapered_step tau q h e he 0 1 (by norm_num) [] (GIop.nil 1) (by simp)
    (by show denP 0 tau * (0 : Oper ℂ) = 0 * denP 0 tau; simp)
  subst h8
  exact ⟨h3, h4⟩

theorem embOne_step (tau : PStr) (q : ℕ) (h : tau[q]? = some .Z ∨ tau[q]? = some .Y)
    (e : ℂ) (he : e = 1 ∨ e = -1) (null c : ℂ) (hc : 2e-12 < ‖c‖) (A : POp ℂ) (hA : GIop c A)
    (hn : ∀ t ∈ A, t.1.length = tau.length)
    (hsym : (denP 0 tau * denPO A : Oper ℂ) = denPO A * denP 0 tau) :
    ∃ B : POp ℂ, modifyOne rt null tau q e A = some B ∧ UniqueKeys B ∧
      (∀ u ∈ B, u.1.length = tau.length - 1) ∧ (∀ φ, denPO A (embOne tau q e φ) = embOne tau q e (denPO B φ)) ∧
      GIop (rt * c * rt) B ∧ ‖rt * c * rt‖ = ‖c‖ / 2 := by
  obtain ⟨B, emb, h1, h2, _, _, h5, h6, h7, h8⟩ := tapered_step tau q h e he null c hc A hA hn hsym
  subst h8
  exact ⟨B, h1, modifyOne_unique _ _ _ _ _ _ _ h1, h2, h5, h6, h7⟩

/-- An eigenvalue `+1` (even) or `-1` (odd). -/
theorem sg_cases (b : Bool) : (sg b : ℂ) = 1 ∨ (sg b : ℂ) = -1 := by cases b <;> simp [sg]

section
variable (Na Nb : ℕ) (ha : 1 ≤ Na) (hb : 1 ≤ Nb)
include ha hb

theorem tau1_get : (List.replicate Na PL.I ++ List.replicate Nb PL.Z)[Na + Nb - 1]? = some PL.Z := by
  rw [List.getElem?_append_right (by rw [List.length_replicate]; omega), List.length_replicate,
    List.getElem?_replicate, if_pos (by omega)]

theorem tau2_get : (List.replicate Na PL.Z ++ List.replicate (Nb - 1) PL.I)[Na - 1]? = some PL.Z := by
  rw [List.getElem?_append_left (by rw [List.length_replicate]; omega), List.getElem?_replicate, if_pos (by omega)]

theorem embOne_range (e : ℂ) (φ : Cfg → ℂ) :
    embOne (List.replicate Na PL.I ++ List.replicate Nb PL.Z) (Na + Nb - 1) e (parOp (Finset.range Na) φ) =
      parOp (Finset.range Na) (embOne (List.replicate Na PL.I ++ List.replicate Nb PL.Z) (Na + Nb - 1) e φ) := by
  show denPO _ (ins _ _ _) = parOp _ (denPO _ (ins _ _ φ))
  rw [ins_parOp _ _ _ (fun i hi => by have := Finset.mem_range.mp hi; omega),
    symU_den_of_ne _ _ _ (by simp; omega) (symU_ne _ _ .Z (tau1_get Na Nb ha hb) (by simp)), denP_pad', denP_replicate_Z]
  rw [← Module.End.mul_apply, ← Module.End.mul_apply, mul_smul_comm, smul_mul_assoc, mul_add, add_mul]
  rw [parOp_comm, parOp_site _ _ _ (by simp; omega)]

end

/-- The embedding of the states of the reduced register, one symmetry after the other. -/
noncomputable def embAll : List (PStr × ℕ × ℂ) → (Cfg → ℂ) →ₗ[ℂ] (Cfg → ℂ)
  | [] => LinearMap.id
  | (tau, q, e) :: l => embOne tau q e ∘ₗ embAll l

theorem parity_free_emb (Na Nb : ℕ) (ha : 1 ≤ Na) (hb : 1 ≤ Nb) (oa ob : Bool) :
    let emb := embAll (paritySyms Na Nb (sg oa) (sg ob))
    Function.Injective emb ∧
      (∀ ψ, (∃ φ, ψ = emb φ) ↔ ∀ b, ψ b ≠ 0 →
        parOver (Finset.range Na) b = oa ∧ parOver (Finset.Ico Na (Na + Nb)) b = ob) ∧
      ∀ (null c : ℂ) (m : ℕ) (A : OpD FStr ℂ), 4e-12 < ‖c / 2 ^ m‖ →
        (∀ t ∈ A, t.1.length = Na + Nb ∧ ConservesParity Na t.1 ∧ nLetters t.1 ≤ m ∧ ∃ z, GI z ∧ t.2 = z * c) →
        ∃ C : POp ℂ, OpD.transform (parityFree rt null Na Nb (sg oa) (sg ob) jordanWigner) A =
            some C ∧ UniqueKeys C ∧ (∀ u ∈ C, u.1.length = Na + Nb - 2) ∧
          ∀ φ, denD (denF 0) A (emb φ) = emb (denPO C φ) := by
  intro emb
  have hemb : emb = embOne (List.replicate Na .I ++ List.replicate Nb .Z) (Na + Nb - 1) (sg ob) ∘ₗ
      embOne (List.replicate Na .Z ++ List.replicate (Nb - 1) .I) (Na - 1) (sg oa) := rfl
  clear_value emb
  subst hemb
  set t1 : PStr := List.replicate Na .I ++ List.replicate Nb .Z with ht1
  set t2 : PStr := List.replicate Na .Z ++ List.replicate (Nb - 1) .I with ht2
  have g1 := tau1_get Na Nb ha hb
  have g2 := tau2_get Na Nb ha hb
  have d1 : (denP 0 t1 : Oper ℂ) = parOp (Finset.Ico Na (Na + Nb)) := by
    rw [ht1, denP_pad', denP_replicate_Z, zero_add]
  have d2 : (denP 0 t2 : Oper ℂ) = parOp (Finset.range Na) := by
    rw [ht2, denP_append', denP_replicate_Z, denP_replicate_I, mul_one, zero_add, Finset.range_eq_Ico]
  have l1 : t1.length = Na + Nb := by simp [ht1]
  have l2 : t2.length = Na + Nb - 1 := by simp [ht2]; omega
  obtain ⟨i1, r1⟩ := embOne_spec t1 _ (Or.inl g1) (sg ob) (sg_cases ob)
  obtain ⟨i2, r2⟩ := embOne_spec t2 _ (Or.inl g2) (sg oa) (sg_cases oa)
  have comm1 := fun φ => embOne_range Na Nb ha hb (sg ob) φ
  rw [← ht1] at comm1
  set e1 := embOne t1 (Na + Nb - 1) (sg ob) with he1
  set e2 := embOne t2 (Na - 1) (sg oa) with he2
  refine ⟨i1.comp i2, ?_, ?_⟩
  · intro ψ
    rw [forall_congr' (fun b => (imp_and (α := ψ b ≠ 0) (b := parOver (Finset.range Na) b = oa)
      (c := parOver (Finset.Ico Na (Na + Nb)) b = ob))), forall_and, ← parOp_eig, ← parOp_eig, ← d1, r1]
    constructor
    · rintro ⟨φ, rfl⟩
      refine ⟨?_, e2 φ, rfl⟩
      show parOp _ (e1 (e2 φ)) = _ • e1 (e2 φ)
      rw [← comm1, ← d2, (r2 (e2 φ)).mpr ⟨φ, rfl⟩, map_smul]
    · rintro ⟨h, χ, rfl⟩
      rw [← comm1, ← map_smul] at h
      obtain ⟨φ, rfl⟩ := (r2 χ).mp (by rw [d2]; exact i1 h)
      exact ⟨φ, rfl⟩
  · intro null c m A hc hA
    set M := c / 2 ^ m with hM
    have small_of : ∀ x : ℂ, 1e-12 < ‖x‖ → small x = false := by
      intro x hx
      rw [Bool.eq_false_iff]; intro hs
      have := (small_complex _).mp hs
      linarith
    have one : ∀ t ∈ A, ∃ r, parityFree rt null Na Nb (sg oa) (sg ob) jordanWigner t = some r ∧ UniqueKeys r ∧
        (∀ u ∈ r, u.1.length = Na + Nb - 2) ∧ GIop (rt * (rt * M * rt) * rt) r ∧
        (∀ φ, (t.2 • denF 0 t.1 : Oper ℂ) (e1 (e2 φ)) = e1 (e2 (denPO r φ))) ∧
        ‖rt * (rt * M * rt) * rt‖ = ‖M‖ / 4 := by
      intro t ht
      obtain ⟨hl, hcp, hm, hz⟩ := hA t ht
      obtain ⟨ca, cb⟩ := conserves_comm (K := ℂ) Na Nb t.1 hl hcp
      obtain ⟨Q, q1, _, q3, q4, q5⟩ := Spec.one_scale jordanWigner _ t (jw_spec t) m c
        (small_of _ (lt_trans (by norm_num) hc)) hm hz
      obtain ⟨B, b1, _, b3, b4, b5, b6⟩ := embOne_step t1 _ (Or.inl g1) (sg ob) (sg_cases ob) null M
        (lt_trans (by norm_num) hc) Q q4 (fun u hu => by rw [q3 u hu, hl, l1])
        (by rw [d1, q5, mul_smul_comm, smul_mul_assoc, cb])
      have hB : (denP 0 t2 * denPO B : Oper ℂ) = denPO B * denP 0 t2 := by
        ext φ : 1
        apply i1
        rw [d2]
        simp only [Module.End.mul_apply]
        rw [comm1, ← b4, ← b4, comm1, q5]
        have := congrArg (fun X : Oper ℂ => t.2 • X (e1 φ)) ca
        simpa only [Module.End.mul_apply, LinearMap.smul_apply, map_smul] using this
      obtain ⟨C, c1, c2, c3, c4, c5, c6⟩ := embOne_step t2 _ (Or.inl g2) (sg oa) (sg_cases oa) null (rt * M * rt)
        (by rw [b6]; linarith) B b5 (fun u hu => by rw [b3 u hu, l1, l2]) hB
      refine ⟨C, ?_, c2, fun u hu => by rw [c3 u hu, l2]; omega, c5, ?_, by rw [c6, b6]; ring⟩
      · unfold parityFree paritySyms
        rw [q1, Option.bind_some, modifyAll, b1, Option.bind_some, modifyAll, c1, Option.bind_some, modifyAll]
      · intro φ
        rw [← q5, he1, b4, he2, c4]
    rcases A.eq_nil_or_concat with rfl | ⟨A', x, rfl⟩
    · exact ⟨[], rfl, OpD.uniqueKeys_nil, by simp, fun φ => by
        show (0 : Oper ℂ) _ = (e1 ∘ₗ e2) ((0 : Oper ℂ) φ)
        simp⟩
    obtain ⟨_, _, _, _, _, _, hnorm⟩ := one x (by simp)
    classical
    choose! r hr using one
    obtain ⟨C, c1, c2, c3, c4, _⟩ := transform_fold _ (fun t => denPO (r t)) (rt * (rt * M * rt) * rt)
      (small_of _ (by rw [hnorm]; linarith)) (Na + Nb - 2) _ (fun t ht =>
        ⟨r t, (hr t ht).1, (hr t ht).2.1, (hr t ht).2.2.1, (hr t ht).2.2.2.1, rfl⟩)
    refine ⟨C, c1, c2, c4, fun φ => ?_⟩
    rw [c3]
    generalize (A'.concat x) = A at hr
    clear c1 c2 c3 c4 hnorm hA
    induction A with
    | nil =>
      show (0 : Oper ℂ) _ = (e1 ∘ₗ e2) ((0 : Oper ℂ) φ)
      simp
    | cons t A ih =>
      rw [OpD.denD_cons, List.map_cons, List.sum_cons, LinearMap.add_apply, LinearMap.add_apply, map_add,
        ih (fun u hu => hr u (List.mem_cons_of_mem _ hu))]
      congr 1
      exact (hr t List.mem_cons_self).2.2.2.2.1 φ

/-- **C89.** `parity_free(Na, Nb, paritya, parityb, JordanWigner)`: there is one embedding of the states of the
`Na+Nb-2` remaining qubits, linear and injective, whose range is exactly the states in which the first `Na` orbitals hold a
number of electrons of parity `oa` and the other `Nb` orbitals one of parity `ob`.  Every fermionic operator whose strings
conserve both parities is transformed to an operator on `Na+Nb-2` qubits that acts on the embedded states as the fermionic
operator does.  (`c` and `m` bound the coefficients so that cleaning at `1e-12` removes nothing.) -/
theorem C89_parity_free (Na Nb : ℕ) (ha : 1 ≤ Na) (hb : 1 ≤ Nb) (oa ob : Bool) :
    ∃ emb : (Cfg → ℂ) →ₗ[ℂ] (Cfg → ℂ), Function.Injective emb ∧
      (∀ ψ, (∃ φ, ψ = emb φ) ↔ ∀ b, ψ b ≠ 0 →
        parOver (Finset.range Na) b = oa ∧ parOver (Finset.Ico Na (Na + Nb)) b = ob) ∧
      ∀ (null c : ℂ) (m : ℕ) (A : OpD FStr ℂ), 4e-12 < ‖c / 2 ^ m‖ →
        (∀ t ∈ A, t.1.length = Na + Nb ∧ ConservesParity Na t.1 ∧ nLetters t.1 ≤ m ∧ ∃ z, GI z ∧ t.2 = z * c) →
        ∃ C : POp ℂ, OpD.transform (parityFree rt null Na Nb (if oa then -1 else 1) (if ob then -1 else 1) jordanWigner) A =
            some C ∧ UniqueKeys C ∧ (∀ u ∈ C, u.1.length = Na + Nb - 2) ∧
          ∀ φ, denD (denF 0) A (emb φ) = emb (denPO C φ) :=
  ⟨_, parity_free_emb Na Nb ha hb oa ob⟩

/-- The hypotheses are met by the hydrogen-like hopping and pair-hopping terms on two α and two β orbitals. -/
example : ConservesParity 2 [.cr, .an, .i, .p] ∧ ConservesParity 2 [.cr, .an, .cr, .an] ∧ ¬ ConservesParity 2 [.cr, .i, .an, .i] := by
  unfold ConservesParity
  decide

end HQCA.Props
