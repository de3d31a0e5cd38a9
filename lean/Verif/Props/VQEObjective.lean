import Verif.Model.VQEObjective
import Verif.Props.AnsatzCircuit
import Verif.Props.QResidual
import Verif.Props.StateTomo
import Verif.Props.Prepare

/-!
# C111: the VQE objective is the energy of the cluster state

`RunVQE.__test_vqe_function` (`vqe/vqe.py:99-126`) end to end: reference circuit (C78), ansatz circuit (C110), tomography
(C96), contraction with the reduced Hamiltonian (C51, C52).
-/

namespace HQCA
namespace Props
open UCC Instr Prim Prepare VQEObj Ham
noncomputable section

/-! ### Exponentials preserve what their generators preserve -/

/-- All amplitudes outside `S` vanish. -/
def InS (S : Cfg → Prop) (ψ : Cfg → ℂ) : Prop := ∀ b, ψ b ≠ 0 → S b

theorem InS.exp {S : Cfg → Prop} {X U : Oper ℂ} (hU : IsExp X U) (hX : ∀ ψ, InS S ψ → InS S (X ψ)) (ψ : Cfg → ℂ) (h : InS S ψ) :
    InS S (U ψ) := by
  intro b hb
  by_contra hS
  have hk : ∀ k, InS S ((X ^ k) ψ) := by
    intro k
    induction k with
    | zero => exact h
    | succ k ih => rw [pow_succ']; exact hX _ ih
  have h0 : ∀ k, (X ^ k) ψ b = 0 := fun k => by
    by_contra hne
    exact hS (hk k b hne)
  have := hU ψ b
  simp only [h0, mul_zero] at this
  exact hb (this.unique hasSum_zero)

theorem RealAmp.exp {X U : Oper ℂ} (hU : IsExp X U) (hX : IsReal X) (ψ : Cfg → ℂ) (h : RealAmp ψ) : RealAmp (U ψ) := by
  intro b
  have hk : ∀ k, RealAmp ((X ^ k) ψ) := by
    intro k
    induction k with
    | zero => exact h
    | succ k ih =>
      rw [pow_succ']
      intro c
      have := hX ((X ^ k) ψ) c
      have e : (fun e => (starRingEnd ℂ) ((X ^ k) ψ e)) = (X ^ k) ψ := funext ih
      rw [e] at this
      exact this.symm
  have h1 := hU ψ b
  refine h1.unique ?_ |>.symm
  have h3 : HasSum (fun k : ℕ => (starRingEnd ℂ) (((Nat.factorial k : ℂ))⁻¹ * (X ^ k) ψ b)) ((starRingEnd ℂ) (U ψ b)) :=
    h1.map (starRingEnd ℂ) Complex.continuous_conj
  have e : (fun k : ℕ => (starRingEnd ℂ) (((Nat.factorial k : ℂ))⁻¹ * (X ^ k) ψ b)) =
      fun k : ℕ => ((Nat.factorial k : ℂ))⁻¹ * (X ^ k) ψ b := by
    funext k
    have := hk k b
    rw [map_mul, map_inv₀, Complex.conj_natCast]
    congr 1
  rw [e] at h3
  exact h3

/-! ### The generators -/

/-- The configurations of a register of `N` orbitals with `n` electrons, `m` of them in the first `no`. -/
def InSec (no N m n : ℕ) (b : Cfg) : Prop := occAlpha no b = m ∧ occAlpha N b = n ∧ ∀ i, N ≤ i → b i = false

theorem reg_cre (N k : ℕ) (hk : k < N) (ψ : Cfg → ℂ) (h : InS (fun b => ∀ i, N ≤ i → b i = false) ψ) :
    InS (fun b => ∀ i, N ≤ i → b i = false) (cre k ψ) := by
  intro b hb i hi
  replace hb : (if b k then fsign b k * ψ (Function.update b k false) else 0) ≠ 0 := hb
  split at hb
  · have := h _ (right_ne_zero_of_mul hb) i hi
    rwa [Function.update_of_ne (by omega)] at this
  · exact absurd rfl hb

theorem reg_ann (N k : ℕ) (hk : k < N) (ψ : Cfg → ℂ) (h : InS (fun b => ∀ i, N ≤ i → b i = false) ψ) :
    InS (fun b => ∀ i, N ≤ i → b i = false) (ann k ψ) := by
  intro b hb i hi
  replace hb : (if b k then 0 else fsign b k * ψ (Function.update b k true)) ≠ 0 := hb
  split at hb
  · exact absurd rfl hb
  · have := h _ (right_ne_zero_of_mul hb) i hi
    rwa [Function.update_of_ne (by omega)] at this

theorem reg_prod (N : ℕ) (f : ℕ → Oper ℂ) (l : List ℕ) (hl : ∀ k ∈ l, k < N)
    (hf : ∀ k < N, ∀ ψ, InS (fun b => ∀ i, N ≤ i → b i = false) ψ → InS (fun b => ∀ i, N ≤ i → b i = false) (f k ψ)) (ψ : Cfg → ℂ)
    (h : InS (fun b => ∀ i, N ≤ i → b i = false) ψ) : InS (fun b => ∀ i, N ≤ i → b i = false) ((l.map f).prod ψ) := by
  induction l with
  | nil => exact h
  | cons x l ih =>
    rw [List.map_cons, List.prod_cons]
    exact hf x (hl x (by simp)) _ (ih (fun k hk => hl k (by simp [hk])))

/-- Creators and annihilators of an excitation balance below every cut. -/
def Bal (no N : ℕ) (t : List ℕ) : Prop :=
  nAlpha no (t.take (t.length / 2)) = nAlpha no (t.drop (t.length / 2)) ∧ (∀ i ∈ t, i < N) ∧ t.length % 2 = 0

theorem Bal.reverse {no N : ℕ} {t : List ℕ} (h : Bal no N t) : Bal no N t.reverse := by
  refine ⟨?_, fun i hi => h.2.1 i (List.mem_reverse.mp hi), by rw [List.length_reverse]; exact h.2.2⟩
  have e : t.length - t.length / 2 = t.length / 2 := by have := h.2.2; omega
  rw [List.length_reverse, List.take_reverse, List.drop_reverse, e]
  unfold nAlpha
  rw [List.countP_reverse, List.countP_reverse]
  exact h.1.symm

theorem nAlpha_all (N : ℕ) (l : List ℕ) (h : ∀ i ∈ l, i < N) : nAlpha N l = l.length := by
  unfold nAlpha
  rw [List.countP_eq_length]
  simpa using h

theorem inS_exc {no N m n : ℕ} {t : List ℕ} (h : Bal no N t) (ψ : Cfg → ℂ) (hψ : InS (InSec no N m n) ψ) :
    InS (InSec no N m n) (excOp t ψ) := by
  have s1 : Sector no (m : ℤ) ψ := fun b hb => by exact_mod_cast (hψ b hb).1
  have s2 : Sector N (n : ℤ) ψ := fun b hb => by exact_mod_cast (hψ b hb).2.1
  have s3 : InS (fun b => ∀ i, N ≤ i → b i = false) ψ := fun b hb => (hψ b hb).2.2
  have t1 : ∀ i ∈ t.take (t.length / 2), i < N := fun i hi => h.2.1 i (List.mem_of_mem_take hi)
  have t2 : ∀ i ∈ t.drop (t.length / 2), i < N := fun i hi => h.2.1 i (List.mem_of_mem_drop hi)
  have r1 := (s1.anns (t.drop (t.length / 2))).cres (t.take (t.length / 2))
  have r2 := (s2.anns (t.drop (t.length / 2))).cres (t.take (t.length / 2))
  have r3 := reg_prod N cre _ t1 (fun k hk => reg_cre N k hk) _ (reg_prod N ann _ t2 (fun k hk => reg_ann N k hk) ψ s3)
  rw [h.1, sub_add_cancel] at r1
  rw [nAlpha_all N _ t1, nAlpha_all N _ t2, List.length_take, List.length_drop] at r2
  have e : min (t.length / 2) t.length = t.length - t.length / 2 := by have := h.2.2; omega
  rw [e, sub_add_cancel] at r2
  intro b hb
  exact ⟨by exact_mod_cast r1 b hb, by exact_mod_cast r2 b hb, r3 b hb⟩

theorem inS_gen {no N m n : ℕ} {t : List ℕ} (h : Bal no N t) (z : ℂ) (ψ : Cfg → ℂ) (hψ : InS (InSec no N m n) ψ) :
    InS (InSec no N m n) ((z • (excOp t - excOp t.reverse : Oper ℂ)) ψ) := by
  intro b hb
  have e : (z • (excOp t - excOp t.reverse : Oper ℂ)) ψ b = z * (excOp t ψ b - excOp t.reverse ψ b) := rfl
  rw [e] at hb
  by_cases h1 : excOp t ψ b = 0
  · refine inS_exc h.reverse ψ hψ b fun h2 => hb ?_
    rw [h1, h2]; simp
  · exact inS_exc h ψ hψ b h1

/-! ### The cluster state -/

theorem prod_preserves {α : Type} (R : α → Oper ℂ → Prop) (P : (Cfg → ℂ) → Prop) (l : List α) (Us : List (Oper ℂ)) (h : List.Forall₂ R l Us)
    (hR : ∀ x ∈ l, ∀ U, R x U → ∀ ψ, P ψ → P (U ψ)) : ∀ ψ, P ψ → P (Us.reverse.prod ψ) := by
  induction h with
  | nil => exact fun ψ h => h
  | cons a b ih =>
    intro ψ hψ
    rw [List.reverse_cons, List.prod_append, List.prod_singleton]
    exact ih (fun x hx => hR x (by simp [hx])) _ (hR _ (by simp) _ a _ hψ)

/-- Circuits of Pauli exponentials keep norms. -/
theorem circ_norm (gs : List (ℝ × PStr)) (φ : Cfg →₀ ℂ) :
    ∃ φ' : Cfg →₀ ℂ, (φ' : Cfg → ℂ) = circOp (gatesOf gs) φ ∧ pair φ' φ' = pair φ φ := by
  induction gs generalizing φ with
  | nil => exact ⟨φ, rfl, rfl⟩
  | cons g gs ih =>
    obtain ⟨φ1, h1, h2⟩ := isAdj_gadget g.1 g.2 φ
    have hn : pair φ1 φ1 = pair φ φ := by
      rw [← h2 φ1, h1]
      have : (circOp (gadget (-g.1) g.2)) ((circOp (gadget g.1 g.2)) φ) = φ := by
        by_cases h : ∃ p ∈ g.2, p ≠ PL.I
        · rw [gadget_eq _ _ h, gadget_eq _ _ h]
          have key : ∀ {R : Type} [Ring R] [Algebra ℂ R] (P : R) (c s : ℂ), P * P = 1 → c * c + s * s = 1 →
              (c • 1 + (Complex.I * -s) • P) * (c • 1 + (Complex.I * s) • P) = 1 := by
            intro R _ _ P c s hP hcs
            simp only [mul_add, add_mul, smul_mul_smul_comm, one_mul, mul_one, hP]
            have : ∀ a b d e : ℂ, a + e = 1 → b + d = 0 → a • (1 : R) + b • P + (d • P + e • (1 : R)) = 1 := by
              intro a b d e h1 h2
              calc a • (1 : R) + b • P + (d • P + e • (1 : R)) = (a + e) • (1 : R) + (b + d) • P := by module
                _ = 1 := by rw [h1, h2]; simp
            refine this _ _ _ _ ?_ (by ring)
            linear_combination hcs - s * s * Complex.I_sq
          have e := key (denP 0 g.2 : Oper ℂ) ((Real.cos g.1 : ℝ) : ℂ) ((Real.sin g.1 : ℝ) : ℂ) (Reduce.denP_sq 0 g.2) (by
            rw [← sq, ← sq]; exact_mod_cast Real.cos_sq_add_sin_sq g.1)
          have e' := LinearMap.congr_fun e (φ : Cfg → ℂ)
          rw [Real.cos_neg, Real.sin_neg]
          push_cast at e' ⊢
          exact e'
        · rw [all_I g.2 h, gadget_I, gadget_I]; rfl
      rw [this]
    obtain ⟨φ2, h3, h4⟩ := ih φ1
    refine ⟨φ2, ?_, h4.trans hn⟩
    rw [h3, h1]
    unfold gatesOf
    rw [List.flatMap_cons, circOp_append]
    rfl

/-! ### The reference -/

theorem occAlpha_ref (no na nb M : ℕ) (ha : na ≤ no) :
    occAlpha M (fun j => decide (j < na ∨ (no ≤ j ∧ j < no + nb))) = min na M + min nb (M - no) := by
  induction M with
  | zero => simp [occAlpha]
  | succ M ih =>
    rw [occAlpha_succ, ih]
    by_cases h : M < na ∨ (no ≤ M ∧ M < no + nb)
    · rw [if_pos (by simpa using h)]; omega
    · rw [if_neg (by simpa using h)]; omega

/-- The determinant with the first `na` alpha and the first `nb` beta orbitals occupied (specification). -/
def hfCfg (no na nb : ℕ) : Cfg := fun j => decide (j < na ∨ (no ≤ j ∧ j < no + nb))

theorem hfCfg_eq (no na nb : ℕ) (ha : na ≤ no) (hb : nb ≤ no) :
    Props.occ ((defaultOrbs no).1.take na ++ (defaultOrbs no).2.take nb) = hfCfg no na nb := by
  funext j
  unfold Props.occ hfCfg
  rw [decide_eq_decide]
  unfold defaultOrbs
  simp only [List.mem_append, ← List.map_take, List.take_range, List.mem_range, List.mem_map]
  constructor
  · rintro (h | ⟨x, h1, h2⟩) <;> omega
  · rintro (h | h)
    · left; omega
    · right; exact ⟨j - no, by omega, by omega⟩

theorem hfCfg_sec (no na nb : ℕ) (ha : na ≤ no) (hb : nb ≤ no) : InSec no (2 * no) na (na + nb) (hfCfg no na nb) := by
  refine ⟨?_, ?_, fun i hi => ?_⟩
  · unfold hfCfg; rw [occAlpha_ref no na nb no ha]; omega
  · unfold hfCfg; rw [occAlpha_ref no na nb (2 * no) ha]; omega
  · unfold hfCfg; rw [decide_eq_false_iff_not]; omega

theorem bal_full (no : ℕ) (init : List ℕ) (ts : List (List ℕ))
    (h : getUCC (defaultOrbs no).1 (defaultOrbs no).2 init true true false false = some ts) : ∀ t ∈ ts, Bal no (2 * no) t := by
  have hL : ts = full (defaultOrbs no).1 (defaultOrbs no).2 init := by simpa [getUCC, full] using h.symm
  subst hL
  have ma : ∀ x, x ∈ (defaultOrbs no).1 ↔ x < no := fun x => List.mem_range
  have mb : ∀ x ∈ (defaultOrbs no).2, no ≤ x ∧ x < 2 * no := by
    intro x hx
    unfold defaultOrbs at hx
    simp only [List.mem_map, List.mem_range] at hx
    obtain ⟨y, hy, rfl⟩ := hx
    omega
  intro t ht
  simp only [full, List.mem_append] at ht
  rcases ht with (he | he) | ((he | he) | he)
  · obtain ⟨i, j, hi, hj, rfl⟩ := mem_singles _ _ _ he
    rw [mem_occ, ma] at hi; rw [mem_vir, ma] at hj
    refine ⟨by simp [nAlpha, hi.1, hj.1], ?_, by simp⟩
    simp; omega
  · obtain ⟨i, j, hi, hj, rfl⟩ := mem_singles _ _ _ he
    rw [mem_occ] at hi; rw [mem_vir] at hj
    have a1 := mb _ hi.1; have a2 := mb _ hj.1
    have b1 : ¬ i < no := by omega
    have b2 : ¬ j < no := by omega
    refine ⟨by simp [nAlpha, b1, b2], ?_, by simp⟩
    simp; omega
  · obtain ⟨i, k, l, j, hi, hk, hl, hj, h1, h2, rfl⟩ := mem_same _ _ _ he
    rw [mem_occ, ma] at hi hk; rw [mem_vir, ma] at hj hl
    refine ⟨by simp [nAlpha, hi.1, hj.1, hk.1, hl.1], ?_, by simp⟩
    simp; omega
  · obtain ⟨i, k, l, j, hi, hk, hl, hj, h1, h2, rfl⟩ := mem_same _ _ _ he
    rw [mem_occ] at hi hk; rw [mem_vir] at hj hl
    have a1 := mb _ hi.1; have a2 := mb _ hj.1; have a3 := mb _ hk.1; have a4 := mb _ hl.1
    have b1 : ¬ i < no := by omega
    have b2 : ¬ j < no := by omega
    have b3 : ¬ k < no := by omega
    have b4 : ¬ l < no := by omega
    refine ⟨by simp [nAlpha, b1, b2, b3, b4], ?_, by simp⟩
    simp; omega
  · obtain ⟨i, k, l, j, hi, hk, hl, hj, h1, rfl⟩ := mem_mixed _ _ _ _ _ he
    rw [mem_occ, ma] at hi; rw [mem_occ] at hk; rw [mem_vir] at hl; rw [mem_vir, ma] at hj
    have a3 := mb _ hk.1; have a4 := mb _ hl.1
    have b3 : ¬ k < no := by omega
    have b4 : ¬ l < no := by omega
    refine ⟨by simp [nAlpha, hi.1, hj.1, b3, b4], ?_, by simp⟩
    simp; omega

theorem number_sec (r n : ℕ) (ψ : Cfg → ℂ) (h : ∀ b, ψ b ≠ 0 → occAlpha r b = n) : (numberOp r : Oper ℂ) ψ = (n : ℂ) • ψ := by
  funext b
  have hs : ∀ r, (∑ i : Fin r, if b i.val then ψ b else 0) = (occAlpha r b : ℂ) * ψ b := by
    intro r
    induction r with
    | zero => simp [occAlpha]
    | succ r ih =>
      rw [Fin.sum_univ_castSucc, occAlpha_succ]
      simp only [Fin.val_castSucc, Fin.val_last]
      rw [ih]
      by_cases hb : b r <;> simp [hb, add_mul]
  unfold numberOp
  rw [LinearMap.sum_apply, Finset.sum_apply]
  simp only [number_apply]
  rw [hs]
  show _ = (n : ℂ) * ψ b
  by_cases h0 : ψ b = 0
  · rw [h0]; simp
  · rw [h b h0]

theorem rdme2_ne (no : ℕ) (h : 0 < no) : Tomo.rdme 2 ⟨true, false⟩ (alpha no) (beta no no) ≠ [] := by
  intro h0
  have h1 := (C27_order2_partial ⟨true, false⟩ no no le_rfl).2 [0, no] [0, no]
    ⟨rfl, by simpa using h, by simp; omega⟩ ⟨rfl, by simpa using h, by simp; omega⟩ rfl
  have h2 : Tomo.rdme2 ⟨true, false⟩ (alpha no) (beta no no) = [] := h0
  rw [h2] at h1
  simp [Tomo.Flags.skipDiag] at h1

theorem beta_default (no : ℕ) : (defaultOrbs no).2 = beta no no := by
  unfold defaultOrbs beta
  exact List.map_congr_left fun x _ => Nat.add_comm x no

theorem rdm_phase (d : ℂ) (hd : ‖d‖ = 1) (φ : Cfg →₀ ℂ) (c a : List ℕ) : rdm (d • φ) c a = rdm φ c a := by
  unfold rdm
  have e : ((d • φ : Cfg →₀ ℂ) : Cfg → ℂ) = d • (φ : Cfg → ℂ) := rfl
  rw [pair_smul_left, e, map_smul, pair_smul_right, ← mul_assoc]
  have : conj d * d = 1 := by
    show (starRingEnd ℂ) d * d = 1
    rw [mul_comm, Complex.mul_conj, Complex.normSq_eq_norm_sq, hd]; simp
  rw [this, one_mul]

theorem pair_phase (d : ℂ) (hd : ‖d‖ = 1) (φ : Cfg →₀ ℂ) : pair (d • φ) (d • φ : Cfg →₀ ℂ) = pair φ φ := by
  have := rdm_phase d hd φ [] []
  exact this

theorem rdm2_evState {r : ℕ} (ψ : Cfg →₀ ℂ) (a b c d : Fin r) :
    rdm2 (evState ψ) a b c d = rdm ψ [a.val, b.val] [c.val, d.val] := by
  unfold rdm2 rdm rdmOp evState
  simp only [List.map_cons, List.map_nil, List.prod_cons, List.prod_nil, mul_one, List.reverse_cons, List.reverse_nil, List.nil_append,
    List.cons_append, LinearMap.coe_mk, AddHom.coe_mk, mul_assoc]

theorem observable_close {r : ℕ} (H D D' : Fin r → Fin r → Fin r → Fin r → ℂ) (ε : ℝ) (h : ∀ a b c d, ‖D a b c d - D' a b c d‖ ≤ ε) :
    ‖observable H D - observable H D'‖ ≤ ε * ∑ a, ∑ b, ∑ c, ∑ d, ‖H a b c d‖ := by
  unfold observable
  simp only [← Finset.sum_sub_distrib, ← mul_sub, Finset.mul_sum]
  refine (norm_sum_le _ _).trans (Finset.sum_le_sum fun a _ => (norm_sum_le _ _).trans (Finset.sum_le_sum fun b _ =>
    (norm_sum_le _ _).trans (Finset.sum_le_sum fun c _ => (norm_sum_le _ _).trans (Finset.sum_le_sum fun d _ => ?_))))
  rw [norm_mul, mul_comm]
  exact mul_le_mul_of_nonneg_right (h _ _ _ _) (norm_nonneg _)

/-- The state simulated by a VQE evaluation is, up to a phase, the cluster state. -/
theorem vqe_state (d : ℝ) (hd : d ≠ 0) (no na nb : ℕ) (ha : na ≤ no) (hb : nb ≤ no) (ps : List ℂ) (hp : ∀ p ∈ ps, conj p = p) :
    ∃ (l : List ℕ) (ts : List (List ℕ)) (Us : List (Oper ℂ)) (Ψ : Cfg →₀ ℂ) (ph : ℂ),
      initial (defaultOrbs no).1 (defaultOrbs no).2 na nb = some l ∧
      getUCC (defaultOrbs no).1 (defaultOrbs no).2 l true true false false = some ts ∧
      List.Forall₂ (fun x U => IsExp ((x.2 / (d : ℂ)) • (excOp x.1 - excOp x.1.reverse : Oper ℂ)) U)
        ((ts.zip ps).filter (fun x => !tinyC x.2)) Us ∧
      (Ψ : Cfg → ℂ) = Us.reverse.prod (ket (hfCfg no na nb)) ∧ ‖ph‖ = 1 ∧
      state d no na nb ps = some ((ph • Ψ : Cfg →₀ ℂ) : Cfg → ℂ) ∧
      pair Ψ Ψ = 1 ∧ InS (InSec no (2 * no) na (na + nb)) Ψ ∧ RealAmp (Ψ : Cfg → ℂ) := by
  obtain ⟨l, pg, dd, h1, h2, h3, h4⟩ := C78_reference no na nb ha hb _ (Or.inl rfl)
  rw [hfCfg_eq no na nb ha hb] at h4
  have ex : ∃ ts, getUCC (defaultOrbs no).1 (defaultOrbs no).2 l true true false false = some ts := ⟨_, rfl⟩
  obtain ⟨ts, h5⟩ := ex
  have hbal := bal_full no l ts h5
  have hent := C110_entries (defaultOrbs no).1 (defaultOrbs no).2 l (by
    intro x hx hx'
    rw [beta_default, mem_beta] at hx'
    have : x < no := List.mem_range.mp hx
    omega) (2 * no) (by
    intro x hx
    rcases List.mem_append.mp hx with hx | hx
    · have : x < no := List.mem_range.mp hx
      omega
    · rw [beta_default, mem_beta] at hx
      omega) ts h5
  obtain ⟨psi, gs, Us, ph, e1, e2, e3, e4, e5⟩ := C110_circuit_partial d hd (2 * no) ts ps hent hp
  classical
  have hk : ((Finsupp.single (hfCfg no na nb) 1 : Cfg →₀ ℂ) : Cfg → ℂ) = ket (hfCfg no na nb) := by
    funext b
    rw [Finsupp.single_apply]
    unfold ket
    by_cases hbb : b = hfCfg no na nb
    · rw [if_pos hbb.symm, if_pos hbb]
    · rw [if_neg (Ne.symm hbb), if_neg hbb]
  obtain ⟨φ, f1, f2⟩ := circ_norm gs (Finsupp.single (hfCfg no na nb) 1)
  rw [hk] at f1
  have hΨ : ((ph • φ : Cfg →₀ ℂ) : Cfg → ℂ) = Us.reverse.prod (ket (hfCfg no na nb)) := by
    rw [← e5, LinearMap.smul_apply, ← f1]
    rfl
  have hph : ph ≠ 0 := by rintro rfl; simp at e4
  have hmem : ∀ x ∈ (ts.zip ps).filter (fun x => !tinyC x.2), Bal no (2 * no) x.1 ∧ (starRingEnd ℂ) x.2 = x.2 := by
    intro x hx
    have hm := List.of_mem_zip (show (x.1, x.2) ∈ ts.zip ps from (List.mem_filter.mp hx).1)
    exact ⟨hbal _ hm.1, hp _ hm.2⟩
  refine ⟨l, ts, Us, ph • φ, dd * ph⁻¹, h1, h5, e3, hΨ, by simp [h3, e4], ?_, ?_, ?_, ?_⟩
  · unfold state
    have e1' : assign VQEObj.tiny Transform.jordanWigner (2 * no) ts ps = some psi := by
      have : VQEObj.tiny = tinyC := by
        funext p
        unfold VQEObj.tiny tinyC
        rw [decide_eq_decide]
      rw [this]; exact e1
    rw [h1, Option.bind_some, h5, Option.bind_some, e1', Option.bind_some, e2, Option.bind_some, h2, Option.map_some, circOp_append]
    congr 1
    have hk0 : (fun b : Cfg => if b = (fun _ => false) then (1 : ℂ) else 0) = ket (fun _ => false) := by
      funext b
      unfold ket
      congr 1
    have hk0' := congrArg (fun ψ => (circOp (gatesOf gs) * circOp pg) ψ) hk0
    simp only at hk0'
    refine Eq.trans ?_ (hk0'.trans ?_)
    · congr 1
    · rw [Module.End.mul_apply, h4, map_smul, ← f1, smul_smul, mul_assoc, inv_mul_cancel₀ hph, mul_one]
      rfl
  · rw [pair_phase ph e4, f2, hk]
    unfold pair
    rw [Finsupp.sum_single_index (by simp [conj_zero])]
    simp [ket, conj_one]
  · rw [hΨ]
    refine prod_preserves _ (InS (InSec no (2 * no) na (na + nb))) _ _ e3 ?_ _ ?_
    · intro x hx U hU
      exact InS.exp hU (inS_gen (hmem x hx).1 _)
    · intro b hb0
      unfold ket at hb0
      split at hb0
      · rename_i h; rw [h]; exact hfCfg_sec no na nb ha hb
      · exact absurd rfl hb0
  · rw [hΨ]
    refine prod_preserves _ RealAmp _ _ e3 ?_ _ ?_
    · intro x hx U hU
      refine RealAmp.exp hU (((isReal_exc _).sub (isReal_exc _)).smul _ ?_)
      rw [map_div₀, (hmem x hx).2, Complex.conj_ofReal]
    · intro b
      unfold ket
      split
      · exact conj_one
      · exact conj_zero

/-- **C111, partial.** One evaluation of the VQE objective, with any real parameters: it returns the core energy plus the expectation value of the
second-quantized Hamiltonian in the normalised cluster state `Π exp((p/d)(X − X†)) |HF⟩` (first excitation first, parameters
below `1e-10` left out), up to `2^N · 1e-28` times the sum of the moduli of the reduced Hamiltonian.  Missing: one electron, where the
reduced Hamiltonian divides by zero; depths other than 1 do not give the cluster state of the parameters (C110). -/
theorem C111_objective_partial (d : ℝ) (hd : d ≠ 0) (no na nb : ℕ) (hno : 0 < no) (ha : na ≤ no) (hb : nb ≤ no) (hne : na + nb ≠ 1)
    (col : List PStr → ℕ → ℕ) (hcol : ColouringOK col) (h1 : Fin (2 * no) → Fin (2 * no) → ℂ)
    (V : Fin (2 * no) → Fin (2 * no) → Fin (2 * no) → Fin (2 * no) → ℂ) (hh : ∀ a b, h1 a b = h1 b a)
    (hV : ∀ a b c d, V a b c d = V c d a b) (enc : ℝ) (ps : List ℂ) (hp : ∀ p ∈ ps, conj p = p) :
    ∃ (l : List ℕ) (ts : List (List ℕ)) (Us : List (Oper ℂ)) (Ψ : Cfg →₀ ℂ) (E : ℝ),
      initial (defaultOrbs no).1 (defaultOrbs no).2 na nb = some l ∧
      getUCC (defaultOrbs no).1 (defaultOrbs no).2 l true true false false = some ts ∧
      List.Forall₂ (fun x U => IsExp ((x.2 / (d : ℂ)) • (excOp x.1 - excOp x.1.reverse : Oper ℂ)) U)
        ((ts.zip ps).filter (fun x => !tinyC x.2)) Us ∧
      (Ψ : Cfg → ℂ) = Us.reverse.prod (ket (hfCfg no na nb)) ∧ pair Ψ Ψ = 1 ∧ InS (InSec no (2 * no) na (na + nb)) Ψ ∧
      objective d no na nb col h1 V enc ps = some E ∧
      |E - ((pair Ψ (secondQ h1 V Ψ)).re + enc)|
        ≤ 2 ^ (2 * no) * 1e-28 * ∑ a, ∑ b, ∑ c, ∑ e, ‖k2 h1 V ((na + nb : ℕ) : ℂ) a b c e‖ := by
  obtain ⟨l, ts, Us, Ψ, ph, s1, s2, s3, s4, s5, s6, s7, s8, s9⟩ := vqe_state d hd no na nb ha hb ps hp
  have h2no : no + no = 2 * no := by omega
  obtain ⟨D, hD, hDe⟩ := C96_statevector_tomography_partial 2 ⟨true, false⟩ (Or.inl rfl) (Or.inl rfl) no no le_rfl (rdme2_ne no hno) col hcol
    (ph • Ψ) (by rw [pair_phase ph s5]; exact s7)
    (fun b hb0 i hi => (s8 b (fun h => hb0 (by simp [h]))).2.2 i (by omega)) (na : ℤ)
    (fun b hb0 => by exact_mod_cast (s8 b (fun h => hb0 (by simp [h]))).1)
  rw [h2no] at hDe
  refine ⟨l, ts, Us, Ψ, evaluate (k2 h1 V ((na + nb : ℕ) : ℂ)) enc D, s1, s2, s3, s4, s7, s8, ?_, ?_⟩
  · unfold objective
    have ho : (defaultOrbs no).1 = alpha no := rfl
    rw [s6, Option.bind_some, beta_default, ho, hD, Option.map_some]
  · have hev : observable (k2 h1 V ((na + nb : ℕ) : ℂ)) (rdm2 (evState Ψ)) = evState Ψ (secondQ h1 V) :=
      C52_energy (evState Ψ) _ (by exact_mod_cast hne) (fun X => by
        show pair Ψ ((X * numberOp (2 * no) : Oper ℂ) Ψ) = _ * pair Ψ (X Ψ)
        rw [Module.End.mul_apply, number_sec (2 * no) (na + nb) Ψ (fun b hb0 => (s8 b hb0).2.1), map_smul, pair_smul_right]) h1 V hh hV
    have hcl := observable_close (k2 h1 V ((na + nb : ℕ) : ℂ)) (fun a b c e => D [a.val, b.val, c.val, e.val]) (rdm2 (evState Ψ))
      (2 ^ (2 * no) * 1e-28) (fun a b c e => by
        have := hDe [a.val, b.val] [c.val, e.val] rfl rfl (by simp [a.isLt, b.isLt]) (by simp [c.isLt, e.isLt])
        have ht : target ⟨true, false⟩ (ph • Ψ) [a.val, b.val] [c.val, e.val] = rdm2 (evState Ψ) a b c e := by
          show ((rdm (ph • Ψ) _ _).re : ℂ) = _
          rw [rdm_phase ph s5, rdm2_evState]
          exact Complex.conj_eq_iff_re.mp (pair_real Ψ _ s9 (s9.rdmOp _ _))
        rw [ht] at this
        exact this)
    rw [hev] at hcl
    have := (Complex.abs_re_le_norm _).trans hcl
    unfold evaluate
    rw [Complex.add_re, Complex.ofReal_re]
    have e : ∀ x y z : ℝ, x + z - (y + z) = x - y := by intros; ring
    rw [e]
    exact this

/-- **C111, variational bound.** The objective is never below the core energy plus any lower bound of the Hamiltonian on the normalised states with
`na` alpha and `nb` beta electrons, except for the same error. -/
theorem C111_variational (d : ℝ) (hd : d ≠ 0) (no na nb : ℕ) (hno : 0 < no) (ha : na ≤ no) (hb : nb ≤ no) (hne : na + nb ≠ 1)
    (col : List PStr → ℕ → ℕ) (hcol : ColouringOK col) (h1 : Fin (2 * no) → Fin (2 * no) → ℂ)
    (V : Fin (2 * no) → Fin (2 * no) → Fin (2 * no) → Fin (2 * no) → ℂ) (hh : ∀ a b, h1 a b = h1 b a)
    (hV : ∀ a b c d, V a b c d = V c d a b) (enc : ℝ) (ps : List ℂ) (hp : ∀ p ∈ ps, conj p = p) (E0 : ℝ)
    (hE : ∀ φ : Cfg →₀ ℂ, pair φ φ = 1 → (∀ b, φ b ≠ 0 → InSec no (2 * no) na (na + nb) b) → E0 ≤ (pair φ (secondQ h1 V φ)).re) :
    ∃ E, objective d no na nb col h1 V enc ps = some E ∧
      E0 + enc - 2 ^ (2 * no) * 1e-28 * ∑ a, ∑ b, ∑ c, ∑ e, ‖k2 h1 V ((na + nb : ℕ) : ℂ) a b c e‖ ≤ E := by
  obtain ⟨_, _, _, Ψ, E, _, _, _, _, a1, a2, a3, a4⟩ :=
    C111_objective_partial d hd no na nb hno ha hb hne col hcol h1 V hh hV enc ps hp
  refine ⟨E, a3, ?_⟩
  have := hE Ψ a1 a2
  have := (abs_le.mp a4).1
  linarith

/-- Two electrons in two spatial orbitals with a hopping term and a repulsion, three parameters. -/
example : ∃ E, objective 1 2 1 1 (fun _ i => i) (fun a b => if a.val % 2 = b.val % 2 then 0 else -1)
    (fun a b c e => if a = c ∧ b = e then 1 else 0) (1 / 2) [1, 2, (-1 : ℂ)] = some E := by
  obtain ⟨_, _, _, _, E, _, _, _, _, _, _, h, _⟩ := C111_objective_partial 1 one_ne_zero 2 1 1 (by norm_num) (by norm_num) (by norm_num)
    (by norm_num) (fun _ i => i) colouring_id (fun a b => if a.val % 2 = b.val % 2 then 0 else -1)
    (fun a b c e => if a = c ∧ b = e then 1 else 0) (fun a b => by simp only [eq_comm]) (fun a b c e => by simp only [eq_comm]) (1 / 2)
    [1, 2, (-1 : ℂ)] (by
      intro p hp
      show (starRingEnd ℂ) p = p
      simp only [List.mem_cons, List.not_mem_nil, or_false] at hp
      rcases hp with rfl | rfl | rfl
      · exact map_one _
      · exact Complex.conj_ofNat 2
      · rw [map_neg, map_one])
  exact ⟨E, h⟩

end
end Props
end HQCA
