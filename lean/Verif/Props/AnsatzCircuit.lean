import Verif.Props.UCC
import Verif.Props.Instructions
import Verif.Props.Euler
import Verif.Props.ExactUnitary
import Verif.Proofs.ExpSum
import Verif.Proofs.StabPauli

/-!
# C110: the circuit of the variational ansatz

`VariationalAnsatz.assign` (`vqe/_ansatz.py:17-38`) followed by `PauliSet` (`instructions/_instruct_pauli.py`), as in
`VQE.__test_vqe_function` (`vqe/vqe.py:99-106`).
-/

namespace HQCA
namespace Props
open UCC Instr Prim Real
open Stab (bit antiB comm_iff_symp symp_chk)
noncomputable section

/-! ### Coefficients under a symmetry of the operator -/

theorem denPO_nil' : (denPO ([] : POp ℂ) : Oper ℂ) = 0 := by simp [denPO, OpD.denD_nil]
theorem denPO_cons' (t : Term PStr ℂ) (C : POp ℂ) : (denPO (t :: C) : Oper ℂ) = t.2 • denP 0 t.1 + denPO C := rfl

/-- A change of the coefficients that keeps the operator keeps every coefficient. -/
theorem coef_fixed (N : ℕ) (C : POp ℂ) (hU : UniqueKeys C) (hl : ∀ t ∈ C, t.1.length = N) (f : PStr → ℂ → ℂ)
    (h : (denPO (C.map fun t => (t.1, f t.1 t.2)) : Oper ℂ) = denPO C) : ∀ t ∈ C, f t.1 t.2 = t.2 := by
  intro t ht
  have hk : (C.map fun t => (t.1, f t.1 t.2)).map (·.1) = C.map (·.1) := by simp [Function.comp_def]
  have hU' : UniqueKeys (C.map fun t => (t.1, f t.1 t.2)) := by unfold UniqueKeys at *; rw [hk]; exact hU
  have hl' : ∀ u ∈ C.map (fun t => (t.1, f t.1 t.2)), u.1.length = N := by
    intro u hu
    obtain ⟨v, hv, rfl⟩ := List.mem_map.mp hu
    exact hl v hv
  have := coef_unique N _ _ hl' hl h t.1
  rw [OpD.coef_of_mem C hU t ht,
    OpD.coef_of_mem _ hU' (t.1, f t.1 t.2) (List.mem_map.mpr ⟨t, ht, rfl⟩)] at this
  exact this

/-- The letter `Z` on qubit `k` of `N`. -/
def zStr (N k : ℕ) : PStr := List.replicate k .I ++ [.Z] ++ List.replicate (N - k - 1) .I

theorem zStr_length (N k : ℕ) (h : k < N) : (zStr N k).length = N := by simp [zStr]; omega

theorem denP_I (k n : ℕ) (s : PStr) : (denP k (List.replicate n .I ++ s) : Oper ℂ) = denP (k + n) s := by
  induction n generalizing k with
  | zero => simp
  | succ n ih =>
    rw [List.replicate_succ, List.cons_append]
    simp only [denP]
    rw [ih, show k + 1 + n = k + (n + 1) by omega]
    have : (site k (pmat PL.I) : Oper ℂ) = 1 := site_one k
    rw [this, one_mul]

theorem denP_zStr (N k : ℕ) : (denP 0 (zStr N k) : Oper ℂ) = site k mZ := by
  unfold zStr
  rw [List.append_assoc, denP_I, zero_add, List.cons_append, List.nil_append]
  simp only [denP]
  have := denP_I (k + 1) (N - k - 1) []
  rw [List.append_nil] at this
  rw [this]
  simp [denP, pmat]

/-- Commuting a string past `Z_k`. -/
theorem zcomm (k : ℕ) (s : PStr) : (site k mZ * denP 0 s : Oper ℂ) = (if (s.getD k .I).l then (-1 : ℂ) else 1) • (denP 0 s * site k mZ) := by
  have hz : ∀ (ψ : Cfg → ℂ) (e : Cfg), (site k mZ : Oper ℂ) ψ e = sg (e k) * ψ e := by
    intro ψ e
    have := site_pmat_apply k .Z ψ e
    simpa [pmat, PL.l, ph] using this
  refine LinearMap.ext fun ψ => funext fun e => ?_
  change (site k mZ : Oper ℂ) (denP 0 s ψ) e = (if (s.getD k .I).l then (-1 : ℂ) else 1) * denP 0 s ((site k mZ : Oper ℂ) ψ) e
  rw [hz, denP_apply, denP_apply, hz, fl_zero, sg_xor]
  cases (s.getD k .I).l <;> cases e k <;> simp [sg]

theorem zcomm_cre (k j : ℕ) : (site k mZ * cre j : Oper ℂ) = (if j = k then (-1 : ℂ) else 1) • (cre j * site k mZ) := by
  have hz : ∀ (ψ : Cfg → ℂ) (e : Cfg), (site k mZ : Oper ℂ) ψ e = sg (e k) * ψ e := by
    intro ψ e
    have := site_pmat_apply k .Z ψ e
    simpa [pmat, PL.l, ph] using this
  refine LinearMap.ext fun ψ => funext fun e => ?_
  change (site k mZ : Oper ℂ) (cre j ψ) e = (if j = k then (-1 : ℂ) else 1) * (cre j : Oper ℂ) ((site k mZ : Oper ℂ) ψ) e
  rw [hz]
  simp only [cre, LinearMap.coe_mk, AddHom.coe_mk]
  rw [hz]
  by_cases h : j = k
  · subst h
    cases he : e j <;> simp [sg]
  · rw [Function.update_of_ne (fun h' => h h'.symm)]
    cases he : e j <;> simp [h] <;> ring

theorem zcomm_ann (k j : ℕ) : (site k mZ * ann j : Oper ℂ) = (if j = k then (-1 : ℂ) else 1) • (ann j * site k mZ) := by
  have hz : ∀ (ψ : Cfg → ℂ) (e : Cfg), (site k mZ : Oper ℂ) ψ e = sg (e k) * ψ e := by
    intro ψ e
    have := site_pmat_apply k .Z ψ e
    simpa [pmat, PL.l, ph] using this
  refine LinearMap.ext fun ψ => funext fun e => ?_
  change (site k mZ : Oper ℂ) (ann j ψ) e = (if j = k then (-1 : ℂ) else 1) * (ann j : Oper ℂ) ((site k mZ : Oper ℂ) ψ) e
  rw [hz]
  simp only [ann, LinearMap.coe_mk, AddHom.coe_mk]
  rw [hz]
  by_cases h : j = k
  · subst h
    cases he : e j <;> simp [sg]
  · rw [Function.update_of_ne (fun h' => h h'.symm)]
    cases he : e j <;> simp [h] <;> ring

/-- Moving `Z_k` through a product of ladder operators. -/
theorem zcomm_prod (k : ℕ) (f : ℕ → Oper ℂ) (hf : ∀ j, (site k mZ * f j : Oper ℂ) = (if j = k then (-1 : ℂ) else 1) • (f j * site k mZ))
    (l : List ℕ) : (site k mZ * (l.map f).prod : Oper ℂ) = ((-1 : ℂ) ^ l.count k) • ((l.map f).prod * site k mZ) := by
  induction l with
  | nil => simp
  | cons j l ih =>
    rw [List.map_cons, List.prod_cons, ← mul_assoc, hf, smul_mul_assoc, mul_assoc, ih, mul_smul_comm, smul_smul, List.count_cons,
      mul_assoc]
    congr 1
    by_cases h : j = k <;> simp [h, pow_succ]

theorem zcomm_exc (k : ℕ) (t : List ℕ) : (site k mZ * excOp t : Oper ℂ) = ((-1 : ℂ) ^ t.count k) • (excOp t * site k mZ) := by
  unfold excOp
  rw [← mul_assoc, zcomm_prod k _ (zcomm_cre k), smul_mul_assoc, mul_assoc, zcomm_prod k _ (zcomm_ann k), mul_smul_comm, smul_smul,
    ← mul_assoc, ← pow_add, ← List.count_append, List.take_append_drop]

/-- All strings of an operator that commutes or anticommutes with every `Z_k` flip the same qubits. -/
theorem same_flips (N : ℕ) (C : POp ℂ) (hU : UniqueKeys C) (hl : ∀ t ∈ C, t.1.length = N) (h0 : ∀ t ∈ C, t.2 ≠ 0) (k : ℕ) (n : ℕ)
    (h : (site k mZ * denPO C : Oper ℂ) = ((-1 : ℂ) ^ n) • (denPO C * site k mZ)) :
    ∀ t ∈ C, (t.1.getD k .I).l = decide (n % 2 = 1) := by
  have hzz : (site k mZ * site k mZ : Oper ℂ) = 1 := by
    rw [← site_mul, show (mZ * mZ : M2 ℂ) = 1 from ?_, site_one]
    rw [mZ_eq, mat2_mul, one_eq]; simp
  have hs : ∀ C : POp ℂ, (denPO (C.map fun t => (t.1, (-1 : ℂ) ^ n * (if (t.1.getD k .I).l then (-1 : ℂ) else 1) * t.2)) : Oper ℂ) * site k mZ
      = ((-1 : ℂ) ^ n) • (site k mZ * denPO C) := by
    intro C
    induction C with
    | nil => simp [denPO_nil']
    | cons t C ih =>
      rw [List.map_cons, denPO_cons', denPO_cons', add_mul, ih, mul_add, smul_add, mul_smul_comm, zcomm, smul_mul_assoc, smul_smul,
        smul_smul]
      congr 2
      ring
  have hp : ((-1 : ℂ) ^ n) * (-1 : ℂ) ^ n = 1 := by rw [← mul_pow]; norm_num
  have key : (denPO (C.map fun t => (t.1, (-1 : ℂ) ^ n * (if (t.1.getD k .I).l then (-1 : ℂ) else 1) * t.2)) : Oper ℂ) = denPO C := by
    have := hs C
    rw [h, smul_smul, hp, one_smul] at this
    have h2 := congrArg (· * (site k mZ : Oper ℂ)) this
    simpa only [mul_assoc, hzz, mul_one] using h2
  intro t ht
  have := coef_fixed N C hU hl (fun s c => (-1 : ℂ) ^ n * (if (s.getD k .I).l then (-1 : ℂ) else 1) * c) key t ht
  have h1 : (-1 : ℂ) ^ n * (if (t.1.getD k .I).l then (-1 : ℂ) else 1) = 1 := by
    have h3 := h0 t ht
    field_simp at this
    exact this
  rcases Nat.mod_two_eq_zero_or_one n with hn | hn
  · rw [Even.neg_one_pow (Nat.even_iff.mpr hn)] at h1
    cases hb : (t.1.getD k .I).l
    · rw [hn]; rfl
    · rw [hb] at h1; norm_num at h1
  · rw [Odd.neg_one_pow (Nat.odd_iff.mpr hn)] at h1
    cases hb : (t.1.getD k .I).l
    · rw [hb] at h1; norm_num at h1
    · rw [hn]; rfl

/-! ### Real operators -/

/-- The operator has real matrix elements. -/
def IsReal (A : Oper ℂ) : Prop := ∀ ψ b, A (fun e => (starRingEnd ℂ) (ψ e)) b = (starRingEnd ℂ) (A ψ b)

theorem IsReal.mul {A B : Oper ℂ} (hA : IsReal A) (hB : IsReal B) : IsReal (A * B) := by
  intro ψ b
  have : B (fun e => (starRingEnd ℂ) (ψ e)) = fun e => (starRingEnd ℂ) (B ψ e) := funext fun e => hB ψ e
  change A (B _) b = _
  rw [this]
  exact hA _ b

theorem IsReal.one : IsReal 1 := fun _ _ => rfl

theorem IsReal.sub {A B : Oper ℂ} (hA : IsReal A) (hB : IsReal B) : IsReal (A - B) := by
  intro ψ b
  change A _ b - B _ b = _
  rw [hA, hB, ← map_sub]
  rfl

theorem IsReal.smul {A : Oper ℂ} (hA : IsReal A) (p : ℂ) (hp : (starRingEnd ℂ) p = p) : IsReal (p • A) := by
  intro ψ b
  change p * A _ b = (starRingEnd ℂ) (p * A ψ b)
  rw [hA, map_mul, hp]

theorem fsign_real (b : Cfg) (k : ℕ) : (starRingEnd ℂ) (fsign b k) = fsign b k := by
  unfold fsign; rw [map_pow, map_neg, map_one]

theorem isReal_cre (k : ℕ) : IsReal (cre k) := by
  intro ψ b
  simp only [cre, LinearMap.coe_mk, AddHom.coe_mk]
  split
  · rw [map_mul, fsign_real]
  · simp

theorem isReal_ann (k : ℕ) : IsReal (ann k) := by
  intro ψ b
  simp only [ann, LinearMap.coe_mk, AddHom.coe_mk]
  split
  · simp
  · rw [map_mul, fsign_real]

theorem isReal_prod (l : List ℕ) (f : ℕ → Oper ℂ) (hf : ∀ j, IsReal (f j)) : IsReal (l.map f).prod := by
  induction l with
  | nil => exact IsReal.one
  | cons j l ih => rw [List.map_cons, List.prod_cons]; exact (hf j).mul ih

theorem isReal_exc (t : List ℕ) : IsReal (excOp t) := (isReal_prod _ _ isReal_cre).mul (isReal_prod _ _ isReal_ann)

/-- `-1` for every `Y`. -/
def ySign (s : PStr) : ℂ := ∏ i ∈ Finset.range s.length, (if (s.getD i .I).l ∧ (s.getD i .I).r then (-1 : ℂ) else 1)

theorem phase_conj (s : PStr) (e : Cfg) : (starRingEnd ℂ) (phase 0 s e) = ySign s * phase 0 s e := by
  rw [phase_zero, map_prod, ySign, ← Finset.prod_mul_distrib]
  refine Finset.prod_congr rfl fun i _ => ?_
  cases s.getD i .I <;> cases e i <;> simp [ph, sg, PL.l, PL.r, HQCA.I]

/-- The coefficients of a real operator. -/
theorem real_coef (N : ℕ) (C : POp ℂ) (hU : UniqueKeys C) (hl : ∀ t ∈ C, t.1.length = N) (h : IsReal (denPO C)) :
    ∀ t ∈ C, ySign t.1 * (starRingEnd ℂ) t.2 = t.2 := by
  refine coef_fixed N C hU hl (fun s c => ySign s * (starRingEnd ℂ) c) ?_
  have key : ∀ (C : POp ℂ) ψ b, (denPO (C.map fun t => (t.1, ySign t.1 * (starRingEnd ℂ) t.2)) : Oper ℂ) ψ b =
      (starRingEnd ℂ) ((denPO C : Oper ℂ) (fun e => (starRingEnd ℂ) (ψ e)) b) := by
    intro C ψ b
    induction C with
    | nil => rw [List.map_nil, denPO_nil']; simp
    | cons t C ih =>
      rw [List.map_cons, denPO_cons', denPO_cons']
      change ySign t.1 * (starRingEnd ℂ) t.2 * denP 0 t.1 ψ b + (denPO _ : Oper ℂ) ψ b =
        (starRingEnd ℂ) (t.2 * denP 0 t.1 (fun e => (starRingEnd ℂ) (ψ e)) b + (denPO C : Oper ℂ) (fun e => (starRingEnd ℂ) (ψ e)) b)
      rw [ih, map_add, map_mul, denP_apply, denP_apply, map_mul, phase_conj, Complex.conj_conj]
      ring
  refine LinearMap.ext fun ψ => funext fun b => ?_
  rw [key, h ψ b, Complex.conj_conj]

/-- Number of `Y` modulo two. -/
def yPar (N : ℕ) (s : PStr) : ZMod 2 := ∑ i ∈ Finset.range N, bit (s.getD i .I).l * bit (s.getD i .I).r

theorem ySign_par (s : PStr) (h : ySign s = -1) : yPar s.length s = 1 := by
  have key : ∀ n, (∏ i ∈ Finset.range n, (if (s.getD i .I).l ∧ (s.getD i .I).r then (-1 : ℂ) else 1) = 1 ∧
      ∑ i ∈ Finset.range n, bit (s.getD i .I).l * bit (s.getD i .I).r = 0) ∨
      (∏ i ∈ Finset.range n, (if (s.getD i .I).l ∧ (s.getD i .I).r then (-1 : ℂ) else 1) = -1 ∧
      ∑ i ∈ Finset.range n, bit (s.getD i .I).l * bit (s.getD i .I).r = 1) := by
    intro n
    induction n with
    | zero => left; simp
    | succ n ih =>
      rw [Finset.prod_range_succ, Finset.sum_range_succ]
      rcases ih with ⟨h1, h2⟩ | ⟨h1, h2⟩ <;> rw [h1, h2] <;> cases s.getD n .I <;> simp [PL.l, PL.r, bit] <;> decide
  rcases key s.length with ⟨h1, _⟩ | ⟨_, h2⟩
  · unfold ySign at h
    rw [h1] at h
    norm_num at h
  · exact h2

/-- Strings that flip the same qubits and have an odd number of `Y` commute. -/
theorem comm_of_flips (N : ℕ) (s t : PStr) (hs : s.length = N) (ht : t.length = N) (hf : ∀ k < N, (s.getD k .I).l = (t.getD k .I).l)
    (h1 : yPar N s = 1) (h2 : yPar N t = 1) : (denP 0 s * denP 0 t : Oper ℂ) = denP 0 t * denP 0 s := by
  rw [comm_iff_symp hs ht, symp_chk]
  have e : ∑ i ∈ Finset.range N, antiB (s.getD i .I) (t.getD i .I) = yPar N s + yPar N t := by
    unfold yPar
    rw [← Finset.sum_add_distrib]
    refine Finset.sum_congr rfl fun i hi => ?_
    have := hf i (Finset.mem_range.mp hi)
    unfold antiB
    rw [this]
    ring
  rw [e, h1, h2]
  decide

/-! ### Exponential of a sum of commuting terms -/

/-- `exp(i v P)` for a Pauli string. -/
def eul (v : ℝ) (s : PStr) : Oper ℂ := ((cos v : ℝ) : ℂ) • (1 : Oper ℂ) + (Complex.I * (sin v : ℝ)) • denP 0 s

theorem isExp_zero : IsExp 0 1 := by
  intro ψ b
  have : (fun k : ℕ => ((Nat.factorial k : ℂ))⁻¹ * ((0 : Oper ℂ) ^ k) ψ b) = fun k => if k = 0 then ψ b else 0 := by
    funext k
    cases k with
    | zero => simp
    | succ k => simp
  rw [this]
  exact hasSum_ite_eq 0 (ψ b)

theorem isExp_comm_sum (C : List (ℝ × PStr))
    (hc : ∀ a ∈ C, ∀ b ∈ C, (denP 0 a.2 * denP 0 b.2 : Oper ℂ) = denP 0 b.2 * denP 0 a.2) :
    IsExp (C.map fun g => (Complex.I * (g.1 : ℝ)) • (denP 0 g.2 : Oper ℂ)).sum ((C.map fun g => eul g.1 g.2).reverse.prod) := by
  induction C with
  | nil => exact isExp_zero
  | cons g C ih =>
    have hi := ih fun a ha b hb => hc a (by simp [ha]) b (by simp [hb])
    rw [List.map_cons, List.map_cons, List.sum_cons, List.reverse_cons, List.prod_append, List.prod_singleton, add_comm]
    refine isExp_add_inv hi (denP 0 g.2) (denP_sq 0 g.2) ?_ g.1
    have hcg : ∀ a ∈ C, (denP 0 a.2 * denP 0 g.2 : Oper ℂ) = denP 0 g.2 * denP 0 a.2 := fun a ha => hc a (by simp [ha]) g (by simp)
    clear hi ih hc
    induction C with
    | nil => simp
    | cons a C ih =>
      rw [List.map_cons, List.sum_cons, add_mul, mul_add, ih fun b hb => hcg b (by simp [hb]), smul_mul_assoc, mul_smul_comm,
        hcg a (by simp)]

/-! ### One excitation -/

/-- Terms kept by `transform` are not small. -/
theorem transform_not_small {α : Type} (T : Term α ℂ → Option (POp ℂ)) (A : OpD α ℂ) (C : POp ℂ) (h : OpD.transform T A = some C) :
    ∀ u ∈ C, small u.2 = false := by
  have hf : ∀ (rs : List (POp ℂ)) (B : POp ℂ), (∀ u ∈ B, small u.2 = false) → ∀ u ∈ rs.foldl OpD.add B, small u.2 = false := by
    intro rs
    induction rs with
    | nil => exact fun B hB => hB
    | cons r rs ih =>
      intro B _
      refine ih _ ?_
      intro u hu
      unfold OpD.add OpD.clean at hu
      simpa using (List.mem_filter.mp hu).2
  unfold OpD.transform at h
  obtain ⟨rs, _, rfl⟩ := Option.map_eq_some_iff.mp h
  exact hf rs [] (by simp)

theorem zcomm_gen (k : ℕ) (A B D : Oper ℂ) (p c : ℂ) (hD : D = p • (A - B)) (hA : (site k mZ * A : Oper ℂ) = c • (A * site k mZ))
    (hB : (site k mZ * B : Oper ℂ) = c • (B * site k mZ)) : (site k mZ * D : Oper ℂ) = c • (D * site k mZ) := by
  have e : p • (c • (A * site k mZ) - c • (B * site k mZ) : Oper ℂ) = c • (p • (A * site k mZ - B * site k mZ)) := by module
  rw [hD, mul_smul_comm, mul_sub, hA, hB, smul_mul_assoc, sub_mul, e]

/-- The Pauli form of one excitation: its terms are imaginary, not small, and commute. -/
theorem block (p : ℂ) (hp : tinyC p = false) (t : List ℕ) (h : t.length % 2 = 0) (h4 : t.length ≤ 4) (N : ℕ)
    (hN : ∀ i ∈ t, i < N) (hc : conj p = p) :
    ∃ C, (gen p t N).bind (OpD.transform Transform.jordanWigner) = some C ∧
      denPO C = p • (excOp t - excOp t.reverse : Oper ℂ) ∧ (∀ u ∈ C, u.2.re = 0 ∧ (1e-14 : ℝ) < |u.2.im|) ∧
      ∀ a ∈ C, ∀ b ∈ C, (denP 0 a.1 * denP 0 b.1 : Oper ℂ) = denP 0 b.1 * denP 0 a.1 := by
  obtain ⟨C, c1, c2, cu, cl⟩ := gen_transform p hp t h h4 N hN hc
  have hsm : ∀ u ∈ C, small u.2 = false := by
    obtain ⟨A, a1, a2⟩ := Option.bind_eq_some_iff.mp c1
    exact transform_not_small _ _ _ a2
  have hr : t.reverse.length % 2 = 0 := by simpa using h
  have hre : ∀ u ∈ C, u.2.re = 0 := by
    refine antiherm_imag N C cu cl ?_
    have h2 := isAdj_excOp (K := ℂ) t.reverse hr
    rw [List.reverse_reverse] at h2
    have h3 := isAdj_anti h2 (isAdj_excOp t h) p hc
    have e : (p • (excOp t.reverse - excOp t) : Oper ℂ) = -(p • (excOp t - excOp t.reverse)) := by module
    rw [e, neg_neg] at h3
    rw [c2]
    exact h3
  have hne : ∀ u ∈ C, u.2 ≠ 0 := by
    intro u hu h0
    have := hsm u hu
    rw [h0, ← Bool.not_eq_true, small_complex] at this
    norm_num at this
  refine ⟨C, c1, c2, fun u hu => ⟨hre u hu, ?_⟩, ?_⟩
  · have := hsm u hu
    rw [← Bool.not_eq_true, small_complex, not_le] at this
    have e : ‖u.2‖ = |u.2.im| := by
      have : u.2 = ((u.2.im : ℝ) : ℂ) * Complex.I := by apply Complex.ext <;> simp [hre u hu]
      rw [this]; simp
    rw [e] at this
    exact lt_trans (by norm_num) this
  · have hfl : ∀ k, ∀ u ∈ C, (u.1.getD k .I).l = decide (t.count k % 2 = 1) := by
      intro k
      refine same_flips N C cu cl hne k (t.count k) ?_
      exact zcomm_gen k _ _ _ p _ c2 (zcomm_exc k t) (by rw [zcomm_exc, List.count_reverse])
    have hreal : IsReal (denPO C) := by
      rw [c2]
      exact ((isReal_exc t).sub (isReal_exc _)).smul p hc
    have hy : ∀ u ∈ C, yPar N u.1 = 1 := by
      intro u hu
      rw [← cl u hu]
      refine ySign_par u.1 ?_
      have h1 := real_coef N C cu cl hreal u hu
      have h2 : (starRingEnd ℂ) u.2 = -u.2 := by apply Complex.ext <;> simp [hre u hu]
      rw [h2] at h1
      have h0 := hne u hu
      have h3 : (ySign u.1 + 1) * u.2 = 0 := by linear_combination -h1
      rcases mul_eq_zero.mp h3 with h4 | h4
      · linear_combination h4
      · exact absurd h4 h0
    intro a ha b hb
    exact comm_of_flips N a.1 b.1 (cl a ha) (cl b hb) (fun k _ => by rw [hfl k a ha, hfl k b hb]) (hy a ha) (hy b hb)

/-! ### The circuit -/

/-- The gates emitted for imaginary terms. -/
theorem applyOp_imag (d : ℝ) (op : List (PStr × ℂ)) (h : ∀ t ∈ op, t.2.re = 0 ∧ (1e-14 : ℝ) < |t.2.im|) (prev : Option ℝ) :
    applyOp d prev op = some (op.map fun t => (t.2.im / d, t.1)) := by
  induction op generalizing prev with
  | nil => rfl
  | cons t op ih =>
    obtain ⟨h1, h2⟩ := h t (by simp)
    have ha : angleOf prev t.2 = some t.2.im := by
      unfold angleOf
      rw [if_neg (not_lt.mpr (le_of_lt h2)), if_pos (by rw [h1, abs_zero]; norm_num)]
    unfold applyOp
    rw [ha]
    dsimp only
    rw [if_pos h2, ih (fun u hu => h u (by simp [hu])) (some t.2.im)]
    simp

theorem gates_eul (gs : List (ℝ × PStr)) :
    ∃ ph : ℂ, ‖ph‖ = 1 ∧ ph • circOp (gatesOf gs) = (gs.map fun g => eul g.1 g.2).reverse.prod := by
  obtain ⟨Us, ph, h1, h2, h3⟩ := gates_product gs
  refine ⟨ph, h2, ?_⟩
  rw [h3]
  congr 2
  clear h3
  induction h1 with
  | nil => rfl
  | cons a _ ih =>
    rw [List.map_cons, ih, isExp_unique a (isExp_of_sq _ (denP_sq 0 _) _)]
    rfl

theorem block_exp (d : ℝ) (C : POp ℂ) (X : Oper ℂ) (p : ℂ) (h1 : denPO C = p • X) (h2 : ∀ u ∈ C, u.2.re = 0)
    (h3 : ∀ a ∈ C, ∀ b ∈ C, (denP 0 a.1 * denP 0 b.1 : Oper ℂ) = denP 0 b.1 * denP 0 a.1) :
    IsExp ((p / d) • X) ((C.map fun t => eul (t.2.im / d) t.1).reverse.prod) := by
  have h := isExp_comm_sum (C.map fun t => (t.2.im / d, t.1)) (by
    intro a ha b hb
    obtain ⟨a', ha', rfl⟩ := List.mem_map.mp ha
    obtain ⟨b', hb', rfl⟩ := List.mem_map.mp hb
    exact h3 a' ha' b' hb')
  rw [List.map_map, List.map_map] at h
  have e : ∀ C : POp ℂ, (∀ u ∈ C, u.2.re = 0) →
      (C.map ((fun g : ℝ × PStr => (Complex.I * (g.1 : ℝ)) • (denP 0 g.2 : Oper ℂ)) ∘ fun t => (t.2.im / d, t.1))).sum = (1 / d : ℂ) • denPO C := by
    intro C hC
    induction C with
    | nil => simp [denPO_nil']
    | cons t C ih =>
      rw [List.map_cons, List.sum_cons, ih fun u hu => hC u (by simp [hu]), denPO_cons', smul_add, smul_smul]
      have hz : t.2 = Complex.I * (t.2.im : ℝ) := by apply Complex.ext <;> simp [hC t (by simp)]
      have hq : (Complex.I * ((t.2.im / d : ℝ) : ℂ)) = 1 / (d : ℂ) * t.2 := by
        conv_rhs => rw [hz]
        push_cast
        ring
      rw [← hq]
      rfl
  rw [e C h2, h1, smul_smul, one_div_mul_eq_div] at h
  exact h

/-- **C110, partial.** For real parameters, the circuit of the variational ansatz with depth `d` is, up to a global phase, the product
of the exponentials of `(p/d)(X − X†)` over the listed excitations whose parameter is at least `1e-10`; the first one acts first.  For
the default depth 1 these are the cluster exponentials, without Trotter error.  Missing: other depths (`C110_depth_fails`). -/
theorem C110_circuit_partial (d : ℝ) (hd : d ≠ 0) (N : ℕ) (ts : List (List ℕ)) (ps : List ℂ)
    (ht : ∀ t ∈ ts, t.length % 2 = 0 ∧ t.length ≤ 4 ∧ t.Nodup ∧ ∀ i ∈ t, i < N) (hp : ∀ p ∈ ps, conj p = p) :
    ∃ (psi : List (Term PStr ℂ)) (gs : List (ℝ × PStr)) (Us : List (Oper ℂ)) (ph : ℂ),
      assign tinyC Transform.jordanWigner N ts ps = some psi ∧ applyOp d none psi = some gs ∧
      List.Forall₂ (fun x U => IsExp ((x.2 / (d : ℂ)) • (excOp x.1 - excOp x.1.reverse : Oper ℂ)) U)
        ((ts.zip ps).filter (fun x => !tinyC x.2)) Us ∧
      ‖ph‖ = 1 ∧ ph • circOp (gatesOf gs) = Us.reverse.prod := by
  set l := (ts.zip ps).filter (fun x => !tinyC x.2) with hl
  have hall : ∀ x ∈ l, tinyC x.2 = false ∧ x.1.length % 2 = 0 ∧ x.1.length ≤ 4 ∧ (∀ i ∈ x.1, i < N) ∧ conj x.2 = x.2 := by
    intro x hx
    obtain ⟨h1, h2⟩ := List.mem_filter.mp hx
    have hm := List.of_mem_zip (show (x.1, x.2) ∈ ts.zip ps from h1)
    obtain ⟨q1, q2, _, q3⟩ := ht _ hm.1
    exact ⟨by simpa using h2, q1, q2, q3, hp _ hm.2⟩
  have key : ∀ l : List (List ℕ × ℂ), (∀ x ∈ l, tinyC x.2 = false ∧ x.1.length % 2 = 0 ∧ x.1.length ≤ 4 ∧
      (∀ i ∈ x.1, i < N) ∧ conj x.2 = x.2) →
      ∃ rs, l.mapM (fun x => (gen x.2 x.1 N).bind (OpD.transform Transform.jordanWigner)) = some rs ∧
        (∀ u ∈ rs.flatten, u.2.re = 0 ∧ (1e-14 : ℝ) < |u.2.im|) ∧
        List.Forall₂ (fun x U => IsExp ((x.2 / (d : ℂ)) • (excOp x.1 - excOp x.1.reverse : Oper ℂ)) U) l
          (rs.map fun C => (C.map fun t => eul (t.2.im / d) t.1).reverse.prod) := by
    intro l
    induction l with
    | nil => exact fun _ => ⟨[], by simp, by simp, .nil⟩
    | cons x l ih =>
      intro h
      obtain ⟨rs, r1, r2, r3⟩ := ih (fun y hy => h y (by simp [hy]))
      obtain ⟨q1, q2, q3, q4, q5⟩ := h x (by simp)
      obtain ⟨C, c1, c2, c3, c4⟩ := block x.2 q1 x.1 q2 q3 N q4 q5
      refine ⟨C :: rs, by simp [r1, c1], ?_, .cons (block_exp d C _ _ c2 (fun u hu => (c3 u hu).1) c4) r3⟩
      intro u hu
      rw [List.flatten_cons, List.mem_append] at hu
      exact hu.elim (c3 u) (r2 u)
  obtain ⟨rs, r1, r2, r3⟩ := key l hall
  obtain ⟨ph, p1, p2⟩ := gates_eul (rs.flatten.map fun t => (t.2.im / d, t.1))
  refine ⟨rs.flatten, _, _, ph, by rw [assign, ← hl, r1]; rfl, applyOp_imag d _ r2 none, r3, p1, ?_⟩
  rw [p2]
  clear p1 p2 r1 r2 r3
  induction rs with
  | nil => rfl
  | cons C rs ih =>
    rw [List.flatten_cons, List.map_append, List.map_append, List.reverse_append, List.prod_append, ih, List.map_cons, List.reverse_cons,
      List.prod_append, List.prod_singleton, List.map_map]
    rfl

/-- The entries of `getUCCAnsatz` are excitations between different orbitals. -/
theorem C110_entries (alpha beta initial : List ℕ) (hd : ∀ x ∈ alpha, x ∉ beta) (N : ℕ) (hN : ∀ i ∈ alpha ++ beta, i < N)
    (L : List (List ℕ)) (h : getUCC alpha beta initial true true false false = some L) :
    ∀ t ∈ L, t.length % 2 = 0 ∧ t.length ≤ 4 ∧ t.Nodup ∧ ∀ i ∈ t, i < N := by
  intro t ht
  obtain ⟨a1, a2, a3⟩ := C50_entries alpha beta initial N hN L h t ht
  refine ⟨a1, a2, ?_, a3⟩
  have hL : L = full alpha beta initial := by simpa [getUCC, full] using h.symm
  subst hL
  have hd' : ∀ x ∈ beta, x ∉ alpha := fun x h1 h2 => hd x h2 h1
  have ne : ∀ {i j : ℕ}, i ∈ initial → j ∉ initial → i ≠ j := fun h1 h2 h3 => h2 (h3 ▸ h1)
  simp only [full, List.mem_append] at ht
  rcases ht with (he | he) | ((he | he) | he)
  · obtain ⟨i, j, hi, hj, rfl⟩ := mem_singles _ _ _ he
    rw [mem_occ] at hi; rw [mem_vir] at hj
    simpa using ne hi.2 hj.2
  · obtain ⟨i, j, hi, hj, rfl⟩ := mem_singles _ _ _ he
    rw [mem_occ] at hi; rw [mem_vir] at hj
    simpa using ne hi.2 hj.2
  · obtain ⟨i, k, l, j, hi, hk, hl, hj, h1, h2, rfl⟩ := mem_same _ _ _ he
    rw [mem_occ] at hi hk; rw [mem_vir] at hj hl
    simp [ne hi.2 hl.2, ne hi.2 hj.2, ne hk.2 hl.2, ne hk.2 hj.2, Nat.ne_of_lt h1, Nat.ne_of_lt h2]
  · obtain ⟨i, k, l, j, hi, hk, hl, hj, h1, h2, rfl⟩ := mem_same _ _ _ he
    rw [mem_occ] at hi hk; rw [mem_vir] at hj hl
    simp [ne hi.2 hl.2, ne hi.2 hj.2, ne hk.2 hl.2, ne hk.2 hj.2, Nat.ne_of_lt h1, Nat.ne_of_lt h2]
  · obtain ⟨i, k, l, j, hi, hk, hl, hj, h1, rfl⟩ := mem_mixed _ _ _ _ _ he
    rw [mem_occ] at hi hk; rw [mem_vir] at hj hl
    have b1 : i ≠ k := fun e => hd _ hi.1 (e ▸ hk.1)
    have b2 : l ≠ j := fun e => hd _ hj.1 (e ▸ hl.1)
    simp [ne hi.2 hl.2, ne hi.2 hj.2, ne hk.2 hl.2, ne hk.2 hj.2, b1, b2]

/-- Two electrons in four spin orbitals: three excitations; one of them switched off. -/
example : (∃ L, getUCC [0, 1] [2, 3] [0, 2] true true false false = some L ∧ L.length = 3 ∧
      (∀ t ∈ L, t.length % 2 = 0 ∧ t.length ≤ 4 ∧ t.Nodup ∧ ∀ i ∈ t, i < 4)) ∧
    (∀ p ∈ [(1 / 2 : ℂ), 0, -1], conj p = p) :=
  ⟨⟨[[0, 1], [2, 3], [0, 2, 3, 1]], by decide, rfl, by decide⟩, by
    intro p hp
    simp only [List.mem_cons, List.not_mem_nil, or_false] at hp
    rcases hp with rfl | rfl | rfl
    · exact (by norm_num [Complex.ext_iff] : (starRingEnd ℂ) (1 / 2 : ℂ) = 1 / 2)
    · exact map_zero (starRingEnd ℂ)
    · exact (by simp : (starRingEnd ℂ) (-1 : ℂ) = -1)⟩

/-! ### Depth -/

/-- The determinant with only orbital `k` occupied. -/
def occ1 (k : ℕ) : Cfg := fun i => i == k

theorem exc01 (ψ : Cfg → ℂ) : ((excOp [0, 1] - excOp [1, 0] : Oper ℂ) ψ) (occ1 0) = ψ (occ1 1) ∧
    ((excOp [0, 1] - excOp [1, 0] : Oper ℂ) ψ) (occ1 1) = -ψ (occ1 0) := by
  have u1 : Function.update (Function.update (occ1 0) 0 false) 1 true = occ1 1 := by
    funext i; unfold occ1 Function.update
    by_cases h0 : i = 0 <;> by_cases h1 : i = 1 <;> simp_all
  have u2 : Function.update (Function.update (occ1 1) 1 false) 0 true = occ1 0 := by
    funext i; unfold occ1 Function.update
    by_cases h0 : i = 0 <;> by_cases h1 : i = 1 <;> simp_all
  have f1 : (fsign (Function.update (occ1 0) 0 false) 1 : ℂ) = 1 := by simp [fsign, Finset.range_one, Finset.filter_singleton]
  have f2 : (fsign (occ1 1) 1 : ℂ) = 1 := by simp [fsign, occ1, Finset.range_one, Finset.filter_singleton]
  have f0 : ∀ b : Cfg, (fsign b 0 : ℂ) = 1 := fun b => by simp [fsign]
  have e1 : (excOp [0, 1] : Oper ℂ) = cre 0 * ann 1 := by simp [excOp]
  have e2 : (excOp [1, 0] : Oper ℂ) = cre 1 * ann 0 := by simp [excOp]
  rw [e1, e2]
  constructor
  · change (cre 0 : Oper ℂ) (ann 1 ψ) (occ1 0) - (cre 1 : Oper ℂ) (ann 0 ψ) (occ1 0) = _
    simp only [cre, ann, LinearMap.coe_mk, AddHom.coe_mk]
    have a1 : occ1 0 0 = true := rfl
    have a2 : occ1 0 1 = false := rfl
    have a3 : Function.update (occ1 0) 0 false 1 = false := rfl
    rw [a1, a2, a3, u1, f1, f0]
    simp
  · change (cre 0 : Oper ℂ) (ann 1 ψ) (occ1 1) - (cre 1 : Oper ℂ) (ann 0 ψ) (occ1 1) = _
    simp only [cre, ann, LinearMap.coe_mk, AddHom.coe_mk]
    have a1 : occ1 1 0 = false := rfl
    have a2 : occ1 1 1 = true := rfl
    have a3 : Function.update (occ1 1) 1 false 0 = false := rfl
    rw [a1, a2, a3, u2, f2, f0 (Function.update (occ1 1) 1 false)]
    simp

/-- The generator of the excitation between orbitals 0 and 1 rotates the determinant with orbital 0 occupied. -/
theorem exc_amp (v : ℝ) (U : Oper ℂ) (h : IsExp ((v : ℂ) • (excOp [0, 1] - excOp [1, 0] : Oper ℂ)) U) :
    U (ket (occ1 0)) (occ1 0) = (cos v : ℝ) := by
  set G := (excOp [0, 1] - excOp [1, 0] : Oper ℂ) with hG
  have k1 : ket (occ1 0) (occ1 0) = 1 := by simp [ket]
  have k2 : ket (occ1 0) (occ1 1) = 0 := by
    unfold ket; rw [if_neg]; intro h; simpa [occ1] using congrFun h 0
  have hp : ∀ m : ℕ, (G ^ (2 * m)) (ket (occ1 0)) (occ1 0) = (-1) ^ m ∧ (G ^ (2 * m)) (ket (occ1 0)) (occ1 1) = 0 := by
    intro m
    induction m with
    | zero => exact ⟨by simpa using k1, by simpa using k2⟩
    | succ m ih =>
      have e : G ^ (2 * (m + 1)) = G * (G * G ^ (2 * m)) := by rw [show 2 * (m + 1) = 2 * m + 1 + 1 by ring, pow_succ', pow_succ']
      rw [e]
      constructor
      · change G (G ((G ^ (2 * m)) (ket (occ1 0)))) (occ1 0) = _
        rw [(exc01 _).1, (exc01 _).2, ih.1, pow_succ]; ring
      · change G (G ((G ^ (2 * m)) (ket (occ1 0)))) (occ1 1) = _
        rw [(exc01 _).2, (exc01 _).1, ih.2, neg_zero]
  have ho : ∀ m : ℕ, (G ^ (2 * m + 1)) (ket (occ1 0)) (occ1 0) = 0 := by
    intro m
    rw [pow_succ']
    change G ((G ^ (2 * m)) (ket (occ1 0))) (occ1 0) = _
    rw [(exc01 _).1, (hp m).2]
  have i2 : ∀ m : ℕ, (-Complex.I) ^ (2 * m) = (-1) ^ m := by
    intro m; rw [pow_mul, neg_sq, Complex.I_sq]
  have hs := hasSum_euler v 1 0 (fun k => (-Complex.I) ^ k * (G ^ k) (ket (occ1 0)) (occ1 0))
    (fun m => by rw [i2, (hp m).1, ← mul_pow]; norm_num) (fun m => by rw [ho m, mul_zero])
  have e : ∀ k : ℕ, ((Nat.factorial k : ℂ))⁻¹ * (((v : ℂ) • G) ^ k) (ket (occ1 0)) (occ1 0) =
      ((Nat.factorial k : ℂ))⁻¹ * ((Complex.I * v) ^ k * ((-Complex.I) ^ k * (G ^ k) (ket (occ1 0)) (occ1 0))) := by
    intro k
    have : (((v : ℂ) • G) ^ k) (ket (occ1 0)) (occ1 0) = (v : ℂ) ^ k * (G ^ k) (ket (occ1 0)) (occ1 0) := by rw [smul_pow]; rfl
    rw [this, ← mul_assoc ((Complex.I * v) ^ k), ← mul_pow]
    congr 3
    linear_combination (v : ℂ) * Complex.I_sq
  have h1 := h (ket (occ1 0)) (occ1 0)
  simp only [e] at h1
  have := h1.unique hs
  rw [this]; ring

/-- **C110 fails for other depths.** With `ansatz_depth=2` every angle is halved but the circuit is not repeated: for one excitation
with parameter `π` the circuit is not the cluster exponential, whatever the phase. -/
theorem C110_depth_fails : ∃ (psi : List (Term PStr ℂ)) (gs : List (ℝ × PStr)),
    assign tinyC Transform.jordanWigner 2 [[0, 1]] [(π : ℂ)] = some psi ∧ applyOp 2 none psi = some gs ∧
      ∀ ph : ℂ, ‖ph‖ = 1 → ¬ IsExp ((π : ℂ) • (excOp [0, 1] - excOp [1, 0] : Oper ℂ)) (ph • circOp (gatesOf gs)) := by
  obtain ⟨psi, gs, Us, ph, h1, h2, h3, h4, h5⟩ := C110_circuit_partial 2 (by norm_num) 2 [[0, 1]] [(π : ℂ)] (by decide)
    (by intro p hp; simp only [List.mem_singleton] at hp; subst hp; exact Complex.conj_ofReal π)
  refine ⟨psi, gs, h1, h2, fun q hq hX => ?_⟩
  have hf : ([[0, 1]].zip [(π : ℂ)]).filter (fun x => !tinyC x.2) = [([0, 1], (π : ℂ))] := by
    have : tinyC (π : ℂ) = false := by
      unfold tinyC
      rw [decide_eq_false_iff_not, Complex.norm_real, Real.norm_eq_abs, abs_of_pos pi_pos, not_lt]
      exact le_trans (by norm_num) two_le_pi
    simp [this]
  rw [hf] at h3
  cases h3 with
  | cons a b =>
    cases b
    rename_i U
    have a' : IsExp (((π / 2 : ℝ) : ℂ) • (excOp [0, 1] - excOp [1, 0] : Oper ℂ)) U := by
      have : (((π / 2 : ℝ) : ℂ)) = (π : ℂ) / ((2 : ℝ) : ℂ) := by push_cast; ring
      rw [this]
      exact a
    have b1 := exc_amp _ _ a'
    have b2 := exc_amp _ _ hX
    have h6 : ph • circOp (gatesOf gs) = U := by rw [h5]; simp
    rw [← h6, cos_pi_div_two] at b1
    rw [cos_pi] at b2
    change ph * circOp (gatesOf gs) (ket (occ1 0)) (occ1 0) = _ at b1
    change q * circOp (gatesOf gs) (ket (occ1 0)) (occ1 0) = _ at b2
    have hph : ph ≠ 0 := by intro h0; rw [h0, norm_zero] at h4; norm_num at h4
    have : circOp (gatesOf gs) (ket (occ1 0)) (occ1 0) = 0 := by
      simpa [hph] using b1
    rw [this, mul_zero] at b2
    norm_num at b2

end
end Props
end HQCA
