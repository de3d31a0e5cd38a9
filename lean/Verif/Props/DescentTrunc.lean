import Verif.Props.DescentQ

/-!
# C165: the relative truncation keeps a descent direction
-/

namespace HQCA
namespace Props
open ACSE ACSEEn EulerRun HFStore Ham Prepare Resid UCC Tomo Euler Instr Filter Topology Collect
noncomputable section

/-- The residual operator term by term: with every term the negative of its adjoint, and every term is the sum of the entries that have its string. -/
theorem resOp_terms {N : ℕ} (S : ℝ) (A : Fin N → Fin N → Fin N → Fin N → ℂ)
    (hr : ∀ a b c d, (starRingEnd ℂ) (A a b c d) = A a b c d) (ha : ∀ i k j l, A j l i k = -A i k j l)
    (hd : ∀ i k j l, A i k j l ≠ 0 → i ≠ k ∧ j ≠ l) (B : OpD FStr ℂ) (hB : resOp (above S) A = some B) :
    AntiTerms B ∧ UniqueKeys B ∧ (∀ t ∈ B, t.1.length = N) ∧
      ∃ P : FStr → Fin N → Fin N → Fin N → Fin N → Prop, (∀ s i k j l, P s i k j l → S ≤ ‖A i k j l‖) ∧ (∀ t ∈ B, ∃ i k j l, P t.1 i k j l) ∧
        open Classical in ∀ t ∈ B, ∀ f : Oper ℂ →ₗ[ℂ] ℂ, t.2 * f (denF 0 t.1) = -∑ i, ∑ k, ∑ j, ∑ l, if P t.1 i k j l then A i k j l * f (gop i k j l) else 0 := by
  unfold resOp at hB
  obtain ⟨us, u1, rfl⟩ := Option.map_eq_some_iff.mp hB
  have hU : UniqueKeys (us.foldl OpD.addStr ([] : OpD FStr ℂ)) := OpD.foldl_addStr_unique us [] List.nodup_nil
  set gen : ℂ × List (ℕ × FL) → Term FStr ℂ := fun t => (Fermi.generate true t.1 t.2 N).getD ([], 0) with hgen
  have hus : us = (resTerms (Collect.above S) A).map gen := by
    have : ∀ (l : List (ℂ × List (ℕ × FL))) us, l.mapM (fun t => Fermi.generate true t.1 t.2 N) = some us → us = l.map gen := by
      intro l
      induction l with
      | nil => intro us h; simpa using h.symm
      | cons a l ih =>
        intro us h
        rw [List.mapM_cons] at h
        obtain ⟨y, y1, h⟩ := Option.bind_eq_some_iff.mp h
        obtain ⟨ys, y2, h⟩ := Option.bind_eq_some_iff.mp h
        have := ih ys y2
        rw [List.map_cons, ← this, hgen]
        simp only [y1, Option.getD_some]
        exact (Option.some.inj h).symm
    exact this _ _ u1
  set word : Fin N → Fin N → Fin N → Fin N → ℂ × List (ℕ × FL) :=
    fun i k j l => (-A i k j l, [(i.val, .cr), (k.val, .cr), (l.val, .an), (j.val, .an)]) with hword
  set Kp : Fin N → Fin N → Fin N → Fin N → Prop :=
    fun i k j l => Coef.isZero (A i k j l) = false ∧ Collect.above S (A i k j l) = true with hKp
  have hkp : ∀ i k j l, Kp i k j l → A i k j l ≠ 0 ∧ S ≤ ‖A i k j l‖ ∧ i ≠ k ∧ j ≠ l := by
    intro i k j l h
    have hkeep : S ≤ ‖A i k j l‖ := by
      have := h.2
      unfold Collect.above at this
      simpa using this
    have hA0 : A i k j l ≠ 0 := fun h0 => ?_
    · exact ⟨hA0, hkeep, hd _ _ _ _ hA0⟩
    have := (Coef.isZero_iff (A i k j l)).mpr h0
    have h' := h.1
    rw [this] at h'
    exact absurd h' (by simp)
  have hksym : ∀ i k j l, Kp j l i k ↔ Kp i k j l := by
    intro i k j l
    simp only [hKp]
    rw [ha i k j l]
    have e1 : Coef.isZero (-A i k j l) = Coef.isZero (A i k j l) := by
      rw [Bool.eq_iff_iff, Coef.isZero_iff, Coef.isZero_iff, neg_eq_zero]
    have e2 : Collect.above S (-A i k j l) = Collect.above S (A i k j l) := by
      unfold Collect.above
      rw [norm_neg]
    rw [e1, e2]
  have hpart : ∀ i k j l, Kp i k j l → (gen (word j l i k)).1 = dagS (gen (word i k j l)).1 ∧
      (gen (word j l i k)).2 = -(sgnS (gen (word i k j l)).1 * (starRingEnd ℂ) (gen (word i k j l)).2) ∧
      (gen (word i k j l)).1 = patStr N i.val k.val j.val l.val ∧
      (gen (word i k j l)).2 • denF 0 (gen (word i k j l)).1 = (-A i k j l) • (gop i k j l : Oper ℂ) := by
    intro i k j l h
    obtain ⟨k1, _, hik, hjl⟩ := hkp i k j l h
    have hok : ∀ i k j l : Fin N, okLetters [(i.val, FL.cr), (k.val, .cr), (l.val, .an), (j.val, .an)] := by
      intro i k j l x hx
      simp only [List.mem_cons, List.not_mem_nil, or_false] at hx
      rcases hx with rfl | rfl | rfl | rfl <;> simp
    obtain ⟨t, t1, _⟩ := generate_spec (K := ℂ) (-A i k j l) _ N (hok i k j l)
    obtain ⟨u, u1, _⟩ := generate_spec (K := ℂ) (-A j l i k) _ N (hok j l i k)
    have et : gen (word i k j l) = t := by simp only [hgen, hword]; rw [t1]; rfl
    have eu : gen (word j l i k) = u := by simp only [hgen, hword]; rw [u1]; rfl
    rw [ha i k j l] at u1
    have := gen_anti N (-A i k j l) (neg_ne_zero.mpr k1) (by rw [map_neg, hr]) i k j l hik hjl t u t1 u1
    rw [et, eu]
    exact ⟨this.1, this.2, gen_key N _ (neg_ne_zero.mpr k1) i k j l hik hjl t t1⟩
  have hmem : ∀ u, u ∈ us ↔ ∃ i k j l, Kp i k j l ∧ u = gen (word i k j l) := by
    intro u
    rw [hus, List.mem_map]
    unfold resTerms
    simp only [List.mem_flatMap, List.mem_finRange, true_and]
    constructor
    · rintro ⟨t, ⟨i, k, j, l, ht⟩, rfl⟩
      split at ht
      · rename_i hc
        rw [List.mem_singleton] at ht
        exact ⟨i, k, j, l, hc, by rw [ht]⟩
      · simp at ht
    · rintro ⟨i, k, j, l, hc, rfl⟩
      exact ⟨word i k j l, ⟨i, k, j, l, by rw [if_pos hc]; simp [hword]⟩, rfl⟩
  classical
  have hsum : ∀ s, coef (us.foldl OpD.addStr ([] : OpD FStr ℂ)) s =
      ∑ i, ∑ k, ∑ j, ∑ l, if Kp i k j l then (if (gen (word i k j l)).1 = s then (gen (word i k j l)).2 else 0) else 0 := by
    intro s
    rw [OpD.coef_foldl_addStr us [] List.nodup_nil, show coef ([] : OpD FStr ℂ) s = 0 from rfl, zero_add, OpD.coef_eq_sum, hus, List.map_map]
    unfold resTerms
    simp only [map_sum_flatMap, finRange_sum]
    refine Finset.sum_congr rfl fun i _ => Finset.sum_congr rfl fun k _ => Finset.sum_congr rfl fun j _ => Finset.sum_congr rfl fun l _ => ?_
    by_cases hc : Kp i k j l
    · rw [if_pos hc, if_pos hc]
      simp [hword]
    · rw [if_neg hc, if_neg hc]
      simp
  have hco : ∀ s, coef (us.foldl OpD.addStr ([] : OpD FStr ℂ)) (dagS s) =
      -(sgnS s * (starRingEnd ℂ) (coef (us.foldl OpD.addStr ([] : OpD FStr ℂ)) s)) := by
    intro s
    rw [hsum, hsum, swap_pairs]
    simp only [map_sum, Finset.mul_sum, ← Finset.sum_neg_distrib]
    refine Finset.sum_congr rfl fun i _ => Finset.sum_congr rfl fun k _ => Finset.sum_congr rfl fun j _ => Finset.sum_congr rfl fun l _ => ?_
    by_cases hc : Kp i k j l
    · rw [if_pos hc, if_pos ((hksym i k j l).mpr hc)]
      obtain ⟨p1, p2, _⟩ := hpart i k j l hc
      rw [p1, p2]
      by_cases e : (gen (word i k j l)).1 = s
      · rw [if_pos e, if_pos (by rw [e]), e]
      · rw [if_neg e, if_neg fun h => e (dagS_inj h)]
        simp
    · rw [if_neg hc, if_neg (fun h => hc ((hksym i k j l).mp h))]
      simp
  have hkey : ∀ t ∈ us.foldl OpD.addStr ([] : OpD FStr ℂ), ∃ i k j l, Kp i k j l ∧ t.1 = (gen (word i k j l)).1 := by
    intro t ht
    have := (OpD.mem_keys_foldl_addStr us [] t.1).mp (List.mem_map_of_mem ht)
    rcases this with h | h
    · simp at h
    · obtain ⟨u, hu, e⟩ := List.mem_map.mp h
      obtain ⟨i, k, j, l, hc, rfl⟩ := (hmem u).mp hu
      exact ⟨i, k, j, l, hc, e.symm⟩
  refine ⟨?_, hU, ?_, fun s i k j l => Kp i k j l ∧ (gen (word i k j l)).1 = s, fun s i k j l h => (hkp i k j l h.1).2.1, ?_, ?_⟩
  · intro t ht
    obtain ⟨i, k, j, l, hc, e⟩ := hkey t ht
    have hin : dagS t.1 ∈ (us.foldl OpD.addStr ([] : OpD FStr ℂ)).map (·.1) := by
      rw [OpD.mem_keys_foldl_addStr]
      right
      rw [e, ← (hpart i k j l hc).1]
      exact List.mem_map_of_mem ((hmem _).mpr ⟨j, l, i, k, (hksym i k j l).mpr hc, rfl⟩)
    obtain ⟨v, hv, ev⟩ := List.mem_map.mp hin
    have h1 := OpD.coef_of_mem _ hU v hv
    have h2 := OpD.coef_of_mem _ hU t ht
    rw [ev, hco, h2] at h1
    rw [show (dagS t.1, -(sgnS t.1 * (starRingEnd ℂ) t.2)) = v from Prod.ext ev.symm h1]
    exact hv
  · intro t ht
    obtain ⟨i, k, j, l, hc, e⟩ := hkey t ht
    rw [e, (hpart i k j l hc).2.2.1]
    simp [patStr]
  · intro t ht
    obtain ⟨i, k, j, l, hc, e⟩ := hkey t ht
    exact ⟨i, k, j, l, hc, e.symm⟩
  · intro t ht f
    rw [← OpD.coef_of_mem _ hU t ht, hsum]
    simp only [Finset.sum_mul, ← Finset.sum_neg_distrib]
    refine Finset.sum_congr rfl fun i _ => Finset.sum_congr rfl fun k _ => Finset.sum_congr rfl fun j _ => Finset.sum_congr rfl fun l _ => ?_
    by_cases hc : Kp i k j l
    · by_cases e : (gen (word i k j l)).1 = t.1
      · rw [if_pos hc, if_pos e, if_pos ⟨hc, e⟩, ← e, ← smul_eq_mul, ← map_smul, (hpart i k j l hc).2.2.2, map_smul, smul_eq_mul, neg_mul]
      · rw [if_pos hc, if_neg e, if_neg fun h => e h.2, zero_mul, neg_zero]
    · rw [if_neg hc, if_neg fun h => hc h.1, zero_mul, neg_zero]

/-- The expectation value of the commutator with `H`. -/
def commEv (Ψ : Cfg →₀ ℂ) (H : Oper ℂ) : Oper ℂ →ₗ[ℂ] ℂ where
  toFun X := evState Ψ (X * H - H * X)
  map_add' X Y := by rw [add_mul, mul_add, add_sub_add_comm, map_add]
  map_smul' c X := by
    rw [smul_mul_assoc, mul_smul_comm, map_sub, map_smul, map_smul, ← smul_sub, ← map_sub]
    rfl

theorem sum_neg_of {l : List ℝ} (h0 : l ≠ []) (h : ∀ x ∈ l, x < 0) : l.sum < 0 := by
  induction l with
  | nil => exact absurd rfl h0
  | cons x l ih =>
    rw [List.sum_cons]
    have h1 := h x (by simp)
    by_cases e : l = []
    · rw [e]; simpa using h1
    · have := ih e fun y hy => h y (by simp [hy])
      linarith

/-- A selection of terms of the residual operator, with each term its adjoint, is a descent direction if the tensor is accurate to the threshold. -/
theorem descends_filter {N : ℕ} (Ψ : Cfg →₀ ℂ) (H : Oper ℂ) (A : Fin N → Fin N → Fin N → Fin N → ℂ)
    (hAr : ∀ i k j l, (starRingEnd ℂ) (A i k j l) = A i k j l) (hAa : ∀ i k j l, A j l i k = -A i k j l)
    (hd : ∀ i k j l, A i k j l ≠ 0 → i ≠ k ∧ j ≠ l) (S : ℝ)
    (hclose : ∀ i k j l, ‖A i k j l - pair Ψ ((gop i k j l * H - H * gop i k j l : Oper ℂ) Ψ)‖ < S) (B : OpD FStr ℂ)
    (hB : resOp (above S) A = some B) (p : Term FStr ℂ → Bool) (hp : ∀ t, p (negAdj t) = p t) (hne : B.filter p ≠ []) : Descends N H Ψ (B.filter p) := by
  obtain ⟨a1, a2, a3, P, a4, a5, a6⟩ := resOp_terms S A hAr hAa hd B hB
  have hanti : AntiTerms (B.filter p) := fun t ht => by
    obtain ⟨h1, h2⟩ := List.mem_filter.mp ht
    exact List.mem_filter.mpr ⟨a1 t h1, (hp t).trans h2⟩
  have huniq : UniqueKeys (B.filter p) := (List.filter_sublist.map _).nodup a2
  obtain ⟨_, E, _, _, _, hE, hEl, _⟩ := C15_transform_jw (B.filter p) N (fun t ht => a3 t (List.mem_filter.mp ht).1)
  have hUP : UniqueKeys ([] : POp ℂ) := List.nodup_nil
  have hC : denPO (E.foldl OpD.addStr []) = denD (denF 0) (B.filter p) := by
    rw [← hE]
    unfold denPO
    rw [OpD.denD_foldl_addStr _ _ _ hUP, OpD.denD_nil, zero_add]
  have hCU := OpD.foldl_addStr_unique E [] hUP
  have hCl : ∀ t ∈ E.foldl OpD.addStr [], t.1.length = N := lengths_foldl_addStr (fun s => s.length = N) E [] (by simp) hEl
  have hCi := antiherm_imag N _ hCU hCl (by rw [hC]; exact hanti.isAdj huniq)
  refine ⟨_, hCU, fun t ht => ⟨hCl t ht, hCi t ht⟩, hC, fun ε hε => stepGates_emitted _ hCi ε hε none, fun ψe hψe => ?_⟩
  have hD := hasDeriv_step _ hCi Ψ H ψe hψe
  have hz : ψe 0 = Ψ := by
    apply DFunLike.coe_injective
    rw [hψe]
    have : circOp (gatesOf (stepGates (E.foldl OpD.addStr []) 0)) = evol ((E.foldl OpD.addStr []).map fun t => (-t.2.im, t.1)) 0 := by
      unfold evol stepGates
      rw [List.map_map]
      congr 2
      exact List.map_congr_left fun t _ => by simp [Function.comp]
    rw [this, (evol_zero _).1]
    rfl
  have hneg : (commEv Ψ H (denPO (E.foldl OpD.addStr []))).re < 0 := by
    rw [hC]
    unfold denD
    rw [map_list_sum, List.map_map, ← Complex.reCLM_apply, map_list_sum, List.map_map]
    refine sum_neg_of (by simpa using hne) fun x hx => ?_
    obtain ⟨t, ht, rfl⟩ := List.mem_map.mp hx
    have htB := (List.mem_filter.mp ht).1
    simp only [Function.comp, map_smul, smul_eq_mul]
    rw [a6 t htB, Complex.reCLM_apply, Complex.neg_re, neg_lt_zero]
    simp only [Complex.re_sum]
    have hpos : ∀ i k j l, P t.1 i k j l → 0 < (A i k j l * commEv Ψ H (gop i k j l)).re := by
      intro i k j l h
      have hre := Complex.conj_eq_iff_re.mp (hAr i k j l)
      have hS := a4 _ i k j l h
      rw [Complex.mul_re, Complex.conj_eq_iff_im.mp (hAr i k j l), zero_mul, sub_zero]
      refine same_sign (S := S) ?_ ?_
      · rw [← hre, Complex.norm_real, Real.norm_eq_abs] at hS
        exact hS
      · rw [← Complex.sub_re]
        exact (Complex.abs_re_le_norm _).trans_lt (hclose i k j l)
    obtain ⟨i, k, j, l, h⟩ := a5 t htB
    classical
    refine sum4_pos (fun i k j l => (if P t.1 i k j l then A i k j l * commEv Ψ H (gop i k j l) else 0 : ℂ).re) (fun i k j l => ?_) i k j l ?_
    · by_cases hc : P t.1 i k j l
      · rw [if_pos hc]; exact (hpos i k j l hc).le
      · rw [if_neg hc]; exact le_rfl
    · beta_reduce
      rw [if_pos h]; exact hpos i k j l h
  have hre := Complex.reCLM.hasFDerivAt.comp_hasDerivAt (0 : ℝ) hD
  rw [Complex.reCLM_apply] at hre
  have := lower_of_deriv _ _ hre hneg
  obtain ⟨δ, d1, d2⟩ := this
  refine ⟨δ, d1, fun ε e1 e2 => ?_⟩
  have := d2 ε e1 e2
  simp only [Function.comp, Complex.reCLM_apply, hz] at this
  exact this

theorem relTrunc_filter (thr : ℝ) (A : OpD FStr ℂ) (hU : UniqueKeys A) :
    ∃ M : ℝ, (A = [] ∨ ∃ t ∈ A, ‖t.2‖ = M) ∧ relTrunc (fun c : ℂ => ‖c‖) thr A = A.filter (fun t => decide (|thr| * M ≤ ‖t.2‖)) := by
  have hM : ∃ M : ℝ, (∀ t ∈ A, ‖t.2‖ ≤ M) ∧ (A = [] ∨ ∃ t ∈ A, ‖t.2‖ = M) := by
    rcases A.eq_nil_or_concat with e | ⟨_, x, e⟩
    · exact ⟨0, by simp [e], Or.inl e⟩
    · classical
      obtain ⟨t, t1, t2⟩ := Finset.exists_max_image A.toFinset (fun t => ‖t.2‖) ⟨x, by simp [e]⟩
      exact ⟨‖t.2‖, fun u hu => t2 u (by simpa using hu), Or.inr ⟨t, by simpa using t1, rfl⟩⟩
  obtain ⟨M, m1, m2⟩ := hM
  exact ⟨M, m2, C41_complex thr A hU M m1 m2⟩

theorem resOp_nil {N : ℕ} (S : ℝ) (A : Fin N → Fin N → Fin N → Fin N → ℂ) (h : resOp (above S) A = some []) : keptSq S A = 0 := by
  unfold resOp at h
  obtain ⟨us, u1, u2⟩ := Option.map_eq_some_iff.mp h
  have hus : us = [] := by
    by_contra hne
    obtain ⟨x, hx⟩ := List.exists_mem_of_ne_nil _ hne
    have := (OpD.mem_keys_foldl_addStr us [] x.1).mpr (Or.inr (List.mem_map_of_mem hx))
    rw [u2] at this
    simp at this
  subst hus
  unfold keptSq
  cases hr : resTerms (above S) A with
  | nil => simp
  | cons x xs =>
    exfalso
    rw [hr, List.mapM_cons] at u1
    obtain ⟨y, _, y2⟩ := Option.bind_eq_some_iff.mp u1
    obtain ⟨ys, _, y3⟩ := Option.bind_eq_some_iff.mp y2
    cases y3

/-- **C165, partial.** The same for the operator the driver keeps after the truncation relative to the largest term: unless it is empty it is a descent direction at the state of the ansatz for which it was computed,
and it is empty only for a zero norm when the relative threshold is at most one.  Missing: as in `C165_descent_partial`. -/
theorem C165_solver_partial (o : Opt) (no na nb : ℕ) (hno : 1 < no) (ha : na ≤ no) (hb : nb ≤ no) (hne : na + nb ≠ 1)
    (hcol : ColouringOK o.colA) (h1 : Fin (2 * no) → Fin (2 * no) → ℂ)
    (V : Fin (2 * no) → Fin (2 * no) → Fin (2 * no) → Fin (2 * no) → ℂ) (hs : SpinInts no h1 V) (hh : ∀ a b, h1 a b = h1 b a)
    (hV : ∀ a b c d, V a b c d = V c d a b) (hx : ∀ a b c d, V a b c d = V b a d c) (L : List (OpD FStr ℂ)) (hL : ∀ A ∈ L, LayerOK no A)
    (H : List (PStr × ℂ)) (hH : denPO H = secondQ h1 V) (hHr : ∀ t ∈ H, t.2.im = 0) (hHl : ∀ t ∈ H, t.1.length = 2 * no) (n : ℕ) (hn : n ≠ 0)
    (hS : 0 < o.smin) :
    ∃ (psi : List (Term PStr ℂ)) (Us : List (Oper ℂ)) (Ψ : Cfg →₀ ℂ), ACSEEn.strings L = some psi ∧
      List.Forall₂ (fun t U => IsExp (t.2 • (denP 0 t.1 : Oper ℂ)) U) psi Us ∧ (Ψ : Cfg → ℂ) = Us.reverse.prod (ket (hfCfg no na nb)) ∧ pair Ψ Ψ = 1 ∧
      ∃ d0 > 0, ∀ d : ℝ, d ≠ 0 → |d| < d0 → 2 ^ (2 * no) * 1e-28 / |d| < o.smin / 2 →
        ∀ B m, EulerQ.getA o no na nb H n d L = some (B, m) →
          (B ≠ [] → Descends (2 * no) (secondQ h1 V) Ψ B) ∧ (|o.thr| ≤ 1 → m ≠ 0 → B ≠ []) := by
  obtain ⟨psi, Us, Ψ, c1, c2, c3, c4, hst, M, d0, hd0, hM, c6, _⟩ := measured_setup no na nb hno ha hb hne o.colA hcol h1 V hs hh hV hx L hL H hH hHr hHl n hn o.smin hS
  refine ⟨psi, Us, Ψ, c1, c2, c3, c4, d0, hd0, fun d hd hlt hround B m hB => ?_⟩
  obtain ⟨A, hA, hAM⟩ := c6 d hd
  have hclose : ∀ i k j l, ‖A i k j l - pair Ψ ((gop i k j l * secondQ h1 V - secondQ h1 V * gop i k j l : Oper ℂ) Ψ)‖ < o.smin := by
    intro i k j l
    rw [← hst i k j l]
    have := norm_sub_le_norm_sub_add_norm_sub (A i k j l) (M d i k j l : ℂ) (residual (k2 h1 V ((na + nb : ℕ) : ℂ)) (rdm2 (evState Ψ)) (rdm3 (evState Ψ)) i k j l)
    have := hAM i k j l
    have := hM d hd hlt i k j l
    linarith
  have hI := measured_imag no na nb o.colA L H n d A hA
  unfold EulerQ.getA at hB
  rw [hA, Option.bind_some] at hB
  obtain ⟨x, hx', e⟩ := Option.map_eq_some_iff.mp hB
  obtain ⟨rfl, rfl⟩ := Prod.mk.inj e
  unfold Collect.quantum at hx'
  obtain ⟨B', b1, b2⟩ := Option.bind_eq_some_iff.mp hx'
  split at b2
  swap
  · cases b2
  obtain rfl := Option.some.inj b2
  have hterms := resOp_terms o.smin A hI.real hI.anti (fun i k j l h => ⟨(hI.distinct i k j l h).1, (hI.distinct i k j l h).2.1⟩) B' b1
  obtain ⟨M', m1, m2⟩ := relTrunc_filter o.thr B' hterms.2.1
  refine ⟨fun hne0 => ?_, fun ht hm => ?_⟩
  · rw [m2] at hne0 ⊢
    exact descends_filter Ψ _ A hI.real hI.anti (fun i k j l h => ⟨(hI.distinct i k j l h).1, (hI.distinct i k j l h).2.1⟩) o.smin hclose B' b1 _
      (fun t => by rw [negAdj_norm]) hne0
  · rcases m1 with rfl | ⟨t, ht1, ht2⟩
    · refine absurd ?_ hm
      show (0.5 : ℝ) * Real.sqrt (keptSq o.smin A) = 0
      rw [resOp_nil _ _ b1, Real.sqrt_zero, mul_zero]
    · rw [m2]
      refine List.ne_nil_of_mem (a := t) (List.mem_filter.mpr ⟨ht1, decide_eq_true ?_⟩)
      rw [ht2]
      have : 0 ≤ M' := ht2 ▸ norm_nonneg _
      nlinarith

/-- The hypotheses of `C165_solver_partial` for the reference. -/
example (o : Opt) (ht : |o.thr| ≤ 1) (hc : ColouringOK o.colA) (hS : o.smin = 1e-10) : ∃ (H : POp ℂ) (Ψ : Cfg →₀ ℂ) (d0 : ℝ), denPO H = secondQ exH exV ∧ 0 < d0 ∧
    ∀ d : ℝ, d ≠ 0 → |d| < d0 → 2 ^ (2 * 2) * 1e-28 / |d| < (1e-10 : ℝ) / 2 → ∀ B m, EulerQ.getA o 2 1 1 H 1 d [] = some (B, m) → m ≠ 0 →
      Descends (2 * 2) (secondQ exH exV) Ψ B := by
  obtain ⟨hh, hV, hx⟩ := ex_symm
  obtain ⟨_, H, _, _, _, q1, q2, q3⟩ := C153_hamiltonian 2 (fun _ => false) exH exV ex_spin hh hV (fun _ _ h => absurd h (by simp)) (fun _ _ _ _ h => absurd h (by simp))
  obtain ⟨_, _, Ψ, _, _, _, _, d0, h0, h⟩ := C165_solver_partial o 2 1 1 (by norm_num) (by norm_num) (by norm_num) (by norm_num) hc exH exV
    ex_spin hh hV hx [] (by simp) H q1 q2 q3 1 one_ne_zero (by rw [hS]; norm_num)
  refine ⟨H, Ψ, d0, q1, h0, fun d hd hlt hr B m hB hm => ?_⟩
  obtain ⟨g1, g2⟩ := h d hd hlt (by rw [hS]; exact hr) B m hB
  exact g1 (g2 ht hm)


end
end Props
end HQCA
