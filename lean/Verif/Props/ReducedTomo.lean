import Verif.Model.ReducedTomo
import Verif.Proofs.Letters
import Verif.Props.SymProj
import Verif.Props.StateTomo
import Verif.Props.Matrix
import Verif.Props.QubitTomo

/-!
# C109: symmetry-projected tomography returns the reduced density matrix
-/

namespace HQCA.Props
open HQCA.Tomo HQCA.StateTomo HQCA.ReducedTomo HQCA.SymProj HQCA.Transform

/-! ### The element operators -/

theorem rdmOp_ne0 (p N : ℕ) (c a : List ℕ) (hc : Sorted p N c) (ha : Sorted p N a) : (rdmOp c a : Oper ℂ) ≠ 0 := by
  classical
  intro h
  have nc : c.Nodup := hc.2.1.imp (fun h => by omega)
  have na : a.Nodup := ha.2.1.imp (fun h => by omega)
  have h := congrFun (LinearMap.congr_fun h (fun b => if b = (fun i => a.contains i) then (1 : ℂ) else 0))
    (fun i => c.contains i)
  obtain ⟨e, he, h1⟩ := cre_prod_apply c nc ((a.reverse.map (ann (K := ℂ))).prod
    (fun b => if b = (fun i => a.contains i) then (1 : ℂ) else 0)) (fun i => c.contains i) (by intro x hx; simpa using hx)
  obtain ⟨e', he', h2⟩ := ann_prod_apply a.reverse (List.nodup_reverse.mpr na)
    (fun b => if b = (fun i => a.contains i) then (1 : ℂ) else 0) (fun _ => false) (by simp)
  simp only [rdmOp, Module.End.mul_apply, LinearMap.zero_apply, Pi.zero_apply] at h
  rw [h1] at h
  have e0 : (fun i => c.contains i && !c.contains i) = fun _ : ℕ => false := by funext i; simp
  rw [e0, h2] at h
  have e1 : (fun i => false || a.reverse.contains i) = fun i => a.contains i := by funext i; simp
  rw [if_pos e1, mul_one] at h
  exact mul_ne_zero he he' h

/-- One string of an element: its sites and weights. -/
theorem element_string (fermi : Bool) (p N : ℕ) (c a : List ℕ) (hc : Sorted p N c) (ha : Sorted p N a) (w : ℂ)
    (r : Term FStr ℂ) (h : Fermi.generateCore fermi w (opWord p (c ++ a.reverse)) N = some r) (hr : r.2 ≠ 0) :
    (∀ k, k ∈ (Fermi.pairs r.1).map (·.1) ↔ k ∈ c ∨ k ∈ a) ∧
      (∀ k, ((Fermi.pairs r.1).map (fun x => if x.1 = k then oddW x.2 else 0)).sum =
        (c.map (fun x => if x = k then (1 : ZMod 2) else 0)).sum + (a.map (fun x => if x = k then (1 : ZMod 2) else 0)).sum) ∧
      (∀ A : Finset ℕ, change A r.1 = (c.countP (fun x => x ∈ A) : ℤ) - a.countP (fun x => x ∈ A)) := by
  have hw := opWord_eq p c a hc.1 ha.1
  have hok : okLetters (opWord p (c ++ a.reverse)) := by
    intro x hx
    rw [hw] at hx
    simp only [List.mem_append, List.mem_map] at hx
    rcases hx with ⟨_, _, rfl⟩ | ⟨_, _, rfl⟩ <;> simp
  obtain ⟨h1, h2⟩ := generate_letters fermi w _ N hok r h hr
  refine ⟨?_, ?_, ?_⟩
  · intro k
    rw [h1, hw, List.map_append, List.map_map, List.map_map, List.mem_append]
    simp [Function.comp_def]
  · intro k
    rw [h2 (ZMod 2) _ (oddW_additive k), hw, List.map_append, List.map_map, List.map_map, List.sum_append, List.map_reverse,
      List.sum_reverse]
    rfl
  · intro A
    rw [change_dlt]
    unfold dlt
    rw [h2 ℤ _ (wt_additive A), hw, List.map_append, List.map_map, List.map_map, List.sum_append, List.map_reverse,
      List.sum_reverse]
    have e1 : ∀ l : List ℕ, (l.map ((fun a : ℕ × FL => if a.1 ∈ A then wt a.2 else 0) ∘ fun x => (x, FL.cr))).sum =
        (l.countP (fun x => x ∈ A) : ℤ) := by
      intro l
      induction l with
      | nil => rfl
      | cons x l ih =>
        rw [List.map_cons, List.sum_cons, ih, List.countP_cons]
        by_cases hx : x ∈ A <;> simp [hx, wt, add_comm]
    have e2 : ∀ l : List ℕ, (l.map ((fun a : ℕ × FL => if a.1 ∈ A then wt a.2 else 0) ∘ fun x => (x, FL.an))).sum =
        -(l.countP (fun x => x ∈ A) : ℤ) := by
      intro l
      induction l with
      | nil => rfl
      | cons x l ih =>
        rw [List.map_cons, List.sum_cons, ih, List.countP_cons]
        by_cases hx : x ∈ A <;> simp [hx, wt, add_comm]
    rw [e1, e2, sub_eq_add_neg]

/-- The two strings of an element, merged or not, satisfy the hypotheses of C108. -/
theorem element_pair (fermi : Bool) (F : FStr → Oper ℂ) (p N Na : ℕ) (c a : List ℕ)
    (hc : Sorted p N c) (ha : Sorted p N a) (hn : nAlpha Na c = nAlpha Na a) (w w' : ℂ) (r1 r2 : Term FStr ℂ)
    (g1 : Fermi.generateCore fermi w (opWord p (c ++ a.reverse)) N = some r1)
    (g2 : Fermi.generateCore fermi w' (opWord p (a ++ c.reverse)) N = some r2)
    (n1 : r1.1.length = N) (n2 : r2.1.length = N) (hr1 : r1.2 ≠ 0) :
    ∃ (first : Term FStr ℂ) (rest : OpD FStr ℂ), OpD.addStr (OpD.addStr [] r1) r2 = first :: rest ∧
      rest.length ≤ 1 ∧ (∀ t ∈ first :: rest, t.1.length = N) ∧ UniqueKeys (first :: rest) ∧
      change (Finset.range N) first.1 = 0 ∧ change (alpha Na).toFinset first.1 = 0 ∧
      (∀ t ∈ rest, t.2 ≠ 0 → SameKind first.1 t.1) ∧
      (∀ t ∈ rest, t.2 ≠ 0 → change (Finset.range N) t.1 = 0) ∧
      (∀ t ∈ rest, t.2 ≠ 0 → change (alpha Na).toFinset t.1 = 0) ∧
      denD F (first :: rest) = r1.2 • F r1.1 + r2.2 • F r2.1 := by
  obtain ⟨s1, s2, s3⟩ := element_string fermi p N c a hc ha _ r1 g1 hr1
  have hden : denD F (OpD.addStr (OpD.addStr [] r1) r2) = r1.2 • F r1.1 + r2.2 • F r2.1 := by
    rw [show OpD.addStr (OpD.addStr [] r1) r2 = [r1, r2].foldl OpD.addStr [] from rfl,
      OpD.denD_foldl_addStr _ _ _ OpD.uniqueKeys_nil, OpD.denD_cons, OpD.denD_cons, OpD.denD_nil, add_zero, zero_add]
  have hcount : ∀ c : List ℕ, Sorted p N c → c.countP (fun x => x ∈ Finset.range N) = p := by
    intro c hc
    rw [List.countP_eq_length.mpr, hc.1]
    intro x hx
    simpa using hc.2.2 x hx
  have halp : ∀ c : List ℕ, c.countP (fun x => x ∈ (alpha Na).toFinset) = nAlpha Na c := by
    intro c
    unfold nAlpha
    apply List.countP_congr
    intro x _
    simp [mem_alpha]
  have c1 : change (Finset.range N) r1.1 = 0 := by rw [s3, hcount c hc, hcount a ha, sub_self]
  have c2 : change (alpha Na).toFinset r1.1 = 0 := by rw [s3, halp, halp, hn, sub_self]
  have hother : r2.2 ≠ 0 → SameKind r1.1 r2.1 ∧ change (Finset.range N) r2.1 = 0 ∧ change (alpha Na).toFinset r2.1 = 0 := by
    intro hr2
    obtain ⟨u1, u2, u3⟩ := element_string fermi p N a c ha hc _ r2 g2 hr2
    refine ⟨sameKind_of _ _ (n1.trans n2.symm) ?_ ?_, ?_, ?_⟩
    · intro k
      rw [s1, u1, or_comm]
    · intro k
      rw [s2, u2, add_comm]
    · rw [u3, hcount c hc, hcount a ha, sub_self]
    · rw [u3, halp, halp, hn, sub_self]
  have hop1 : OpD.addStr [] r1 = [r1] := rfl
  by_cases hk : r1.1 = r2.1
  · have hop : OpD.addStr (OpD.addStr [] r1) r2 = [(r1.1, r1.2 + r2.2)] := by
      rw [hop1]
      simp [OpD.addStr, OpD.hasKey, hk]
    rw [hop] at hden ⊢
    exact ⟨_, [], rfl, by simp, by simpa using n1, by simp [UniqueKeys], c1, c2, by simp, by simp, by simp, hden⟩
  · have hop : OpD.addStr (OpD.addStr [] r1) r2 = [r1, r2] := by
      rw [hop1]
      simp [OpD.addStr, OpD.hasKey, hk]
    rw [hop] at hden ⊢
    refine ⟨r1, [r2], rfl, by simp, ?_, by simpa [UniqueKeys] using hk, c1, c2, ?_, ?_, ?_, hden⟩
    · intro t ht
      simp only [List.mem_cons, List.not_mem_nil, or_false] at ht
      rcases ht with rfl | rfl <;> assumption
    · intro t ht hz
      rw [List.mem_singleton.mp ht] at hz ⊢
      exact (hother hz).1
    · intro t ht hz
      rw [List.mem_singleton.mp ht] at hz ⊢
      exact (hother hz).2.1
    · intro t ht hz
      rw [List.mem_singleton.mp ht] at hz ⊢
      exact (hother hz).2.2

/-- The fermionic operator of an element satisfies the hypotheses of C108. -/
theorem rdmeOp_spec (p N Na : ℕ) (f : Flags) (hf : f.real = true ∨ f.imag = true) (hp0 : 0 < p) (c a : List ℕ)
    (hc : Sorted p N c) (ha : Sorted p N a) (hn : nAlpha Na c = nAlpha Na a) (hp : 2 ≤ p ∨ (p = 1 ∧ c ≠ a)) :
    ∃ (first : Term FStr ℂ) (rest : OpD FStr ℂ), rdmeOp f (c ++ a.reverse) N = some (c ++ a.reverse, first :: rest) ∧
      rest.length ≤ 1 ∧ (∀ t ∈ first :: rest, t.1.length = N) ∧ UniqueKeys (first :: rest) ∧
      change (Finset.range N) first.1 = 0 ∧ change (alpha Na).toFinset first.1 = 0 ∧
      (∀ t ∈ rest, t.2 ≠ 0 → SameKind first.1 t.1) ∧
      (∀ t ∈ rest, t.2 ≠ 0 → change (Finset.range N) t.1 = 0) ∧
      (∀ t ∈ rest, t.2 ≠ 0 → change (alpha Na).toFinset t.1 = 0) ∧
      denD (denF 0) (first :: rest) =
        (half f.real + half f.imag : ℂ) • rdmOp c a + (half f.real - half f.imag : ℂ) • rdmOp a c := by
  have hlen : (c ++ a.reverse).length / 2 = p := by simp [hc.1, ha.1]; omega
  have hlen2 : (c ++ a.reverse).length = 2 * p := by simp [hc.1, ha.1]; omega
  have hrev : (c ++ a.reverse).reverse = a ++ c.reverse := by simp
  have hok : ∀ c a : List ℕ, c.length = p → a.length = p → ∀ x ∈ opWord p (c ++ a.reverse), x.2 ≠ .i := by
    intro c a hc ha x hx
    rw [opWord_eq p c a hc ha] at hx
    simp only [List.mem_append, List.mem_map] at hx
    rcases hx with ⟨_, _, rfl⟩ | ⟨_, _, rfl⟩ <;> simp
  have hltN : ∀ c a : List ℕ, Sorted p N c → Sorted p N a → ∀ x ∈ opWord p (c ++ a.reverse), x.1 < N := by
    intro c a hc ha x hx
    rw [opWord_eq p c a hc.1 ha.1] at hx
    simp only [List.mem_append, List.mem_map, List.mem_reverse] at hx
    rcases hx with ⟨y, hy, rfl⟩ | ⟨y, hy, rfl⟩
    · exact hc.2.2 y hy
    · exact ha.2.2 y hy
  obtain ⟨r1, g1, d1, n1⟩ := generate_spec (half f.real + half f.imag : ℂ) (opWord p (c ++ a.reverse)) N
    (hok c a hc.1 ha.1)
  obtain ⟨r2, g2, d2, n2⟩ := generate_spec (half f.real - half f.imag : ℂ) (opWord p (a ++ c.reverse)) N
    (hok a c ha.1 hc.1)
  have n1 := n1 (hltN c a hc ha)
  have n2 := n2 (hltN a c ha hc)
  rw [wordF_opWord p c a hc.1 ha.1] at d1
  rw [wordF_opWord p a c ha.1 hc.1] at d2
  have hw : (half f.real + half f.imag : ℂ) ≠ 0 := by
    obtain ⟨r, i⟩ := f
    cases r <;> cases i <;> simp [half] at hf ⊢
  have hr1 : r1.2 ≠ 0 := by
    intro e
    rw [e, zero_smul] at d1
    exact (smul_ne_zero hw (rdmOp_ne0 p N c a hc ha)) d1.symm
  have gc : ∀ (w : ℂ) (c a : List ℕ), c.length = p → a.length = p →
      Fermi.generate true w (opWord p (c ++ a.reverse)) N = Fermi.generateCore true w (opWord p (c ++ a.reverse)) N := by
    intro w c a hc ha
    unfold Fermi.generate
    rw [if_neg]
    intro e
    have := congrArg List.length (List.isEmpty_iff.mp e)
    rw [opWord_eq p c a hc ha] at this
    simp [hc] at this
    omega
  have hA : rdmeOp f (c ++ a.reverse) N = some (c ++ a.reverse, OpD.addStr (OpD.addStr [] r1) r2) := by
    unfold rdmeOp
    rw [if_pos (by rcases hf with h | h <;> simp [h])]
    simp only [hlen]
    rw [if_neg (by omega), g1]
    simp only [Option.bind_some]
    rw [callerInds_sorted p N c a hc ha hp, if_neg (by omega), hrev, g2]
    rfl
  rw [gc _ c a hc.1 ha.1] at g1
  rw [gc _ a c ha.1 hc.1] at g2
  obtain ⟨first, rest, x1, x⟩ := element_pair true (denF 0) p N Na c a hc ha hn _ _ r1 r2 g1 g2 n1 n2 hr1
  rw [x1] at hA
  rw [d1, d2] at x
  exact ⟨first, rest, hA, x⟩

/-! ### Expectation values of nearby operators -/

theorem phase_norm (k : ℕ) (s : PStr) (e : Cfg) : ‖(phase k s e : ℂ)‖ = 1 := by
  unfold phase
  rw [norm_prod]
  apply Finset.prod_eq_one
  intro k _
  have : ∀ (p : PL) (b : Bool), ‖(ph p b : ℂ)‖ = 1 := by
    intro p b
    cases p <;> cases b <;> simp [ph, sg, HQCA.I]
  exact this _ _

theorem fl_fl (k : ℕ) (s : PStr) (e : Cfg) : fl k s (fl k s e) = e := by
  funext i
  simp [fl]

/-- The expectation value of a Pauli string in a normalised state is at most one. -/
theorem pauli_expect_le (ψ : Cfg →₀ ℂ) (h1 : pair ψ ψ = 1) (s : PStr) : ‖pair ψ (denP 0 s ψ)‖ ≤ 1 := by
  classical
  have hn : ∑ b ∈ ψ.support, ‖ψ b‖ ^ 2 = 1 := by
    have h2 : (pair ψ ψ : ℂ) = ((∑ b ∈ ψ.support, ‖ψ b‖ ^ 2 : ℝ) : ℂ) := by
      unfold pair Finsupp.sum
      push_cast
      apply Finset.sum_congr rfl
      intro b _
      exact Complex.conj_mul' (ψ b)
    rw [h1] at h2
    exact_mod_cast h2.symm
  have hm : ∑ b ∈ ψ.support, ‖ψ (fl 0 s b)‖ ^ 2 ≤ 1 := by
    rw [← hn, ← Finset.sum_image (f := fun b => ‖ψ b‖ ^ 2) (g := fl 0 s)
      (fun x _ y _ h => by rw [← fl_fl 0 s x, ← fl_fl 0 s y, h])]
    rw [← Finset.sum_filter_ne_zero]
    apply Finset.sum_le_sum_of_subset_of_nonneg
    · intro b hb
      rw [Finsupp.mem_support_iff]
      intro h0
      have := (Finset.mem_filter.mp hb).2
      simp [h0] at this
    · intro b _ _
      positivity
  unfold pair Finsupp.sum
  refine (norm_sum_le _ _).trans ?_
  have hb : ∀ b ∈ ψ.support, ‖conj (ψ b) * (denP 0 s : Oper ℂ) ψ b‖ ≤ (‖ψ b‖ ^ 2 + ‖ψ (fl 0 s b)‖ ^ 2) / 2 := by
    intro b _
    rw [denP_apply, norm_mul, norm_mul, phase_norm, one_mul]
    rw [show ‖conj (ψ b)‖ = ‖ψ b‖ from Complex.norm_conj _]
    nlinarith [sq_nonneg (‖ψ b‖ - ‖ψ (fl 0 s b)‖)]
  refine (Finset.sum_le_sum hb).trans ?_
  rw [← Finset.sum_div, Finset.sum_add_distrib, hn]
  linarith

theorem pair_denPO_sum (n : ℕ) (A : POp ℂ) (hA : ∀ t ∈ A, t.1.length = n) (ψ : Cfg →₀ ℂ) :
    pair ψ (denPO A ψ) = ∑ s ∈ allStr n, coef A s * pair ψ (denP 0 s ψ) := by
  induction A with
  | nil =>
    have := pair_smul_right ψ (0 : ℂ) 0
    rw [zero_smul, zero_mul] at this
    simp [denPO, denD, coef, this]
  | cons t A ih =>
    have ih' := ih (fun u hu => hA u (by simp [hu]))
    unfold denPO at ih' ⊢
    rw [OpD.denD_cons, LinearMap.add_apply, pair_add_right, LinearMap.smul_apply, pair_smul_right, ih']
    simp only [coef_cons, add_mul, Finset.sum_add_distrib]
    congr 1
    rw [Finset.sum_eq_single t.1]
    · simp
    · intro s _ hne; rw [if_neg hne.symm, zero_mul]
    · intro h; exact absurd (mem_allStr n t.1 (hA t (by simp))) h

/-- Operators with close coefficients have close expectation values. -/
theorem expect_close (n : ℕ) (A B : POp ℂ) (hA : ∀ t ∈ A, t.1.length = n) (hB : ∀ t ∈ B, t.1.length = n) (δ : ℝ)
    (h : ∀ s, ‖coef A s - coef B s‖ ≤ δ) (ψ : Cfg →₀ ℂ) (h1 : pair ψ ψ = 1) :
    ‖pair ψ (denPO A ψ) - pair ψ (denPO B ψ)‖ ≤ 4 ^ n * δ := by
  have hδ : 0 ≤ δ := (norm_nonneg _).trans (h [])
  rw [pair_denPO_sum n A hA, pair_denPO_sum n B hB, ← Finset.sum_sub_distrib]
  refine (norm_sum_le _ _).trans ?_
  calc ∑ s ∈ allStr n, ‖coef A s * pair ψ (denP 0 s ψ) - coef B s * pair ψ (denP 0 s ψ)‖
      ≤ ∑ s ∈ allStr n, δ := by
        apply Finset.sum_le_sum
        intro s _
        rw [← sub_mul, norm_mul]
        have := pauli_expect_le ψ h1 s
        have := h s
        nlinarith [norm_nonneg (coef A s - coef B s), norm_nonneg (pair ψ ((denP 0 s : Oper ℂ) ψ))]
    _ ≤ 4 ^ n * δ := by
        rw [Finset.sum_const, nsmul_eq_mul]
        apply mul_le_mul_of_nonneg_right _ hδ
        exact_mod_cast card_allStr n

/-! ### End to end -/

theorem sector_of_occ (Na : ℕ) (n : ℤ) (ψ : Cfg → ℂ) (h : HasOcc (alpha Na).toFinset n ψ) : Sector Na n ψ := by
  intro b hb
  rw [← h b hb]
  unfold occAlpha occOn alpha
  rw [← List.toFinset_filter, List.toFinset_card_of_nodup (List.nodup_range.filter _)]

/-- One element: the projection returns and its expectation value is that of the element, up to the threshold. -/
theorem spRdme_spec (num : Num ℂ) (hnum : NumOK num) (hr : RankOK num.rank) (hsv : SolveOK num) (skip : Bool)
    (p N Na : ℕ) (f : Flags) (hf : f.real = true ∨ f.imag = true) (hp0 : 0 < p) (c a : List ℕ)
    (hc : Sorted p N c) (ha : Sorted p N a) (hn : nAlpha Na c = nAlpha Na a) (hp : 2 ≤ p ∨ (p = 1 ∧ c ≠ a)) :
    ∃ Q, spRdme num f (alpha Na) skip (c ++ a.reverse) N = some (c ++ a.reverse, Q) ∧ (∀ u ∈ Q, u.1.length = N) ∧
      ∀ ψ : Cfg →₀ ℂ, pair ψ ψ = 1 → (∃ n, HasOcc (Finset.range N) n ψ) → (∃ n, HasOcc (alpha Na).toFinset n ψ) →
        ‖pair ψ (denPO Q ψ) - target f ψ c a‖ ≤ 4 ^ N * 1e-10 := by
  obtain ⟨first, rest, e1, e2, e3, e4, e5, e6, e7, e8, e9, e10⟩ := rdmeOp_spec p N Na f hf hp0 c a hc ha hn hp
  have hN : 0 < N := by
    have : c ≠ [] := by intro e; have := hc.1; rw [e] at this; simp at this; omega
    obtain ⟨x, hx⟩ := List.exists_mem_of_ne_nil c this
    have := hc.2.2 x hx
    omega
  obtain ⟨Q, q1, ⟨q2, E, q3, q4, q5⟩, _⟩ := C108_jordan_wigner_partial num hnum hr hsv false (alpha Na) skip N hN first rest
    e3 e4 e5 e6 e7 e8 e9
  refine ⟨Q, ?_, q2, ?_⟩
  · unfold spRdme
    rw [e1, Option.bind_some, q1]
    rfl
  · intro ψ h1 hψ1 hψ2
    have hE := q4 ψ hψ1 (fun _ => hψ2)
    rw [e10, LinearMap.add_apply, pair_add_right, LinearMap.smul_apply, LinearMap.smul_apply, pair_smul_right,
      pair_smul_right] at hE
    rw [← target_eq f ψ c a]
    unfold rdm
    rw [← hE]
    apply expect_close N Q E q2 q3 _ _ ψ h1
    intro s
    refine (q5 s).trans (max_le le_rfl ?_)
    have : ((first :: rest).length : ℝ) ≤ 2 := by
      have : (first :: rest).length ≤ 2 := by simp; omega
      exact_mod_cast this
    nlinarith

/-- **C109.**  Tomography with symmetry-projected operators (`ReducedTomography`) and the state-vector backend, end to
end.  With exact linear algebra, for every proper colouring and every normalised state of the register with a fixed
number of particles and of alpha particles, the elements are generated and, if there is something to measure, the run
returns the tensor of `⟨ψ|a†…a|ψ⟩` (or its real or imaginary part) at every index, up to the coefficient threshold of the
projection and the skipped amplitudes.  Missing: order 1 with real parts, order 4, more beta than alpha orbitals (see
C62, C27). -/
theorem C109_reduced_tomography_partial (num : Num ℂ) (hnum : NumOK num) (hr : RankOK num.rank) (hsv : SolveOK num)
    (skip : Bool) (p : ℕ) (f : Flags) (hf : f.real = true ∨ f.imag = true)
    (hp : p = 2 ∨ p = 3 ∨ (p = 1 ∧ f.real = false)) (Na Nb : ℕ) (hN : Nb ≤ Na)
    (hL0 : rdme p f (alpha Na) (beta Na Nb) ≠ []) (col : List PStr → ℕ → ℕ) (hcol : ColouringOK col)
    (ψ : Cfg →₀ ℂ) (h1 : pair ψ ψ = 1) (hreg : ∀ b, ψ b ≠ 0 → ∀ i, Na + Nb ≤ i → b i = false)
    (ne na : ℤ) (hne : HasOcc (Finset.range (Na + Nb)) ne ψ) (hna : HasOcc (alpha Na).toFinset na ψ) :
    ∃ els, elements num p f (alpha Na) (beta Na Nb) skip = some els ∧
      els.map (·.1) = rdme p f (alpha Na) (beta Na Nb) ∧
      ((f.real = true ∨ ∃ e ∈ els, e.2 ≠ []) →
        ∃ D, ReducedTomo.measure p f (Na + Nb) col ψ els = some D ∧
          ∀ B : ℝ, (∀ e ∈ els, l1 e.2 ≤ B) →
          ∀ c a : List ℕ, c.length = p → a.length = p → (∀ x ∈ c, x < Na + Nb) → (∀ x ∈ a, x < Na + Nb) →
            ‖D (c ++ a) - target f ψ c a‖ ≤ 4 ^ (Na + Nb) * 1e-10 + B * (2 ^ (Na + Nb) * 1e-28)) := by
  have hs := sector_of_occ Na na ψ hna
  obtain ⟨D0, hD0, hD0e⟩ := C62_tomography_partial p f hf hp Na Nb hN ψ h1 na hs
    (fun s => pair ψ (denP 0 s ψ)) (fun _ => rfl)
  set N := Na + Nb with hNdef
  have hlen : (alpha Na).length + (beta Na Nb).length = N := by simp [alpha, beta, hNdef]
  set L := rdme p f (alpha Na) (beta Na Nb) with hLdef
  have hp0 : 0 < p := by omega
  have hp3 : p ≤ 3 := by omega
  have hL : ListsUnique p Na N f.skipDiag L := by
    rcases hp with rfl | rfl | ⟨rfl, _⟩
    · exact C27_order2_partial f Na Nb hN
    · exact C27_order3_partial f Na Nb hN
    · exact C27_order1 f Na Nb
  have hskip : f.real = false → ∀ c a, c ++ a.reverse ∈ L → Sorted p N c → Sorted p N a → nAlpha Na c = nAlpha Na a →
      c ≠ a := by
    rintro hr c _ hind hc ha hn rfl
    have hskip : f.skipDiag = true := by
      simp only [Flags.skipDiag, hr]
      simpa [hr] using hf
    have := hL.2 c c hc ha hn
    rw [if_pos rfl, if_pos ⟨rfl, hskip⟩, add_zero] at this
    exact (List.count_pos_iff.mpr hind).ne' this
  -- the elements, projected and not
  have hel : ∀ ind ∈ L, ∃ Q : POp ℂ, spRdme num f (alpha Na) skip ind N = some (ind, Q) ∧ (∀ u ∈ Q, u.1.length = N) ∧
      ∃ Q0 : POp ℂ, rdmeQub f ind N = some (ind, Q0) ∧
        ‖pair ψ (denPO Q ψ) - value (fun s => pair ψ (denP 0 s ψ)) Q0‖ ≤ 4 ^ N * 1e-10 := by
    intro ind hind
    obtain ⟨c, a, rfl, hc, ha, hn⟩ := hL.1 ind hind
    have hne' : 2 ≤ p ∨ (p = 1 ∧ c ≠ a) := by
      rcases hp with h | h | ⟨rfl, hr⟩
      · left; omega
      · left; omega
      · exact Or.inr ⟨rfl, hskip hr c a hind hc ha hn⟩
    obtain ⟨Q, q1, q2, q3⟩ := spRdme_spec num hnum hr hsv skip p N Na f hf hp0 c a hc ha hn hne'
    obtain ⟨Q0, r1, r2, r3⟩ := rdmeQub_full p N f hf (by omega) c a hc ha hne'
    refine ⟨Q, q1, q2, Q0, r1, ?_⟩
    rw [value_eq ψ h1 _ (fun _ => rfl), r3]
    have := q3 ψ h1 ⟨ne, hne⟩ ⟨na, hna⟩
    rw [← target_eq f ψ c a] at this
    rw [LinearMap.add_apply, pair_add_right, LinearMap.smul_apply, LinearMap.smul_apply, pair_smul_right,
      pair_smul_right]
    exact this
  choose! Qof hQ1 hQ2 Q0of hQ3 hQ4 using hel
  have hels : L.mapM (fun ind => spRdme num f (alpha Na) skip ind N) = some (L.map (fun ind => (ind, Qof ind))) :=
    mapM_eq_map L _ _ hQ1
  refine ⟨L.map (fun ind => (ind, Qof ind)), ?_, ?_, ?_⟩
  · unfold elements
    rw [hlen, ← hLdef, hels]
  · rw [List.map_map]
    exact List.map_id' L
  intro hsome
  -- the plan
  obtain ⟨ops, mp, hm, hm1, hm2, hm3⟩ := C95_plan f.real N col hcol (L.map Qof) (by
    intro Q hQ
    obtain ⟨ind, hind, rfl⟩ := List.mem_map.mp hQ
    exact hQ2 ind hind)
  have hops : ops ≠ [] := by
    apply hm3
    rcases hsome with h | ⟨e, he, h⟩
    · exact Or.inl h
    · obtain ⟨ind, hind, rfl⟩ := List.mem_map.mp he
      exact Or.inr ⟨Qof ind, List.mem_map_of_mem hind, h⟩
  -- the simulation
  obtain ⟨⟨cnt, psi⟩, hsim⟩ := (C94_amplitudes N ops ψ).1.mpr ⟨hops, fun b hb => (hm2 b hb).le⟩
  have hε : (0 : ℝ) ≤ 2 ^ N * 1e-28 := by positivity
  -- the values
  have hmeas : (fun s => innerQ N ψ ((denP 0 s : Oper ℂ) ψ)) = fun s => pair ψ (denP 0 s ψ) := by
    funext s
    exact (pair_eq_innerQ N ψ hreg _).symm
  have hval : ∀ ind ∈ L, ∃ x, valueSV N mp cnt (Qof ind) = some x ∧
      ‖x - pair ψ (denPO (Qof ind) ψ)‖ ≤ 2 ^ N * 1e-28 * l1 (Qof ind) := by
    intro ind hind
    obtain ⟨x, hx, hb⟩ := valueSV_spec N ψ mp cnt (2 ^ N * 1e-28) hε (Qof ind) (by
      intro u hu
      obtain ⟨b, hb1, hb2, hb3⟩ := hm1 (Qof ind) (List.mem_map_of_mem hind) u hu
      obtain ⟨v, hv1, hv2⟩ := C94_values N ops ψ cnt psi hsim b hb2 u.1 hb3
      exact ⟨b, v, hb1, hv1, hv2⟩)
    rw [hmeas, value_eq ψ h1 _ (fun _ => rfl)] at hb
    exact ⟨x, hx, hb⟩
  choose! val hv1 hv2 using hval
  have hvals : (L.map (fun ind => (ind, Qof ind))).mapM (fun e => (valueSV N mp cnt e.2).map (fun v => (e.1, v))) =
      some (L.map (fun ind => (ind, val ind))) := by
    have := mapM_eq_map (L.map (fun ind => (ind, Qof ind))) (fun e => (valueSV N mp cnt e.2).map (fun v => (e.1, v)))
      (fun e => (e.1, val e.1)) (by
        intro e he
        obtain ⟨ind, hind, rfl⟩ := List.mem_map.mp he
        rw [hv1 ind hind]
        rfl)
    rw [this, List.map_map]
    rfl
  refine ⟨build p (L.map (fun ind => (ind, val ind))), ?_, ?_⟩
  · unfold ReducedTomo.measure
    rw [List.map_map]
    rw [show ((fun x : List ℕ × POp ℂ => x.2) ∘ fun ind => (ind, Qof ind)) = Qof from rfl, hm, Option.bind_some, hsim,
      Option.bind_some, hvals, if_neg (by simpa using hL0)]
    rfl
  · intro B hB c a hc ha hcN haN
    rw [← hD0e c a hc ha hcN haN]
    have hD0' : D0 = build p (L.map (fun ind => (ind, value (fun s => pair ψ (denP 0 s ψ)) (Q0of ind)))) := by
      unfold tomography tomographyT at hD0
      rw [hlen, ← hLdef, mapM_eq_map L _ (fun ind => (ind, value (fun s => pair ψ (denP 0 s ψ)) (Q0of ind)))
        (fun ind hind => by rw [show rdmeQubT Transform.jordanWigner f ind N = _ from hQ3 ind hind]; rfl)] at hD0
      exact (Option.some.inj hD0).symm
    have hB0 : 0 ≤ B := by
      obtain ⟨ind, hind⟩ := List.exists_mem_of_ne_nil L hL0
      refine le_trans ?_ (hB _ (List.mem_map_of_mem hind))
      unfold l1
      apply List.sum_nonneg
      intro x hx
      obtain ⟨t, _, rfl⟩ := List.mem_map.mp hx
      exact norm_nonneg _
    rw [hD0']
    refine fill_error p Na N hp0 hp3 f.skipDiag L hL val _ _ (by positivity) ?_ c a hc ha hcN haN
    intro ind hind
    have t1 := hv2 ind hind
    have t2 := hQ4 ind hind
    have t3 := hB _ (List.mem_map_of_mem hind)
    simp only at t3
    rw [← sub_add_sub_cancel _ (pair ψ (denPO (Qof ind) ψ))]
    refine (norm_add_le _ _).trans ?_
    nlinarith

/-- The state `exState` has two particles, one of them alpha. -/
theorem exState_occ : HasOcc (Finset.range (2 + 2)) 2 exState ∧ HasOcc (alpha 2).toFinset 1 exState := by
  classical
  have key : ∀ b, exState b ≠ 0 → b = (fun i : ℕ => decide (i = 0 ∨ i = 2)) ∨ b = (fun i : ℕ => decide (i = 1 ∨ i = 3)) := by
    intro b hb
    by_contra hcon
    push Not at hcon
    apply hb
    unfold exState
    rw [Finsupp.add_apply, Finsupp.single_apply, Finsupp.single_apply, if_neg hcon.1.symm, if_neg hcon.2.symm, add_zero]
  constructor <;> intro b hb <;> rcases key b hb with rfl | rfl <;> decide

/-- A run meeting the hypotheses: two alpha and two beta orbitals, order 2, both parts, one basis per string, exact linear
algebra. -/
example : ∃ num els D, elements num 2 ⟨true, true⟩ (alpha 2) (beta 2 2) false = some els ∧
    ReducedTomo.measure 2 ⟨true, true⟩ 4 (fun _ i => i) exState els = some D := by
  obtain ⟨num, a1, a2, a3⟩ := exact_num
  obtain ⟨els, e1, _, e2⟩ := C109_reduced_tomography_partial num a1 a2 a3 false 2 ⟨true, true⟩ (Or.inl rfl) (Or.inl rfl) 2 2
    le_rfl exState_reg.1 (fun _ i => i) colouring_id exState exState_ok.1 exState_reg.2 2 1 exState_occ.1 exState_occ.2
  obtain ⟨D, d1, _⟩ := e2 (Or.inl rfl)
  exact ⟨num, els, D, e1, d1⟩

/-- **C109 is violated at order 1**: with real parts requested, no elements are generated. -/
theorem C109_fails_order1 (num : Num ℂ) (skip : Bool) (f : Flags) (hf : f.real = true) (Na Nb : ℕ) (hN : 0 < Na + Nb) :
    elements num 1 f (alpha Na) (beta Na Nb) skip = none := by
  have hL := C27_order1 f Na Nb
  have hs : Sorted 1 (Na + Nb) [0] := ⟨rfl, by simp, by simpa using hN⟩
  have h := hL.2 [0] [0] hs hs rfl
  have hskip : f.skipDiag = false := by simp [Flags.skipDiag, hf]
  simp only [hskip, if_true] at h
  have hm : [0, 0] ∈ rdme1 f (alpha Na) (beta Na Nb) := by
    rw [← List.count_pos_iff]
    simp at h
    omega
  unfold elements
  rw [show rdme 1 f (alpha Na) (beta Na Nb) = rdme1 f (alpha Na) (beta Na Nb) from rfl, mapM_eq_none _ _ [0, 0] hm]
  have hc : callerInds (opWord 1 [0, 0]) = [0] := C63_fails 0
  unfold spRdme rdmeOp
  rw [if_pos (by simp [hf])]
  simp only [List.length_cons, List.length_nil, Nat.zero_add, Nat.reduceAdd, Nat.reduceDiv, Nat.mul_one,
    Nat.lt_irrefl, if_false, hc]
  simp

/-! ### Qubit operators -/

theorem qcre_prod_apply (c : List ℕ) (hc : c.Nodup) (ψ : Cfg → ℂ) (b : Cfg) (hb : ∀ x ∈ c, b x = true) :
    (c.map (qcre (K := ℂ))).prod ψ b = ψ (fun i => b i && !(c.contains i)) := by
  induction c generalizing b with
  | nil => simp
  | cons k c ih =>
    have hk : k ∉ c := (List.nodup_cons.mp hc).1
    have h := ih (List.nodup_cons.mp hc).2 (Function.update b k false) (by
      intro x hx
      have : x ≠ k := fun h => hk (h ▸ hx)
      rw [Function.update_of_ne this]
      exact hb x (List.mem_cons_of_mem _ hx))
    rw [List.map_cons, List.prod_cons, Module.End.mul_apply]
    show mRaise (b k) false * ((c.map (qcre (K := ℂ))).prod ψ) (Function.update b k false) +
      mRaise (b k) true * ((c.map (qcre (K := ℂ))).prod ψ) (Function.update b k true) = _
    rw [hb k List.mem_cons_self, h]
    rw [show (mRaise true false : ℂ) = 1 by simp [mRaise], show (mRaise true true : ℂ) = 0 by simp [mRaise], one_mul, zero_mul,
      add_zero]
    congr 1
    funext i
    by_cases hi : i = k
    · subst hi; simp
    · rw [Function.update_of_ne hi]; simp [hi]

theorem qann_prod_apply (a : List ℕ) (ha : a.Nodup) (ψ : Cfg → ℂ) (b : Cfg) (hb : ∀ x ∈ a, b x = false) :
    (a.map (qann (K := ℂ))).prod ψ b = ψ (fun i => b i || a.contains i) := by
  induction a generalizing b with
  | nil => simp
  | cons k a ih =>
    have hk : k ∉ a := (List.nodup_cons.mp ha).1
    have h := ih (List.nodup_cons.mp ha).2 (Function.update b k true) (by
      intro x hx
      have : x ≠ k := fun h => hk (h ▸ hx)
      rw [Function.update_of_ne this]
      exact hb x (List.mem_cons_of_mem _ hx))
    rw [List.map_cons, List.prod_cons, Module.End.mul_apply]
    show mLow (b k) false * ((a.map (qann (K := ℂ))).prod ψ) (Function.update b k false) +
      mLow (b k) true * ((a.map (qann (K := ℂ))).prod ψ) (Function.update b k true) = _
    rw [hb k List.mem_cons_self, h]
    rw [show (mLow false false : ℂ) = 0 by simp [mLow], show (mLow false true : ℂ) = 1 by simp [mLow], one_mul, zero_mul,
      zero_add]
    congr 1
    funext i
    by_cases hi : i = k
    · subst hi; simp
    · rw [Function.update_of_ne hi]; simp [hi]

theorem qrdmOp_ne0 (p N : ℕ) (c a : List ℕ) (hc : Sorted p N c) (ha : Sorted p N a) : (qrdmOp c a : Oper ℂ) ≠ 0 := by
  classical
  intro h
  have nc : c.Nodup := hc.2.1.imp (fun h => by omega)
  have na : a.Nodup := ha.2.1.imp (fun h => by omega)
  have h := congrFun (LinearMap.congr_fun h (fun b => if b = (fun i => a.contains i) then (1 : ℂ) else 0))
    (fun i => c.contains i)
  simp only [qrdmOp, Module.End.mul_apply, LinearMap.zero_apply, Pi.zero_apply] at h
  rw [qcre_prod_apply c nc _ _ (by intro x hx; simpa using hx)] at h
  have e0 : (fun i => c.contains i && !c.contains i) = fun _ : ℕ => false := by funext i; simp
  rw [e0, qann_prod_apply a.reverse (List.nodup_reverse.mpr na) _ _ (by simp)] at h
  have e1 : (fun i => false || a.reverse.contains i) = fun i => a.contains i := by funext i; simp
  rw [if_pos e1] at h
  exact one_ne_zero h

/-- One element of the sign-free RDM: the projection returns and its expectation value is that of the element, up to the
threshold. -/
theorem spQrdme_spec (num : Num ℂ) (hnum : NumOK num) (hr : RankOK num.rank) (hsv : SolveOK num)
    (p N Na : ℕ) (f : Flags) (hf : f.real = true ∨ f.imag = true) (hp0 : 0 < p) (c a : List ℕ)
    (hc : Sorted p N c) (ha : Sorted p N a) (hn : nAlpha Na c = nAlpha Na a) (hp : 2 ≤ p ∨ (p = 1 ∧ c ≠ a)) :
    ∃ Q, spQrdme num f (alpha Na) (c ++ a.reverse) N = some (c ++ a.reverse, Q) ∧
      ∀ ψ : Cfg →₀ ℂ, pair ψ ψ = 1 → (∃ n, HasOcc (Finset.range N) n ψ) → (∃ n, HasOcc (alpha Na).toFinset n ψ) →
        ‖pair ψ (denPO Q ψ) - qtarget f ψ c a‖ ≤ 4 ^ N * 1e-10 := by
  have hlen : (c ++ a.reverse).length / 2 = p := by simp [hc.1, ha.1]; omega
  have hlen2 : (c ++ a.reverse).length = 2 * p := by simp [hc.1, ha.1]; omega
  have hrev : (c ++ a.reverse).reverse = a ++ c.reverse := by simp
  have hok : ∀ c a : List ℕ, c.length = p → a.length = p → ∀ x ∈ opWord p (c ++ a.reverse), x.2 ≠ .i := by
    intro c a hc ha x hx
    rw [opWord_eq p c a hc ha] at hx
    simp only [List.mem_append, List.mem_map] at hx
    rcases hx with ⟨_, _, rfl⟩ | ⟨_, _, rfl⟩ <;> simp
  have hltN : ∀ c a : List ℕ, Sorted p N c → Sorted p N a → ∀ x ∈ opWord p (c ++ a.reverse), x.1 < N := by
    intro c a hc ha x hx
    rw [opWord_eq p c a hc.1 ha.1] at hx
    simp only [List.mem_append, List.mem_map, List.mem_reverse] at hx
    rcases hx with ⟨y, hy, rfl⟩ | ⟨y, hy, rfl⟩
    · exact hc.2.2 y hy
    · exact ha.2.2 y hy
  have hnil : ∀ c a : List ℕ, c.length = p → a.length = p → opWord p (c ++ a.reverse) ≠ [] := by
    intro c a hc ha h
    have := congrArg List.length h
    rw [opWord_eq p c a hc ha] at this
    simp [hc] at this
    omega
  obtain ⟨r1, g1, d1, n1⟩ := C13_qubit_generate (half f.real + half f.imag : ℂ) (opWord p (c ++ a.reverse)) N
    (hok c a hc.1 ha.1) (hnil c a hc.1 ha.1)
  obtain ⟨r2, g2, d2, n2⟩ := C13_qubit_generate (half f.real - half f.imag : ℂ) (opWord p (a ++ c.reverse)) N
    (hok a c ha.1 hc.1) (hnil a c ha.1 hc.1)
  rw [wordQ_opWord p c a hc.1 ha.1] at d1
  rw [wordQ_opWord p a c ha.1 hc.1] at d2
  have hw : (half f.real + half f.imag : ℂ) ≠ 0 := by
    obtain ⟨r, i⟩ := f
    cases r <;> cases i <;> simp [half] at hf ⊢
  have hr1 : r1.2 ≠ 0 := by
    intro e
    rw [e, zero_smul] at d1
    exact (smul_ne_zero hw (qrdmOp_ne0 p N c a hc ha)) d1.symm
  have hA : qrdmeOp f (c ++ a.reverse) N = some (c ++ a.reverse, OpD.addStr (OpD.addStr [] r1) r2) := by
    unfold qrdmeOp
    rw [if_pos (by rcases hf with h | h <;> simp [h])]
    simp only [hlen]
    rw [if_neg (by omega), g1]
    simp only [Option.bind_some]
    rw [callerInds_sorted p N c a hc ha hp, if_neg (by omega), hrev, g2]
    rfl
  obtain ⟨first, rest, e1, e2, e3, e4, e5, e6, e7, e8, e9, e10⟩ := element_pair false (denQ 0) p N Na c a hc ha hn _ _ r1 r2
    g1 g2 (n1 (hltN c a hc ha)) (n2 (hltN a c ha hc)) hr1
  rw [d1, d2] at e10
  have hN : 0 < N := by
    have : c ≠ [] := by intro e; have := hc.1; rw [e] at this; simp at this; omega
    obtain ⟨x, hx⟩ := List.exists_mem_of_ne_nil c this
    have := hc.2.2 x hx
    omega
  obtain ⟨Q, q1, ⟨q2, E, q3, q4, q5⟩, _⟩ := C108_qubit_partial num hnum hr hsv true (alpha Na) false N hN first rest
    e3 e4 e5 e6 e7 e8 e9
  refine ⟨Q, ?_, ?_⟩
  · unfold spQrdme
    rw [hA, Option.bind_some, e1, q1]
    rfl
  · intro ψ h1 hψ1 hψ2
    have hE := q4 ψ hψ1 (fun _ => hψ2)
    rw [e10, LinearMap.add_apply, pair_add_right, LinearMap.smul_apply, LinearMap.smul_apply, pair_smul_right,
      pair_smul_right] at hE
    rw [← qtarget_eq f ψ c a]
    unfold qrdm
    rw [← hE]
    apply expect_close N Q E q2 q3 _ _ ψ h1
    intro s
    refine (q5 s).trans (max_le le_rfl ?_)
    have : ((first :: rest).length : ℝ) ≤ 2 := by
      have : (first :: rest).length ≤ 2 := by simp; omega
      exact_mod_cast this
    nlinarith

theorem fillQ_error (p Na N : ℕ) (hp : p = 1 ∨ p = 2) (skip : Bool) (L : List (List ℕ))
    (hL : ListsUnique p Na N skip L) (v w : List ℕ → ℂ) (ε : ℝ) (hε : 0 ≤ ε) (hvw : ∀ ind ∈ L, ‖v ind - w ind‖ ≤ ε)
    (c' a' : List ℕ) (hc' : c'.length = p) (ha' : a'.length = p) (hcN : ∀ x ∈ c', x < N) (haN : ∀ x ∈ a', x < N) :
    ‖buildQ p (L.map (fun ind => (ind, v ind))) (c' ++ a') - buildQ p (L.map (fun ind => (ind, w ind))) (c' ++ a')‖ ≤ ε := by
  classical
  have hsum : ∀ v : List ℕ → ℂ, buildQ p (L.map (fun ind => (ind, v ind))) (c' ++ a') =
      (L.map (fun ind => v ind * G (split p ind).1 c' * G (split p ind).2 a' +
        if sameSet (split p ind).2 (split p ind).1 then 0 else
          conj (v ind) * G (split p ind).2 c' * G (split p ind).1 a')).sum := by
    intro v
    unfold buildQ
    rw [sum_map_flatMap, List.map_map]
    congr 1
    apply List.map_congr_left
    intro ind hind
    obtain ⟨c, a, rfl, h1, h2, _⟩ := hL.1 ind hind
    have : split p (c ++ a.reverse) = (c, a) := by simp [split, List.take_left' h1.1, List.drop_left' h1.1]
    simp only [Function.comp_apply, this]
    exact contributionQ p hp c a c' a' _ h1.1 h2.1 hc' ha'
  -- the number of times an entry is written
  set E : List ℕ → List ℕ → ℂ := fun c a =>
    if c.Nodup ∧ a.Nodup ∧ nAlpha Na c = nAlpha Na a ∧ ¬(skip = true ∧ c.Perm a) then 1 else 0 with hE
  have hpa : ∀ c d : List ℕ, c.Perm d → nAlpha Na c = nAlpha Na d := fun c d h => by unfold nAlpha; exact h.countP_eq _
  have hone := fillQ_exact p Na N hp skip L hL E
    (by
      intro c d a b h h'
      simp only [hE, h.nodup_iff, h'.nodup_iff, hpa c d h, hpa a b h']
      have : c.Perm a ↔ d.Perm b := ⟨fun x => (h.symm.trans x).trans h', fun x => (h.trans x).trans h'.symm⟩
      simp only [this])
    (by intro c a h; simp only [hE]; rw [if_neg]; tauto)
    (by
      intro c a _ _
      have e : (c.Nodup ∧ a.Nodup ∧ nAlpha Na c = nAlpha Na a ∧ ¬(skip = true ∧ c.Perm a)) ↔
          (a.Nodup ∧ c.Nodup ∧ nAlpha Na a = nAlpha Na c ∧ ¬(skip = true ∧ a.Perm c)) := by
        rw [List.perm_comm, eq_comm (a := nAlpha Na c)]; tauto
      simp only [hE, e]
      split <;> simp [conj_one, conj_zero])
    (by intro c a _ _ h; simp only [hE]; rw [if_neg]; tauto)
    (by intro h c _; simp only [hE]; rw [if_neg]; simp [h])
    c' a' hc' ha' hcN haN
  have hfacts : ∀ ind ∈ L, Sorted p N (split p ind).1 ∧ Sorted p N (split p ind).2 ∧ E (split p ind).1 (split p ind).2 = 1 := by
    intro ind hind
    obtain ⟨c, a, rfl, h1, h2, h3⟩ := hL.1 ind hind
    have : split p (c ++ a.reverse) = (c, a) := by simp [split, List.take_left' h1.1, List.drop_left' h1.1]
    rw [this]
    refine ⟨h1, h2, ?_⟩
    simp only [hE]
    apply if_pos
    refine ⟨h1.2.1.imp (fun h => by omega), h2.2.1.imp (fun h => by omega), h3, ?_⟩
    rintro ⟨hsk, hp⟩
    have e := sorted_perm_eq h1 h2 hp
    subst e
    have := hL.2 c c h1 h2 h3
    rw [if_pos rfl, if_pos ⟨rfl, hsk⟩, add_zero] at this
    exact (List.count_pos_iff.mpr hind).ne' this
  set g : List ℕ → ℝ := fun ind =>
    (if c'.Perm (split p ind).1 then 1 else 0) * (if a'.Perm (split p ind).2 then 1 else 0) +
      if sameSet (split p ind).2 (split p ind).1 then 0 else
        (if c'.Perm (split p ind).2 then 1 else 0) * (if a'.Perm (split p ind).1 then 1 else 0) with hg
  have hne : ∀ l : List ℕ, l.length = p → l ≠ [] := by rintro l hl rfl; simp at hl; omega
  have hG : ∀ ind ∈ L, ∀ l, (G (split p ind).1 l : ℂ) = ((if l.Perm (split p ind).1 then 1 else 0 : ℝ) : ℂ) ∧
      (G (split p ind).2 l : ℂ) = ((if l.Perm (split p ind).2 then 1 else 0 : ℝ) : ℂ) := by
    intro ind hind l
    obtain ⟨h1, h2, _⟩ := hfacts ind hind
    rw [G_eq _ _ (hne _ h1.1) (h1.2.1.imp (fun h => by omega)), G_eq _ _ (hne _ h2.1) (h2.2.1.imp (fun h => by omega))]
    constructor <;> split <;> simp
  have hgsum : (L.map g).sum ≤ 1 := by
    have e : (((L.map g).sum : ℝ) : ℂ) = E c' a' := by
      rw [← hone]
      unfold entry
      rw [hsum (fun ind => E (split p ind).1 (split p ind).2),
        show (((L.map g).sum : ℝ) : ℂ) = ((L.map g).map Complex.ofRealHom).sum from map_list_sum Complex.ofRealHom _, List.map_map]
      congr 1
      apply List.map_congr_left
      intro ind hind
      rw [(hfacts ind hind).2.2, (hG ind hind c').1, (hG ind hind a').2, (hG ind hind c').2, (hG ind hind a').1, conj_one]
      simp only [Function.comp_apply, hg, Complex.ofRealHom_eq_coe]
      by_cases hss : sameSet (split p ind).2 (split p ind).1 = true
      · rw [if_pos hss, if_pos hss]; push_cast; ring
      · rw [if_neg hss, if_neg hss]; push_cast; ring
    have e2 : (L.map g).sum = 0 ∨ (L.map g).sum = 1 := by
      simp only [hE] at e
      split at e
      · right; exact_mod_cast e
      · left; exact_mod_cast e
    rcases e2 with h | h <;> rw [h]
    norm_num
  rw [hsum, hsum]
  have key : ∀ M : List (List ℕ), (∀ ind ∈ M, ind ∈ L) →
      ‖(M.map (fun ind => v ind * G (split p ind).1 c' * G (split p ind).2 a' +
        if sameSet (split p ind).2 (split p ind).1 then 0 else
          conj (v ind) * G (split p ind).2 c' * G (split p ind).1 a')).sum -
        (M.map (fun ind => w ind * G (split p ind).1 c' * G (split p ind).2 a' +
        if sameSet (split p ind).2 (split p ind).1 then 0 else
          conj (w ind) * G (split p ind).2 c' * G (split p ind).1 a')).sum‖ ≤ ε * (M.map g).sum := by
    intro M
    induction M with
    | nil => simp
    | cons ind M ih =>
      intro hM
      have hind := hM ind List.mem_cons_self
      rw [List.map_cons, List.map_cons, List.map_cons, List.sum_cons, List.sum_cons, List.sum_cons, add_sub_add_comm, mul_add]
      refine (norm_add_le _ _).trans (add_le_add ?_ (ih (fun x hx => hM x (List.mem_cons_of_mem _ hx))))
      rw [(hG ind hind c').1, (hG ind hind a').2, (hG ind hind c').2, (hG ind hind a').1]
      have h0 := hvw ind hind
      have h0' : ‖conj (v ind) - conj (w ind)‖ ≤ ε := by
        have : conj (v ind) - conj (w ind) = (starRingEnd ℂ) (v ind - w ind) := (map_sub _ _ _).symm
        rw [this, Complex.norm_conj]
        exact h0
      have hi : ∀ (P : Prop) [Decidable P], 0 ≤ (if P then (1 : ℝ) else 0) ∧ ‖((if P then 1 else 0 : ℝ) : ℂ)‖ = if P then (1 : ℝ) else 0 := by
        intro P _
        split <;> simp
      have ht : ∀ (x y : ℂ) (P Q : Prop) [Decidable P] [Decidable Q], ‖x - y‖ ≤ ε →
          ‖x * ((if P then 1 else 0 : ℝ) : ℂ) * ((if Q then 1 else 0 : ℝ) : ℂ) -
            y * ((if P then 1 else 0 : ℝ) : ℂ) * ((if Q then 1 else 0 : ℝ) : ℂ)‖ ≤
            ε * ((if P then 1 else 0) * (if Q then 1 else 0)) := by
        intro x y P Q _ _ h
        rw [← sub_mul, ← sub_mul, norm_mul, norm_mul, (hi P).2, (hi Q).2, mul_assoc]
        exact mul_le_mul_of_nonneg_right h (mul_nonneg (hi P).1 (hi Q).1)
      rw [add_sub_add_comm]
      refine (norm_add_le _ _).trans ?_
      simp only [hg, mul_add]
      refine add_le_add (ht _ _ _ _ h0) ?_
      split
      · simp
      · exact ht _ _ _ _ h0'
  refine (key L (fun _ h => h)).trans ?_
  nlinarith

/-- **C109, sign-free RDM.**  `ReducedQubitTomography` with expectation values of a normalised state with a fixed number
of particles and of alpha particles: the run returns and every entry, and every value of the compact form, is the
element `⟨ψ|σ⁺…σ⁻|ψ⟩` (or its real or imaginary part) up to the coefficient threshold.  Missing: as in C93. -/
theorem C109_reduced_qubit_partial (num : Num ℂ) (hnum : NumOK num) (hr : RankOK num.rank) (hsv : SolveOK num)
    (p : ℕ) (f : Flags) (hf : f.real = true ∨ f.imag = true)
    (hp : p = 2 ∨ (p = 1 ∧ f.real = false)) (Na Nb : ℕ) (hN : Nb ≤ Na)
    (ψ : Cfg →₀ ℂ) (h1 : pair ψ ψ = 1) (ne na : ℤ)
    (hne : HasOcc (Finset.range (Na + Nb)) ne ψ) (hna : HasOcc (alpha Na).toFinset na ψ)
    (meas : PStr → ℂ) (hm : ∀ s, meas s = pair ψ (denP 0 s ψ)) :
    (∃ D, qRun num p f (alpha Na) (beta Na Nb) meas = some D ∧
      ∀ c a : List ℕ, c.length = p → a.length = p → (∀ x ∈ c, x < Na + Nb) → (∀ x ∈ a, x < Na + Nb) →
        ‖D (c ++ a) - qtarget f ψ c a‖ ≤ 4 ^ (Na + Nb) * 1e-10) ∧
    ∃ vs, qRunCompact num p f (alpha Na) (beta Na Nb) meas = some vs ∧
      List.Forall₂ (fun ind v => ‖v - qtarget f ψ (ind.take p) (ind.drop p).reverse‖ ≤ 4 ^ (Na + Nb) * 1e-10)
        (rdme p f (alpha Na) (beta Na Nb)) vs := by
  obtain ⟨⟨D0, hD0, hD0e⟩, hcomp⟩ := C93_qubit_tomography_partial p f hf hp Na Nb hN ψ h1 na (sector_of_occ Na na ψ hna) meas hm
  set N := Na + Nb with hNdef
  have hlen : (alpha Na).length + (beta Na Nb).length = N := by simp [alpha, beta, hNdef]
  have hp12 : p = 1 ∨ p = 2 := by omega
  set L := rdme p f (alpha Na) (beta Na Nb) with hLdef
  have hL : ListsUnique p Na N f.skipDiag L := by
    rcases hp with rfl | ⟨rfl, _⟩
    · exact C27_order2_partial f Na Nb hN
    · exact C27_order1 f Na Nb
  have hel : ∀ ind ∈ L, ∃ v : ℂ, (spQrdme num f (alpha Na) ind N).map (fun r => (r.1, value meas r.2)) = some (ind, v) ∧
      ‖v - qtarget f ψ (ind.take p) (ind.drop p).reverse‖ ≤ 4 ^ N * 1e-10 ∧
      (qrdmeQub f ind N).map (fun r => (r.1, value meas r.2)) = some (ind, qtarget f ψ (ind.take p) (ind.drop p).reverse) := by
    intro ind hind
    obtain ⟨c, a, rfl, hc, ha, hn⟩ := hL.1 ind hind
    have hne' : 2 ≤ p ∨ (p = 1 ∧ c ≠ a) := by
      rcases hp with h | ⟨rfl, hr⟩
      · left; omega
      · right
        refine ⟨rfl, ?_⟩
        rintro rfl
        have hskip : f.skipDiag = true := by
          simp only [Flags.skipDiag, hr]
          simpa [hr] using hf
        have := hL.2 c c hc ha hn
        rw [if_pos rfl, if_pos ⟨rfl, hskip⟩, add_zero] at this
        exact (List.count_pos_iff.mpr hind).ne' this
    obtain ⟨Q, q1, q2⟩ := spQrdme_spec num hnum hr hsv p N Na f hf (by omega) c a hc ha hn hne'
    obtain ⟨Q0, r1, r2⟩ := qrdmeQub_spec p N f hf (by omega) c a hc ha hne'
    have e : qtarget f ψ ((c ++ a.reverse).take p) ((c ++ a.reverse).drop p).reverse = qtarget f ψ c a := by
      rw [List.take_left' hc.1, List.drop_left' hc.1, List.reverse_reverse]
    rw [e]
    refine ⟨value meas Q, by rw [q1]; rfl, ?_, ?_⟩
    · rw [value_eq ψ h1 meas hm]
      exact q2 ψ h1 ⟨ne, hne⟩ ⟨na, hna⟩
    · rw [r1, Option.map_some, value_eq ψ h1 meas hm, r2, LinearMap.add_apply, pair_add_right, LinearMap.smul_apply,
        LinearMap.smul_apply, pair_smul_right, pair_smul_right]
      exact congrArg some (Prod.ext rfl (qtarget_eq f ψ c a))
  choose! val hv1 hv2 hv3 using hel
  have hvals : qValues num p f (alpha Na) (beta Na Nb) meas = some (L.map (fun ind => (ind, val ind))) := by
    unfold qValues
    rw [if_pos hp12, hlen, ← hLdef, mapM_eq_map L _ _ hv1]
  refine ⟨⟨buildQ p (L.map (fun ind => (ind, val ind))), by unfold qRun; rw [hvals]; rfl, ?_⟩, L.map val, ?_, ?_⟩
  · intro c a hc ha hcN haN
    rw [← hD0e c a hc ha hcN haN]
    have hD0' : D0 = buildQ p (L.map (fun ind => (ind, qtarget f ψ (ind.take p) (ind.drop p).reverse))) := by
      unfold qtomography qelements at hD0
      rw [if_pos hp12, hlen, ← hLdef, mapM_eq_map L _ _ hv3] at hD0
      exact (Option.some.inj hD0).symm
    rw [hD0']
    exact fillQ_error p Na N hp12 f.skipDiag L hL val _ _ (by positivity) hv2 c a hc ha hcN haN
  · unfold qRunCompact
    rw [hvals, Option.map_some, List.map_map]
    rfl
  · rw [List.forall₂_map_right_iff, List.forall₂_same]
    exact hv2

/-- A run meeting the hypotheses. -/
example : ∃ num D, qRun num 2 ⟨true, true⟩ (alpha 2) (beta 2 2) (fun s => pair exState (denP 0 s exState)) = some D := by
  obtain ⟨num, a1, a2, a3⟩ := exact_num
  obtain ⟨⟨D, h, _⟩, _⟩ := C109_reduced_qubit_partial num a1 a2 a3 2 ⟨true, true⟩ (Or.inl rfl) (Or.inl rfl) 2 2 le_rfl exState
    exState_ok.1 2 1 exState_occ.1 exState_occ.2 _ (fun _ => rfl)
  exact ⟨num, D, h⟩

end HQCA.Props
