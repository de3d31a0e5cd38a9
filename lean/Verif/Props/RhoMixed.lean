import Verif.Props.RhoTomo

/-!
# C135: tomography of mixed states with the density-matrix backend
-/

namespace HQCA.Props
open HQCA HQCA.Prim HQCA.Process HQCA.Tomo HQCA.StateTomo HQCA.Transform HQCA.Circ
open scoped Matrix ComplexOrder
noncomputable section

/-- The value of an element read from the plan and the stored numbers, for any expectation values. -/
theorem valueSV_near (Nq : ℕ) (meas : PStr → ℂ) (mp : List (PStr × PStr)) (cnt : List (PStr × (ℕ → ℂ))) (ε : ℝ) (hε : 0 ≤ ε)
    (Q : POp ℂ) (h : ∀ u ∈ Q, ∃ b v, dget mp u.1 = some b ∧ dget cnt b = some v ∧ ‖(statevector Nq u.1 v : ℂ) - meas u.1‖ ≤ ε) :
    ∃ x, valueSV Nq mp cnt Q = some x ∧ ‖x - value meas Q‖ ≤ ε * l1 Q := by
  unfold valueSV value
  induction Q with
  | nil => exact ⟨0, by simp, by simp [l1]⟩
  | cons t Q ih =>
    obtain ⟨x, hx, hb⟩ := ih (fun u hu => h u (List.mem_cons_of_mem _ hu))
    obtain ⟨xs, hxs, rfl⟩ := Option.map_eq_some_iff.mp hx
    obtain ⟨b, v, h1, h2, h3⟩ := h t List.mem_cons_self
    rw [List.mapM_cons, hxs, List.map_cons, List.sum_cons, l1_cons]
    by_cases hI : t.1.all (· = .I) = true
    · rw [if_pos hI, if_pos hI]
      refine ⟨t.2 + xs.sum, by simp, ?_⟩
      rw [add_sub_add_left_eq_sub]
      have := norm_nonneg t.2
      nlinarith
    · rw [if_neg hI, if_neg hI, h1, Option.bind_some, h2, Option.map_some]
      refine ⟨(statevector Nq t.1 v : ℂ) * t.2 + xs.sum, by simp, ?_⟩
      have e : ∀ x y z w : ℂ, x + y - (z + w) = (x - z) + (y - w) := by intros; ring
      rw [e, ← sub_mul, mul_add]
      refine (norm_add_le _ _).trans (add_le_add ?_ hb)
      rw [norm_mul]
      exact mul_le_mul_of_nonneg_right h3 (norm_nonneg _)

theorem value_mix {m : ℕ} (w : Fin m → ℝ) (hw : ∑ k, w k = 1) (meas : Fin m → PStr → ℂ) (Q : POp ℂ) :
    value (fun s => ∑ k, (w k : ℂ) * meas k s) Q = ∑ k, (w k : ℂ) * value (meas k) Q := by
  have hw' : ∑ k, (w k : ℂ) = 1 := by rw [← Complex.ofReal_sum, hw]; rfl
  unfold value
  induction Q with
  | nil => simp
  | cons t Q ih =>
    simp only [List.map_cons, List.sum_cons, mul_add, Finset.sum_add_distrib]
    rw [ih]
    congr 1
    by_cases hI : t.1.all (· = .I) = true
    · simp only [if_pos hI]
      rw [← Finset.sum_mul, hw', one_mul]
    · simp only [if_neg hI]
      rw [Finset.sum_mul]
      exact Finset.sum_congr rfl fun k _ => by ring

/-- The filled tensor is real-linear in the values. -/
theorem build_mix (p Na N : ℕ) (skip : Bool) (L : List (List ℕ)) (hL : ListsUnique p Na N skip L) {m : ℕ} (w : Fin m → ℝ) (v : Fin m → List ℕ → ℂ)
    (c' a' : List ℕ) (hc' : c'.length = p) (ha' : a'.length = p) :
    build p (L.map fun ind => (ind, ∑ k, (w k : ℂ) * v k ind)) (c' ++ a') = ∑ k, (w k : ℂ) * build p (L.map fun ind => (ind, v k ind)) (c' ++ a') := by
  have hs : ∀ ind ∈ L, Sorted p N (split p ind).1 ∧ Sorted p N (split p ind).2 := by
    intro ind hind
    obtain ⟨c, a, rfl, h1, h2, h3⟩ := hL.1 ind hind
    have : split p (c ++ a.reverse) = (c, a) := by simp [split, List.take_left' h1.1, List.drop_left' h1.1]
    rw [this]
    exact ⟨h1, h2⟩
  have hsum : ∀ v : List ℕ → ℂ, build p (L.map (fun ind => (ind, v ind))) (c' ++ a') =
      (L.map (fun ind => v ind * F (split p ind).1 c' * F (split p ind).2 a' +
        if sameSet (split p ind).2 (split p ind).1 then 0 else
          conj (v ind) * F (split p ind).2 c' * F (split p ind).1 a')).sum := by
    intro v
    rw [build_split p L v]
    have := build_eq p (L.map (fun ind => (split p ind, v ind))) (by
      intro r hr
      obtain ⟨ind, hind, rfl⟩ := List.mem_map.mp hr
      exact ⟨(hs ind hind).1.1, (hs ind hind).2.1⟩) c' a' hc' ha'
    unfold entry at this
    rw [this, List.map_map]
    rfl
  rw [hsum fun ind => ∑ k, (w k : ℂ) * v k ind]
  simp only [hsum (v _)]
  clear hs hsum hL
  induction L with
  | nil => simp
  | cons ind L ih =>
    simp only [List.map_cons, List.sum_cons, mul_add, Finset.sum_add_distrib]
    rw [ih]
    have hconj : (conj (∑ k, (w k : ℂ) * v k ind) : ℂ) = ∑ k, (w k : ℂ) * conj (v k ind) := by
      show (starRingEnd ℂ) _ = ∑ k, (w k : ℂ) * (starRingEnd ℂ) (v k ind)
      rw [map_sum]
      exact Finset.sum_congr rfl fun k _ => by rw [map_mul, Complex.conj_ofReal]
    rw [hconj]
    congr 2
    · rw [Finset.sum_mul, Finset.sum_mul]
      exact Finset.sum_congr rfl fun k _ => by ring
    · split
      · simp
      · rw [Finset.sum_mul, Finset.sum_mul]
        exact Finset.sum_congr rfl fun k _ => by ring

/-- Specification: the mixture of the density matrices of vectors of the register. -/
def mixRho {m : ℕ} (w : Fin m → ℝ) (ψ : Fin m → Cfg →₀ ℂ) : Mat ℂ := fun i j => ∑ k, (w k : ℂ) * (ψ k (cfgOf i) * (starRingEnd ℂ) (ψ k (cfgOf j)))

theorem mixRho_eq {m : ℕ} (N : ℕ) (w : Fin m → ℝ) (ψ : Fin m → Cfg →₀ ℂ) :
    topM N (mixRho w ψ) = ∑ k, (w k : ℂ) • topM N (pureRho fun l => ψ k (cfgOf l)) := by
  ext i j
  rw [Matrix.sum_apply]
  rfl

theorem mixRho_psd {m : ℕ} (N : ℕ) (w : Fin m → ℝ) (hw : ∀ k, 0 ≤ w k) (ψ : Fin m → Cfg →₀ ℂ) : (topM N (mixRho w ψ)).PosSemidef := by
  rw [mixRho_eq]
  refine Matrix.posSemidef_sum _ fun k _ => (pureRho_psd N _).smul ?_
  exact_mod_cast hw k

/-- **C135, mixed states.**  Tomography with the density-matrix backend, end to end: whatever density matrix it is started from, if the circuit with matrix `U` takes it to the
mixture with weights `w` of normalised states `ψ k` of the register, each with a fixed number of alpha electrons, the result is the weighted mean of the tensors of
`⟨ψ k|a†…a|ψ k⟩` (or of their real or imaginary parts) at every index, up to `2^N · 1e-28`.  Missing, as in C96: order 1 with real parts, order 4, more beta than alpha orbitals. -/
theorem C135_mixed_partial (p : ℕ) (f : Flags) (hf : f.real = true ∨ f.imag = true)
    (hp : p = 2 ∨ p = 3 ∨ (p = 1 ∧ f.real = false)) (Na Nb : ℕ) (hN : Nb ≤ Na)
    (hL0 : rdme p f (alpha Na) (beta Na Nb) ≠ []) (col : List PStr → ℕ → ℕ) (hcol : ColouringOK col)
    {m : ℕ} (w : Fin m → ℝ) (hw0 : ∀ k, 0 ≤ w k) (hw1 : ∑ k, w k = 1)
    (ψ : Fin m → Cfg →₀ ℂ) (h1 : ∀ k, pair (ψ k) (ψ k) = 1) (hreg : ∀ k b, ψ k b ≠ 0 → ∀ i, Na + Nb ≤ i → b i = false)
    (n : Fin m → ℤ) (hs : ∀ k, Sector Na (n k) (ψ k)) (U rho : Mat ℂ)
    (hU : topM (2 ^ (Na + Nb)) U * topM (2 ^ (Na + Nb)) rho * (topM (2 ^ (Na + Nb)) U)ᴴ = topM (2 ^ (Na + Nb)) (mixRho w ψ)) :
    ∃ D, RhoTomo.runT jordanWigner p f (alpha Na) (beta Na Nb) col U rho = some D ∧
      ∀ c a : List ℕ, c.length = p → a.length = p → (∀ x ∈ c, x < Na + Nb) → (∀ x ∈ a, x < Na + Nb) →
        ‖D (c ++ a) - ∑ k, (w k : ℂ) * target f (ψ k) c a‖ ≤ 2 ^ (Na + Nb) * 1e-28 := by
  have hC62 := fun k => C62_tomography_partial p f hf hp Na Nb hN (ψ k) (h1 k) (n k) (hs k) (fun s => pair (ψ k) (denP 0 s (ψ k))) (fun _ => rfl)
  choose D0 hD0 hD0e using hC62
  set N := Na + Nb with hNdef
  have hlen : (alpha Na).length + (beta Na Nb).length = N := by simp [alpha, beta, hNdef]
  set L := rdme p f (alpha Na) (beta Na Nb) with hLdef
  have hp0 : 0 < p := by omega
  have hp3 : p ≤ 3 := by omega
  have hL : ListsUnique p Na N f.skipDiag L := by
    rcases hp with rfl | rfl | ⟨rfl, _⟩
    · exact C27_order2_partial f Na Nb hN
    · exact C27_order3_partial f Na Nb hN
    · exact C27_order1 f Na Nb
  have hskip : f.real = false → ∀ c a, c ++ a.reverse ∈ L → Sorted p N c → Sorted p N a → nAlpha Na c = nAlpha Na a →
      c ≠ a := by
    rintro hr c _ hind hc ha hn rfl
    have hskip : f.skipDiag = true := by
      simp only [Flags.skipDiag, hr]
      simpa [hr] using hf
    have := hL.2 c c hc ha hn
    rw [if_pos rfl, if_pos ⟨rfl, hskip⟩, add_zero] at this
    exact (List.count_pos_iff.mpr hind).ne' this
  have hel : ∀ ind ∈ L, ∃ Q : POp ℂ, rdmeQubT jordanWigner f ind N = some (ind, Q) ∧ (∀ u ∈ Q, u.1.length = N) ∧ l1 Q ≤ 1 ∧
      (f.real = false → Q ≠ []) := by
    intro ind hind
    obtain ⟨c, a, rfl, hc, ha, hn⟩ := hL.1 ind hind
    have hne : 2 ≤ p ∨ (p = 1 ∧ c ≠ a) := by
      rcases hp with h | h | ⟨rfl, hr⟩
      · left; omega
      · left; omega
      · exact Or.inr ⟨rfl, hskip hr c a hind hc ha hn⟩
    obtain ⟨Q, q1, q2, q3⟩ := rdmeQub_full p N f hf (by omega) c a hc ha hne
    refine ⟨Q, q1, q2, l1_rdmeQub jordanWigner (denF 0) jw_spec f _ _ N Q q1, ?_⟩
    rintro hr rfl
    have hi : f.imag = true := by simpa [hr] using hf
    rw [hr, hi] at q3
    exact rdmOp_ne p N c a hc ha (hskip hr c a hind hc ha hn) _ _ (by simp [half]) q3.symm
  choose! Qof hQ1 hQ2 hQ3 hQ4 using hel
  have hels : L.mapM (fun ind => rdmeQubT jordanWigner f ind N) = some (L.map (fun ind => (ind, Qof ind))) :=
    mapM_eq_map L _ _ hQ1
  obtain ⟨ops, mp, hm, hm1, hm2, hm3⟩ := C95_plan f.real N col hcol (L.map Qof) (by
    intro Q hQ
    obtain ⟨ind, hind, rfl⟩ := List.mem_map.mp hQ
    exact hQ2 ind hind)
  have hops : ops ≠ [] := by
    apply hm3
    by_cases hr : f.real = true
    · exact Or.inl hr
    · right
      obtain ⟨ind, hind⟩ := List.exists_mem_of_ne_nil L hL0
      exact ⟨Qof ind, List.mem_map_of_mem hind, hQ4 ind hind (by simpa using hr)⟩
  have hsim : RhoTomo.simulate N ops U rho = some (RhoTomo.evolve N U rho, ops.zip (ops.map (RhoTomo.ndiag N (RhoTomo.evolve N U rho)))) := by
    unfold RhoTomo.simulate
    rw [if_neg]
    rw [Bool.or_eq_true_iff, List.any_eq_true]
    rintro (h | ⟨c, hc, h⟩)
    · exact hops (List.isEmpty_iff.mp h)
    simp only [decide_eq_true_eq] at h
    have := hm2 c hc
    omega
  set r := (RhoTomo.evolve N U rho, ops.zip (ops.map (RhoTomo.ndiag N (RhoTomo.evolve N U rho)))) with hr
  have hrho : topM (2 ^ N) r.1 = topM (2 ^ N) (mixRho w ψ) := by rw [← hU]; exact topM_evolve N U rho
  have hε : (0 : ℝ) ≤ 2 ^ N * 1e-28 := by positivity
  have htrace : ∀ s : PStr, (topM (2 ^ N) (mixRho w ψ) * opM N (denP 0 s)).trace = ∑ k, (w k : ℂ) * pair (ψ k) (denP 0 s (ψ k)) := by
    intro s
    rw [mixRho_eq, Finset.sum_mul, Matrix.trace_sum]
    refine Finset.sum_congr rfl fun k _ => ?_
    rw [Matrix.smul_mul, Matrix.trace_smul, pureRho_trace N (ψ k) (hreg k) (denP 0 s) _ (fun l _ => rfl), pair_eq_innerQ N (ψ k) (hreg k), smul_eq_mul]
  have hval : ∀ ind ∈ L, ∃ x, valueSV N mp r.2 (Qof ind) = some x ∧
      ‖x - ∑ k, (w k : ℂ) * value (fun s => pair (ψ k) (denP 0 s (ψ k))) (Qof ind)‖ ≤ 2 ^ N * 1e-28 := by
    intro ind hind
    obtain ⟨x, hx, hb⟩ := valueSV_near N (fun s => ∑ k, (w k : ℂ) * pair (ψ k) (denP 0 s (ψ k))) mp r.2 (2 ^ N * 1e-28) hε (Qof ind) (by
      intro u hu
      obtain ⟨b, hb1, hb2, hb3⟩ := hm1 (Qof ind) (List.mem_map_of_mem hind) u hu
      obtain ⟨hv, hbl⟩ := rho_dget N ops U _ r hsim b hb2
      refine ⟨b, _, hb1, hv, ?_⟩
      rw [ndiag_congr N _ _ hrho, ← htrace]
      exact C135_values N _ (mixRho_psd _ w hw0 ψ) u.1 b hb3 hbl)
    rw [value_mix w hw1] at hb
    refine ⟨x, hx, hb.trans ?_⟩
    have := hQ3 ind hind
    nlinarith
  choose! val hv1 hv2 using hval
  have hvals : (L.map (fun ind => (ind, Qof ind))).mapM (fun e => (valueSV N mp r.2 e.2).map (fun v => (e.1, v))) =
      some (L.map (fun ind => (ind, val ind))) := by
    have := mapM_eq_map (L.map (fun ind => (ind, Qof ind))) (fun e => (valueSV N mp r.2 e.2).map (fun v => (e.1, v)))
      (fun e => (e.1, val e.1)) (by
        intro e he
        obtain ⟨ind, hind, rfl⟩ := List.mem_map.mp he
        rw [hv1 ind hind]
        rfl)
    rw [this, List.map_map]
    rfl
  refine ⟨build p (L.map (fun ind => (ind, val ind))), ?_, ?_⟩
  · unfold RhoTomo.runT
    simp only [hlen]
    rw [← hLdef, hels, Option.bind_some, List.map_map]
    rw [show ((fun x : List ℕ × POp ℂ => x.2) ∘ fun ind => (ind, Qof ind)) = Qof from rfl, hm, Option.bind_some, hsim,
      Option.bind_some, hvals, if_neg (by simpa using hL0)]
    rfl
  · intro c a hc ha hcN haN
    have hD0' : ∀ k, D0 k = build p (L.map (fun ind => (ind, value (fun s => pair (ψ k) (denP 0 s (ψ k))) (Qof ind)))) := by
      intro k
      have hk := hD0 k
      unfold tomography tomographyT at hk
      rw [hlen, ← hLdef, mapM_eq_map L _ (fun ind => (ind, value (fun s => pair (ψ k) (denP 0 s (ψ k))) (Qof ind)))
        (fun ind hind => by rw [hQ1 ind hind]; rfl)] at hk
      exact (Option.some.inj hk).symm
    have e : ∑ k, (w k : ℂ) * target f (ψ k) c a =
        build p (L.map fun ind => (ind, ∑ k, (w k : ℂ) * value (fun s => pair (ψ k) (denP 0 s (ψ k))) (Qof ind))) (c ++ a) := by
      rw [build_mix p Na N f.skipDiag L hL w _ c a hc ha]
      exact Finset.sum_congr rfl fun k _ => by rw [← hD0e k c a hc ha hcN haN, hD0' k]
    rw [e]
    exact fill_error p Na N hp0 hp3 f.skipDiag L hL val _ _ hε hv2 c a hc ha hcN haN

/-- A determinant of the same register: `|1010⟩`. -/
def exDet : Cfg →₀ ℂ := Finsupp.single (fun i => decide (i = 0 ∨ i = 2)) 1

theorem exDet_ok : pair exDet exDet = 1 ∧ Sector 2 1 exDet ∧ ∀ b, exDet b ≠ 0 → ∀ i, 2 + 2 ≤ i → b i = false := by
  classical
  have hc : ∀ z : ℂ, (conj z : ℂ) = (starRingEnd ℂ) z := fun z => rfl
  have hb : ∀ b, exDet b ≠ 0 → (fun i : ℕ => decide (i = 0 ∨ i = 2)) = b := by
    intro b hb
    by_contra h
    exact hb (by unfold exDet; rw [Finsupp.single_eq_of_ne' h])
  refine ⟨?_, ?_, ?_⟩
  · unfold exDet
    rw [pair_single, hc]
    simp
  · intro b h
    rw [← hb b h]
    simp [occAlpha, List.range_succ]
  · intro b h i hi
    rw [← hb b h]
    simp
    omega

/-- A case meeting the hypotheses: one third of `exState` and two thirds of the determinant, an empty circuit. -/
example : ∃ D, RhoTomo.runT jordanWigner 2 ⟨true, true⟩ (alpha 2) (beta 2 2) (fun _ i => i) ident (mixRho ![1 / 3, 2 / 3] ![exState, exDet]) = some D := by
  have hid : topM (2 ^ (2 + 2)) ident = (1 : Matrix (Fin (2 ^ (2 + 2))) (Fin (2 ^ (2 + 2))) ℂ) := by
    ext i j
    rw [Matrix.one_apply]
    simp [topM, ident, Fin.ext_iff]
  have two : ∀ (P : (Cfg →₀ ℂ) → Prop), P exState → P exDet → ∀ k : Fin 2, P (![exState, exDet] k) := by
    intro P h1 h2 k
    match k with
    | 0 => exact h1
    | 1 => exact h2
  obtain ⟨D, hD, _⟩ := C135_mixed_partial 2 ⟨true, true⟩ (Or.inl rfl) (Or.inl rfl) 2 2 le_rfl exState_reg.1 (fun _ i => i) colouring_id
    ![1 / 3, 2 / 3] (by intro k; match k with | 0 => norm_num | 1 => norm_num) (by norm_num [Fin.sum_univ_two]) ![exState, exDet]
    (two (fun ψ => pair ψ ψ = 1) exState_ok.1 exDet_ok.1) (two (fun ψ => ∀ b, ψ b ≠ 0 → ∀ i, 2 + 2 ≤ i → b i = false) exState_reg.2 exDet_ok.2.2)
    (fun _ => 1) (two (fun ψ => Sector 2 1 ψ) exState_ok.2 exDet_ok.2.1) ident (mixRho ![1 / 3, 2 / 3] ![exState, exDet]) (by rw [hid]; simp)
  exact ⟨D, hD⟩

end
end HQCA.Props
