import Verif.Props.EulerMin

/-!
# Property theorems: the layer of a line search of the ACSE (C131)

`LineSearchACSE.phi` (`acse/_line_search_acse.py:81-104`) adds the operator of `alp*p` to the ansatz; its terms are single
excitations without their adjoints (`Resid.vecOp`).
-/

namespace HQCA.Props
open HQCA HQCA.Resid HQCA.Ham HQCA.Instr HQCA.Prim HQCA.Euler Filter Topology
noncomputable section
variable {r : ℕ}

/-- The gates of a step `α` along a generator with Pauli form `C`: one rotation per term, whether its coefficient is imaginary or real. -/
def lineGates (C : POp ℂ) (α : ℝ) : List (ℝ × PStr) := C.map fun t => (α * (t.2.re + t.2.im), t.1)

/-- The generator with every coefficient made imaginary. -/
def turned (C : POp ℂ) : POp ℂ := C.map fun t => (t.1, Complex.I * ((t.2.re + t.2.im : ℝ) : ℂ))

theorem lineGates_emitted (C : POp ℂ) (hC : ∀ t ∈ C, t.2.re = 0 ∨ t.2.im = 0) (α : ℝ)
    (hα : ∀ t ∈ C, (1e-14 : ℝ) < |α * (t.2.re + t.2.im)|) (prev : Option ℝ) :
    applyOp 1 prev (C.map fun t => (t.1, (α : ℂ) * t.2)) = some (lineGates C α) := by
  induction C generalizing prev with
  | nil => rfl
  | cons t C ih =>
    have h2 := hα t (by simp)
    have him : ((α : ℂ) * t.2).im = α * t.2.im := by simp
    have hre : ((α : ℂ) * t.2).re = α * t.2.re := by simp
    have ha : angleOf prev ((α : ℂ) * t.2) = some (α * (t.2.re + t.2.im)) := by
      unfold angleOf
      rw [him, hre]
      rcases hC t (by simp) with h | h
      · rw [h, zero_add] at h2 ⊢
        rw [if_neg (not_lt.mpr (le_of_lt h2)), if_pos (by rw [mul_zero, abs_zero]; norm_num)]
      · rw [h, add_zero, if_pos (by rw [mul_zero, abs_zero]; norm_num)]
    rw [List.map_cons]
    unfold applyOp
    rw [ha]
    dsimp only
    rw [if_pos h2, ih (fun u hu => hC u (by simp [hu])) (fun u hu => hα u (by simp [hu]))]
    simp [lineGates]

theorem lineGates_turned (C : POp ℂ) (α : ℝ) : lineGates C α = stepGates (turned C) (-α) := by
  unfold lineGates stepGates turned
  rw [List.map_map]
  refine List.map_congr_left fun t _ => ?_
  simp

/-- What the gates generate: the anti-Hermitian part plus `i` times the Hermitian part. -/
theorem denPO_turned (C : POp ℂ) (hC : ∀ t ∈ C, t.2.re = 0 ∨ t.2.im = 0) :
    (denPO (turned C) : Oper ℂ) = (1 / 2 : ℂ) • (denPO C - denPO (C.map fun t => (t.1, (starRingEnd ℂ) t.2)))
      + (Complex.I / 2) • (denPO C + denPO (C.map fun t => (t.1, (starRingEnd ℂ) t.2))) := by
  induction C with
  | nil => simp [turned, denPO, OpD.denD_nil]
  | cons t C ih =>
    have e1 : (denPO (t :: C) : Oper ℂ) = t.2 • denP 0 t.1 + denPO C := rfl
    have e2 : (denPO ((t :: C).map fun t => (t.1, (starRingEnd ℂ) t.2)) : Oper ℂ)
      = (starRingEnd ℂ) t.2 • denP 0 t.1 + denPO (C.map fun t => (t.1, (starRingEnd ℂ) t.2)) := rfl
    have e3 : (denPO (turned (t :: C)) : Oper ℂ) = (Complex.I * ((t.2.re + t.2.im : ℝ) : ℂ)) • denP 0 t.1 + denPO (turned C) := rfl
    rw [e1, e2, e3, ih fun u hu => hC u (by simp [hu])]
    have hz : Complex.I * ((t.2.re + t.2.im : ℝ) : ℂ)
        = (1 / 2 : ℂ) * (t.2 - (starRingEnd ℂ) t.2) + Complex.I / 2 * (t.2 + (starRingEnd ℂ) t.2) := by
      rw [Complex.sub_conj, Complex.add_conj]
      push_cast
      ring
    rw [hz]
    module

theorem turned_re (C : POp ℂ) : ∀ t ∈ turned C, t.2.re = 0 := by
  intro t ht
  obtain ⟨u, -, rfl⟩ := List.mem_map.mp ht
  simp

/-- Derivative of any expectation value at step zero. -/
theorem hasDeriv_line (C : POp ℂ) (ψ : Cfg →₀ ℂ) (O : Oper ℂ) (ψe : ℝ → Cfg →₀ ℂ)
    (hψ : ∀ α, (ψe α : Cfg → ℂ) = circOp (gatesOf (lineGates C α)) ψ) :
    HasDerivAt (fun α => pair (ψe α) (O (ψe α))) (pair ψ ((O * denPO (turned C) - denPO (turned C) * O : Oper ℂ) ψ)) 0 := by
  have h := hasDeriv_step (turned C) (turned_re C) ψ O (fun ε => ψe (-ε)) (fun ε => by rw [hψ, lineGates_turned, neg_neg])
  have h' : HasDerivAt (fun ε => pair (ψe (-ε)) (O (ψe (-ε)))) (pair ψ ((denPO (turned C) * O - O * denPO (turned C) : Oper ℂ) ψ)) (-0) := by
    rw [neg_zero]; exact h
  have := h'.scomp (0 : ℝ) (hasDerivAt_neg (0 : ℝ))
  simp only [Function.comp_def, neg_neg] at this
  have hp : ∀ f : Cfg → ℂ, pair ψ (-f) = -pair ψ f := by
    intro f
    have := pair_smul_right ψ (-1) f
    rwa [neg_one_smul, neg_one_mul] at this
  have e : pair ψ ((O * denPO (turned C) - denPO (turned C) * O : Oper ℂ) ψ)
      = (-1 : ℝ) • pair ψ ((denPO (turned C) * O - O * denPO (turned C) : Oper ℂ) ψ) := by
    have e0 : (O * denPO (turned C) - denPO (turned C) * O : Oper ℂ) ψ
        = -((denPO (turned C) * O - O * denPO (turned C) : Oper ℂ) ψ) := by
      simp only [LinearMap.sub_apply]
      exact (neg_sub _ _).symm
    rw [e0, hp, neg_one_smul]
  rw [e]
  exact this

/-- The layer of a compact real vector. -/
theorem line_layer (keys : List (Fin r × Fin r × Fin r × Fin r)) (v : List ℝ) (B : OpD FStr ℂ)
    (hB : vecOp (fun _ => false) (keys.zip (v.map Complex.ofReal)) = some B)
    (ha : IsAdj (vecAdj (fun _ => false) (keys.zip (v.map Complex.ofReal))) (denD (denF 0) B)) :
    ∃ C : POp ℂ, UniqueKeys C ∧ (∀ t ∈ C, t.1.length = r ∧ (t.2.re = 0 ∨ t.2.im = 0)) ∧ denPO C = denD (denF 0) B ∧
      (denPO (turned C) : Oper ℂ) = (1 / 2 : ℂ) • (denD (denF 0) B - vecAdj (fun _ => false) (keys.zip (v.map Complex.ofReal)))
        + (Complex.I / 2) • (denD (denF 0) B + vecAdj (fun _ => false) (keys.zip (v.map Complex.ofReal))) := by
  set kv := keys.zip (v.map Complex.ofReal) with hkv
  obtain ⟨L, e1, e2, e3⟩ := mapM_generate r _ (vecTerms_ok (fun _ => false) kv)
  have hU : UniqueKeys ([] : OpD FStr ℂ) := List.nodup_nil
  have hB' : B = L.foldl OpD.addStr [] := by
    have : vecOp (fun _ => false) kv = some (L.foldl OpD.addStr []) := by unfold vecOp; rw [e1]; rfl
    exact Option.some.inj (hB.symm.trans this)
  obtain ⟨_, E, _, _, _, hE, hEl, _⟩ := C15_transform_jw L r e3
  have hUP : UniqueKeys ([] : POp ℂ) := List.nodup_nil
  have hC : denPO (E.foldl OpD.addStr []) = denD (denF 0) B := by
    rw [hB']
    unfold denPO at hE ⊢
    rw [OpD.denD_foldl_addStr _ _ _ hUP, OpD.denD_nil, zero_add, hE, OpD.denD_foldl_addStr _ _ _ hU, OpD.denD_nil, zero_add]
  have hCU := OpD.foldl_addStr_unique E [] hUP
  have hCl : ∀ t ∈ E.foldl OpD.addStr [], t.1.length = r := lengths_foldl_addStr (fun s => s.length = r) E [] (by simp) hEl
  have hreal : IsReal (denPO (E.foldl OpD.addStr [])) := by
    rw [hC]
    obtain ⟨B0, b1, _, b3⟩ := C75_vector_operator (fun _ => false) kv
    rw [Option.some.inj (hB.symm.trans b1), b3]
    have : ∀ t ∈ kv, (starRingEnd ℂ) t.2 = t.2 := by
      intro t ht
      rw [hkv] at ht
      obtain ⟨k, w⟩ := t
      obtain ⟨x, -, rfl⟩ := List.mem_map.mp (List.of_mem_zip ht).2
      exact Complex.conj_ofReal x
    clear_value kv
    clear hB ha e1 e2 e3 hB' b1 b3 hkv
    induction kv with
    | nil => intro ψ b; simp
    | cons t kv ih =>
      rw [List.map_cons, List.sum_cons]
      have h1 : IsReal ((4 * cut (fun _ => false) t.2) • (gop t.1.1 t.1.2.1 t.1.2.2.1 t.1.2.2.2 : Oper ℂ)) := by
        refine IsReal.smul ?_ _ ?_
        · exact (isReal_cre _).mul ((isReal_cre _).mul ((isReal_ann _).mul (isReal_ann _)))
        · rw [map_mul]
          have := this t (by simp)
          simp [cut, this, Complex.conj_ofNat]
      have h2 := ih (fun u hu => this u (by simp [hu]))
      intro ψ b
      have a1 := h1 ψ b
      have a2 := h2 ψ b
      simp only [LinearMap.add_apply, Pi.add_apply, map_add] at a1 a2 ⊢
      rw [a1, a2]
  have hrc := real_coef r _ hCU hCl hreal
  have hri : ∀ t ∈ E.foldl OpD.addStr [], t.2.re = 0 ∨ t.2.im = 0 := by
    intro t ht
    have := hrc t ht
    rcases ySign_cases t.1 with h | h <;> rw [h] at this
    · right
      have := congrArg Complex.im this
      simp at this
      linarith
    · left
      have := congrArg Complex.re this
      simp at this
      linarith
  refine ⟨_, hCU, fun t ht => ⟨hCl t ht, hri t ht⟩, hC, ?_⟩
  rw [denPO_turned _ hri]
  have := IsAdj.left_unique (isAdj_denPO (E.foldl OpD.addStr [])) (hC ▸ ha)
  rw [this, hC]

/-- The state after the circuit exists (finitely supported). -/
theorem circuit_state (L : List (ℝ × PStr)) (ψ : Cfg →₀ ℂ) : ∃ φ : Cfg →₀ ℂ, (φ : Cfg → ℂ) = circOp (gatesOf L) ψ := by
  induction L generalizing ψ with
  | nil => exact ⟨ψ, rfl⟩
  | cons t L ih =>
    obtain ⟨φ, h, -⟩ := isAdj_gadget t.1 t.2 ψ
    obtain ⟨χ, h'⟩ := ih φ
    refine ⟨χ, ?_⟩
    rw [h', h]
    unfold gatesOf
    rw [List.flatMap_cons, circOp_append]
    rfl

theorem cut_none (v : List ℂ) : v.map (cut fun _ => false) = v := by
  have : (cut fun _ => false : ℂ → ℂ) = id := by funext x; simp [cut]
  rw [this, List.map_id]

/-- **C131 (partial).**  For a real state of definite particle number other than one, symmetric real integrals and a real
direction `v`: with exact thresholds the operator of every step `α` has the Pauli form `α·C` with one fixed `C`; the circuit
has one rotation per term of it; and along these circuits the energy has at zero step the derivative four times the scalar
product of the direction with the compact residual, the slope that is given to the line search. -/
theorem C131_slope_partial (ψ : Cfg →₀ ℂ) (hψ : RealAmp (ψ : Cfg → ℂ)) (ne : ℝ) (hne : ne ≠ 1)
    (hN : numberOp r (ψ : Cfg → ℂ) = (ne : ℂ) • (ψ : Cfg → ℂ))
    (h1 : Fin r → Fin r → ℝ) (V : Fin r → Fin r → Fin r → Fin r → ℝ) (hh : ∀ a b, h1 a b = h1 b a)
    (hV : ∀ a b c d, V a b c d = V c d a b) (hx : ∀ a b c d, V a b c d = V b a d c)
    (keys : List (Fin r × Fin r × Fin r × Fin r)) (v : List ℝ) (hv : v.length = keys.length) :
    let H : Oper ℂ := secondQ (fun a b => (h1 a b : ℂ)) (fun a b c d => (V a b c d : ℂ))
    let g := compact (residual (k2 (fun a b => (h1 a b : ℂ)) (fun a b c d => (V a b c d : ℂ)) (ne : ℂ)) (rdm2 (evState ψ) (r := r))
      (rdm3 (evState ψ))) keys
    ∃ C : POp ℂ, UniqueKeys C ∧ (∀ t ∈ C, t.1.length = r) ∧
      (∀ (α : ℝ) (skip : ℂ → Bool), (∀ x ∈ v, skip ((α * x : ℝ) : ℂ) = false) →
        ∃ B, vecOp skip (keys.zip (v.map fun x : ℝ => ((α * x : ℝ) : ℂ))) = some B ∧
          denPO (C.map fun t => (t.1, (α : ℂ) * t.2)) = denD (denF 0) B) ∧
      (∀ (α : ℝ) (prev : Option ℝ), (∀ t ∈ C, (1e-14 : ℝ) < |α * (t.2.re + t.2.im)|) →
        applyOp 1 prev (C.map fun t => (t.1, (α : ℂ) * t.2)) = some (lineGates C α)) ∧
      ∀ ψe : ℝ → Cfg →₀ ℂ, (∀ α, (ψe α : Cfg → ℂ) = circOp (gatesOf (lineGates C α)) ψ) →
        HasDerivAt (fun α => (pair (ψe α) (H (ψe α))).re) (4 * (List.zipWith (fun x (y : ℂ) => x * y.re) v g).sum) 0 := by
  intro H g
  have hhc : ∀ a b, ((h1 a b : ℝ) : ℂ) = (h1 b a : ℂ) := fun a b => by rw [hh]
  have hVc : ∀ a b c d, ((V a b c d : ℝ) : ℂ) = (V c d a b : ℂ) := fun a b c d => by rw [hV]
  have hxc : ∀ a b c d, ((V a b c d : ℝ) : ℂ) = (V b a d c : ℂ) := fun a b c d => by rw [hx]
  have hnec : (ne : ℂ) ≠ 1 := by exact_mod_cast hne
  have hev : ∀ X : Oper ℂ, evState ψ (X * numberOp r) = (ne : ℂ) * evState ψ X := fun X => by
    show pair ψ (X (numberOp r ψ)) = _ * pair ψ (X ψ)
    rw [hN, map_smul, pair_smul_right]
  obtain ⟨B, b1, b2, b2', b3, b4⟩ := slope_parts (evState ψ) (ne : ℂ) hnec hev (rdm2_real ψ hψ) (rdm3_real ψ hψ) _ _ hhc hVc hxc
    (fun _ => false) keys (v.map Complex.ofReal) (by simpa using hv)
    (by intro x hx; obtain ⟨y, -, rfl⟩ := List.mem_map.mp hx; exact Complex.conj_ofReal y)
  obtain ⟨C, c1, c2, c3, c4⟩ := line_layer keys v B b1 b2'
  refine ⟨C, c1, fun t ht => (c2 t ht).1, ?_, fun α prev h => lineGates_emitted C (fun t ht => (c2 t ht).2) α h prev, ?_⟩
  · intro α skip hs
    obtain ⟨Bα, a1, -, a3⟩ := C75_vector_operator skip (keys.zip (v.map fun x : ℝ => ((α * x : ℝ) : ℂ)))
    refine ⟨Bα, a1, ?_⟩
    obtain ⟨B0, d1, -, d3⟩ := C75_vector_operator (fun _ => false) (keys.zip (v.map Complex.ofReal))
    have hB0 := Option.some.inj (d1.symm.trans b1)
    subst hB0
    have e : (denPO (C.map fun t => (t.1, (α : ℂ) * t.2)) : Oper ℂ) = (α : ℂ) • denPO C := by
      clear c1 c2 c3 c4
      induction C with
      | nil => simp [denPO, OpD.denD_nil]
      | cons t C ih =>
        show ((α : ℂ) * t.2) • denP 0 t.1 + denPO (C.map fun t => (t.1, (α : ℂ) * t.2)) = (α : ℂ) • (t.2 • denP 0 t.1 + denPO C)
        rw [ih, smul_add, smul_smul]
    rw [e, c3, d3, a3]
    clear d1 d3 a1 a3 b1 b2 b2' b3 b4 c1 c2 c3 c4 e hv
    induction keys generalizing v with
    | nil => simp
    | cons k keys ih =>
      cases v with
      | nil => simp
      | cons x v =>
        have := ih v (fun y hy => hs y (by simp [hy]))
        simp only [List.map_cons, List.zip_cons_cons, List.sum_cons, smul_add]
        rw [this]
        congr 1
        have h1 : cut skip ((α * x : ℝ) : ℂ) = ((α * x : ℝ) : ℂ) := by unfold cut; rw [hs x (by simp)]; rfl
        have h2 : cut (fun _ => false) (Complex.ofReal x) = (x : ℂ) := rfl
        rw [h1, h2, smul_smul]
        congr 1
        push_cast
        ring
  · intro ψe hψe
    have hD := hasDeriv_line C ψ H ψe hψe
    refine hasDeriv_re _ _ ?_
    convert hD using 1
    rw [c4]
    have hgr : ∀ y ∈ g, ((y.re : ℝ) : ℂ) = y := by
      intro y hy
      obtain ⟨k, -, rfl⟩ := List.mem_map.mp hy
      refine Complex.conj_eq_iff_re.mp ?_
      rw [map_neg]
      exact congrArg Neg.neg (residual_conj _ _ _ (k2_conj h1 V ne) (rdm2_conj ψ hψ) (rdm3_conj ψ hψ) _ _ _ _)
    rw [cut_none] at b3
    have hsum : ∀ (v : List ℝ) (g : List ℂ), (∀ y ∈ g, ((y.re : ℝ) : ℂ) = y) →
        (List.zipWith (· * ·) (v.map Complex.ofReal) g).sum = (((List.zipWith (fun x (y : ℂ) => x * y.re) v g).sum : ℝ) : ℂ) := by
      intro v
      induction v with
      | nil => intro g _; simp
      | cons x v ih =>
        intro g hg
        cases g with
        | nil => simp
        | cons y g =>
          have := hg y (by simp)
          simp only [List.map_cons, List.zipWith_cons_cons, List.sum_cons]
          rw [ih g (fun z hz => hg z (by simp [hz]))]
          push_cast
          rw [this]
    rw [hsum v g hgr] at b3
    set B' := vecAdj (fun _ => false) (keys.zip (v.map Complex.ofReal)) with hB'
    have e : (H * ((1 / 2 : ℂ) • (denD (denF 0) B - B') + (Complex.I / 2) • (denD (denF 0) B + B'))
        - ((1 / 2 : ℂ) • (denD (denF 0) B - B') + (Complex.I / 2) • (denD (denF 0) B + B')) * H : Oper ℂ)
        = (H * ((1 / 2 : ℂ) • (denD (denF 0) B - B')) - (1 / 2 : ℂ) • (denD (denF 0) B - B') * H)
          + Complex.I • (H * ((1 / 2 : ℂ) • (denD (denF 0) B + B')) - (1 / 2 : ℂ) • (denD (denF 0) B + B') * H) := by
      simp only [mul_add, add_mul, mul_sub, sub_mul, mul_smul_comm, smul_mul_assoc, smul_sub, smul_add, smul_smul]
      module
    have hp : pair ψ ((H * ((1 / 2 : ℂ) • (denD (denF 0) B - B') + (Complex.I / 2) • (denD (denF 0) B + B'))
        - ((1 / 2 : ℂ) • (denD (denF 0) B - B') + (Complex.I / 2) • (denD (denF 0) B + B')) * H : Oper ℂ) ψ)
        = evState ψ ((H * ((1 / 2 : ℂ) • (denD (denF 0) B - B')) - (1 / 2 : ℂ) • (denD (denF 0) B - B') * H)
          + Complex.I • (H * ((1 / 2 : ℂ) • (denD (denF 0) B + B')) - (1 / 2 : ℂ) • (denD (denF 0) B + B') * H)) := by
      rw [e]; rfl
    rw [hp, map_add, map_smul, b3, b4, smul_zero, add_zero]
    push_cast
    rfl

section Exc
variable (i k j l : Fin r) (φ : Cfg → ℂ)

theorem ann_cre_of (x : ℕ) (h : (ann x : Oper ℂ) φ = 0) : (ann x : Oper ℂ) ((cre x : Oper ℂ) φ) = φ := by
  have := congrArg (fun X : Oper ℂ => X φ) (ann_mul_cre_same (K := ℂ) x)
  simpa [h] using this

theorem cre_ann_of (x : ℕ) (h : (cre x : Oper ℂ) φ = 0) : (cre x : Oper ℂ) ((ann x : Oper ℂ) φ) = φ := by
  have := congrArg (fun X : Oper ℂ => X φ) (ann_mul_cre_same (K := ℂ) x)
  simp only [Module.End.mul_apply, h, map_zero, LinearMap.sub_apply, Module.End.one_apply] at this
  exact (sub_eq_zero.mp this.symm).symm

theorem ann_ann_of (x y : ℕ) (h : (ann x : Oper ℂ) φ = 0) : (ann x : Oper ℂ) ((ann y : Oper ℂ) φ) = 0 := by
  have := congrArg (fun X : Oper ℂ => X φ) (car_ann_ann (K := ℂ) x y)
  simpa [h] using this

theorem ann_cre_ne (x y : ℕ) (hxy : x ≠ y) (h : (ann x : Oper ℂ) φ = 0) : (ann x : Oper ℂ) ((cre y : Oper ℂ) φ) = 0 := by
  have := congrArg (fun X : Oper ℂ => X φ) (car_ann_cre (K := ℂ) x y)
  simpa [h, hxy] using this

theorem cre_ann_ne (x y : ℕ) (hxy : y ≠ x) (h : (cre x : Oper ℂ) φ = 0) : (cre x : Oper ℂ) ((ann y : Oper ℂ) φ) = 0 := by
  have := congrArg (fun X : Oper ℂ => X φ) (car_ann_cre (K := ℂ) y x)
  simpa [h, hxy] using this

/-- Exciting the pair `j l` to `i k` and back. -/
theorem gop_back (hik : i ≠ k) (hjl : j ≠ l) (hi : (ann i.val : Oper ℂ) φ = 0) (hk : (ann k.val : Oper ℂ) φ = 0)
    (hj : (cre j.val : Oper ℂ) φ = 0) (hl : (cre l.val : Oper ℂ) φ = 0) :
    (gop j l i k : Oper ℂ) ((gop i k j l : Oper ℂ) φ) = φ := by
  show cre j.val (cre l.val (ann k.val (ann i.val (cre i.val (cre k.val (ann l.val (ann j.val φ))))))) = φ
  have hik' : i.val ≠ k.val := fun h => hik (Fin.ext h)
  have hjl' : j.val ≠ l.val := fun h => hjl (Fin.ext h)
  rw [ann_cre_of _ i.val (ann_cre_ne _ _ _ hik' (ann_ann_of _ _ _ (ann_ann_of _ _ _ hi))),
    ann_cre_of _ k.val (ann_ann_of _ _ _ (ann_ann_of _ _ _ hk)),
    cre_ann_of _ l.val (cre_ann_ne _ _ _ hjl' hl), cre_ann_of _ j.val hj]

end Exc

/-- **C131 fails.**  The layer is not the exponential of the anti-Hermitian part of the operator: for one double excitation
`j l → i k` from a normalized state where `j`, `l` are occupied and `i`, `k` empty, the 2-RDM element of the excitation has
derivative `2x(1+i)` instead of `2x`, so after every small nonzero step the 2-RDM of the real start state is not real. -/
theorem C131_fails (i k j l : Fin r) (hik : i ≠ k) (hjl : j ≠ l) (ψ : Cfg →₀ ℂ) (hψ : pair ψ ψ = 1)
    (hi : (ann i.val : Oper ℂ) ψ = 0) (hk : (ann k.val : Oper ℂ) ψ = 0) (hj : (cre j.val : Oper ℂ) ψ = 0)
    (hl : (cre l.val : Oper ℂ) ψ = 0) (x : ℝ) (hx : x ≠ 0) :
    ∃ B C, vecOp (fun _ => false) [((i, k, j, l), (x : ℂ))] = some B ∧ denPO C = denD (denF 0) B ∧ UniqueKeys C ∧
      (∀ (α : ℝ) (prev : Option ℝ), (∀ t ∈ C, (1e-14 : ℝ) < |α * (t.2.re + t.2.im)|) →
        applyOp 1 prev (C.map fun t => (t.1, (α : ℂ) * t.2)) = some (lineGates C α)) ∧
      pair ψ (((gop j l i k : Oper ℂ) * ((1 / 2 : ℂ) • (denD (denF 0) B - vecAdj (fun _ => false) [((i, k, j, l), (x : ℂ))]))
        - ((1 / 2 : ℂ) • (denD (denF 0) B - vecAdj (fun _ => false) [((i, k, j, l), (x : ℂ))])) * gop j l i k : Oper ℂ) ψ) = 2 * x ∧
      ∃ ψe : ℝ → Cfg →₀ ℂ, (∀ α, (ψe α : Cfg → ℂ) = circOp (gatesOf (lineGates C α)) ψ) ∧
        HasDerivAt (fun α => pair (ψe α) ((gop j l i k : Oper ℂ) (ψe α))) (2 * x * (1 + Complex.I)) 0 ∧
        ∀ᶠ α in 𝓝[≠] (0 : ℝ), (pair (ψe α) ((gop j l i k : Oper ℂ) (ψe α))).im ≠ 0 := by
  obtain ⟨B, b1, -, b3⟩ := C75_vector_operator (fun _ => false) [((i, k, j, l), (x : ℂ))]
  have b3' : denD (denF 0) B = (4 * (x : ℂ)) • (gop i k j l : Oper ℂ) := by
    rw [b3]
    simp [cut]
  have hV : vecAdj (fun _ => false) [((i, k, j, l), (x : ℂ))] = (4 * (x : ℂ)) • (gop j l i k : Oper ℂ) := by simp [vecAdj, cut]
  have ha : IsAdj (vecAdj (fun _ => false) [((i, k, j, l), (x : ℂ))]) (denD (denF 0) B) := by
    rw [hV, b3']
    have := (isAdj_gop (K := ℂ) j l i k).smul (4 * (x : ℂ))
    have hc : conj (4 * (x : ℂ)) = 4 * (x : ℂ) := by
      show (starRingEnd ℂ) (4 * (x : ℂ)) = _
      rw [map_mul, Complex.conj_ofReal, Complex.conj_ofNat]
    rwa [hc] at this
  obtain ⟨C, c1, c2, c3, c4⟩ := line_layer [(i, k, j, l)] [x] B b1 ha
  have c4' : (denPO (turned C) : Oper ℂ) = (2 * x * (1 + Complex.I)) • gop i k j l + (2 * x * (Complex.I - 1)) • gop j l i k := by
    refine c4.trans ?_
    have : vecAdj (fun _ => false) ([(i, k, j, l)].zip ([x].map Complex.ofReal)) = (4 * (x : ℂ)) • (gop j l i k : Oper ℂ) := hV
    rw [this, b3']
    module
  have hX : (gop j l i k : Oper ℂ) (ψ : Cfg → ℂ) = 0 := by
    show cre j.val (cre l.val (ann k.val (ann i.val (ψ : Cfg → ℂ)))) = 0
    rw [hi, map_zero, map_zero, map_zero]
  have hXX := gop_back i k j l (ψ : Cfg → ℂ) hik hjl hi hk hj hl
  have hq : ∀ a b : ℂ, pair ψ (((gop j l i k : Oper ℂ) * (a • gop i k j l + b • gop j l i k)
      - (a • gop i k j l + b • gop j l i k) * gop j l i k : Oper ℂ) ψ) = a := by
    intro a b
    simp only [LinearMap.sub_apply, Module.End.mul_apply, LinearMap.add_apply, LinearMap.smul_apply, map_add, map_smul, hX, hXX, map_zero,
      smul_zero, add_zero, sub_zero]
    rw [pair_smul_right, hψ, mul_one]
  choose ψe hψe using fun α => circuit_state (lineGates C α) ψ
  have hD := hasDeriv_line C ψ (gop j l i k) ψe hψe
  rw [c4', hq] at hD
  refine ⟨B, C, b1, c3, c1, fun α prev h => lineGates_emitted C (fun t ht => (c2 t ht).2) α h prev, ?_, ψe, hψe, hD, ?_⟩
  · have := hq (2 * x) (-(2 * x))
    rw [hV, b3']
    convert this using 5 <;> module
  · have him : HasDerivAt (fun α => (pair (ψe α) ((gop j l i k : Oper ℂ) (ψe α))).im) (2 * x) 0 := by
      have := Complex.imCLM.hasFDerivAt.comp_hasDerivAt (0 : ℝ) hD
      have e : Complex.imCLM (2 * x * (1 + Complex.I)) = 2 * x := by simp
      rw [e] at this
      exact this
    have := him.eventually_ne (c := 0) (by simpa using hx)
    exact this

/-- A state meeting the hypotheses: the determinant with the orbitals 0 and 1 of four occupied. -/
example : pair (Finsupp.single (fun x => decide (x < 2)) (1 : ℂ)) (Finsupp.single (fun x => decide (x < 2)) (1 : ℂ) : Cfg →₀ ℂ) = 1 ∧
    (ann (2 : Fin 4).val : Oper ℂ) (Finsupp.single (fun x => decide (x < 2)) (1 : ℂ) : Cfg →₀ ℂ) = 0 ∧
    (ann (3 : Fin 4).val : Oper ℂ) (Finsupp.single (fun x => decide (x < 2)) (1 : ℂ) : Cfg →₀ ℂ) = 0 ∧
    (cre (0 : Fin 4).val : Oper ℂ) (Finsupp.single (fun x => decide (x < 2)) (1 : ℂ) : Cfg →₀ ℂ) = 0 ∧
    (cre (1 : Fin 4).val : Oper ℂ) (Finsupp.single (fun x => decide (x < 2)) (1 : ℂ) : Cfg →₀ ℂ) = 0 := by
  have hs : ∀ c b : Cfg, (∃ x, c x ≠ b x) → (Finsupp.single c (1 : ℂ)) b = 0 := by
    rintro c b ⟨x, h⟩
    exact Finsupp.single_eq_of_ne (fun e => h (by rw [e]))
  refine ⟨?_, ?_, ?_, ?_, ?_⟩
  · unfold pair
    rw [Finsupp.sum_single_index] <;> simp [conj, Coef.conj]
  · funext b
    show (if b 2 then (0 : ℂ) else fsign b 2 * _) = 0
    rw [hs _ _ ⟨2, by simp⟩, mul_zero, ite_self]
  · funext b
    show (if b 3 then (0 : ℂ) else fsign b 3 * _) = 0
    rw [hs _ _ ⟨3, by simp⟩, mul_zero, ite_self]
  · funext b
    show (if b 0 then fsign b 0 * _ else (0 : ℂ)) = 0
    rw [hs _ _ ⟨0, by simp⟩, mul_zero, ite_self]
  · funext b
    show (if b 1 then fsign b 1 * _ else (0 : ℂ)) = 0
    rw [hs _ _ ⟨1, by simp⟩, mul_zero, ite_self]

end
end HQCA.Props
