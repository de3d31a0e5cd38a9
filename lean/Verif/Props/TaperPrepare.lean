import Verif.Props.ParityFree
import Verif.Props.Prepare

/-!
# C90: preparing the reference determinant on the tapered register
-/

set_option linter.unusedSectionVars false

namespace HQCA.Props
open HQCA.Taper HQCA.Transform HQCA.Prepare HQCA.Prim

/-- The letters `I` and `Z`. -/
def ZType (s : PStr) : Prop := ∀ p ∈ s, p = .I ∨ p = .Z

/-- A list of symmetries as given to `get_transform_from_symmetries`, on `N` qubits: each is a string of `I` and `Z`, as long
as the register left by the previous ones, with `Z` on the qubit it removes, and an eigenvalue `±1`. -/
def ZSyms : ℕ → List (PStr × ℕ × ℂ) → Prop
  | _, [] => True
  | N, (tau, q, e) :: l => tau.length = N ∧ tau[q]? = some .Z ∧ ZType tau ∧ (e = 1 ∨ e = -1) ∧ ZSyms (N - 1) l

/-- The bits left after the removals. -/
def dropAll : List (PStr × ℕ × ℂ) → Cfg → Cfg
  | [], b => b
  | (_, q, _) :: l, b => dropAll l (dropBit q b)

/-- The bits flipped by a string. -/
def flips (s : PStr) : Cfg := fun i => (s.getD i .I).l

theorem flips_eraseIdx (s : PStr) (q : ℕ) : flips (s.eraseIdx q) = dropBit q (flips s) := by
  funext i
  simp only [flips, dropBit, List.getD_eq_getElem?_getD, List.getElem?_eraseIdx]
  split <;> rfl

theorem posLetter_l (p q : PL) : (posLetter p q).l = xor p.l q.l := by cases p <;> cases q <;> rfl

theorem flips_zipWith (s t : PStr) (h : s.length = t.length) :
    flips (List.zipWith posLetter s t) = fun i => xor (flips s i) (flips t i) := by
  funext i
  simp only [flips, List.getD_eq_getElem?_getD, List.getElem?_zipWith]
  by_cases hi : i < s.length
  · simp [hi, h ▸ hi, posLetter_l]
  · simp [Nat.le_of_not_lt hi, h ▸ Nat.le_of_not_lt hi, PL.l]

theorem flips_ztype (s : PStr) (h : ZType s) : flips s = fun _ => false := by
  funext i
  simp only [flips, List.getD_eq_getElem?_getD]
  cases hs : s[i]? with
  | none => rfl
  | some p => rcases h p (List.mem_of_getElem? hs) with rfl | rfl <;> rfl

theorem flips_xString (n q : ℕ) (h : q < n) : flips (xString n q) = fun i => decide (i = q) := by
  funext i
  simp only [flips, xString_eq n q h, List.getD_eq_getElem?_getD]
  rcases Nat.lt_trichotomy i q with hi | rfl | hi
  · rw [List.getElem?_append_left (by simpa using hi)]
    simp [hi, PL.l]; omega
  · simp [PL.l]
  · rw [List.getElem?_append_right (by simp; omega)]
    obtain ⟨j, rfl⟩ : ∃ j, i = q + (j + 1) := ⟨i - q - 1, by omega⟩
    simp only [List.length_replicate, Nat.add_sub_cancel_left, List.getElem?_cons_succ, List.getElem?_replicate]
    split <;> simp [PL.l]

theorem dropBit_flipq (q : ℕ) (b : Cfg) : dropBit q (fun i => xor (b i) (decide (i = q))) = dropBit q b := by
  funext i
  simp only [dropBit]
  split
  · rename_i h; simp [Nat.ne_of_lt h]
  · rename_i h
    have : i + 1 ≠ q := by omega
    simp [this]

/-! ### The basis change of one Pauli string -/

/-- Two Pauli strings commute or anticommute. -/
theorem pauli_sign (s t : PStr) (h : s.length = t.length) :
    ∃ σ : ℂ, (σ = 1 ∨ σ = -1) ∧ (denP 0 s * denP 0 t : Oper ℂ) = σ • (denP 0 t * denP 0 s) := by
  have key : ∀ (s t : PStr) (k : ℕ), s.length = t.length →
      ∃ σ : ℂ, (σ = 1 ∨ σ = -1) ∧ (denP k s * denP k t : Oper ℂ) = σ • (denP k t * denP k s) := by
    intro s
    induction s with
    | nil =>
      intro t k h
      have : t = [] := List.length_eq_zero_iff.mp h.symm
      subst this
      exact ⟨1, Or.inl rfl, by simp [denP]⟩
    | cons p s ih =>
      intro t k h
      cases t with
      | nil => simp at h
      | cons r t =>
        obtain ⟨σ, h1, h2⟩ := ih t (k + 1) (by simpa using h)
        have hp : ∃ ρ : ℂ, (ρ = 1 ∨ ρ = -1) ∧ (pmat p * pmat r : M2 ℂ) = ρ • (pmat r * pmat p) := by
          cases p <;> cases r
          all_goals first
            | (refine ⟨1, Or.inl rfl, ?_⟩; rw [one_smul]; done)
            | (refine ⟨1, Or.inl rfl, ?_⟩; simp only [pmat, one_mul, mul_one, one_smul]; done)
            | refine ⟨-1, Or.inr rfl, ?_⟩
              simp only [pmat, mX_mul_mY, mX_mul_mZ, mY_mul_mX, mY_mul_mZ, mZ_mul_mX, mZ_mul_mY]
              module
        obtain ⟨ρ, h3, h4⟩ := hp
        refine ⟨ρ * σ, by rcases h1 with rfl | rfl <;> rcases h3 with rfl | rfl <;> simp, ?_⟩
        simp only [denP]
        have c1 := site_denP_comm (K := ℂ) k (k + 1) (by omega) (pmat r) s
        have c2 := site_denP_comm (K := ℂ) k (k + 1) (by omega) (pmat p) t
        calc site k (pmat p) * denP (k + 1) s * (site k (pmat r) * denP (k + 1) t)
            = site k (pmat p) * (denP (k + 1) s * site k (pmat r)) * denP (k + 1) t := by simp only [mul_assoc]
          _ = site k (pmat p * pmat r) * (denP (k + 1) s * denP (k + 1) t) := by
              rw [← c1, site_mul]; simp only [mul_assoc]
          _ = (ρ * σ) • (site k (pmat r * pmat p) * (denP (k + 1) t * denP (k + 1) s)) := by
              rw [h4, h2, site_smul, smul_mul_assoc, mul_smul_comm, smul_smul]
          _ = _ := by
              rw [site_mul]
              congr 1
              calc site k (pmat r) * site k (pmat p) * (denP (k + 1) t * denP (k + 1) s)
                  = site k (pmat r) * (site k (pmat p) * denP (k + 1) t) * denP (k + 1) s := by simp only [mul_assoc]
                _ = _ := by rw [c2]; simp only [mul_assoc]
  exact key s t 0 h

theorem pauli_sq (s : PStr) (k : ℕ) : (denP k s * denP k s : Oper ℂ) = 1 := by
  induction s generalizing k with
  | nil => simp [denP]
  | cons p s ih =>
    simp only [denP]
    have c1 := site_denP_comm (K := ℂ) k (k + 1) (by omega) (pmat p) s
    calc site k (pmat p) * denP (k + 1) s * (site k (pmat p) * denP (k + 1) s)
        = site k (pmat p) * (denP (k + 1) s * site k (pmat p)) * denP (k + 1) s := by simp only [mul_assoc]
      _ = site k (pmat p * pmat p) * (denP (k + 1) s * denP (k + 1) s) := by
          rw [← c1, site_mul]; simp only [mul_assoc]
      _ = 1 := by
          rw [ih, mul_one, ← site_one k]
          congr 1
          cases p
          · simp [pmat]
          · exact mX_mul_mX
          · exact mY_mul_mY
          · exact mZ_mul_mZ

/-- A product of two strings is a string up to a phase, flipping the bits flipped by one of them. -/
theorem pauli_prod (s t : PStr) (h : s.length = t.length) :
    ∃ (u : PStr) (x : ℂ), ‖x‖ = 1 ∧ u.length = s.length ∧ (denP 0 s * denP 0 t : Oper ℂ) = x • denP 0 u ∧
      flips u = fun i => xor (flips s i) (flips t i) := by
  have := pm_den (K := ℂ) (s, 1) (t, 1) h 0
  simp only [one_smul] at this
  refine ⟨_, _, ?_, ?_, this.symm, flips_zipWith s t h⟩
  · simp only [pm, norm_mul, norm_one, norm_I_zpow, mul_one]
  · simp [pm, h]

theorem conj_algebra {R : Type} [Ring R] [Algebra ℂ R] (r σ ρ : ℂ) (hr : 2 * (r * r) = 1) (hσ : σ = 1 ∨ σ = -1)
    (hρ : ρ = 1 ∨ ρ = -1) (T X Q : R) (hT : T * T = 1) (hX : X * X = 1) (hTX : X * T = -(T * X))
    (h1 : T * Q = σ • (Q * T)) (h2 : X * Q = ρ • (Q * X)) :
    (r • (T + X)) * Q * (r • (T + X)) = σ • Q ∨ (r • (T + X)) * Q * (r • (T + X)) = T * Q * X := by
  have a1 : T * Q * T = σ • Q := by rw [h1, smul_mul_assoc, mul_assoc, hT, mul_one]
  have a2 : X * Q * X = ρ • Q := by rw [h2, smul_mul_assoc, mul_assoc, hX, mul_one]
  have a3 : X * Q * T = -((σ * ρ) • (T * Q * X)) := by
    rw [h2, smul_mul_assoc, mul_assoc, hTX, mul_neg, ← mul_assoc, smul_neg, h1, smul_mul_assoc, smul_smul]
    rcases hσ with rfl | rfl <;> rcases hρ with rfl | rfl <;> simp
  have e : (r • (T + X)) * Q * (r • (T + X)) = (r * r) • (T * Q * T + T * Q * X + X * Q * T + X * Q * X) := by
    simp only [smul_mul_assoc, mul_smul_comm, smul_smul, add_mul, mul_add, smul_add]
    abel
  rw [e, a1, a2, a3]
  have hr' : r * r = 1 / 2 := by linear_combination hr / 2
  rw [hr']
  rcases hσ with rfl | rfl <;> rcases hρ with rfl | rfl
  · left; module
  · right; module
  · right; module
  · left; module

/-- The basis change maps a string to a string up to a phase and leaves the flips of the other qubits alone. -/
theorem conj_pauli (tau : PStr) (q : ℕ) (h : tau[q]? = some .Z) (hz : ZType tau) (s : PStr) (hs : s.length = tau.length) :
    ∃ (u : PStr) (x : ℂ), ‖x‖ = 1 ∧ u.length = tau.length ∧
      (denPO (symU rt tau q) * denP 0 s * denPO (symU rt tau q) : Oper ℂ) = x • denP 0 u ∧
      dropBit q (flips u) = dropBit q (flips s) := by
  have hq : q < tau.length := (List.getElem?_eq_some_iff.mp h).1
  rw [symU_den_of_ne _ _ _ hq (symU_ne _ _ .Z h (by simp)), ← denP_xString tau.length q hq]
  have hxl := xString_length tau.length q hq
  obtain ⟨σ, s1, s2⟩ := pauli_sign tau s hs.symm
  obtain ⟨ρ, r1, r2⟩ := pauli_sign (xString tau.length q) s (by rw [hxl, hs])
  have hTX : (denP 0 (xString tau.length q) * denP 0 tau : Oper ℂ) = -(denP 0 tau * denP 0 (xString tau.length q)) := by
    rw [denP_xString tau.length q hq]
    have := site_denP_letter (K := ℂ) .X q 0 tau .Z h (-1) (by
      simp only [pmat, mX_mul_mZ, mZ_mul_mX]; module)
    rw [zero_add] at this
    rw [this, Oper.neg_one_smul]
  rcases conj_algebra rt σ ρ rt_spec.1 s1 r1 _ _ _ (pauli_sq tau 0) (pauli_sq _ 0) hTX s2 r2 with e | e
  · exact ⟨s, σ, by rcases s1 with rfl | rfl <;> simp, hs, e, rfl⟩
  · obtain ⟨u, x, x1, x2, x3, x4⟩ := pauli_prod tau s hs.symm
    obtain ⟨w, y, y1, y2, y3, y4⟩ := pauli_prod u (xString tau.length q) (by rw [x2, hxl])
    refine ⟨w, x * y, by simp [x1, y1], by rw [y2, x2], ?_, ?_⟩
    · rw [e, x3, smul_mul_assoc, y3, smul_smul]
    · rw [y4, x4, flips_ztype tau hz, flips_xString _ _ hq, dropBit_flipq]
      simp

/-! ### Trimming with `null = 1` -/

/-- The factor of a string when qubit `q` is removed. -/
noncomputable def trimW (q : ℕ) (e : ℂ) (s : PStr) : ℂ :=
  if s[q]? = some .X then e else 1

theorem trim_init (q n : ℕ) (hq : q < n) (e c : ℂ) (he : e = 1 ∨ e = -1) (B : POp ℂ) (hB : ∀ t ∈ B, t.1.length = n)
    (hc : GIop c B) :
    ∃ T, trim 1 [(q, .X, e)] B = some T ∧ UniqueKeys T ∧ (∀ u ∈ T, u.1.length = n - 1) ∧ GIop c T ∧
      ∀ d : PStr → Oper ℂ, denD d T = denD (fun s => trimW q e s • d (s.eraseIdx q)) B := by
  have one : ∀ t ∈ B, trimStr 1 [(q, .X, e)] t = some (t.1.eraseIdx q, t.2 * trimW q e t.1) := by
    intro t ht
    have hl : q < t.1.length := by rw [hB t ht]; exact hq
    unfold trimStr trimStr trimW
    rw [List.getElem?_eq_getElem hl]
    simp only [Option.some.injEq]
    by_cases h : t.1[q] = .X
    · simp [h]
    · simp only [h, if_false, mul_one]
      simp
  refine ⟨(B.map fun t => (t.1.eraseIdx q, t.2 * trimW q e t.1)).foldl OpD.addStr [], ?_, ?_, ?_, ?_, ?_⟩
  · unfold trim
    rw [if_pos (by simp [descending]), OpD.mapM_total (g := fun t => (t.1.eraseIdx q, t.2 * trimW q e t.1)) _ _ one]
    rfl
  · exact OpD.foldl_addStr_unique _ _ OpD.uniqueKeys_nil
  · intro u hu
    have hk := List.mem_map_of_mem (f := (·.1)) hu
    rw [OpD.mem_keys_foldl_addStr] at hk
    rcases hk with hk | hk
    · simp at hk
    · obtain ⟨v, hv, e1⟩ := List.mem_map.mp hk
      obtain ⟨t, ht, rfl⟩ := List.mem_map.mp hv
      rw [← e1]
      show (t.1.eraseIdx q).length = n - 1
      rw [List.length_eraseIdx, hB t ht, if_pos hq]
  · refine GIop.foldl _ (GIop.nil c) ?_
    intro u hu
    obtain ⟨t, ht, rfl⟩ := List.mem_map.mp hu
    obtain ⟨z, hz, ez⟩ := hc t ht
    refine ⟨z * trimW q e t.1, hz.mul ?_, by simp only [ez]; ring⟩
    unfold trimW
    split
    · rcases he with rfl | rfl
      exacts [GI.one, GI.neg_one]
    · exact GI.one
  · intro d
    rw [OpD.denD_foldl_addStr _ _ _ OpD.uniqueKeys_nil, OpD.denD_nil, zero_add]
    clear hB hc one
    induction B with
    | nil => rfl
    | cons t B ih =>
      rw [List.map_cons, OpD.denD_cons, OpD.denD_cons, ih, smul_smul]

/-- Operators with the same coefficients have the same value under any reading of the strings. -/
theorem denD_of_coef (d : PStr → Oper ℂ) (n : ℕ) (A B : POp ℂ) (hA : ∀ t ∈ A, t.1.length = n) (hB : ∀ t ∈ B, t.1.length = n)
    (h : (denPO A : Oper ℂ) = denPO B) : denD d A = denD d B := by
  have key : ∀ A : POp ℂ, denD d A = ∑ s ∈ (A.map (·.1)).toFinset, coef A s • d s := by
    intro A
    have : ∀ (A : POp ℂ) (S : Finset PStr), (∀ t ∈ A, t.1 ∈ S) → denD d A = ∑ s ∈ S, coef A s • d s := by
      intro A
      induction A with
      | nil => intro S _; simp [OpD.denD_nil, coef_nil]
      | cons t A ih =>
        intro S hS
        rw [OpD.denD_cons, ih S (fun u hu => hS u (by simp [hu]))]
        simp only [coef_cons, add_smul, Finset.sum_add_distrib, ite_smul, zero_smul]
        rw [Finset.sum_ite_eq, if_pos (hS t (by simp))]
    exact this A _ (fun t ht => by simpa using ⟨t.2, ht⟩)
  have ext : ∀ (A : POp ℂ) (S : Finset PStr), (A.map (·.1)).toFinset ⊆ S → denD d A = ∑ s ∈ S, coef A s • d s := by
    intro A S hS
    rw [key, Finset.sum_subset hS]
    intro s _ hs
    rw [OpD.coef_of_not_mem _ _ (by simpa using hs), zero_smul]
  rw [ext A _ Finset.subset_union_left, ext B ((A.map (·.1)).toFinset ∪ (B.map (·.1)).toFinset) Finset.subset_union_right]
  exact Finset.sum_congr rfl (fun s _ => by rw [coef_unique n A B hA hB h])

/-- One symmetry, for two operators whose sum is a single string. -/
theorem taper_pair_one (tau : PStr) (q : ℕ) (h : tau[q]? = some .Z) (hz : ZType tau) (e : ℂ) (he : e = 1 ∨ e = -1)
    (c : ℂ) (hc : 2e-12 < ‖c‖) (A1 A2 : POp ℂ) (g1 : GIop c A1) (g2 : GIop c A2)
    (n1 : ∀ t ∈ A1, t.1.length = tau.length) (n2 : ∀ t ∈ A2, t.1.length = tau.length)
    (s : PStr) (a : ℂ) (hs : s.length = tau.length) (hA : (denPO A1 + denPO A2 : Oper ℂ) = a • denP 0 s) :
    ∃ (B1 B2 : POp ℂ) (s' : PStr) (a' : ℂ), modifyOne rt 1 tau q e A1 = some B1 ∧ modifyOne rt 1 tau q e A2 = some B2 ∧
      UniqueKeys B1 ∧ UniqueKeys B2 ∧ GIop (rt * c * rt) B1 ∧ GIop (rt * c * rt) B2 ∧ ‖rt * c * rt‖ = ‖c‖ / 2 ∧
      (∀ t ∈ B1, t.1.length = tau.length - 1) ∧ (∀ t ∈ B2, t.1.length = tau.length - 1) ∧
      s'.length = tau.length - 1 ∧ ‖a'‖ = ‖a‖ ∧ (denPO B1 + denPO B2 : Oper ℂ) = a' • denP 0 s' ∧
      flips s' = dropBit q (flips s) := by
  have hq : q < tau.length := (List.getElem?_eq_some_iff.mp h).1
  set U : Oper ℂ := denPO (symU rt tau q) with hU
  have hUg : GIop rt (symU rt tau q) := fun t ht =>
    ⟨1, GI.one, by rw [(symU_lengths rt tau q hq t ht).2, one_mul]⟩
  have hUn := fun t ht => (symU_lengths rt tau q hq t ht).1
  have hrt : ‖rt‖ ^ 2 = 1 / 2 := by
    have h1 := congrArg norm rt_spec.1
    rw [norm_mul, norm_mul] at h1
    simp at h1
    nlinarith
  have hrp : 0 ≤ ‖rt‖ := norm_nonneg _
  have hrl : 1 / 2 ≤ ‖rt‖ := by nlinarith
  have s1 : small (rt * c) = false := by
    rw [Bool.eq_false_iff]; intro hs
    have := (small_complex _).mp hs
    rw [norm_mul] at this
    nlinarith [norm_nonneg c]
  have hnorm : ‖rt * c * rt‖ = ‖c‖ / 2 := by
    rw [norm_mul, norm_mul]
    calc ‖rt‖ * ‖c‖ * ‖rt‖ = ‖rt‖ ^ 2 * ‖c‖ := by ring
      _ = ‖c‖ / 2 := by rw [hrt]; ring
  have s2 : small (rt * c * rt) = false := by
    rw [Bool.eq_false_iff]; intro hs
    have := (small_complex _).mp hs
    rw [hnorm] at this
    linarith
  have step : ∀ A : POp ℂ, GIop c A → (∀ t ∈ A, t.1.length = tau.length) →
      ∃ B T : POp ℂ, modifyOne rt 1 tau q e A = some T ∧ (denPO B : Oper ℂ) = U * denPO A * U ∧
        (∀ t ∈ B, t.1.length = tau.length) ∧ UniqueKeys T ∧ (∀ u ∈ T, u.1.length = tau.length - 1) ∧
        GIop (rt * c * rt) T ∧ ∀ d : PStr → Oper ℂ, denD d T = denD (fun s => trimW q e s • d (s.eraseIdx q)) B := by
    intro A hA hn
    obtain ⟨R, hR, hRg, hRd, _, hRn, _⟩ := pauli_mul_exact tau.length rt c s1 _ A hUg hA hUn hn
    obtain ⟨B, hB, hBg, hBd, _, hBn, _⟩ := pauli_mul_exact tau.length _ rt s2 R _ hRg hUg hRn hUn
    obtain ⟨T, t1, t2, t3, t4, t5⟩ := trim_init q tau.length hq e _ he B hBn hBg
    refine ⟨B, T, ?_, by rw [hBd, hRd], hBn, t2, t3, t4, t5⟩
    unfold modifyOne changeBasis
    rw [hR, Option.bind_some, hB, Option.bind_some, t1]
  obtain ⟨B1, T1, a1, a2, a3, a4, a5, a6, a7⟩ := step A1 g1 n1
  obtain ⟨B2, T2, b1, b2, b3, b4, b5, b6, b7⟩ := step A2 g2 n2
  obtain ⟨u, x, x1, x2, x3, x4⟩ := conj_pauli tau q h hz s hs
  rw [← hU] at x3
  refine ⟨T1, T2, u.eraseIdx q, a * x * trimW q e u, a1, b1, a4, b4, a6, b6, hnorm, a5, b5, ?_, ?_, ?_, ?_⟩
  · rw [List.length_eraseIdx, x2, if_pos hq]
  · rw [norm_mul, norm_mul, x1]
    unfold trimW
    split
    · rcases he with rfl | rfl <;> simp
    · simp
  · unfold denPO
    rw [a7, b7, ← OpD.denD_append, denD_of_coef _ tau.length (B1 ++ B2) [(u, a * x)]
      (fun t ht => (List.mem_append.mp ht).elim (a3 t) (b3 t)) (by simp [x2]) ?_, OpD.denD_cons, OpD.denD_nil, add_zero, smul_smul]
    have : (denPO (B1 ++ B2) : Oper ℂ) = denPO B1 + denPO B2 := OpD.denD_append _ _ _
    rw [this, a2, b2, ← add_mul, ← mul_add, hA, mul_smul_comm, smul_mul_assoc, x3, smul_smul]
    show _ = denD (denP 0) [(u, a * x)]
    rw [OpD.denD_cons, OpD.denD_nil, add_zero]
  · rw [flips_eraseIdx, x4]

/-- All symmetries. -/
theorem taper_pair : ∀ (syms : List (PStr × ℕ × ℂ)) (N : ℕ), ZSyms N syms → ∀ (c : ℂ), 1e-12 * 2 ^ syms.length < ‖c‖ →
    ∀ (A1 A2 : POp ℂ), UniqueKeys A1 → UniqueKeys A2 → GIop c A1 → GIop c A2 →
    (∀ t ∈ A1, t.1.length = N) → (∀ t ∈ A2, t.1.length = N) →
    ∀ (s : PStr) (a : ℂ), s.length = N → (denPO A1 + denPO A2 : Oper ℂ) = a • denP 0 s →
    ∃ (B1 B2 : POp ℂ) (c' : ℂ) (s' : PStr) (a' : ℂ), modifyAll rt 1 syms A1 = some B1 ∧ modifyAll rt 1 syms A2 = some B2 ∧
      UniqueKeys B1 ∧ UniqueKeys B2 ∧ GIop c' B1 ∧ GIop c' B2 ∧ 1e-12 < ‖c'‖ ∧
      (∀ t ∈ B1, t.1.length = N - syms.length) ∧ (∀ t ∈ B2, t.1.length = N - syms.length) ∧
      s'.length = N - syms.length ∧ ‖a'‖ = ‖a‖ ∧ (denPO B1 + denPO B2 : Oper ℂ) = a' • denP 0 s' ∧
      flips s' = dropAll syms (flips s)
  | [], N, _, c, hc, A1, A2, u1, u2, g1, g2, n1, n2, s, a, hs, hA =>
    ⟨A1, A2, c, s, a, rfl, rfl, u1, u2, g1, g2, by simpa using hc, by simpa using n1, by simpa using n2, by simpa using hs,
      rfl, hA, rfl⟩
  | (tau, q, e) :: l, N, hS, c, hc, A1, A2, u1, u2, g1, g2, n1, n2, s, a, hs, hA => by
    obtain ⟨rfl, z1, z2, z3, z4⟩ := hS
    have hl : (1 : ℝ) ≤ 2 ^ l.length := one_le_pow₀ (by norm_num)
    rw [List.length_cons, pow_succ] at hc
    obtain ⟨B1, B2, s', a', m1, m2, v1, v2, w1, w2, w3, l1, l2, l3, l4, l5, l6⟩ :=
      taper_pair_one tau q z1 z2 e z3 c (by nlinarith) A1 A2 g1 g2 n1 n2 s a hs hA
    obtain ⟨C1, C2, c', s'', a'', k1, k2, k3, k4, k5, k6, k7, k8, k9, k10, k11, k12, k13⟩ :=
      taper_pair l (tau.length - 1) z4 (rt * c * rt) (by rw [w3]; linarith) B1 B2 v1 v2 w1 w2 l1 l2 s' a' l3 l5
    have hsub : tau.length - ((tau, q, e) :: l).length = tau.length - 1 - l.length := by simp; omega
    rw [hsub]
    refine ⟨C1, C2, c', s'', a'', ?_, ?_, k3, k4, k5, k6, k7, k8, k9, k10, by rw [k11, l4], k12, ?_⟩
    · rw [modifyAll, m1, Option.bind_some, k1]
    · rw [modifyAll, m2, Option.bind_some, k2]
    · rw [k13, l6]; rfl

/-- An operator without repeated or small terms that denotes one string is that string. -/
theorem eq_single (n : ℕ) (C : POp ℂ) (hn : ∀ t ∈ C, t.1.length = n) (hu : UniqueKeys C) (hs : ∀ t ∈ C, small t.2 = false)
    (s : PStr) (a : ℂ) (hsn : s.length = n) (ha : a ≠ 0) (h : (denPO C : Oper ℂ) = a • denP 0 s) : C = [(s, a)] := by
  have hc := coef_unique n C [(s, a)] hn (by simp [hsn]) (by
    rw [h]; show _ = denD (denP 0) [(s, a)]; rw [OpD.denD_cons, OpD.denD_nil, add_zero])
  have hm : ∀ t ∈ C, t = (s, a) := by
    intro t ht
    have h1 : coef C t.1 = t.2 := OpD.coef_of_mem C hu t ht
    have h2 := hc t.1
    rw [h1, coef_cons, coef_nil, add_zero] at h2
    by_cases he : s = t.1
    · rw [if_pos he] at h2
      exact Prod.ext he.symm h2
    · rw [if_neg he] at h2
      have := hs t ht
      rw [h2, Coef.small_zero] at this
      cases this
  cases C with
  | nil =>
    have := hc s
    rw [coef_cons, coef_nil, if_pos rfl, add_zero] at this
    exact absurd this.symm ha
  | cons t C =>
    have h1 := hm t (by simp)
    subst h1
    cases C with
    | nil => rfl
    | cons u C =>
      have h2 := hm u (by simp)
      subst h2
      simp [UniqueKeys] at hu

/-- The transform with all symmetries removed, as used for the reference (`initial=True`). -/
noncomputable def taperInit (syms : List (PStr × ℕ × ℂ)) (t : Term FStr ℂ) : Option (POp ℂ) :=
  (jordanWigner t).bind (modifyAll rt 1 syms)

/-- One orbital on the reduced register. -/
theorem taper_excite (N : ℕ) (syms : List (PStr × ℕ × ℂ)) (hS : ZSyms N syms) (hlen : syms.length ≤ 38) (k : ℕ) (hk : k < N) :
    ∃ (s : PStr) (a : ℂ), s.length = N - syms.length ∧ ‖a‖ = 1 ∧ excite (taperInit syms) N k = some [(s, a)] ∧
      flips s = dropAll syms (fun i => decide (i = k)) := by
  obtain ⟨l1, l2⟩ := (oneLetter_jw N).good.len k hk .cr (by simp)
  have hne := (oneLetter_jw N).good.ne hk (o := .cr) (by simp)
  have r1 := (oneLetter_jw N).run k hk .cr (Or.inl rfl) 1
  have r2 := (oneLetter_jw N).run k hk .an (Or.inr rfl) (-1)
  rw [← (oneLetter_jw N).same k] at r2
  have hf : flips (jwTab N k .cr).2 = fun i => decide (i = k) := by
    funext i
    simp only [jwTab, true_or, if_true, flips, List.getD_eq_getElem?_getD, List.append_assoc, List.singleton_append]
    rcases Nat.lt_trichotomy i k with hi | rfl | hi
    · rw [List.getElem?_append_left (by simpa using hi)]
      simp [hi, PL.l]; omega
    · simp [PL.l]
    · rw [List.getElem?_append_right (by simp; omega)]
      obtain ⟨j, rfl⟩ : ∃ j, i = k + (j + 1) := ⟨i - k - 1, by omega⟩
      simp only [List.length_replicate, Nat.add_sub_cancel_left, List.getElem?_cons_succ, List.getElem?_replicate]
      split <;> simp [PL.l]
  generalize (jwTab N k .cr).1 = s1 at *
  generalize (jwTab N k .cr).2 = s2 at *
  have hI : (I : ℂ) = Complex.I := rfl
  have c1 : (c2 .cr : ℂ) = -Complex.I / 2 := by simp only [c2, hI]; ring
  have c3 : (c2 .an : ℂ) = Complex.I / 2 := by simp only [c2, hI]; ring
  rw [c1] at r1
  rw [c3] at r2
  rw [mul_one_letter N s1 s2 l1 l2 hne _ _ (by simp) (by simp)] at r1
  rw [mul_one_letter N s1 s2 l1 l2 hne _ _ (by simp) (by simp)] at r2
  have gI : GI Complex.I := GI.I
  obtain ⟨B1, B2, c', s', a', m1, m2, u1, u2, g1, g2, hc', n1, n2, n3, na, nd, nf⟩ := taper_pair syms N hS (1 / 2 : ℂ) (by
      have : (2 : ℝ) ^ syms.length ≤ 2 ^ 38 := pow_le_pow_right₀ (by norm_num) hlen
      have h2 : ‖(1 / 2 : ℂ)‖ = 1 / 2 := by simp
      rw [h2]
      norm_num at this ⊢
      linarith)
    [(s1, (1 / 2 * 1 : ℂ)), (s2, -Complex.I / 2 * 1)] [(s1, (1 / 2 * -1 : ℂ)), (s2, Complex.I / 2 * -1)]
    (by simp [UniqueKeys, hne]) (by simp [UniqueKeys, hne])
    (by
      intro t ht
      simp only [List.mem_cons, List.not_mem_nil, or_false] at ht
      rcases ht with rfl | rfl
      · exact ⟨1, GI.one, by ring⟩
      · exact ⟨-Complex.I, gI.neg, by ring⟩)
    (by
      intro t ht
      simp only [List.mem_cons, List.not_mem_nil, or_false] at ht
      rcases ht with rfl | rfl
      · exact ⟨-1, GI.neg_one, by ring⟩
      · exact ⟨-Complex.I, gI.neg, by ring⟩)
    (by simp [l1, l2]) (by simp [l1, l2]) s2 (-Complex.I) l2
    (by
      simp only [denPO, OpD.denD_cons, OpD.denD_nil, add_zero]
      module)
  have ha' : ‖a'‖ = 1 := by rw [na]; simp
  have hsm : small c' = false := by
    rw [Bool.eq_false_iff]; intro hs
    have := (small_complex _).mp hs
    linarith
  refine ⟨s', a', n3, ha', ?_, by rw [nf, hf]⟩
  unfold excite
  rw [generate_one (1 : ℂ) one_ne_zero, generate_one (-1 : ℂ) (by simp)]
  have hno : oneLetter N k .cr ≠ oneLetter N k .an := by
    unfold oneLetter
    intro h
    have := List.append_cancel_left h
    simp at this
  have hadd : OpD.addStr (OpD.addStr [] (oneLetter N k .cr, (1 : ℂ))) (oneLetter N k .an, -1)
      = [(oneLetter N k .cr, 1), (oneLetter N k .an, -1)] := by
    simp [OpD.addStr, OpD.hasKey, hno]
  simp only [Option.bind_some, hadd]
  have q1 : taperInit syms (oneLetter N k .cr, 1) = some B1 := by unfold taperInit; rw [r1, Option.bind_some, m1]
  have q2 : taperInit syms (oneLetter N k .an, -1) = some B2 := by unfold taperInit; rw [r2, Option.bind_some, m2]
  obtain ⟨C, e1, e2, e3, e4, _⟩ := transform_fold (taperInit syms)
    (fun t => if t = (oneLetter N k .cr, 1) then denPO B1 else denPO B2) c' hsm (N - syms.length)
    [(oneLetter N k .cr, 1), (oneLetter N k .an, -1)] (by
      intro t ht
      simp only [List.mem_cons, List.not_mem_nil, or_false] at ht
      rcases ht with rfl | rfl
      · exact ⟨B1, q1, u1, n1, g1, by rw [if_pos rfl]⟩
      · exact ⟨B2, q2, u2, n2, g2, by rw [if_neg (by intro h; exact hno (congrArg Prod.fst h).symm)]⟩)
  rw [e1]
  congr 1
  have hsmall : ∀ t ∈ C, small t.2 = false := by
    intro t ht
    unfold OpD.transform at e1
    rw [List.mapM_cons, q1, List.mapM_cons, q2] at e1
    simp only [List.mapM_nil, Option.pure_def, Option.bind_eq_bind, Option.bind_some, Option.map_some, Option.some.injEq,
      List.foldl_cons, List.foldl_nil] at e1
    subst e1
    have := (List.mem_filter.mp ht).2
    simpa using this
  apply eq_single (N - syms.length) C e4 e2 hsmall s' a' n3 (by rintro rfl; simp at ha')
  rw [e3, ← nd]
  simp only [List.map_cons, List.map_nil, List.sum_cons, List.sum_nil, add_zero, if_true]
  rw [if_neg (by intro h; exact hno (congrArg Prod.fst h).symm)]

theorem dropAll_xor (syms : List (PStr × ℕ × ℂ)) (a b : Cfg) :
    dropAll syms (fun i => xor (a i) (b i)) = fun i => xor (dropAll syms a i) (dropAll syms b i) := by
  induction syms generalizing a b with
  | nil => rfl
  | cons x l ih =>
    obtain ⟨tau, q, e⟩ := x
    simp only [dropAll]
    have : dropBit q (fun i => xor (a i) (b i)) = fun i => xor (dropBit q a i) (dropBit q b i) := by
      funext i; simp only [dropBit]; split <;> rfl
    rw [this, ih]

theorem dropAll_zero (syms : List (PStr × ℕ × ℂ)) : dropAll syms (fun _ => false) = fun _ => false := by
  induction syms with
  | nil => rfl
  | cons x l ih =>
    obtain ⟨tau, q, e⟩ := x
    have : dropBit q (fun _ => false) = fun _ => false := by funext i; simp [dropBit]
    simp only [dropAll, this, ih]

theorem flips_replicate (n : ℕ) : flips (List.replicate n .I) = fun _ => false :=
  flips_ztype _ (fun p hp => Or.inl (List.eq_of_mem_replicate hp))

/-- The product over the occupied orbitals. -/
theorem taper_initOp (N : ℕ) (syms : List (PStr × ℕ × ℂ)) (hS : ZSyms N syms) (hlen : syms.length ≤ 38) (l : List ℕ)
    (hl : ∀ k ∈ l, k < N) (hn : l.Nodup) :
    ∃ (s : PStr) (c : ℂ), initOp (taperInit syms) (N - syms.length) N l = some [(s, c)] ∧ s.length = N - syms.length ∧ ‖c‖ = 1 ∧
      flips s = dropAll syms (occ l) := by
  induction l using List.reverseRecOn with
  | nil =>
    refine ⟨List.replicate (N - syms.length) .I, 1, rfl, by simp, by simp, ?_⟩
    rw [flips_replicate]
    have : occ [] = fun _ => false := by funext j; simp [occ]
    rw [this, dropAll_zero]
  | append_singleton l k ih =>
    rw [List.nodup_append] at hn
    obtain ⟨s, c, e1, e2, e3, e4⟩ := ih (fun j hj => hl j (by simp [hj])) hn.1
    obtain ⟨s', a, f1, f2, f3, f4⟩ := taper_excite N syms hS hlen k (hl k (by simp))
    refine ⟨(pm (s, c) (s', a)).1, (pm (s, c) (s', a)).2, ?_, ?_, ?_, ?_⟩
    · unfold initOp at e1 ⊢
      rw [List.foldlM_append, e1]
      simp only [Option.bind_eq_bind, Option.bind_some, List.foldlM_cons, List.foldlM_nil, f3]
      rw [mul_prods (N - syms.length) _ _ (by simp [e2]) (by simp [f1])]
      have : small (pm (s, c) (s', a)).2 = false := by
        rw [← Bool.not_eq_true, small_complex]
        simp only [pm, norm_mul, e3, f2, norm_I_zpow]
        norm_num
      simp only [prods, OpD.mulPairs, List.flatMap_cons, List.flatMap_nil, List.map_cons, List.map_nil, List.append_nil,
        List.foldl_cons, List.foldl_nil, OpD.addStr, OpD.hasKey, List.any_nil, Bool.false_eq_true, if_false, List.nil_append,
        OpD.clean, List.filter_cons, this, Bool.not_false, if_true, List.filter_nil]
      rfl
    · simp [pm, e2, f1]
    · simp only [pm, norm_mul, e3, f2, norm_I_zpow]
      norm_num
    · have : occ (l ++ [k]) = fun i => xor (occ l i) (decide (i = k)) := by
        funext i
        by_cases hi : i = k
        · subst hi
          have : i ∉ l := fun h => hn.2.2 i h i (by simp) rfl
          simp [occ, this]
        · simp [occ, hi]
      rw [this, dropAll_xor, ← e4, ← f4]
      exact flips_zipWith s s' (by rw [e2, f1])

/-- A string acting on the empty configuration. -/
theorem denP_ket_zero (s : PStr) : ∃ x : ℂ, ‖x‖ = 1 ∧ (denP 0 s : Oper ℂ) (ket fun _ => false) = x • ket (flips s) := by
  classical
  have hp : ∀ c : Cfg, ‖(phase 0 s c : ℂ)‖ = 1 := by
    intro c
    unfold phase
    rw [norm_prod]
    apply Finset.prod_eq_one
    intro i _
    cases s.getD i .I <;> simp [HQCA.ph, sg] <;> split <;> simp [show (I : ℂ) = Complex.I from rfl]
  have hf : ∀ c : Cfg, fl 0 s c = (fun _ => false) ↔ c = flips s := by
    intro c
    constructor
    · intro h; funext i
      have := congrFun h i
      simp only [fl, Nat.zero_le, decide_true, Bool.true_and, Nat.sub_zero] at this
      simpa [flips] using this
    · rintro rfl; funext i
      simp [fl, flips]
  refine ⟨phase 0 s (flips s), hp _, ?_⟩
  funext c
  rw [denP_apply, Pi.smul_apply, smul_eq_mul]
  unfold ket
  by_cases h : c = flips s
  · rw [if_pos ((hf c).mpr h), if_pos h, h]
  · rw [if_neg (fun h' => h ((hf c).mp h')), if_neg h]; simp

theorem taper_prepare (N : ℕ) (syms : List (PStr × ℕ × ℂ)) (hS : ZSyms N syms) (hlen : syms.length ≤ 38) (l : List ℕ)
    (hl : ∀ k ∈ l, k < N) (hn : l.Nodup) :
    ∃ (gs : List QG) (d : ℂ), prepare (taperInit syms) (N - syms.length) N l = some gs ∧ ‖d‖ = 1 ∧
      circOp gs (ket fun _ => false) = d • ket (dropAll syms (occ l)) := by
  obtain ⟨s, c, e1, e2, e3, e4⟩ := taper_initOp N syms hS hlen l hl hn
  have hg : applyPauli c s = some (applyFrom 0 s) := by
    unfold applyPauli
    rw [if_pos (by rw [e3]; norm_num)]
  obtain ⟨d, h4, h5⟩ := C38_basis_state c s _ hg (fun _ => false)
  obtain ⟨x, x1, x2⟩ := denP_ket_zero s
  refine ⟨applyFrom 0 s, d * x, ?_, by simp [h4, x1], ?_⟩
  · unfold prepare
    rw [e1]
    simp [gates, hg]
  · rw [h5, x2, smul_smul, e4]

/-! ### The prepared state stands for the determinant -/

theorem embOne_ket (tau : PStr) (q : ℕ) (h : tau[q]? = some .Z) (e : ℂ) (he : e = 1 ∨ e = -1) (b : Cfg)
    (hb : denP 0 tau (ket b) = e • ket b) :
    ∃ x : ℂ, x ≠ 0 ∧ embOne tau q e (ket (dropBit q b)) = x • ket b := by
  have hq : q < tau.length := (List.getElem?_eq_some_iff.mp h).1
  set v : Bool → ℂ := fun x => if x then e else 1 with hv
  have hee : e * e = 1 := by rcases he with rfl | rfl <;> norm_num
  have hvb : ∀ x, v (!x) = e * v x := by intro x; cases x <;> simp [hv, hee]
  have hv0 : v (b q) ≠ 0 := by
    simp only [hv]; split
    · rintro rfl; simp at hee
    · simp
  have hr0 : rt ≠ 0 := by
    intro h0
    have := rt_spec.1
    rw [h0] at this
    simp at this
  have hX : ∀ a : Cfg, (site q (pmat .X) : Oper ℂ) (ket a) = ket (Function.update a q (!a q)) := by
    intro a
    rw [site_ket]
    cases a q <;> simp [pmat]
  have hins : ins q v (ket (dropBit q b)) = v (b q) • ket b + v (!b q) • (site q (pmat .X) : Oper ℂ) (ket b) := by
    classical
    rw [hX]
    have key : ∀ (c : Cfg) (x : Bool), c = Function.update b q x ↔ c q = x ∧ dropBit q c = dropBit q b := by
      intro c x
      constructor
      · rintro rfl
        refine ⟨by simp, ?_⟩
        funext i
        simp only [dropBit]
        split
        · rw [Function.update_of_ne (by omega)]
        · rw [Function.update_of_ne (by omega)]
      · rintro ⟨h1, h2⟩
        funext i
        rcases Nat.lt_trichotomy i q with hi | rfl | hi
        · have := congrFun h2 i
          simp only [dropBit, hi, if_true] at this
          rw [Function.update_of_ne (by omega), this]
        · simp [h1]
        · have := congrFun h2 (i - 1)
          have h3 : ¬ i - 1 < q := by omega
          have h4 : i - 1 + 1 = i := by omega
          simp only [dropBit, h3, if_false, h4] at this
          rw [Function.update_of_ne (by omega), this]
    have k0 := fun c => key c (b q)
    rw [Function.update_eq_self] at k0
    funext c
    simp only [ins, Pi.add_apply, Pi.smul_apply, smul_eq_mul]
    unfold ket
    simp only [k0 c, key c (!b q)]
    by_cases hd : dropBit q c = dropBit q b
    · by_cases hc : c q = b q
      · simp [hd, hc]
      · have : c q = !b q := by revert hc; cases c q <;> cases b q <;> simp
        simp [hd, this]
    · simp [hd]
  have hTX : (denP 0 tau * site q (pmat .X) : Oper ℂ) = -(site q (pmat .X) * denP 0 tau) := by
    have := site_denP_letter (K := ℂ) .X q 0 tau .Z h (-1) (by
      simp only [pmat, mX_mul_mZ, mZ_mul_mX]; module)
    rw [zero_add, Oper.neg_one_smul] at this
    rw [this, neg_neg]
  have hXX : (site q (pmat .X) * site q (pmat .X) : Oper ℂ) = 1 := by
    rw [← site_mul, show (pmat .X * pmat .X : M2 ℂ) = 1 from mX_mul_mX, site_one]
  refine ⟨2 * rt * e * v (b q), ?_, ?_⟩
  · have : e ≠ 0 := by rintro rfl; simp at hee
    simp [hr0, hv0, this]
  · show denPO (symU rt tau q) (ins q v (ket (dropBit q b))) = _
    rw [symU_den_of_ne _ _ _ hq (symU_ne _ _ .Z h (by simp)), hins]
    have t1 : (denP 0 tau : Oper ℂ) ((site q (pmat .X) : Oper ℂ) (ket b)) = -(e • (site q (pmat .X) : Oper ℂ) (ket b)) := by
      rw [← Module.End.mul_apply, hTX, LinearMap.neg_apply, Module.End.mul_apply, hb, map_smul]
    have t2 : (site q (pmat .X) : Oper ℂ) ((site q (pmat .X) : Oper ℂ) (ket b)) = ket b := by
      rw [← Module.End.mul_apply, hXX, Module.End.one_apply]
    rw [LinearMap.smul_apply, LinearMap.add_apply, map_add, map_add, map_smul, map_smul, map_smul, map_smul, hb, t1, t2, hvb]
    generalize (site q (pmat .X) : Oper ℂ) (ket b) = X
    generalize ket b = Y
    funext c
    simp only [Pi.smul_apply, Pi.add_apply, Pi.neg_apply, smul_eq_mul]
    linear_combination (-rt * v (b q) * X c) * hee

theorem embAll_ket : ∀ (syms : List (PStr × ℕ × ℂ)) (N : ℕ), ZSyms N syms → ∀ b : Cfg, (∃ φ, ket b = embAll syms φ) →
    ∃ x : ℂ, x ≠ 0 ∧ embAll syms (ket (dropAll syms b)) = x • ket b
  | [], _, _, b, _ => ⟨1, one_ne_zero, by simp [embAll, dropAll]⟩
  | (tau, q, e) :: l, N, hS, b, ⟨φ, hφ⟩ => by
    obtain ⟨rfl, z1, z2, z3, z4⟩ := hS
    obtain ⟨i1, r1⟩ := embOne_spec tau q (Or.inl z1) e z3
    have hφ' : ket b = embOne tau q e (embAll l φ) := hφ
    obtain ⟨x, x1, x2⟩ := embOne_ket tau q z1 e z3 b ((r1 _).mpr ⟨_, hφ'⟩)
    have h2 : ket (dropBit q b) = embAll l (x • φ) := by
      apply i1
      rw [x2, hφ', ← map_smul, ← map_smul]
    obtain ⟨y, y1, y2⟩ := embAll_ket l _ z4 (dropBit q b) ⟨_, h2⟩
    refine ⟨y * x, mul_ne_zero y1 x1, ?_⟩
    show embOne tau q e (embAll l (ket (dropAll l (dropBit q b)))) = _
    rw [y2, map_smul, x2, smul_smul]

/-- **C90.** The reference on a reduced register: for any list of `I`/`Z` symmetries removed by
`get_transform_from_symmetries` from the Jordan–Wigner transform, and any list of distinct orbitals whose determinant has the
eigenvalues given (lies in the range of the embedding of the reduced states), the preparation circuit on the `N - #symmetries`
qubits, built with the second returned transform, makes a state that stands for that determinant. -/
theorem C90_tapered_reference (N : ℕ) (syms : List (PStr × ℕ × ℂ)) (hS : ZSyms N syms) (hlen : syms.length ≤ 38)
    (l : List ℕ) (hl : ∀ k ∈ l, k < N) (hn : l.Nodup) (hin : ∃ φ, ket (occ l) = embAll syms φ) :
    ∃ (gs : List QG) (x : ℂ), prepare (taperInit syms) (N - syms.length) N l = some gs ∧ x ≠ 0 ∧
      embAll syms (circOp gs (ket fun _ => false)) = x • ket (occ l) := by
  obtain ⟨gs, d, h1, h2, h3⟩ := taper_prepare N syms hS hlen l hl hn
  obtain ⟨x, x1, x2⟩ := embAll_ket syms N hS (occ l) hin
  refine ⟨gs, d * x, h1, mul_ne_zero (by rintro rfl; simp at h2) x1, ?_⟩
  rw [h3, map_smul, x2, smul_smul]

theorem zsyms_parity (Na Nb : ℕ) (ha : 1 ≤ Na) (hb : 1 ≤ Nb) (oa ob : Bool) :
    ZSyms (Na + Nb) (paritySyms Na Nb (sg oa) (sg ob)) := by
  have hr : ∀ n (p : PL), ∀ x ∈ List.replicate n p, x = p := fun n p x hx => List.eq_of_mem_replicate hx
  refine ⟨by simp, tau1_get Na Nb ha hb, ?_, sg_cases ob, by simp; omega, tau2_get Na Nb ha hb, ?_, sg_cases oa, trivial⟩
  · intro p hp
    rcases List.mem_append.mp hp with h | h
    · exact Or.inl (hr _ _ _ h)
    · exact Or.inr (hr _ _ _ h)
  · intro p hp
    rcases List.mem_append.mp hp with h | h
    · exact Or.inr (hr _ _ _ h)
    · exact Or.inl (hr _ _ _ h)

/-- **C90, `parity_free`**: with one and the same embedding of the states of the `Na+Nb-2` qubits, the transformed operators
act as the fermionic ones (C89), and for any determinant with the given spin parities the circuit built with the second
transform prepares a state that stands for the determinant. -/
theorem C90_parity_free (Na Nb : ℕ) (ha : 1 ≤ Na) (hb : 1 ≤ Nb) (oa ob : Bool) :
    ∃ emb : (Cfg → ℂ) →ₗ[ℂ] (Cfg → ℂ), Function.Injective emb ∧
      (∀ (null c : ℂ) (m : ℕ) (A : OpD FStr ℂ), 4e-12 < ‖c / 2 ^ m‖ →
        (∀ t ∈ A, t.1.length = Na + Nb ∧ ConservesParity Na t.1 ∧ nLetters t.1 ≤ m ∧ ∃ z, GI z ∧ t.2 = z * c) →
        ∃ C : POp ℂ, OpD.transform (parityFree rt null Na Nb (if oa then -1 else 1) (if ob then -1 else 1) jordanWigner) A =
            some C ∧ ∀ φ, denD (denF 0) A (emb φ) = emb (denPO C φ)) ∧
      ∀ l : List ℕ, l.Nodup → (∀ k ∈ l, k < Na + Nb) → parOver (Finset.range Na) (occ l) = oa →
        parOver (Finset.Ico Na (Na + Nb)) (occ l) = ob →
        ∃ (gs : List QG) (x : ℂ), prepare (parityFree rt 1 Na Nb (if oa then -1 else 1) (if ob then -1 else 1) jordanWigner)
            (Na + Nb - 2) (Na + Nb) l = some gs ∧ x ≠ 0 ∧ emb (circOp gs (ket fun _ => false)) = x • ket (occ l) := by
  classical
  obtain ⟨h1, h2, h3⟩ := parity_free_emb Na Nb ha hb oa ob
  refine ⟨_, h1, fun null c m A hc hA => ?_, fun l hn hl pa pb => ?_⟩
  · obtain ⟨C, c1, _, _, c4⟩ := h3 null c m A hc hA
    exact ⟨C, c1, c4⟩
  · obtain ⟨gs, x, g1, g2, g3⟩ := C90_tapered_reference (Na + Nb) _ (zsyms_parity Na Nb ha hb oa ob) (by simp [paritySyms]) l hl hn
      ((h2 _).mpr (fun b hb => by
        have : b = occ l := by
          by_contra hne
          exact hb (by simp [ket, hne])
        subst this
        exact ⟨pa, pb⟩))
    exact ⟨gs, x, g1, g2, g3⟩

/-- Two electrons of opposite spin in two orbitals each: both parities odd. -/
example : parOver (Finset.range 2) (occ [0, 2]) = true ∧ parOver (Finset.Ico 2 (2 + 2)) (occ [0, 2]) = true := by
  constructor <;> decide +kernel

end HQCA.Props
