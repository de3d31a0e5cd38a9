import Verif.Model.ACSEEnergy
import Verif.Props.VQEObjective
import Verif.Proofs.SymProject
import Verif.Props.EncTomo

/-!
# C115: the energy of an ACSE ansatz is the energy of the state of its layers
-/

namespace HQCA
namespace Props
open Instr Prim Prepare ACSEEn Ham
noncomputable section

/-! ### Specification -/

/-- The qubits a string flips. -/
def flipMask (s : PStr) : List Bool := s.map fun p => p = .X ∨ p = .Y

/-- The string with `X` and `Y` not distinguished. -/
def family (s : PStr) : PStr := s.map fun p => if p = .Y then .X else p

/-- The terms come in groups that flip the same qubits, and no two groups share a family: no family of strings is interrupted by strings with
other flips. -/
def Unsplit (C : POp ℂ) : Prop :=
  ∃ Bs : List (POp ℂ), C = Bs.flatten ∧ (∀ B ∈ Bs, ∀ s ∈ B, ∀ t ∈ B, flipMask s.1 = flipMask t.1) ∧
    Bs.Pairwise fun B B' => ∀ s ∈ B, ∀ t ∈ B', family s.1 ≠ family t.1

/-- Conserves the number of electrons in the first `r` orbitals. -/
def Conserves (r : ℕ) (X : Oper ℂ) : Prop := (numberOp r * X : Oper ℂ) = X * numberOp r

/-- The terms come in consecutive groups; the strings of a group flip the same qubits, and each group conserves the numbers of alpha and of all electrons. -/
def Blocky (no N : ℕ) (C : POp ℂ) : Prop :=
  ∃ Bs : List (POp ℂ), C = Bs.flatten ∧ (∀ B ∈ Bs, ∀ s ∈ B, ∀ t ∈ B, flipMask s.1 = flipMask t.1) ∧
    ∀ B ∈ Bs, Conserves no (denPO B) ∧ Conserves N (denPO B)

/-! ### The commutator with the number operator stays in a family -/

/-- `X` and `Y` exchanged on qubit `k`. -/
def zs (N k : ℕ) (s : PStr) : PStr := List.zipWith posLetter (zStr N k) s

theorem zs_length (N k : ℕ) (hk : k < N) (s : PStr) (h : s.length = N) : (zs N k s).length = N := by
  unfold zs
  rw [List.length_zipWith, zStr_length N k hk, h, min_self]

theorem zStr_getD (N k i : ℕ) : (zStr N k).getD i .I = if i = k then .Z else .I := by
  unfold zStr
  rcases lt_trichotomy i k with h | h | h
  · rw [if_neg (by omega)]
    simp [List.getD_eq_getElem?_getD, List.getElem?_append, h, List.getElem?_replicate]
  · subst h
    simp [List.getD_eq_getElem?_getD, List.getElem?_append]
  · rw [if_neg (by omega)]
    simp only [List.getD_eq_getElem?_getD, List.append_assoc, List.getElem?_append, List.length_replicate]
    rw [if_neg (by omega)]
    obtain ⟨j, hj⟩ : ∃ j, i - k = j + 1 := ⟨i - k - 1, by omega⟩
    simp only [hj, List.length_singleton, if_neg (show ¬ j + 1 < 1 by omega), List.getElem?_replicate]
    split <;> rfl

theorem family_zs (N k : ℕ) (hk : k < N) (s : PStr) (h : s.length = N) (hf : (s.getD k .I).l = true) : family (zs N k s) = family s := by
  unfold family
  refine List.ext_getElem (by rw [List.length_map, List.length_map, zs_length N k hk s h, h]) fun i h1 h2 => ?_
  rw [List.length_map] at h1 h2
  rw [List.getElem_map, List.getElem_map]
  have e : (zs N k s)[i] = posLetter (if i = k then .Z else .I) s[i] := by
    have hz : (zStr N k)[i]'(by rw [zStr_length N k hk]; omega) = if i = k then .Z else .I := by
      rw [← zStr_getD N k i, List.getD_eq_getElem]
    simp only [zs, List.getElem_zipWith, hz]
  rw [e]
  by_cases hik : i = k
  · subst hik
    rw [List.getD_eq_getElem _ _ h2] at hf
    revert hf
    cases s[i] <;> simp [PL.l] <;> decide
  · rw [if_neg hik]
    cases s[i] <;> decide

theorem number_z (k : ℕ) : (cre k * ann k : Oper ℂ) = (1 / 2 : ℂ) • (1 - site k mZ) := by
  refine LinearMap.ext fun ψ => funext fun e => ?_
  rw [number_apply]
  have hz : (site k mZ : Oper ℂ) ψ e = sg (e k) * ψ e := by
    have := site_pmat_apply k .Z ψ e
    simpa [pmat, PL.l, ph] using this
  show _ = (1 / 2 : ℂ) * (ψ e - (site k mZ : Oper ℂ) ψ e)
  rw [hz]
  cases e k <;> simp [sg]
  ring

/-- The commutator of a string with the number operator. -/
def adn (N r : ℕ) (s : PStr) : POp ℂ :=
  ((List.range r).filter fun k => (s.getD k .I).l).map fun k => (zs N k s, -(SymProj.ph (zStr N k) s))

theorem adn_mem (N r : ℕ) (hr : r ≤ N) (s : PStr) (h : s.length = N) : ∀ u ∈ adn N r s, u.1.length = N ∧ family u.1 = family s := by
  intro u hu
  obtain ⟨k, hk, rfl⟩ := List.mem_map.mp hu
  obtain ⟨h1, h2⟩ := List.mem_filter.mp hk
  have : k < N := lt_of_lt_of_le (List.mem_range.mp h1) hr
  exact ⟨zs_length N k this s h, family_zs N k this s h h2⟩

theorem numberOp_succ (r : ℕ) : (numberOp (r + 1) : Oper ℂ) = numberOp r + cre r * ann r := by
  unfold numberOp
  rw [Fin.sum_univ_castSucc]
  rfl

theorem comm_z {R : Type} [Ring R] [Algebra ℂ R] (Z P : R) (c : ℂ) (h : Z * P = c • (P * Z)) (hc : c = 1 ∨ c = -1) :
    (((1 / 2 : ℂ) • (1 - Z)) * P - P * ((1 / 2 : ℂ) • (1 - Z)) : R) = if c = 1 then 0 else -(Z * P) := by
  rcases hc with rfl | rfl
  · rw [if_pos rfl, smul_mul_assoc, mul_smul_comm, sub_mul, mul_sub, h]
    simp
  · rw [if_neg (by norm_num), smul_mul_assoc, mul_smul_comm, sub_mul, mul_sub, one_mul, mul_one]
    have h' : P * Z = -(Z * P) := by rw [h]; simp
    rw [h']
    module

theorem denPO_append' (A B : POp ℂ) : (denPO (A ++ B) : Oper ℂ) = denPO A + denPO B := OpD.denD_append _ A B

theorem comm_adn (N r : ℕ) (hr : r ≤ N) (s : PStr) (h : s.length = N) :
    (numberOp r * denP 0 s - denP 0 s * numberOp r : Oper ℂ) = denPO (adn N r s) := by
  induction r with
  | zero => simp [numberOp, adn, denPO_nil']
  | succ r ih =>
    have e := ih (by omega)
    have hk := comm_z (site r mZ : Oper ℂ) (denP 0 s) _ (zcomm r s) (by split <;> simp)
    rw [← number_z] at hk
    have hm := SymProj.denP_mul_ph (zStr N r) s (by rw [zStr_length N r (by omega), h])
    rw [denP_zStr] at hm
    have es : (denPO (adn N (r + 1) s) : Oper ℂ) = denPO (adn N r s) + (if (s.getD r .I).l then -(site r mZ * denP 0 s) else 0) := by
      unfold adn
      rw [List.range_succ, List.filter_append, List.map_append, denPO_append']
      congr 1
      by_cases hf : (s.getD r .I).l = true
      · rw [if_pos hf, List.filter_cons_of_pos (p := fun k => (s.getD k .I).l) hf, List.filter_nil, List.map_cons, List.map_nil, denPO_cons', denPO_nil', hm]
        have : ∀ (c : ℂ) (X : Oper ℂ), (-c) • X + 0 = -(c • X) := by intros; module
        exact this _ _
      · rw [if_neg hf, List.filter_cons_of_neg (p := fun k => (s.getD k .I).l) hf, List.filter_nil, List.map_nil, denPO_nil']
    rw [es, ← e]
    have : (if (s.getD r .I).l then -(site r mZ * denP 0 s) else 0 : Oper ℂ) = cre r * ann r * denP 0 s - denP 0 s * (cre r * ann r) := by
      rw [hk]
      cases (s.getD r .I).l
      · simp
      · simp only [if_true]; rw [if_neg (by norm_num)]
    rw [this, numberOp_succ]
    noncomm_ring

/-- The commutator of an operator with the number operator. -/
def adN (N r : ℕ) (C : POp ℂ) : POp ℂ := C.flatMap fun t => (adn N r t.1).map fun u => (u.1, t.2 * u.2)

theorem denPO_scale (c : ℂ) (A : POp ℂ) : (denPO (A.map fun u => (u.1, c * u.2)) : Oper ℂ) = c • denPO A := by
  induction A with
  | nil => simp [denPO_nil']
  | cons t A ih => rw [List.map_cons, denPO_cons', denPO_cons', ih, smul_add, smul_smul]

theorem comm_adN (N r : ℕ) (hr : r ≤ N) (C : POp ℂ) (hl : ∀ t ∈ C, t.1.length = N) :
    (numberOp r * denPO C - denPO C * numberOp r : Oper ℂ) = denPO (adN N r C) := by
  induction C with
  | nil => simp [adN, denPO_nil']
  | cons t C ih =>
    have e := ih fun u hu => hl u (by simp [hu])
    have e2 := comm_adn N r hr t.1 (hl t (by simp))
    unfold adN at e ⊢
    rw [List.flatMap_cons, denPO_append', denPO_scale, ← e, ← e2, denPO_cons', mul_add, add_mul, mul_smul_comm, smul_mul_assoc]
    have : ∀ (c : ℂ) (a b x y : Oper ℂ), c • a + x - (c • b + y) = c • (a - b) + (x - y) := by intros; module
    exact this _ _ _ _ _

theorem denPO_coef (A : POp ℂ) (S : Finset PStr) (h : ∀ t ∈ A, t.1 ∈ S) : (denPO A : Oper ℂ) = ∑ s ∈ S, coef A s • denP 0 s := by
  induction A with
  | nil => simp [denPO_nil', coef_nil]
  | cons t A ih =>
    rw [denPO_cons', ih fun u hu => h u (by simp [hu])]
    have : ∀ s ∈ S, (coef (t :: A) s • denP 0 s : Oper ℂ) = (if s = t.1 then t.2 • denP 0 t.1 else 0) + coef A s • denP 0 s := by
      intro s _
      rw [coef_cons, add_smul]
      congr 1
      by_cases hs : s = t.1
      · rw [if_pos hs, if_pos hs.symm, hs]
      · rw [if_neg hs, if_neg (Ne.symm hs), zero_smul]
    rw [Finset.sum_congr rfl this, Finset.sum_add_distrib, Finset.sum_ite_eq' S t.1, if_pos (h t (by simp))]

theorem coef_filter (A : POp ℂ) (p : PStr → Bool) (s : PStr) : coef (A.filter fun t => p t.1) s = if p s then coef A s else 0 := by
  unfold coef
  rw [List.filter_filter]
  by_cases hp : p s = true
  · rw [if_pos hp]
    congr 2
    refine List.filter_congr fun t _ => ?_
    by_cases h : t.1 = s <;> simp [h, hp]
  · rw [if_neg hp]
    have : A.filter (fun t => decide (t.1 = s) && p t.1) = [] := by
      rw [List.filter_eq_nil_iff]
      intro t _ h
      rw [Bool.and_eq_true, decide_eq_true_eq] at h
      exact hp (h.1 ▸ h.2)
    rw [this]; rfl

/-- The part of a number-conserving operator made of whole families conserves the number. -/
theorem conserves_filter (N r : ℕ) (hr : r ≤ N) (C : POp ℂ) (hl : ∀ t ∈ C, t.1.length = N) (h : Conserves r (denPO C))
    (p : PStr → Bool) (hp : ∀ s t, family s = family t → p s = p t) : Conserves r (denPO (C.filter fun t => p t.1)) := by
  have hlen : ∀ u ∈ adN N r C, u.1.length = N := by
    intro u hu
    obtain ⟨t, ht, hu⟩ := List.mem_flatMap.mp hu
    obtain ⟨v, hv, rfl⟩ := List.mem_map.mp hu
    exact (adn_mem N r hr t.1 (hl t ht) v hv).1
  have h0 : (denPO (adN N r C) : Oper ℂ) = 0 := by rw [← comm_adN N r hr C hl, h, sub_self]
  have hc : ∀ s, coef (adN N r C) s = 0 := coef_of_denP_zero N 0 _ hlen h0
  have hf : adN N r (C.filter fun t => p t.1) = (adN N r C).filter fun t => p t.1 := by
    clear h h0 hc hlen
    induction C with
    | nil => rfl
    | cons t C ih =>
      have e := ih fun u hu => hl u (by simp [hu])
      unfold adN at e ⊢
      rw [List.flatMap_cons, List.filter_append, ← e]
      have hall : ∀ u ∈ (adn N r t.1).map (fun u => (u.1, t.2 * u.2)), p u.1 = p t.1 := by
        intro u hu
        obtain ⟨v, hv, rfl⟩ := List.mem_map.mp hu
        exact hp _ _ (adn_mem N r hr t.1 (hl t (by simp)) v hv).2
      by_cases hpt : p t.1 = true
      · rw [List.filter_cons_of_pos (by simpa using hpt), List.flatMap_cons]
        congr 1
        rw [List.filter_eq_self.mpr]
        intro u hu
        rw [hall u hu, hpt]
      · rw [List.filter_cons_of_neg (by simpa using hpt)]
        have h0 : ((adn N r t.1).map fun u => (u.1, t.2 * u.2)).filter (fun t => p t.1) = [] := by
          rw [List.filter_eq_nil_iff]
          intro u hu
          rw [hall u hu]
          exact hpt
        rw [h0, List.nil_append]
  have hz : (denPO ((adN N r C).filter fun t => p t.1) : Oper ℂ) = 0 := by
    rw [denPO_coef _ (((adN N r C).filter fun t => p t.1).map (·.1)).toFinset (by
      intro t ht
      exact List.mem_toFinset.mpr (List.mem_map_of_mem ht))]
    refine Finset.sum_eq_zero fun s _ => ?_
    rw [coef_filter, hc]
    simp
  have := comm_adN N r hr (C.filter fun t => p t.1) fun t ht => hl t (List.mem_filter.mp ht).1
  rw [hf, hz] at this
  exact sub_eq_zero.mp this

/-! ### One layer -/

theorem numberOp_apply (r : ℕ) (ψ : Cfg → ℂ) (b : Cfg) : (numberOp r : Oper ℂ) ψ b = (occAlpha r b : ℂ) * ψ b := by
  induction r with
  | zero => simp [numberOp, occAlpha]
  | succ r ih =>
    rw [numberOp_succ]
    show (numberOp r : Oper ℂ) ψ b + (cre r * ann r : Oper ℂ) ψ b = _
    rw [ih, number_apply, occAlpha_succ]
    by_cases hb : b r <;> simp [hb, add_mul]

theorem conserves_occ {r n : ℕ} {X : Oper ℂ} (h : Conserves r X) (ψ : Cfg → ℂ) (hψ : InS (fun b => occAlpha r b = n) ψ) :
    InS (fun b => occAlpha r b = n) (X ψ) := by
  intro b hb
  have e := congrFun (LinearMap.congr_fun h ψ) b
  rw [Module.End.mul_apply, Module.End.mul_apply, numberOp_apply, number_sec r n ψ hψ, map_smul] at e
  exact_mod_cast mul_right_cancel₀ hb e

theorem denP_reg (N : ℕ) (s : PStr) (h : s.length = N) (ψ : Cfg → ℂ) (hψ : InS (fun b => ∀ i, N ≤ i → b i = false) ψ) :
    InS (fun b => ∀ i, N ≤ i → b i = false) (denP 0 s ψ) := by
  intro b hb i hi
  rw [denP_apply] at hb
  have := hψ _ (right_ne_zero_of_mul hb) i hi
  rw [fl_zero, List.getD_eq_default _ _ (by omega)] at this
  simpa [PL.l] using this

theorem denPO_reg (N : ℕ) (C : POp ℂ) (h : ∀ t ∈ C, t.1.length = N) (ψ : Cfg → ℂ) (hψ : InS (fun b => ∀ i, N ≤ i → b i = false) ψ) :
    InS (fun b => ∀ i, N ≤ i → b i = false) (denPO C ψ) := by
  induction C with
  | nil => rw [denPO_nil']; intro b hb; exact absurd rfl hb
  | cons t C ih =>
    intro b hb
    rw [denPO_cons'] at hb
    replace hb : t.2 * denP 0 t.1 ψ b + (denPO C : Oper ℂ) ψ b ≠ 0 := hb
    by_cases h1 : denP 0 t.1 ψ b = 0
    · rw [h1, mul_zero, zero_add] at hb
      exact ih (fun u hu => h u (by simp [hu])) b hb
    · exact denP_reg N t.1 (h t (by simp)) ψ hψ b h1

/-- What the driver needs of the Pauli form of a layer. -/
structure GoodLayer (no N : ℕ) (C : POp ℂ) : Prop where
  uniq : UniqueKeys C
  len : ∀ t ∈ C, t.1.length = N
  big : ∀ t ∈ C, small t.2 = false
  real : IsReal (denPO C)
  anti : IsAdj (-denPO C) (denPO C)
  blocks : Blocky no N C

variable {no N : ℕ} {C : POp ℂ}

theorem GoodLayer.imag (h : GoodLayer no N C) : ∀ t ∈ C, t.2.re = 0 := antiherm_imag N C h.uniq h.len h.anti

theorem GoodLayer.ne (h : GoodLayer no N C) : ∀ t ∈ C, t.2 ≠ 0 := by
  intro u hu h0
  have := h.big u hu
  rw [h0, ← Bool.not_eq_true, small_complex] at this
  norm_num at this

theorem GoodLayer.large (h : GoodLayer no N C) : ∀ t ∈ C, (1e-14 : ℝ) < |t.2.im| := by
  intro u hu
  have := h.big u hu
  rw [← Bool.not_eq_true, small_complex, not_le] at this
  have e : ‖u.2‖ = |u.2.im| := by
    have : u.2 = ((u.2.im : ℝ) : ℂ) * Complex.I := by apply Complex.ext <;> simp [h.imag u hu]
    rw [this]; simp
  rw [e] at this
  exact lt_trans (by norm_num) this

theorem GoodLayer.ySign (h : GoodLayer no N C) : ∀ t ∈ C, Props.ySign t.1 = -1 := by
  intro u hu
  have h1 := real_coef N C h.uniq h.len h.real u hu
  have h2 : (starRingEnd ℂ) u.2 = -u.2 := by apply Complex.ext <;> simp [h.imag u hu]
  rw [h2] at h1
  have h3 : (Props.ySign u.1 + 1) * u.2 = 0 := by linear_combination -h1
  rcases mul_eq_zero.mp h3 with h4 | h4
  · linear_combination h4
  · exact absurd h4 (h.ne u hu)

theorem flips_getD (s t : PStr) (hst : s.length = t.length) (h : flipMask s = flipMask t) (k : ℕ) : (s.getD k .I).l = (t.getD k .I).l := by
  have e : ∀ s : PStr, (flipMask s).getD k false = (s.getD k .I).l := by
    intro s
    unfold flipMask
    rw [List.getD_eq_getElem?_getD, List.getElem?_map, List.getD_eq_getElem?_getD]
    cases s[k]? with
    | none => rfl
    | some p => cases p <;> rfl
  rw [← e, ← e, h]

theorem eul_real (v : ℝ) (s : PStr) (h : Props.ySign s = -1) (ψ : Cfg → ℂ) (hψ : RealAmp ψ) : RealAmp (eul v s ψ) := by
  intro b
  show (starRingEnd ℂ) (((Real.cos v : ℝ) : ℂ) * ψ b + (Complex.I * (Real.sin v : ℝ)) * denP 0 s ψ b) =
    ((Real.cos v : ℝ) : ℂ) * ψ b + (Complex.I * (Real.sin v : ℝ)) * denP 0 s ψ b
  have h1 : (starRingEnd ℂ) (ψ b) = ψ b := hψ b
  have h2 : (starRingEnd ℂ) (ψ (fl 0 s b)) = ψ (fl 0 s b) := hψ _
  rw [denP_apply, map_add, map_mul, map_mul, map_mul, map_mul, Complex.conj_ofReal, Complex.conj_I, Complex.conj_ofReal, phase_conj, h, h1, h2]
  ring

theorem filter_block (Bs : List (POp ℂ)) (B : POp ℂ) (hB : B ∈ Bs) (h : Bs.Pairwise fun B B' => ∀ s ∈ B, ∀ t ∈ B', family s.1 ≠ family t.1) :
    Bs.flatten.filter (fun t => decide (∃ u ∈ B, family u.1 = family t.1)) = B := by
  obtain ⟨L1, L2, rfl⟩ := List.append_of_mem hB
  rw [List.pairwise_append, List.pairwise_cons] at h
  obtain ⟨_, ⟨h2, _⟩, h3⟩ := h
  rw [List.flatten_append, List.flatten_cons, List.filter_append, List.filter_append]
  have e1 : L1.flatten.filter (fun t => decide (∃ u ∈ B, family u.1 = family t.1)) = [] := by
    rw [List.filter_eq_nil_iff]
    intro t ht
    rw [decide_eq_true_eq]
    rintro ⟨u, hu, e⟩
    obtain ⟨A, hA, ht⟩ := List.mem_flatten.mp ht
    exact h3 A hA B (by simp) t ht u hu e.symm
  have e2 : L2.flatten.filter (fun t => decide (∃ u ∈ B, family u.1 = family t.1)) = [] := by
    rw [List.filter_eq_nil_iff]
    intro t ht
    rw [decide_eq_true_eq]
    rintro ⟨u, hu, e⟩
    obtain ⟨A, hA, ht⟩ := List.mem_flatten.mp ht
    exact h2 A hA u hu t ht e
  have e3 : B.filter (fun t => decide (∃ u ∈ B, family u.1 = family t.1)) = B := by
    rw [List.filter_eq_self]
    intro t ht
    rw [decide_eq_true_eq]
    exact ⟨t, ht, rfl⟩
  rw [e1, e2, e3]
  simp

/-- An operator of which no family is interrupted is made of conserving groups when it conserves the numbers. -/
theorem Unsplit.blocky {no N : ℕ} (hno : no ≤ N) {C : POp ℂ} (hl : ∀ t ∈ C, t.1.length = N) (h : Unsplit C) (ha : Conserves no (denPO C)) (hn : Conserves N (denPO C)) :
    Blocky no N C := by
  obtain ⟨Bs, hC, hfl, hpw⟩ := h
  refine ⟨Bs, hC, hfl, fun B hB => ?_⟩
  have hcons : ∀ r, r ≤ N → Conserves r (denPO C) → Conserves r (denPO B) := by
    intro r hr hc
    have := conserves_filter N r hr C hl hc (fun s => decide (∃ u ∈ B, family u.1 = family s)) (by
      intro s t hst
      rw [hst])
    rw [hC, filter_block Bs B hB hpw] at this
    exact this
  exact ⟨hcons no hno ha, hcons N le_rfl hn⟩

/-- The circuit of a layer keeps the register and the numbers of electrons. -/
theorem GoodLayer.sector (h : GoodLayer no N C) (m n : ℕ) (ψ : Cfg → ℂ) (hψ : InS (InSec no N m n) ψ) :
    InS (InSec no N m n) ((C.map fun t => eul t.2.im t.1).reverse.prod ψ) := by
  obtain ⟨Bs, hC, hfl, hcons⟩ := h.blocks
  have hblock : ∀ B ∈ Bs, ∀ φ, InS (InSec no N m n) φ → InS (InSec no N m n) ((B.map fun t => eul t.2.im t.1).reverse.prod φ) := by
    intro B hB φ hφ
    have hsub : ∀ t ∈ B, t ∈ C := fun t ht => hC ▸ List.mem_flatten.mpr ⟨B, hB, ht⟩
    have hcomm : ∀ a ∈ B, ∀ b ∈ B, (denP 0 a.1 * denP 0 b.1 : Oper ℂ) = denP 0 b.1 * denP 0 a.1 := by
      intro a ha b hb
      have la := h.len a (hsub a ha)
      have lb := h.len b (hsub b hb)
      exact comm_of_flips N a.1 b.1 la lb (fun k _ => flips_getD _ _ (by rw [la, lb]) (hfl B hB a ha b hb) k)
        (by have := ySign_par a.1 (h.ySign a (hsub a ha)); rwa [la] at this)
        (by have := ySign_par b.1 (h.ySign b (hsub b hb)); rwa [lb] at this)
    have hexp := block_exp 1 B (denPO B) 1 (one_smul _ _).symm (fun u hu => h.imag u (hsub u hu)) hcomm
    have e1 : ((1 : ℂ) / ((1 : ℝ) : ℂ)) • (denPO B : Oper ℂ) = denPO B := by simp
    rw [e1] at hexp
    simp only [div_one] at hexp
    refine InS.exp hexp (fun χ hχ b hb => ⟨?_, ?_, ?_⟩) φ hφ
    · exact conserves_occ (hcons B hB).1 χ (fun e he => (hχ e he).1) b hb
    · exact conserves_occ (hcons B hB).2 χ (fun e he => (hχ e he).2.1) b hb
    · exact denPO_reg N B (fun t ht => h.len t (hsub t ht)) χ (fun e he => (hχ e he).2.2) b hb
  rw [hC]
  clear hC hfl hcons
  induction Bs generalizing ψ with
  | nil => exact hψ
  | cons B Bs ih =>
    rw [List.flatten_cons, List.map_append, List.reverse_append, List.prod_append]
    exact ih _ (hblock B (by simp) ψ hψ) fun A hA => hblock A (by simp [hA])

/-! ### All layers -/

/-- The Pauli form of a layer is real and anti-Hermitian, and made of consecutive groups that conserve the numbers of alpha and of all electrons. -/
def LayerOK (no : ℕ) (A : OpD FStr ℂ) : Prop :=
  (∀ t ∈ A, t.1.length = 2 * no) ∧ ∀ C, OpD.transform Transform.jordanWigner A = some C →
    IsReal (denPO C) ∧ IsAdj (-denPO C) (denPO C) ∧ Blocky no (2 * no) C

theorem LayerOK.good {no : ℕ} {A : OpD FStr ℂ} (h : LayerOK no A) :
    ∃ C, OpD.transform Transform.jordanWigner A = some C ∧ GoodLayer no (2 * no) C := by
  obtain ⟨C, _, h1, h2, h3, _⟩ := Transform.transform_error Transform.jordanWigner (denF 0) Transform.jw_spec A (2 * no) h.1
  obtain ⟨q1, q2, q3⟩ := h.2 C h1
  exact ⟨C, h1, h2, SymProj.transform_len _ _ Transform.jw_spec A _ h.1 C h1, h3, q1, q2, q3⟩

theorem layers_good {no : ℕ} (L : List (OpD FStr ℂ)) (h : ∀ A ∈ L, LayerOK no A) :
    ∃ Cs, L.mapM (OpD.transform Transform.jordanWigner) = some Cs ∧ ∀ C ∈ Cs, GoodLayer no (2 * no) C := by
  induction L with
  | nil => exact ⟨[], rfl, by simp⟩
  | cons A L ih =>
    obtain ⟨Cs, h1, h2⟩ := ih fun B hB => h B (by simp [hB])
    obtain ⟨C, h3, h4⟩ := (h A (by simp)).good
    refine ⟨C :: Cs, by simp [h1, h3], ?_⟩
    intro D hD
    rcases List.mem_cons.mp hD with rfl | hD
    · exact h4
    · exact h2 D hD

/-- The state simulated for an ansatz is, up to a phase, the product of the exponentials of its Pauli terms on the reference. -/
theorem acse_state (no na nb : ℕ) (ha : na ≤ no) (hb : nb ≤ no) (L : List (OpD FStr ℂ)) (hL : ∀ A ∈ L, LayerOK no A) :
    ∃ (psi : List (Term PStr ℂ)) (Us : List (Oper ℂ)) (Ψ : Cfg →₀ ℂ) (ph : ℂ),
      strings L = some psi ∧ List.Forall₂ (fun t U => IsExp (t.2 • (denP 0 t.1 : Oper ℂ)) U) psi Us ∧
      (Ψ : Cfg → ℂ) = Us.reverse.prod (ket (hfCfg no na nb)) ∧ ‖ph‖ = 1 ∧
      ACSEEn.state no na nb L = some ((ph • Ψ : Cfg →₀ ℂ) : Cfg → ℂ) ∧
      pair Ψ Ψ = 1 ∧ InS (InSec no (2 * no) na (na + nb)) Ψ ∧ RealAmp (Ψ : Cfg → ℂ) := by
  obtain ⟨l, pg, dd, h1, h2, h3, h4⟩ := C78_reference no na nb ha hb _ (Or.inl rfl)
  rw [hfCfg_eq no na nb ha hb] at h4
  obtain ⟨Cs, g1, g2⟩ := layers_good L hL
  have hmem : ∀ t ∈ Cs.flatten, ∃ C ∈ Cs, t ∈ C := fun t ht => List.mem_flatten.mp ht
  have happ := applyOp_imag 1 Cs.flatten (fun t ht => by
    obtain ⟨C, hC, htC⟩ := hmem t ht
    exact ⟨(g2 C hC).imag t htC, (g2 C hC).large t htC⟩) none
  simp only [div_one] at happ
  set gs : List (ℝ × PStr) := Cs.flatten.map fun t => (t.2.im, t.1) with hgs
  obtain ⟨ph, e4, e5⟩ := gates_eul gs
  have hUs : gs.map (fun g => eul g.1 g.2) = Cs.flatten.map fun t => eul t.2.im t.1 := by
    rw [hgs, List.map_map]; rfl
  rw [hUs] at e5
  classical
  have hk : ((Finsupp.single (hfCfg no na nb) 1 : Cfg →₀ ℂ) : Cfg → ℂ) = ket (hfCfg no na nb) := by
    funext b
    rw [Finsupp.single_apply]
    unfold ket
    by_cases hbb : b = hfCfg no na nb
    · rw [if_pos hbb.symm, if_pos hbb]
    · rw [if_neg (Ne.symm hbb), if_neg hbb]
  obtain ⟨φ, f1, f2⟩ := circ_norm gs (Finsupp.single (hfCfg no na nb) 1)
  rw [hk] at f1
  have hΨ : ((ph • φ : Cfg →₀ ℂ) : Cfg → ℂ) = (Cs.flatten.map fun t => eul t.2.im t.1).reverse.prod (ket (hfCfg no na nb)) := by
    rw [← e5, LinearMap.smul_apply, ← f1]
    rfl
  have hph : ph ≠ 0 := by rintro rfl; simp at e4
  refine ⟨Cs.flatten, Cs.flatten.map fun t => eul t.2.im t.1, ph • φ, dd * ph⁻¹, by rw [strings, g1]; rfl, ?_, hΨ, by simp [h3, e4], ?_, ?_, ?_, ?_⟩
  · rw [List.forall₂_map_right_iff, List.forall₂_same]
    intro t ht
    obtain ⟨C, hC, htC⟩ := hmem t ht
    have hz : t.2 = Complex.I * (t.2.im : ℝ) := by apply Complex.ext <;> simp [(g2 C hC).imag t htC]
    have := isExp_comm_sum [(t.2.im, t.1)] (by simp)
    simp only [List.map_cons, List.map_nil, List.sum_cons, List.sum_nil, add_zero, List.reverse_singleton, List.prod_singleton] at this
    rw [← hz] at this
    exact this
  · unfold ACSEEn.state
    have hs : strings L = some Cs.flatten := by rw [strings, g1]; rfl
    rw [h1, Option.bind_some, hs, Option.bind_some, happ, Option.bind_some, h2, Option.map_some, circOp_append]
    congr 1
    have hk0 : (fun b : Cfg => if b = (fun _ => false) then (1 : ℂ) else 0) = ket (fun _ => false) := by
      funext b
      unfold ket
      congr 1
    have hk0' := congrArg (fun ψ => (circOp (gatesOf gs) * circOp pg) ψ) hk0
    simp only at hk0'
    refine Eq.trans ?_ (hk0'.trans ?_)
    · congr 1
    · rw [Module.End.mul_apply, h4, map_smul, ← f1, smul_smul, mul_assoc, inv_mul_cancel₀ hph, mul_one]
      rfl
  · rw [pair_phase ph e4, f2, hk]
    unfold pair
    rw [Finsupp.sum_single_index (by simp [conj_zero])]
    simp [ket, conj_one]
  · rw [hΨ]
    have h0 : InS (InSec no (2 * no) na (na + nb)) (ket (hfCfg no na nb)) := by
      intro b hb0
      unfold ket at hb0
      split at hb0
      · rename_i h; rw [h]; exact hfCfg_sec no na nb ha hb
      · exact absurd rfl hb0
    generalize ket (hfCfg no na nb) = ψ at h0
    clear hΨ hUs hgs happ f1 f2 e5 hmem g1
    clear_value gs
    clear gs φ
    induction Cs generalizing ψ with
    | nil => exact h0
    | cons C Cs ih =>
      rw [List.flatten_cons, List.map_append, List.reverse_append, List.prod_append]
      exact ih (fun D hD => g2 D (by simp [hD])) _ ((g2 C (by simp)).sector _ _ ψ h0)
  · rw [hΨ]
    have h0 : RealAmp (ket (hfCfg no na nb)) := by
      intro b
      unfold ket
      split
      · exact conj_one
      · exact conj_zero
    have hy : ∀ t ∈ Cs.flatten, Props.ySign t.1 = -1 := by
      intro t ht
      obtain ⟨C, hC, htC⟩ := hmem t ht
      exact (g2 C hC).ySign t htC
    generalize ket (hfCfg no na nb) = ψ at h0
    generalize Cs.flatten = ts at hy
    clear hΨ
    induction ts generalizing ψ with
    | nil => exact h0
    | cons t ts ih =>
      rw [List.map_cons, List.reverse_cons, List.prod_append, List.prod_singleton]
      exact ih _ (eul_real _ _ (hy t (by simp)) ψ h0) fun u hu => hy u (by simp [hu])

/-- Tomography with any pair of orbital lists whose elements are the unique ones, and contraction. -/
theorem energy_of_lists (alp bet : List ℕ) (no na nb : ℕ) (hne : na + nb ≠ 1)
    (hlen : alp.length + bet.length = 2 * no) (hLU : ListsUnique 2 no (2 * no) false (Tomo.rdme 2 ⟨true, false⟩ alp bet))
    (hL0 : Tomo.rdme 2 ⟨true, false⟩ alp bet ≠ [])
    (col : List PStr → ℕ → ℕ) (hcol : ColouringOK col) (h1 : Fin (2 * no) → Fin (2 * no) → ℂ)
    (V : Fin (2 * no) → Fin (2 * no) → Fin (2 * no) → Fin (2 * no) → ℂ) (hh : ∀ a b, h1 a b = h1 b a)
    (hV : ∀ a b c d, V a b c d = V c d a b) (enc : ℝ) (Ψ : Cfg →₀ ℂ) (ph : ℂ) (s5 : ‖ph‖ = 1) (s7 : pair Ψ Ψ = 1)
    (s8 : InS (InSec no (2 * no) na (na + nb)) Ψ) (s9 : RealAmp (Ψ : Cfg → ℂ)) :
    ∃ E : ℝ, (StateTomo.run 2 ⟨true, false⟩ alp bet col ((ph • Ψ : Cfg →₀ ℂ) : Cfg → ℂ)).map
        (VQEObj.evaluate (k2 h1 V ((na + nb : ℕ) : ℂ)) enc) = some E ∧
      |E - ((pair Ψ (secondQ h1 V Ψ)).re + enc)|
        ≤ 2 ^ (2 * no) * 1e-28 * ∑ a, ∑ b, ∑ c, ∑ e, ‖k2 h1 V ((na + nb : ℕ) : ℂ) a b c e‖ := by
  obtain ⟨D, hD, hDe⟩ := statevector_of_unique 2 ⟨true, false⟩ (Or.inl rfl) (Or.inl rfl) no (2 * no) alp bet hlen hLU hL0 col hcol
    (ph • Ψ) (by rw [pair_phase ph s5]; exact s7)
    (fun b hb0 i hi => (s8 b (fun h => hb0 (by simp [h]))).2.2 i (by omega)) (na : ℤ)
    (fun b hb0 => by exact_mod_cast (s8 b (fun h => hb0 (by simp [h]))).1)
  refine ⟨VQEObj.evaluate (k2 h1 V ((na + nb : ℕ) : ℂ)) enc D, ?_, ?_⟩
  · rw [hD, Option.map_some]
  · have hev : observable (k2 h1 V ((na + nb : ℕ) : ℂ)) (rdm2 (evState Ψ)) = evState Ψ (secondQ h1 V) :=
      C52_energy (evState Ψ) _ (by exact_mod_cast hne) (fun X => by
        show pair Ψ ((X * numberOp (2 * no) : Oper ℂ) Ψ) = _ * pair Ψ (X Ψ)
        rw [Module.End.mul_apply, number_sec (2 * no) (na + nb) Ψ (fun b hb0 => (s8 b hb0).2.1), map_smul, pair_smul_right]) h1 V hh hV
    have hcl := observable_close (k2 h1 V ((na + nb : ℕ) : ℂ)) (fun a b c e => D [a.val, b.val, c.val, e.val]) (rdm2 (evState Ψ))
      (2 ^ (2 * no) * 1e-28) (fun a b c e => by
        have := hDe [a.val, b.val] [c.val, e.val] rfl rfl (by simp [a.isLt, b.isLt]) (by simp [c.isLt, e.isLt])
        have ht : target ⟨true, false⟩ (ph • Ψ) [a.val, b.val] [c.val, e.val] = rdm2 (evState Ψ) a b c e := by
          show ((rdm (ph • Ψ) _ _).re : ℂ) = _
          rw [rdm_phase ph s5, rdm2_evState]
          exact Complex.conj_eq_iff_re.mp (pair_real Ψ _ s9 (s9.rdmOp _ _))
        rw [ht] at this
        exact this)
    rw [hev] at hcl
    have := (Complex.abs_re_le_norm _).trans hcl
    unfold VQEObj.evaluate
    rw [Complex.add_re, Complex.ofReal_re]
    have e : ∀ x y z : ℝ, x + z - (y + z) = x - y := by intros; ring
    rw [e]
    exact this

/-- Tomography and contraction of a normalised real state with fixed numbers of electrons. -/
theorem energy_of_state (no na nb : ℕ) (hno : 0 < no) (hne : na + nb ≠ 1)
    (col : List PStr → ℕ → ℕ) (hcol : ColouringOK col) (h1 : Fin (2 * no) → Fin (2 * no) → ℂ)
    (V : Fin (2 * no) → Fin (2 * no) → Fin (2 * no) → Fin (2 * no) → ℂ) (hh : ∀ a b, h1 a b = h1 b a)
    (hV : ∀ a b c d, V a b c d = V c d a b) (enc : ℝ) (Ψ : Cfg →₀ ℂ) (ph : ℂ) (s5 : ‖ph‖ = 1) (s7 : pair Ψ Ψ = 1)
    (s8 : InS (InSec no (2 * no) na (na + nb)) Ψ) (s9 : RealAmp (Ψ : Cfg → ℂ)) :
    ∃ E : ℝ, (StateTomo.run 2 ⟨true, false⟩ (defaultOrbs no).1 (defaultOrbs no).2 col ((ph • Ψ : Cfg →₀ ℂ) : Cfg → ℂ)).map
        (VQEObj.evaluate (k2 h1 V ((na + nb : ℕ) : ℂ)) enc) = some E ∧
      |E - ((pair Ψ (secondQ h1 V Ψ)).re + enc)|
        ≤ 2 ^ (2 * no) * 1e-28 * ∑ a, ∑ b, ∑ c, ∑ e, ‖k2 h1 V ((na + nb : ℕ) : ℂ) a b c e‖ := by
  have ho : (defaultOrbs no).1 = alpha no := rfl
  rw [beta_default, ho]
  have h2no : no + no = 2 * no := by omega
  refine energy_of_lists (alpha no) (beta no no) no na nb hne (by simp [alpha, beta]; omega) ?_ (rdme2_ne no hno) col hcol h1 V hh hV enc Ψ ph s5 s7 s8 s9
  have := C27_order2_partial ⟨true, false⟩ no no le_rfl
  rw [h2no] at this
  exact this

/-- **C115, partial.** The energy the ACSE driver assigns to an ansatz is the core energy plus the expectation value of the second-quantized
Hamiltonian in the normalised state `Π exp(c P) |HF⟩` of the Pauli terms of its layers, first layer and first term first, up to
`2^N · 1e-28` times the sum of the moduli of the reduced Hamiltonian.  This state has the numbers of alpha and beta electrons of the reference,
although the exponentials of single Pauli strings do not conserve them.  Missing: one electron, where the reduced Hamiltonian divides by zero;
layers that are not real and anti-Hermitian, and layers whose terms are not made of consecutive number-conserving groups (`Blocky`). -/
theorem C115_energy_partial (no na nb : ℕ) (hno : 0 < no) (ha : na ≤ no) (hb : nb ≤ no) (hne : na + nb ≠ 1)
    (col : List PStr → ℕ → ℕ) (hcol : ColouringOK col) (h1 : Fin (2 * no) → Fin (2 * no) → ℂ)
    (V : Fin (2 * no) → Fin (2 * no) → Fin (2 * no) → Fin (2 * no) → ℂ) (hh : ∀ a b, h1 a b = h1 b a)
    (hV : ∀ a b c d, V a b c d = V c d a b) (enc : ℝ) (L : List (OpD FStr ℂ)) (hL : ∀ A ∈ L, LayerOK no A) :
    ∃ (psi : List (Term PStr ℂ)) (Us : List (Oper ℂ)) (Ψ : Cfg →₀ ℂ) (E : ℝ),
      strings L = some psi ∧ List.Forall₂ (fun t U => IsExp (t.2 • (denP 0 t.1 : Oper ℂ)) U) psi Us ∧
      (Ψ : Cfg → ℂ) = Us.reverse.prod (ket (hfCfg no na nb)) ∧ pair Ψ Ψ = 1 ∧ InS (InSec no (2 * no) na (na + nb)) Ψ ∧
      ACSEEn.energy no na nb col h1 V enc L = some E ∧
      |E - ((pair Ψ (secondQ h1 V Ψ)).re + enc)|
        ≤ 2 ^ (2 * no) * 1e-28 * ∑ a, ∑ b, ∑ c, ∑ e, ‖k2 h1 V ((na + nb : ℕ) : ℂ) a b c e‖ := by
  obtain ⟨psi, Us, Ψ, ph, s1, s3, s4, s5, s6, s7, s8, s9⟩ := acse_state no na nb ha hb L hL
  obtain ⟨E, hE, hb⟩ := energy_of_state no na nb hno hne col hcol h1 V hh hV enc Ψ ph s5 s7 s8 s9
  refine ⟨psi, Us, Ψ, E, s1, s3, s4, s7, s8, ?_, hb⟩
  unfold ACSEEn.energy
  rw [s6, Option.bind_some]
  exact hE

/-- **C115, variational bound.** The energy of an ansatz is never below the core energy plus any lower bound of the Hamiltonian on the normalised
states with `na` alpha and `nb` beta electrons, except for the same error. -/
theorem C115_variational_partial (no na nb : ℕ) (hno : 0 < no) (ha : na ≤ no) (hb : nb ≤ no) (hne : na + nb ≠ 1)
    (col : List PStr → ℕ → ℕ) (hcol : ColouringOK col) (h1 : Fin (2 * no) → Fin (2 * no) → ℂ)
    (V : Fin (2 * no) → Fin (2 * no) → Fin (2 * no) → Fin (2 * no) → ℂ) (hh : ∀ a b, h1 a b = h1 b a)
    (hV : ∀ a b c d, V a b c d = V c d a b) (enc : ℝ) (L : List (OpD FStr ℂ)) (hL : ∀ A ∈ L, LayerOK no A) (E0 : ℝ)
    (hE : ∀ φ : Cfg →₀ ℂ, pair φ φ = 1 → (∀ b, φ b ≠ 0 → InSec no (2 * no) na (na + nb) b) → E0 ≤ (pair φ (secondQ h1 V φ)).re) :
    ∃ E, ACSEEn.energy no na nb col h1 V enc L = some E ∧
      E0 + enc - 2 ^ (2 * no) * 1e-28 * ∑ a, ∑ b, ∑ c, ∑ e, ‖k2 h1 V ((na + nb : ℕ) : ℂ) a b c e‖ ≤ E := by
  obtain ⟨_, _, Ψ, E, _, _, _, a1, a2, a3, a4⟩ := C115_energy_partial no na nb hno ha hb hne col hcol h1 V hh hV enc L hL
  refine ⟨E, a3, ?_⟩
  have := hE Ψ a1 a2
  have := (abs_le.mp a4).1
  linarith

end
end Props
end HQCA
