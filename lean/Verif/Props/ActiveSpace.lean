import Verif.Props.FrozenCore
import Verif.Model.ActiveSpace

/-!
# C122: the active-space Hamiltonian of a molecule
-/

namespace HQCA
namespace Props
open Ham ActSpace

section
variable {K : Type} [Coef K] {r R : ℕ} {core : List ℕ} {active : Fin r → ℕ}

/-! ### Specification -/

/-- The frozen spin orbitals: the `nc` lowest of each spin, among `tot` of each spin. -/
def FrozenOrb (nc tot x : ℕ) : Prop := x < nc ∨ tot ≤ x ∧ x < tot + nc

/-- The spin orbitals of the active space: the next `no` of each spin. -/
def ActiveOrb (nc tot no x : ℕ) : Prop := nc ≤ x ∧ x < nc + no ∨ tot + nc ≤ x ∧ x < tot + nc + no

/-- Position in the active space to spin orbital of the molecule. -/
def orbOf (nc tot no : ℕ) (i : Fin (2 * no)) : ℕ := if i.val < no then nc + i.val else tot + nc + (i.val - no)

/-- A wave function with the frozen orbitals filled and nothing outside frozen and active orbitals. -/
def FrozenState (nc tot no : ℕ) (Ψ : Cfg →₀ K) : Prop :=
  ∀ c, Ψ c ≠ 0 → (∀ x, FrozenOrb nc tot x → c x = true) ∧ ∀ x, ¬FrozenOrb nc tot x → ¬ActiveOrb nc tot no x → c x = false

/-! ### The labels -/

theorem mem_core (nc tot x : ℕ) : x ∈ ActSpace.core nc tot ↔ FrozenOrb nc tot x := by
  unfold ActSpace.core FrozenOrb
  simp only [List.mem_append, List.mem_range, List.mem_map]
  constructor
  · rintro (h | ⟨a, h, rfl⟩)
    · exact Or.inl h
    · right; omega
  · rintro (h | h)
    · exact Or.inl h
    · exact Or.inr ⟨x - tot, by omega, by omega⟩

theorem act_eq (nc tot no : ℕ) (i : Fin (2 * no)) : act nc tot no i = orbOf nc tot no i := by
  have hi := i.isLt
  unfold act ActSpace.active HFStore.activeLabels orbOf
  rw [List.getD_eq_getElem?_getD]
  by_cases h : i.val < no
  · rw [if_pos h, List.getElem?_append_left (by simpa using h)]
    simp [h, Nat.add_comm]
  · rw [if_neg h, List.getElem?_append_right (by simpa using h)]
    have : i.val - no < no := by omega
    simp [this]
    omega

theorem act_fun (nc tot no : ℕ) : act nc tot no = orbOf nc tot no := funext fun i => act_eq nc tot no i

theorem orbOf_mono (nc tot no : ℕ) (h : no ≤ tot) : StrictMono (orbOf nc tot no) := by
  intro i j hij
  have := Fin.lt_def.mp hij
  unfold orbOf
  split <;> split <;> omega

theorem activeOrb_iff (nc tot no x : ℕ) : ActiveOrb nc tot no x ↔ ∃ i, orbOf nc tot no i = x := by
  unfold ActiveOrb orbOf
  constructor
  · rintro (h | h)
    · exact ⟨⟨x - nc, by omega⟩, by rw [if_pos (by show x - nc < no; omega)]; show nc + (x - nc) = x; omega⟩
    · refine ⟨⟨no + (x - tot - nc), by omega⟩, ?_⟩
      rw [if_neg (by show ¬ no + (x - tot - nc) < no; omega)]
      show tot + nc + (no + (x - tot - nc) - no) = x
      omega
  · rintro ⟨i, rfl⟩
    have := i.isLt
    split <;> omega

theorem division (nc tot no : ℕ) (h : nc + no ≤ tot) : Division (2 * tot) (ActSpace.core nc tot) (orbOf nc tot no) where
  nodup := by
    unfold ActSpace.core
    refine List.Nodup.append List.nodup_range ?_ ?_
    · exact List.nodup_range.map fun a b e => by simpa using e
    · intro x hx hy
      simp only [List.mem_range, List.mem_map] at hx hy
      obtain ⟨a, ha, rfl⟩ := hy
      omega
  inj := (orbOf_mono nc tot no (by omega)).injective
  disj i := by
    rw [mem_core]
    have := i.isLt
    unfold FrozenOrb orbOf
    split <;> omega
  coreLt c hc := by
    rw [mem_core] at hc
    unfold FrozenOrb at hc
    omega
  actLt i := by
    have := i.isLt
    unfold orbOf
    split <;> omega

theorem core_length (nc tot : ℕ) : (ActSpace.core nc tot).length = 2 * nc := by
  unfold ActSpace.core
  simp
  omega

theorem compat_iff (nc tot no : ℕ) (c : Cfg) : Compat (ActSpace.core nc tot) (orbOf nc tot no) c
    ↔ (∀ x, FrozenOrb nc tot x → c x = true) ∧ ∀ x, ¬FrozenOrb nc tot x → ¬ActiveOrb nc tot no x → c x = false := by
  unfold Compat
  simp only [mem_core, activeOrb_iff, not_exists, ne_eq]

/-! ### Number of electrons; every frozen state comes from the active space -/

theorem number_split (hd : Division R core active) (φ : Cfg → K) :
    numberOp R (emb core active φ) = emb core active (numberOp r φ) + (core.length : K) • emb core active φ := by
  funext c
  have hb : numberOp R (emb core active φ) c = ∑ p : Fin R, if c p.val then emb core active φ c else 0 := by
    unfold numberOp
    rw [LinearMap.sum_apply, Finset.sum_apply]
    exact Finset.sum_congr rfl fun p _ => number_apply p.val _ c
  show _ = emb core active (numberOp r φ) c + (core.length : K) * emb core active φ c
  rw [hb]
  by_cases hc : Compat core active c
  · rw [split_sum hd (fun x => if c x then emb core active φ c else 0) fun v _ h1 h2 => by rw [hc.2 v h1 h2]; rfl]
    have h1 : (core.map fun x => if c x then emb core active φ c else 0) = core.map fun _ => emb core active φ c :=
      List.map_congr_left fun x hx => by rw [hc.1 x hx]; rfl
    rw [h1, List.map_const', List.sum_replicate, nsmul_eq_mul, add_comm]
    congr 1
    rw [emb_apply _ _ hc, emb_apply _ _ hc]
    unfold numberOp
    rw [LinearMap.sum_apply, Finset.sum_apply, Finset.mul_sum]
    refine Finset.sum_congr rfl fun i _ => ?_
    rw [number_apply, res_self]
    split <;> simp
  · simp [emb_out _ _ hc]

theorem number_emb (hd : Division R core active) (φ : Cfg → K) (ne : K) (hN : numberOp r φ = ne • φ) :
    numberOp R (emb core active φ) = (ne + (core.length : K)) • emb core active φ := by
  rw [number_split hd, hN, map_smul, add_smul]

open Classical in
/-- The active part of a wave function with filled core. -/
noncomputable def activePart (core : List ℕ) (active : Fin r → ℕ) (Ψ : Cfg →₀ K) : Cfg →₀ K :=
  Finsupp.onFinset (Ψ.support.image (res active))
    (fun b => if (∀ i, r ≤ i → b i = false) ∧ Compat core active (up core active b) ∧ res active (up core active b) = b then tw core active b * Ψ (up core active b) else 0)
    fun b hb => by
      simp only [ne_eq, ite_eq_right_iff, not_forall] at hb
      obtain ⟨h1, h2⟩ := hb
      exact Finset.mem_image.mpr ⟨up core active b, Finsupp.mem_support_iff.mpr (right_ne_zero_of_mul h2), h1.2.2⟩

theorem activePart_within (Ψ : Cfg →₀ K) : Within r (activePart core active Ψ) := by
  intro b hb
  unfold activePart at hb
  rw [Finsupp.onFinset_apply] at hb
  simp only [ne_eq, ite_eq_right_iff, not_forall] at hb
  exact hb.1.1

theorem activePart_emb (Ψ : Cfg →₀ K) (hΨ : ∀ c, Ψ c ≠ 0 → Compat core active c) : embF core active (activePart core active Ψ) = Ψ := by
  ext c
  rw [embF_coe]
  by_cases hc : Compat core active c
  · rw [emb_apply _ _ hc]
    unfold activePart
    rw [Finsupp.onFinset_apply, if_pos, up_res c hc, ← mul_assoc, tw_sq, one_mul]
    refine ⟨fun i hi => ?_, compat_up _, by rw [up_res c hc]⟩
    unfold res
    rw [dif_neg (by omega)]
  · rw [emb_out _ _ hc]
    by_contra h
    exact hc (hΨ c fun e => h e.symm)

theorem emb_inj (ha : Function.Injective active) (hd : ∀ i, active i ∉ core) (φ χ : Cfg → K) (hφ : ∀ b, φ b ≠ 0 → ∀ i, r ≤ i → b i = false)
    (hχ : ∀ b, χ b ≠ 0 → ∀ i, r ≤ i → b i = false) (h : emb core active φ = emb core active χ) : φ = χ := by
  funext b
  by_cases hb : ∀ i, r ≤ i → b i = false
  · have := congrFun h (up core active b)
    rw [emb_apply _ _ (compat_up b), emb_apply _ _ (compat_up b), res_up ha hd b hb] at this
    have h2 := congrArg (fun z => (tw core active b : K) * z) this
    simp only [← mul_assoc, tw_sq, one_mul] at h2
    exact h2
  · have e1 : φ b = 0 := by by_contra h; exact hb (hφ b h)
    have e2 : χ b = 0 := by by_contra h; exact hb (hχ b h)
    rw [e1, e2]

/-! ### The theorems -/

/-- The energy the program assigns to a state of the active space: the expectation value of `K2` plus `_en_c`. -/
noncomputable def actEnergy (neTot neAs tot no : ℕ) (u : ℕ → ℕ → K) (V : ℕ → ℕ → ℕ → ℕ → K) (nuc : K) (Φ : Cfg →₀ K) : K :=
  observable (ActSpace.K2 neTot neAs tot no u V) (rdm2 (evState Φ)) + ActSpace.enC neTot neAs tot u V nuc

/-- The energy of a wave function of the whole molecule. -/
noncomputable def molEnergy (tot : ℕ) (u : ℕ → ℕ → K) (V : ℕ → ℕ → ℕ → ℕ → K) (nuc : K) (Ψ : Cfg →₀ K) : K :=
  pair Ψ (secondQ (r := 2 * tot) (fun a b => u a.val b.val) (fun a b c d => V a.val b.val c.val d.val) Ψ) + nuc

/-- A normalised state of `n` electrons on the first `r` spin orbitals. -/
def IsState (r n : ℕ) (Φ : Cfg →₀ K) : Prop := pair Φ Φ = 1 ∧ Within r Φ ∧ numberOp r (Φ : Cfg → K) = (n : K) • (Φ : Cfg → K)

variable (neTot neAs tot no : ℕ) (u : ℕ → ℕ → K) (V : ℕ → ℕ → ℕ → ℕ → K) (nuc : K)

theorem actEnergy_eq (h2 : (neAs : K) ≠ 1) (hfit : noCore neTot neAs + no ≤ tot) (hu : ∀ a b, u a b = u b a)
    (hV : ∀ a b c d, V a b c d = V c d a b) (hV' : ∀ a b c d, V a b c d = V b a d c) (Φ : Cfg →₀ K) (hΦ : IsState (2 * no) neAs Φ) :
    actEnergy neTot neAs tot no u V nuc Φ
      = molEnergy tot u V nuc (embF (ActSpace.core (noCore neTot neAs) tot) (orbOf (noCore neTot neAs) tot no) Φ) := by
  unfold actEnergy molEnergy ActSpace.K2 ActSpace.enC
  rw [act_fun]
  exact C122_state (division _ _ _ hfit) (orbOf_mono _ _ _ (by omega)) Φ hΦ.2.1 hΦ.1 neAs h2 hΦ.2.2 u V hu hV hV' nuc

theorem isState_embF (hfit : noCore neTot neAs + no ≤ tot) (Φ : Cfg →₀ K) (hΦ : IsState (2 * no) neAs Φ) :
    IsState (2 * tot) (neAs + 2 * noCore neTot neAs) (embF (ActSpace.core (noCore neTot neAs) tot) (orbOf (noCore neTot neAs) tot no) Φ) := by
  have hd := division _ _ _ hfit
  have hm := orbOf_mono (noCore neTot neAs) tot no (by omega)
  refine ⟨?_, ?_, ?_⟩
  · rw [embF_coe, pair_emb hd.inj hd.disj Φ hΦ.2.1, hΦ.1]
  · intro c hc i hi
    refine (embF_compat Φ c hc).2 i (fun h => ?_) fun j h => ?_
    · have := hd.coreLt i h; omega
    · have := hd.actLt j; omega
  · rw [embF_coe, number_emb hd Φ neAs hΦ.2.2, core_length]
    push_cast
    rfl

/-- **C122.**  With an even number of frozen electrons, every state of the active space has the energy of a state of the whole molecule: with all its electrons, the
frozen orbitals filled, the virtual orbitals empty and the same two-body density matrix on the active orbitals. -/
theorem C122_partial (h2 : (neAs : K) ≠ 1) (hle : neAs ≤ neTot) (hev : Even (neTot - neAs)) (hfit : noCore neTot neAs + no ≤ tot) (hu : ∀ a b, u a b = u b a)
    (hV : ∀ a b c d, V a b c d = V c d a b) (hV' : ∀ a b c d, V a b c d = V b a d c) (Φ : Cfg →₀ K) (hΦ : IsState (2 * no) neAs Φ) :
    ∃ Ψ : Cfg →₀ K, IsState (2 * tot) neTot Ψ ∧ FrozenState (noCore neTot neAs) tot no Ψ
      ∧ (∀ i j k l : Fin (2 * no), e2 (evState Ψ) (orbOf (noCore neTot neAs) tot no i) (orbOf (noCore neTot neAs) tot no j)
          (orbOf (noCore neTot neAs) tot no l) (orbOf (noCore neTot neAs) tot no k) = rdm2 (evState Φ) i j k l)
      ∧ actEnergy neTot neAs tot no u V nuc Φ = molEnergy tot u V nuc Ψ := by
  have hd := division _ _ _ hfit
  have hm := orbOf_mono (noCore neTot neAs) tot no (by omega)
  have hn : neAs + 2 * noCore neTot neAs = neTot := by
    obtain ⟨k, hk⟩ := hev
    unfold noCore
    omega
  refine ⟨_, ?_, fun c hc => (compat_iff _ _ _ c).mp (embF_compat Φ c hc), fun i j k l => ?_, actEnergy_eq neTot neAs tot no u V nuc h2 hfit hu hV hV' Φ hΦ⟩
  · have := isState_embF neTot neAs tot no hfit Φ hΦ
    rwa [hn] at this
  · show pair (embF _ _ Φ) ((cre (orbOf _ tot no i) : Oper K) ((cre (orbOf _ tot no j) : Oper K) ((ann (orbOf _ tot no l) : Oper K) ((ann (orbOf _ tot no k) : Oper K)
      (embF _ _ Φ))))) = _
    rw [embF_coe, ann_emb hm hd.nodup hd.disj, ann_emb hm hd.nodup hd.disj, cre_emb hm hd.nodup hd.disj, cre_emb hm hd.nodup hd.disj, pair_emb hd.inj hd.disj Φ hΦ.2.1]
    rfl

/-- Conversely, every such state of the whole molecule comes from a state of the active space. -/
theorem C122_onto_partial (h2 : (neAs : K) ≠ 1) (hle : neAs ≤ neTot) (hev : Even (neTot - neAs)) (hfit : noCore neTot neAs + no ≤ tot) (hu : ∀ a b, u a b = u b a)
    (hV : ∀ a b c d, V a b c d = V c d a b) (hV' : ∀ a b c d, V a b c d = V b a d c) (Ψ : Cfg →₀ K) (hΨ : IsState (2 * tot) neTot Ψ)
    (hf : FrozenState (noCore neTot neAs) tot no Ψ) :
    ∃ Φ : Cfg →₀ K, IsState (2 * no) neAs Φ ∧ actEnergy neTot neAs tot no u V nuc Φ = molEnergy tot u V nuc Ψ := by
  have hd := division _ _ _ hfit
  have hm := orbOf_mono (noCore neTot neAs) tot no (by omega)
  have hn : neAs + 2 * noCore neTot neAs = neTot := by
    obtain ⟨k, hk⟩ := hev
    unfold noCore
    omega
  have he := activePart_emb Ψ fun c hc => (compat_iff _ _ _ c).mpr (hf c hc)
  have hw := activePart_within (core := ActSpace.core (noCore neTot neAs) tot) (active := orbOf (noCore neTot neAs) tot no) Ψ
  set Φ := activePart (ActSpace.core (noCore neTot neAs) tot) (orbOf (noCore neTot neAs) tot no) Ψ with hΦ
  have hS : IsState (2 * no) neAs Φ := by
    refine ⟨?_, hw, ?_⟩
    · rw [← pair_emb hd.inj hd.disj Φ hw, ← embF_coe, he, hΨ.1]
    · have hN := hΨ.2.2
      rw [← he, embF_coe, number_split hd, core_length] at hN
      have hz : ∀ b, numberOp (2 * no) Φ b ≠ 0 → Φ b ≠ 0 := by
        intro b hb e
        refine hb ?_
        unfold numberOp
        rw [LinearMap.sum_apply, Finset.sum_apply]
        refine Finset.sum_eq_zero fun i _ => ?_
        rw [number_apply, e, ite_self]
      refine emb_inj hd.inj hd.disj _ _ (fun b hb => hw b (hz b hb)) (fun b hb => hw b fun e => hb ?_) ?_
      · show (neAs : K) * Φ b = 0
        rw [e, mul_zero]
      · rw [map_smul, eq_sub_of_add_eq hN, ← sub_smul]
        congr 1
        have := congrArg (Nat.cast : ℕ → K) hn
        push_cast at this ⊢
        linear_combination -this
  refine ⟨Φ, hS, ?_⟩
  rw [actEnergy_eq neTot neAs tot no u V nuc h2 hfit hu hV hV' Φ hS, he]

/-- With an odd number of frozen electrons the energy is that of the molecule with one electron missing. -/
theorem C122_odd_core (h2 : (neAs : K) ≠ 1) (hle : neAs ≤ neTot) (hodd : Odd (neTot - neAs)) (hfit : noCore neTot neAs + no ≤ tot) (hu : ∀ a b, u a b = u b a)
    (hV : ∀ a b c d, V a b c d = V c d a b) (hV' : ∀ a b c d, V a b c d = V b a d c) (Φ : Cfg →₀ K) (hΦ : IsState (2 * no) neAs Φ) :
    ∃ Ψ : Cfg →₀ K, IsState (2 * tot) (neTot - 1) Ψ ∧ actEnergy neTot neAs tot no u V nuc Φ = molEnergy tot u V nuc Ψ := by
  have hn : neAs + 2 * noCore neTot neAs = neTot - 1 := by
    obtain ⟨k, hk⟩ := hodd
    unfold noCore
    omega
  refine ⟨_, ?_, actEnergy_eq neTot neAs tot no u V nuc h2 hfit hu hV hV' Φ hΦ⟩
  have := isState_embF neTot neAs tot no hfit Φ hΦ
  rwa [hn] at this

end

section
variable (neTot neAs tot no : ℕ) (u : ℕ → ℕ → ℂ) (V : ℕ → ℕ → ℕ → ℕ → ℂ) (nuc : ℂ)

/-- The lower bounds of the energies of the active space are those of the energies of the molecule with the core frozen. -/
theorem C122_minimum_partial (h2 : neAs ≠ 1) (hle : neAs ≤ neTot) (hev : Even (neTot - neAs)) (hfit : noCore neTot neAs + no ≤ tot) (hu : ∀ a b, u a b = u b a)
    (hV : ∀ a b c d, V a b c d = V c d a b) (hV' : ∀ a b c d, V a b c d = V b a d c) (E : ℝ) :
    (∀ Φ, IsState (2 * no) neAs Φ → E ≤ (actEnergy neTot neAs tot no u V nuc Φ).re)
      ↔ ∀ Ψ, IsState (2 * tot) neTot Ψ → FrozenState (noCore neTot neAs) tot no Ψ → E ≤ (molEnergy tot u V nuc Ψ).re := by
  have h2' : (neAs : ℂ) ≠ 1 := by exact_mod_cast h2
  constructor
  · intro h Ψ h1 hf
    obtain ⟨Φ, h3, h4⟩ := C122_onto_partial neTot neAs tot no u V nuc h2' hle hev hfit hu hV hV' Ψ h1 hf
    rw [← h4]
    exact h Φ h3
  · intro h Φ hΦ
    obtain ⟨Ψ, h3, h4, _, h5⟩ := C122_partial neTot neAs tot no u V nuc h2' hle hev hfit hu hV hV' Φ hΦ
    rw [h5]
    exact h Ψ h3 h4

/-- No energy of the active space is below the energies of the molecule. -/
theorem C122_variational_partial (h2 : neAs ≠ 1) (hle : neAs ≤ neTot) (hev : Even (neTot - neAs)) (hfit : noCore neTot neAs + no ≤ tot) (hu : ∀ a b, u a b = u b a)
    (hV : ∀ a b c d, V a b c d = V c d a b) (hV' : ∀ a b c d, V a b c d = V b a d c) (E : ℝ)
    (hE : ∀ Ψ, IsState (2 * tot) neTot Ψ → E ≤ (molEnergy tot u V nuc Ψ).re) (Φ : Cfg →₀ ℂ) (hΦ : IsState (2 * no) neAs Φ) :
    E ≤ (actEnergy neTot neAs tot no u V nuc Φ).re :=
  (C122_minimum_partial neTot neAs tot no u V nuc h2 hle hev hfit hu hV hV' E).mpr (fun Ψ h _ => hE Ψ h) Φ hΦ

/-- The hypotheses are met: four electrons in three orbitals, two of them active in the two upper orbitals. -/
theorem det_state (b : Cfg) (r n : ℕ) (hb : ∀ i, r ≤ i → b i = false) (hn : ((Finset.univ : Finset (Fin r)).filter fun i => b i.val = true).card = n) :
    IsState (K := ℂ) r n (Finsupp.single b 1) := by
  classical
  refine ⟨?_, fun c hc => ?_, ?_⟩
  · unfold pair
    rw [Finsupp.sum_single_index (by rw [conj_zero, zero_mul]), conj_one, Finsupp.single_eq_same, one_mul]
  · rw [Finsupp.single_apply] at hc
    split at hc
    · rename_i h
      exact h ▸ hb
    · exact absurd rfl hc
  · funext c
    unfold numberOp
    rw [LinearMap.sum_apply, Finset.sum_apply]
    simp only [number_apply]
    show _ = (n : ℂ) * _
    by_cases h : b = c
    · subst h
      rw [← hn, Finset.sum_ite, Finset.sum_const, Finset.sum_const_zero, add_zero, nsmul_eq_mul]
    · rw [Finsupp.single_eq_of_ne (Ne.symm h)]
      simp

example : IsState (K := ℂ) (2 * 2) 2 (Finsupp.single (fun i => i == 0 || i == 2) 1) ∧ noCore 4 2 + 2 ≤ 3 ∧ Even (4 - 2) :=
  ⟨det_state _ _ _ (fun i hi => by simp; omega) (by decide), by decide, by decide⟩

end
end Props
end HQCA
