import Verif.Model.EncEnergy
import Verif.Props.EncTomo
import Verif.Props.VQEObjective
import Verif.Props.Prepare

/-!
# C148: the energy with the parity and Bravyi–Kitaev transforms
-/

namespace HQCA.Props
open HQCA.Prim HQCA.Tomo HQCA.StateTomo HQCA.Transform HQCA.Ham HQCA.Prepare HQCA.EncEn
noncomputable section

/-! ### Specification -/

/-- One-electron integrals with the sign of the hopping reversed. -/
def flip1 {r : ℕ} (h1 : Fin r → Fin r → ℂ) (i j : Fin r) : ℂ := if i = j then h1 i j else -h1 i j

/-- Two-electron integrals `V p t q s` (of `a†_p a†_t a_s a_q`) with the sign of those that move exactly one electron reversed. -/
def flip2 {r : ℕ} (V : Fin r → Fin r → Fin r → Fin r → ℂ) (a b c d : Fin r) : ℂ :=
  if ({a.val, b.val} : Multiset ℕ) ≠ {c.val, d.val} ∧ (a = c ∨ a = d ∨ b = c ∨ b = d) then -V a b c d else V a b c d

/-! ### Proofs -/

theorem moved_two (a b c d : ℕ) : moved [a, b] [c, d] =
    if ({a, b} : Multiset ℕ) = {c, d} then 0 else if a = c ∨ a = d ∨ b = c ∨ b = d then 1 else 2 := by
  have key : ({a, b} : Multiset ℕ) = {c, d} ↔ (a = c ∧ b = d) ∨ (a = d ∧ b = c) := by
    constructor
    · intro h
      have ha : a ∈ ({c, d} : Multiset ℕ) := h ▸ (by simp)
      simp only [Multiset.insert_eq_cons, Multiset.mem_cons, Multiset.mem_singleton] at ha
      rcases ha with rfl | rfl
      · left
        refine ⟨rfl, ?_⟩
        have h' : (a ::ₘ {b} : Multiset ℕ) = a ::ₘ {d} := h
        simpa using (Multiset.cons_inj_right a).mp h'
      · right
        refine ⟨rfl, ?_⟩
        have h' : (a ::ₘ {b} : Multiset ℕ) = a ::ₘ {c} := by
          rw [Multiset.insert_eq_cons, Multiset.insert_eq_cons] at h
          rw [h]
          exact Multiset.cons_swap c a 0
        simpa using (Multiset.cons_inj_right a).mp h'
    · rintro (⟨rfl, rfl⟩ | ⟨rfl, rfl⟩)
      · rfl
      · exact Multiset.cons_swap a b 0
  unfold moved
  simp only [key]
  have e : ∀ l m : List ℕ, ((l : Multiset ℕ) - (m : Multiset ℕ)).card = (l.diff m).length := fun l m => by
    rw [Multiset.coe_sub, Multiset.coe_card]
  rw [e]
  simp only [List.diff_cons, List.diff_nil, List.erase_cons, List.erase_nil, beq_iff_eq]
  by_cases h1 : a = c
  · subst h1
    by_cases h2 : b = d
    · subst h2; simp
    · by_cases h3 : b = a
      · subst h3; simp [h2]
      · by_cases h4 : a = d
        · subst h4; simp [h2]
        · simp [h2, h3, h4]
  · by_cases h2 : b = c
    · subst h2
      by_cases h3 : a = d
      · subst h3; simp [h1]
      · simp [h1, h3]
    · by_cases h3 : a = d
      · subst h3; simp [h1, h2]
      · by_cases h4 : b = d
        · subst h4; simp [h1, h2, h3]
        · simp [h1, h2, h3, h4]

theorem flip2_eq {r : ℕ} (V : Fin r → Fin r → Fin r → Fin r → ℂ) (a b c d : Fin r) :
    flip2 V a b c d = (-1) ^ moved [a.val, b.val] [c.val, d.val] * V a b c d := by
  unfold flip2
  rw [moved_two]
  simp only [Fin.ext_iff]
  by_cases h : ({a.val, b.val} : Multiset ℕ) = {c.val, d.val}
  · simp [h]
  · by_cases h' : a.val = c.val ∨ a.val = d.val ∨ b.val = c.val ∨ b.val = d.val
    · simp [h, h']
    · simp [h, h']

theorem moved_hop {r : ℕ} (i j k : Fin r) (c a : List ℕ) (hc : (c : Multiset ℕ) = {i.val, k.val}) (ha : (a : Multiset ℕ) = {j.val, k.val}) :
    moved c a = if i = j then 0 else 1 := by
  unfold moved
  rw [hc, ha]
  have e1 : ({i.val, k.val} : Multiset ℕ) = {i.val} + {k.val} := rfl
  have e2 : ({j.val, k.val} : Multiset ℕ) = {j.val} + {k.val} := rfl
  rw [e1, e2, add_tsub_add_eq_tsub_right]
  by_cases h : i = j
  · subst h; simp
  · rw [if_neg h]
    have : ({i.val} : Multiset ℕ) - {j.val} = {i.val} := by
      rw [Multiset.sub_singleton]
      exact Multiset.erase_of_notMem (by simpa [Fin.ext_iff] using fun h' => h (Fin.ext h'.symm))
    rw [this]; rfl

/-- The reduced Hamiltonian of the changed integrals is the changed reduced Hamiltonian. -/
theorem k2_flip {r : ℕ} (h1 : Fin r → Fin r → ℂ) (V : Fin r → Fin r → Fin r → Fin r → ℂ) (ne : ℂ) (a b c d : Fin r) :
    k2 (flip1 h1) (flip2 V) ne a b c d = (-1) ^ moved [a.val, b.val] [c.val, d.val] * k2 h1 V ne a b c d := by
  have hf : ∀ i j : Fin r, flip1 h1 i j = (-1) ^ (if i = j then 0 else 1) * h1 i j := by
    intro i j; unfold flip1; split_ifs <;> simp
  have sw : ∀ x y : ℕ, (([x, y] : List ℕ) : Multiset ℕ) = {y, x} := fun x y => Multiset.cons_swap x y 0
  unfold k2
  rw [flip2_eq, mul_add, Finset.mul_sum, mul_assoc]
  congr 1
  refine Finset.sum_congr rfl fun i _ => ?_
  rw [Finset.mul_sum]
  refine Finset.sum_congr rfl fun j _ => ?_
  rw [Finset.mul_sum]
  refine Finset.sum_congr rfl fun k _ => ?_
  rw [mul_add, mul_add, mul_add]
  congr 1
  · congr 1
    · congr 1
      · by_cases h : (a, b, c, d) = (i, k, j, k)
        · rw [if_pos h, if_pos h, hf]
          obtain ⟨rfl, rfl, rfl, rfl⟩ : a = i ∧ b = k ∧ c = j ∧ d = k := by simpa using h
          rw [moved_hop a c d [a.val, d.val] [c.val, d.val] rfl rfl]
          ring
        · rw [if_neg h, if_neg h, mul_zero]
      · by_cases h : (a, b, c, d) = (k, i, k, j)
        · rw [if_pos h, if_pos h, hf]
          obtain ⟨rfl, rfl, rfl, rfl⟩ : a = k ∧ b = i ∧ c = k ∧ d = j := by simpa using h
          rw [moved_hop b d c [c.val, b.val] [c.val, d.val] (sw _ _) (sw _ _)]
          ring
        · rw [if_neg h, if_neg h, mul_zero]
    · by_cases h : (a, b, c, d) = (i, k, k, j)
      · rw [if_pos h, if_pos h, hf]
        obtain ⟨rfl, rfl, rfl, rfl⟩ : a = i ∧ b = k ∧ c = k ∧ d = j := by simpa using h
        rw [moved_hop a d c [a.val, c.val] [c.val, d.val] rfl (sw _ _)]
        ring
      · rw [if_neg h, if_neg h, mul_zero]
  · by_cases h : (a, b, c, d) = (k, i, j, k)
    · rw [if_pos h, if_pos h, hf]
      obtain ⟨rfl, rfl, rfl, rfl⟩ : a = k ∧ b = i ∧ c = j ∧ d = k := by simpa using h
      rw [moved_hop b c d [d.val, b.val] [c.val, d.val] (sw _ _) rfl]
      ring
    · rw [if_neg h, if_neg h, mul_zero]

theorem relabel_smul (enc : Cfg → Cfg) (d : ℂ) (ψ : Cfg →₀ ℂ) : relabel enc (d • ψ) = d • relabel enc ψ := Finsupp.mapDomain_smul d ψ

/-- Any of the reversing transforms. -/
theorem energy_enc {T : Term FStr ℂ → Option (POp ℂ)} {encd : ℕ → Cfg → Cfg} (hT : Reversing T encd) (no na nb : ℕ) (hno : 0 < no) (hne : na + nb ≠ 1)
    (col : List PStr → ℕ → ℕ) (hcol : ColouringOK col) (h1 : Fin (2 * no) → Fin (2 * no) → ℂ)
    (V : Fin (2 * no) → Fin (2 * no) → Fin (2 * no) → Fin (2 * no) → ℂ) (hh : ∀ a b, h1 a b = h1 b a)
    (hV : ∀ a b c d, V a b c d = V c d a b) (enc : ℝ) (Ψ : Cfg →₀ ℂ) (ph : ℂ) (s5 : ‖ph‖ = 1) (s7 : pair Ψ Ψ = 1)
    (s8 : InS (InSec no (2 * no) na (na + nb)) Ψ) (s9 : RealAmp (Ψ : Cfg → ℂ)) :
    ∃ E : ℝ, energy T no na nb col h1 V enc (relabel (encd (2 * no)) (ph • Ψ)) = some E ∧
      |E - ((pair Ψ (secondQ (flip1 h1) (flip2 V) Ψ)).re + enc)|
        ≤ 2 ^ (2 * no) * 1e-28 * ∑ a, ∑ b, ∑ c, ∑ e, ‖k2 h1 V ((na + nb : ℕ) : ℂ) a b c e‖ := by
  have h2no : no + no = 2 * no := by omega
  obtain ⟨D, hD, hDe⟩ := run_enc hT 2 ⟨true, false⟩ (Or.inl rfl) (Or.inl rfl) no no le_rfl (rdme2_ne no hno) col hcol
    (ph • Ψ) (by rw [pair_phase ph s5]; exact s7)
    (fun b hb0 i hi => (s8 b (fun h => hb0 (by simp [h]))).2.2 i (by omega)) (na : ℤ)
    (fun b hb0 => by exact_mod_cast (s8 b (fun h => hb0 (by simp [h]))).1)
  rw [h2no] at hDe hD
  refine ⟨VQEObj.evaluate (k2 h1 V ((na + nb : ℕ) : ℂ)) enc D, ?_, ?_⟩
  · unfold energy
    have ho : (defaultOrbs no).1 = alpha no := rfl
    rw [beta_default, ho, hD, Option.map_some]
  · have hev : observable (k2 (flip1 h1) (flip2 V) ((na + nb : ℕ) : ℂ)) (rdm2 (evState Ψ)) = evState Ψ (secondQ (flip1 h1) (flip2 V)) :=
      C52_energy (evState Ψ) _ (by exact_mod_cast hne) (fun X => by
        show pair Ψ ((X * numberOp (2 * no) : Oper ℂ) Ψ) = _ * pair Ψ (X Ψ)
        rw [Module.End.mul_apply, number_sec (2 * no) (na + nb) Ψ (fun b hb0 => (s8 b hb0).2.1), map_smul, pair_smul_right]) _ _
        (fun a b => by unfold flip1; simp only [eq_comm (a := a), hh a b])
        (fun a b c d => by rw [flip2_eq, flip2_eq, hV, moved_symm [c.val, d.val] [a.val, b.val] rfl])
    have hfl : observable (k2 (flip1 h1) (flip2 V) ((na + nb : ℕ) : ℂ)) (rdm2 (evState Ψ)) =
        observable (k2 h1 V ((na + nb : ℕ) : ℂ)) (fun a b c d => (-1) ^ moved [a.val, b.val] [c.val, d.val] * rdm2 (evState Ψ) a b c d) := by
      unfold observable
      refine Finset.sum_congr rfl fun a _ => Finset.sum_congr rfl fun b _ => Finset.sum_congr rfl fun c _ => Finset.sum_congr rfl fun d _ => ?_
      rw [k2_flip, moved_symm [c.val, d.val] [a.val, b.val] rfl]
      ring
    have hcl := observable_close (k2 h1 V ((na + nb : ℕ) : ℂ)) (fun a b c e => D [a.val, b.val, c.val, e.val])
      (fun a b c d => (-1) ^ moved [a.val, b.val] [c.val, d.val] * rdm2 (evState Ψ) a b c d)
      (2 ^ (2 * no) * 1e-28) (fun a b c e => by
        have := hDe [a.val, b.val] [c.val, e.val] rfl rfl (by simp [a.isLt, b.isLt]) (by simp [c.isLt, e.isLt])
        have ht : target ⟨true, false⟩ (ph • Ψ) [a.val, b.val] [c.val, e.val] = rdm2 (evState Ψ) a b c e := by
          show ((rdm (ph • Ψ) _ _).re : ℂ) = _
          rw [rdm_phase ph s5, rdm2_evState]
          exact Complex.conj_eq_iff_re.mp (pair_real Ψ _ s9 (s9.rdmOp _ _))
        rw [ht] at this
        exact this)
    rw [← hfl, hev] at hcl
    have := (Complex.abs_re_le_norm _).trans hcl
    unfold VQEObj.evaluate
    rw [Complex.add_re, Complex.ofReal_re]
    have e : ∀ x y z : ℝ, x + z - (y + z) = x - y := by intros; ring
    rw [e]
    exact this

/-- **C148, parity, partial.** The energy computed from the parity-encoded register of a real normalised state is the core energy plus the expectation value of
the Hamiltonian whose terms moving exactly one electron have the opposite sign.  Missing: the energy itself when such terms contribute
(`C148_hopping_fails`). -/
theorem C148_parity_partial (no na nb : ℕ) (hno : 0 < no) (hne : na + nb ≠ 1)
    (col : List PStr → ℕ → ℕ) (hcol : ColouringOK col) (h1 : Fin (2 * no) → Fin (2 * no) → ℂ)
    (V : Fin (2 * no) → Fin (2 * no) → Fin (2 * no) → Fin (2 * no) → ℂ) (hh : ∀ a b, h1 a b = h1 b a)
    (hV : ∀ a b c d, V a b c d = V c d a b) (enc : ℝ) (Ψ : Cfg →₀ ℂ) (s7 : pair Ψ Ψ = 1)
    (s8 : ∀ b, Ψ b ≠ 0 → InSec no (2 * no) na (na + nb) b) (s9 : RealAmp (Ψ : Cfg → ℂ)) :
    ∃ E : ℝ, energy parity no na nb col h1 V enc (relabel (parityEnc (2 * no)) Ψ) = some E ∧
      |E - ((pair Ψ (secondQ (flip1 h1) (flip2 V) Ψ)).re + enc)|
        ≤ 2 ^ (2 * no) * 1e-28 * ∑ a, ∑ b, ∑ c, ∑ e, ‖k2 h1 V ((na + nb : ℕ) : ℂ) a b c e‖ := by
  have := energy_enc reversing_parity no na nb hno hne col hcol h1 V hh hV enc Ψ 1 (by simp) s7 s8 s9
  rwa [one_smul] at this

/-- **C148, Bravyi–Kitaev, partial.** As `C148_parity_partial`. -/
theorem C148_bravyi_kitaev_partial (no na nb : ℕ) (hno : 0 < no) (hne : na + nb ≠ 1)
    (col : List PStr → ℕ → ℕ) (hcol : ColouringOK col) (h1 : Fin (2 * no) → Fin (2 * no) → ℂ)
    (V : Fin (2 * no) → Fin (2 * no) → Fin (2 * no) → Fin (2 * no) → ℂ) (hh : ∀ a b, h1 a b = h1 b a)
    (hV : ∀ a b c d, V a b c d = V c d a b) (enc : ℝ) (Ψ : Cfg →₀ ℂ) (s7 : pair Ψ Ψ = 1)
    (s8 : ∀ b, Ψ b ≠ 0 → InSec no (2 * no) na (na + nb) b) (s9 : RealAmp (Ψ : Cfg → ℂ)) :
    ∃ E : ℝ, energy bravyiKitaev no na nb col h1 V enc (relabel (bkEnc (2 * no)) Ψ) = some E ∧
      |E - ((pair Ψ (secondQ (flip1 h1) (flip2 V) Ψ)).re + enc)|
        ≤ 2 ^ (2 * no) * 1e-28 * ∑ a, ∑ b, ∑ c, ∑ e, ‖k2 h1 V ((na + nb : ℕ) : ℂ) a b c e‖ := by
  have := energy_enc reversing_bk no na nb hno hne col hcol h1 V hh hV enc Ψ 1 (by simp) s7 s8 s9
  rwa [one_smul] at this

theorem secondQ_neg {r : ℕ} (h1 : Fin r → Fin r → ℂ) : secondQ (fun a b => -h1 a b) (fun _ _ _ _ => (0 : ℂ)) = -(secondQ h1 fun _ _ _ _ => (0 : ℂ)) := by
  unfold secondQ
  have e : ∀ p q : Fin r, (-h1 p q) • (cre p.val * ann q.val : Oper ℂ) = -(h1 p q • (cre p.val * ann q.val : Oper ℂ)) :=
    fun p q => LinearMap.ext fun ψ => funext fun b => neg_mul (h1 p q) ((cre p.val * ann q.val : Oper ℂ) ψ b)
  simp only [e, Finset.sum_neg_distrib, mul_zero, zero_smul, Finset.sum_const_zero, add_zero]

/-- **C148 is violated**: for a hopping Hamiltonian (no diagonal one-electron integrals, no repulsion) the energy of every state has the wrong sign,
with either transform. -/
theorem C148_hopping_fails (no na nb : ℕ) (hno : 0 < no) (hne : na + nb ≠ 1)
    (col : List PStr → ℕ → ℕ) (hcol : ColouringOK col) (h1 : Fin (2 * no) → Fin (2 * no) → ℂ) (hh : ∀ a b, h1 a b = h1 b a)
    (hd : ∀ a, h1 a a = 0) (enc : ℝ) (Ψ : Cfg →₀ ℂ) (s7 : pair Ψ Ψ = 1)
    (s8 : ∀ b, Ψ b ≠ 0 → InSec no (2 * no) na (na + nb) b) (s9 : RealAmp (Ψ : Cfg → ℂ)) :
    ∃ E E' : ℝ, energy parity no na nb col h1 (fun _ _ _ _ => 0) enc (relabel (parityEnc (2 * no)) Ψ) = some E ∧
      energy bravyiKitaev no na nb col h1 (fun _ _ _ _ => 0) enc (relabel (bkEnc (2 * no)) Ψ) = some E' ∧
      |E - (-(pair Ψ (secondQ h1 (fun _ _ _ _ => 0) Ψ)).re + enc)|
        ≤ 2 ^ (2 * no) * 1e-28 * ∑ a, ∑ b, ∑ c, ∑ e, ‖k2 h1 (fun _ _ _ _ => 0) ((na + nb : ℕ) : ℂ) a b c e‖ ∧
      |E' - (-(pair Ψ (secondQ h1 (fun _ _ _ _ => 0) Ψ)).re + enc)|
        ≤ 2 ^ (2 * no) * 1e-28 * ∑ a, ∑ b, ∑ c, ∑ e, ‖k2 h1 (fun _ _ _ _ => 0) ((na + nb : ℕ) : ℂ) a b c e‖ := by
  have e1 : flip1 h1 = fun a b => -h1 a b := by
    funext a b
    unfold flip1
    by_cases h : a = b
    · subst h; simp [hd]
    · rw [if_neg h]
  have e2 : flip2 (fun _ _ _ _ : Fin (2 * no) => (0 : ℂ)) = fun _ _ _ _ => 0 := by
    funext a b c d
    unfold flip2
    simp
  have e3 : (pair Ψ (secondQ (flip1 h1) (flip2 fun _ _ _ _ => 0) Ψ)).re = -(pair Ψ (secondQ h1 (fun _ _ _ _ => 0) Ψ)).re := by
    rw [e1, e2, secondQ_neg, LinearMap.neg_apply]
    have : -(secondQ h1 (fun _ _ _ _ => (0 : ℂ)) (Ψ : Cfg → ℂ)) = (-1 : ℂ) • secondQ h1 (fun _ _ _ _ => (0 : ℂ)) (Ψ : Cfg → ℂ) := by simp
    rw [this, pair_smul_right]
    simp
  obtain ⟨E, a1, a2⟩ := C148_parity_partial no na nb hno hne col hcol h1 (fun _ _ _ _ => 0) hh (fun _ _ _ _ => rfl) enc Ψ s7 s8 s9
  obtain ⟨E', b1, b2⟩ := C148_bravyi_kitaev_partial no na nb hno hne col hcol h1 (fun _ _ _ _ => 0) hh (fun _ _ _ _ => rfl) enc Ψ s7 s8 s9
  rw [e3] at a2 b2
  exact ⟨E, E', a1, b1, a2, b2⟩

/-- Hopping `t` between the first two alpha orbitals of two spatial orbitals. -/
def hop (t : ℝ) (a b : Fin (2 * 2)) : ℂ := if (a.val = 0 ∧ b.val = 1) ∨ (a.val = 1 ∧ b.val = 0) then (t : ℂ) else 0

theorem excState_hop (t : ℝ) : (pair excState (secondQ (hop t) (fun _ _ _ _ => 0) excState)).re = 24 / 25 * t := by
  have hne : (fun i : ℕ => decide (i = 0 ∨ i = 2)) ≠ (fun i : ℕ => decide (i = 1 ∨ i = 2)) := by
    intro h; have := congrFun h 0; simp at this
  have hc : ∀ z : ℂ, (conj z : ℂ) = (starRingEnd ℂ) z := fun z => rfl
  have v0 : excState (fun i => decide (i = 0 ∨ i = 2)) = 3 / 5 := by
    unfold excState
    simp only [Finsupp.add_apply, Finsupp.single_eq_same, Finsupp.single_eq_of_ne hne, add_zero]
  have v1 : excState (fun i => decide (i = 1 ∨ i = 2)) = 4 / 5 := by
    unfold excState
    simp only [Finsupp.add_apply, Finsupp.single_eq_same, Finsupp.single_eq_of_ne hne.symm, zero_add]
  have u0 : Function.update (Function.update (fun i : ℕ => decide (i = 0 ∨ i = 2)) 0 false) 1 true = fun i => decide (i = 1 ∨ i = 2) := by
    funext i
    by_cases h0 : i = 0 <;> by_cases h1 : i = 1 <;> by_cases h2 : i = 2 <;> simp [Function.update_apply, h0, h1, h2]
  have u1 : Function.update (Function.update (fun i : ℕ => decide (i = 1 ∨ i = 2)) 1 false) 0 true = fun i => decide (i = 0 ∨ i = 2) := by
    funext i
    by_cases h0 : i = 0 <;> by_cases h1 : i = 1 <;> by_cases h2 : i = 2 <;> simp [Function.update_apply, h0, h1, h2]
  have f0 : Finset.filter (fun x => Function.update (fun i : ℕ => decide (i = 0 ∨ i = 2)) 0 false x = true) (Finset.range 1) = ∅ := by decide
  have f1 : Finset.filter (fun x => (fun i : ℕ => decide (i = 1 ∨ i = 2)) x = true) (Finset.range 1) = ∅ := by decide
  have hp : ∀ X : Cfg → ℂ, pair excState X = 3 / 5 * X (fun i => decide (i = 0 ∨ i = 2)) + 4 / 5 * X (fun i => decide (i = 1 ∨ i = 2)) := by
    intro X
    conv_lhs => rw [show pair excState = pair (Finsupp.single (fun i => decide (i = 0 ∨ i = 2)) (3 / 5) +
      Finsupp.single (fun i => decide (i = 1 ∨ i = 2)) (4 / 5) : Cfg →₀ ℂ) from rfl]
    rw [pair_add, pair_single, pair_single, hc, hc]
    simp [Complex.conj_ofNat]
  have hca : ∀ (i j : ℕ) (b : Cfg), (cre i * ann j : Oper ℂ) (excState : Cfg → ℂ) b = if b i then fsign b i *
      (if Function.update b i false j then 0 else fsign (Function.update b i false) j * excState (Function.update (Function.update b i false) j true)) else 0 :=
    fun i j b => rfl
  have k01 : pair excState ((cre 0 * ann 1 : Oper ℂ) excState) = 12 / 25 := by
    rw [hp]
    have e1 : ((cre 0 * ann 1 : Oper ℂ) (excState : Cfg → ℂ)) (fun i => decide (i = 0 ∨ i = 2)) = 4 / 5 := by
      rw [hca, u0, v1]
      unfold fsign
      rw [f0]
      simp
    have e2 : ((cre 0 * ann 1 : Oper ℂ) (excState : Cfg → ℂ)) (fun i => decide (i = 1 ∨ i = 2)) = 0 := by
      rw [hca]
      simp
    rw [e1, e2]
    norm_num
  have k10 : pair excState ((cre 1 * ann 0 : Oper ℂ) excState) = 12 / 25 := by
    rw [hp]
    have e1 : ((cre 1 * ann 0 : Oper ℂ) (excState : Cfg → ℂ)) (fun i => decide (i = 1 ∨ i = 2)) = 3 / 5 := by
      rw [hca, u1, v0]
      unfold fsign
      rw [f1]
      simp
    have e2 : ((cre 1 * ann 0 : Oper ℂ) (excState : Cfg → ℂ)) (fun i => decide (i = 0 ∨ i = 2)) = 0 := by
      rw [hca]
      simp
    rw [e1, e2]
    norm_num
  show (evState excState _).re = _
  unfold secondQ
  simp only [map_add, map_sum, map_smul, mul_zero, zero_smul, Finset.sum_const_zero, map_zero, add_zero]
  have hs : ∑ p : Fin (2 * 2), ∑ q : Fin (2 * 2), hop t p q • evState excState (cre p.val * ann q.val : Oper ℂ) =
      (t : ℂ) * pair excState ((cre 0 * ann 1 : Oper ℂ) excState) + (t : ℂ) * pair excState ((cre 1 * ann 0 : Oper ℂ) excState) := by
    rw [show (∑ p : Fin (2 * 2), ∑ q : Fin (2 * 2), hop t p q • evState excState (cre p.val * ann q.val : Oper ℂ)) =
      ∑ p : Fin 4, ∑ q : Fin 4, hop t p q • evState excState (cre p.val * ann q.val : Oper ℂ) from rfl]
    simp only [Fin.sum_univ_four]
    simp [hop, evState]
  rw [hs, k01, k10]
  simp
  ring

/-- **C148 is violated**, a concrete case: `3/5 |1010⟩ + 4/5 |0110⟩` with a hopping `t` between the first two orbitals has energy `24 t / 25`; with the
parity or the Bravyi–Kitaev transform the result is `-24 t / 25`. -/
theorem C148_fails (t : ℝ) (col : List PStr → ℕ → ℕ) (hcol : ColouringOK col) :
    (pair excState (secondQ (hop t) (fun _ _ _ _ => 0) excState)).re = 24 / 25 * t ∧
    ∃ E E' : ℝ, energy parity 2 1 1 col (hop t) (fun _ _ _ _ => 0) 0 (relabel (parityEnc 4) excState) = some E ∧
      energy bravyiKitaev 2 1 1 col (hop t) (fun _ _ _ _ => 0) 0 (relabel (bkEnc 4) excState) = some E' ∧
      |E - (-(24 / 25 * t))| ≤ 2 ^ 4 * 1e-28 * ∑ a, ∑ b, ∑ c, ∑ e, ‖k2 (hop t) (fun _ _ _ _ => 0) ((1 + 1 : ℕ) : ℂ) a b c e‖ ∧
      |E' - (-(24 / 25 * t))| ≤ 2 ^ 4 * 1e-28 * ∑ a, ∑ b, ∑ c, ∑ e, ‖k2 (hop t) (fun _ _ _ _ => 0) ((1 + 1 : ℕ) : ℂ) a b c e‖ := by
  refine ⟨excState_hop t, ?_⟩
  have hb : ∀ b, excState b ≠ 0 → b = (fun i : ℕ => decide (i = 0 ∨ i = 2)) ∨ b = (fun i : ℕ => decide (i = 1 ∨ i = 2)) := by
    classical
    intro b hb
    unfold excState at hb
    rw [Finsupp.add_apply, Finsupp.single_apply, Finsupp.single_apply] at hb
    by_contra hcon
    push Not at hcon
    rw [if_neg hcon.1.symm, if_neg hcon.2.symm, add_zero] at hb
    exact hb rfl
  obtain ⟨o1, o2, o3, o4⟩ := excState_ok
  obtain ⟨E, E', a1, a2, a3, a4⟩ := C148_hopping_fails 2 1 1 (by decide) (by decide) col hcol (hop t)
    (fun a b => by unfold hop; simp only [or_comm, and_comm])
    (fun a => by unfold hop; rw [if_neg]; omega) 0 excState o1
    (fun b h => ⟨by rcases hb b h with rfl | rfl <;> decide, by rcases hb b h with rfl | rfl <;> decide, fun i hi => o3 b h i (by omega)⟩)
    (by
      classical
      intro b
      unfold excState
      rw [Finsupp.add_apply, Finsupp.single_apply, Finsupp.single_apply]
      show (starRingEnd ℂ) _ = _
      split <;> split <;> simp [Complex.conj_ofNat])
  rw [excState_hop, add_zero] at a3 a4
  exact ⟨E, E', a1, a2, a3, a4⟩

/-- The terms moving one electron do not contribute for a determinant. -/
theorem flip_det {r : ℕ} (h1 : Fin r → Fin r → ℂ) (V : Fin r → Fin r → Fin r → Fin r → ℂ) (b : Cfg) :
    pair (det (K := ℂ) b) (secondQ (flip1 h1) (flip2 V) (det (K := ℂ) b)) = pair (det (K := ℂ) b) (secondQ h1 V (det (K := ℂ) b)) := by
  have hz : ∀ (c a : List ℕ), moved c a ≠ 0 → rdm (det (K := ℂ) b) c a = 0 := by
    intro c a h
    refine (rdm_det b c a).1 fun hp => h ?_
    unfold moved
    rw [Multiset.coe_eq_coe.mpr hp.1]
    simp
  show evState (det (K := ℂ) b) _ = evState (det (K := ℂ) b) _
  unfold secondQ
  simp only [map_add, map_sum, map_smul]
  congr 1
  · refine Finset.sum_congr rfl fun p _ => Finset.sum_congr rfl fun q _ => ?_
    by_cases h : p = q
    · subst h; simp [flip1]
    · have := (rdm_det (K := ℂ) b [p.val] [q.val]).1 fun hp => h (Fin.ext (by simpa using hp.1))
      have e : evState (det (K := ℂ) b) (cre p.val * ann q.val) = rdm (det (K := ℂ) b) [p.val] [q.val] := by
        unfold rdm rdmOp evState; simp
      rw [e, this, smul_zero, smul_zero]
  · refine Finset.sum_congr rfl fun p _ => Finset.sum_congr rfl fun t _ => Finset.sum_congr rfl fun s _ => Finset.sum_congr rfl fun q _ => ?_
    by_cases h : moved [p.val, t.val] [q.val, s.val] = 0
    · rw [flip2_eq, h]; simp
    · have e : evState (det (K := ℂ) b) (cre p.val * (cre t.val * (ann s.val * ann q.val))) = rdm (det (K := ℂ) b) [p.val, t.val] [q.val, s.val] := by
        unfold rdm rdmOp evState; simp [mul_assoc]
      rw [e, hz _ _ h, smul_zero, smul_zero]

/-- The reference, for either transform. -/
theorem reference_enc {T : Term FStr ℂ → Option (POp ℂ)} {encd : ℕ → Cfg → Cfg} (hT : Reversing T encd)
    (hprep : ∀ (N : ℕ) (l : List ℕ), (∀ k ∈ l, k < N) → l.Nodup → ∃ (gs : List QG) (d : ℂ), prepare T N N l = some gs ∧ ‖d‖ = 1 ∧
      circOp gs (ket fun _ => false) = d • ket (encd N (Props.occ l)))
    (no na nb : ℕ) (hno : 0 < no) (ha : na ≤ no) (hb : nb ≤ no) (hne : na + nb ≠ 1)
    (col : List PStr → ℕ → ℕ) (hcol : ColouringOK col) (h1 : Fin (2 * no) → Fin (2 * no) → ℂ)
    (V : Fin (2 * no) → Fin (2 * no) → Fin (2 * no) → Fin (2 * no) → ℂ) (hh : ∀ a b, h1 a b = h1 b a)
    (hV : ∀ a b c d, V a b c d = V c d a b) (enc : ℝ) :
    ∃ E : ℝ, reference T no na nb col h1 V enc = some E ∧
      |E - ((pair (det (K := ℂ) (hfCfg no na nb)) (secondQ h1 V (det (K := ℂ) (hfCfg no na nb)))).re + enc)|
        ≤ 2 ^ (2 * no) * 1e-28 * ∑ a, ∑ b, ∑ c, ∑ e, ‖k2 h1 V ((na + nb : ℕ) : ℂ) a b c e‖ := by
  obtain ⟨i1, i2, i3, _⟩ := C78_initial no na nb ha hb _ (Or.inl rfl)
  obtain ⟨gs, d, g1, g2, g3⟩ := hprep (2 * no) _ i3 i2
  rw [hfCfg_eq no na nb ha hb] at g3
  classical
  have hsec := hfCfg_sec no na nb ha hb
  obtain ⟨E, hE, hB⟩ := energy_enc hT no na nb hno hne col hcol h1 V hh hV enc (det (K := ℂ) (hfCfg no na nb)) d g2
    (by unfold det; rw [pair_single, Finsupp.single_eq_same]; simp [conj_one])
    (by
      intro b hb0
      have : b = hfCfg no na nb := by
        by_contra h
        exact hb0 (by unfold det; rw [Finsupp.single_apply, if_neg (Ne.symm h)])
      rw [this]; exact hsec)
    (by
      intro b
      unfold det
      rw [Finsupp.single_apply]
      split
      · exact conj_one
      · exact conj_zero)
  rw [flip_det] at hB
  refine ⟨E, ?_, hB⟩
  unfold reference
  rw [i1, Option.bind_some, g1, Option.bind_some, ← hE]
  congr 1
  have hk0 : (fun b : Cfg => if b = (fun _ => false) then (1 : ℂ) else 0) = ket (fun _ => false) := by
    funext b
    unfold ket
    congr 1
  have hk0' := congrArg (fun ψ => (circOp gs) ψ) hk0
  simp only at hk0'
  refine Eq.trans ?_ (hk0'.trans ?_)
  · congr 1
  · rw [g3, relabel_smul]
    have e : ((relabel (encd (2 * no)) (det (K := ℂ) (hfCfg no na nb)) : Cfg →₀ ℂ) : Cfg → ℂ) = ket (encd (2 * no) (hfCfg no na nb)) := by
      unfold relabel det
      rw [Finsupp.mapDomain_single]
      funext b
      rw [Finsupp.single_apply]
      unfold ket
      by_cases hbb : b = encd (2 * no) (hfCfg no na nb)
      · rw [if_pos hbb.symm, if_pos hbb]
      · rw [if_neg (Ne.symm hbb), if_neg hbb]
    rw [← e]
    rfl

/-- **C148 for the reference**: with the parity or the Bravyi–Kitaev transform the energy of the reference is that of the Hartree–Fock determinant. -/
theorem C148_reference (no na nb : ℕ) (hno : 0 < no) (ha : na ≤ no) (hb : nb ≤ no) (hne : na + nb ≠ 1)
    (col : List PStr → ℕ → ℕ) (hcol : ColouringOK col) (h1 : Fin (2 * no) → Fin (2 * no) → ℂ)
    (V : Fin (2 * no) → Fin (2 * no) → Fin (2 * no) → Fin (2 * no) → ℂ) (hh : ∀ a b, h1 a b = h1 b a)
    (hV : ∀ a b c d, V a b c d = V c d a b) (enc : ℝ) (T : Term FStr ℂ → Option (POp ℂ)) (hT : T = parity ∨ T = bravyiKitaev) :
    ∃ E : ℝ, reference T no na nb col h1 V enc = some E ∧
      |E - ((pair (det (K := ℂ) (hfCfg no na nb)) (secondQ h1 V (det (K := ℂ) (hfCfg no na nb)))).re + enc)|
        ≤ 2 ^ (2 * no) * 1e-28 * ∑ a, ∑ b, ∑ c, ∑ e, ‖k2 h1 V ((na + nb : ℕ) : ℂ) a b c e‖ := by
  rcases hT with rfl | rfl
  · exact reference_enc reversing_parity C78_parity no na nb hno ha hb hne col hcol h1 V hh hV enc
  · exact reference_enc reversing_bk C78_bravyi_kitaev no na nb hno ha hb hne col hcol h1 V hh hV enc

end
end HQCA.Props
