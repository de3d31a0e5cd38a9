import Verif.Model.HFStorage
import Verif.Props.VQEObjective
import Verif.Props.RDMAlg

/-!
# C113: the calculations start from the Hartree–Fock energy
-/

namespace HQCA
namespace Props
open VQEObj Ham HFStore Prepare
noncomputable section

theorem occ_count (M : ℕ) (l : List ℕ) (hl : l.Nodup) (hM : ∀ x ∈ l, x < M) : occAlpha M (occCfg l) = l.length := by
  unfold occAlpha
  refine List.Perm.length_eq ((List.perm_ext_iff_of_nodup (List.Nodup.filter _ List.nodup_range) hl).2 fun x => ?_)
  simp only [List.mem_filter, List.mem_range, occCfg, decide_eq_true_eq]
  exact ⟨fun h => h.2, fun h => ⟨hM x h, h⟩⟩

theorem permute_mem (ch : List ℕ) : ∀ (d : ℕ) (t S : List ℕ), S ∈ Rec.permute ch d t → ∀ i ∈ S, i ∈ t ∨ i ∈ ch
  | 0, t, S, h, i, hi => by
    rw [Rec.permute, List.mem_singleton] at h
    exact Or.inl (h ▸ hi)
  | d + 1, t, S, h, i, hi => by
    rw [Rec.permute, List.mem_flatMap] at h
    obtain ⟨x, hx, h⟩ := h
    have key : S ∈ Rec.permute ch d (t ++ [x]) := by
      revert h
      cases t.getLast? with
      | none => exact id
      | some y =>
        intro h
        by_cases hxy : x > y
        · simpa [hxy] using h
        · simp [hxy] at h
    rcases permute_mem ch d (t ++ [x]) S key i hi with h1 | h1
    · rcases List.mem_append.1 h1 with h2 | h2
      · exact Or.inl h2
      · rw [List.mem_singleton] at h2
        exact Or.inr (h2 ▸ hx)
    · exact Or.inr h1

theorem pair_mem_permute (ch : List ℕ) (x y : ℕ) (hx : x ∈ ch) (hy : y ∈ ch) (h : x < y) :
    [x, y] ∈ Rec.permute ch 2 [] := by
  rw [Rec.permute, List.mem_flatMap]
  refine ⟨x, hx, ?_⟩
  show [x, y] ∈ Rec.permute ch 1 ([] ++ [x])
  rw [Rec.permute, List.mem_flatMap]
  refine ⟨y, hy, ?_⟩
  show [x, y] ∈ (if y > x then Rec.permute ch 0 ([x] ++ [y]) else [])
  rw [if_pos h, Rec.permute]
  exact List.mem_singleton.2 rfl

/-- The spins for which the storage has an entry (specification): `2 Sz` is 0, 1, -1 or 2. -/
def SpinOK (na nb : ℕ) : Prop := (na : ℤ) - nb = 0 ∨ (na : ℤ) - nb = 1 ∨ (na : ℤ) - nb = -1 ∨ (na : ℤ) - nb = 2

theorem s2_ok {na nb : ℕ} (h : SpinOK na nb) : ∃ q, s2 ((na : ℤ) - nb) = some q := by
  unfold s2
  rcases h with h | h | h | h <;> rw [h] <;> simp

theorem occ_take (alp bet : List ℕ) (na nb : ℕ) :
    HFStore.occ alp bet ((na : ℤ) + nb) ((na : ℤ) - nb) = alp.take na ++ bet.take nb := by
  have e1 : (((na : ℤ) + nb + ((na : ℤ) - nb)) / 2).toNat = na := by omega
  have e2 : (((na : ℤ) + nb - ((na : ℤ) - nb)) / 2).toNat = nb := by omega
  unfold HFStore.occ RDM.hfOcc
  rw [e1, e2]

/-- With labels below the size of the array, the initial energy is that of the determinant of the first labels. -/
theorem e0_det (lab : List ℕ × List ℕ) (no na nb : ℕ) (hlen : lab.1.length = no ∧ lab.2.length = no)
    (hnd : (lab.1 ++ lab.2).Nodup) (ha : na ≤ no) (hb : nb ≤ no)
    (hlt : ∀ i ∈ lab.1.take na ++ lab.2.take nb, i < 2 * no) (hne : na + nb ≠ 1) (hsz : SpinOK na nb)
    (h1 : Fin (2 * no) → Fin (2 * no) → ℂ) (V : Fin (2 * no) → Fin (2 * no) → Fin (2 * no) → Fin (2 * no) → ℂ)
    (hh : ∀ a b, h1 a b = h1 b a) (hV : ∀ a b c d, V a b c d = V c d a b) (enc : ℝ) :
    e0 lab no na nb h1 V enc =
      some ((pair (det (occCfg (lab.1.take na ++ lab.2.take nb)))
        (secondQ h1 V (det (occCfg (lab.1.take na ++ lab.2.take nb)) : Cfg →₀ ℂ))).re + enc) := by
  classical
  obtain ⟨q, hq⟩ := s2_ok hsz
  set l := lab.1.take na ++ lab.2.take nb with hl
  have hln : l.Nodup := hnd.sublist ((List.take_sublist _ _).append (List.take_sublist _ _))
  have hll : l.length = na + nb := by
    rw [hl, List.length_append, List.length_take, List.length_take, hlen.1, hlen.2]
    omega
  unfold e0 hfRDM
  rw [hq, Option.bind_some]
  unfold build
  rw [occ_take, ← hl, if_neg (by
    rintro ⟨S, hS, i, hi, hle⟩
    rcases permute_mem l 2 [] S hS i hi with h | h
    · cases h
    · have := hlt i h
      rw [hlen.1, hlen.2] at hle
      omega), Option.map_some]
  congr 1
  unfold evaluate
  rw [Complex.add_re, Complex.ofReal_re]
  congr 2
  set Ψ : Cfg →₀ ℂ := det (occCfg l) with hΨ
  have hb' : ∀ b, Ψ b ≠ 0 → b = occCfg l := by
    intro b h
    by_contra hne
    exact h (Finsupp.single_eq_of_ne hne)
  have hev : observable (k2 h1 V ((na + nb : ℕ) : ℂ)) (rdm2 (evState Ψ)) = evState Ψ (secondQ h1 V) :=
    C52_energy (evState Ψ) _ (by exact_mod_cast hne) (fun X => by
      show pair Ψ ((X * numberOp (2 * no) : Oper ℂ) Ψ) = _ * pair Ψ (X Ψ)
      rw [Module.End.mul_apply, number_sec (2 * no) (na + nb) Ψ (fun b hb0 => by
        rw [hb' b hb0, occ_count _ l hln hlt, hll]), map_smul, pair_smul_right]) h1 V hh hV
  rw [show pair Ψ (secondQ h1 V Ψ) = evState Ψ (secondQ h1 V) from rfl, ← hev]
  congr 1
  funext a b c d
  rw [rdm2_evState, show [a.val, b.val, c.val, d.val] = [a.val, b.val] ++ [c.val, d.val] from rfl,
    C30_hartree_fock_partial 2 (by norm_num) (by norm_num) _ _ _ rfl rfl]

theorem active_eq (no : ℕ) : activeLabels 0 no no = qubitLabels no := by
  unfold activeLabels qubitLabels
  simp

theorem active_nodup (core tot no : ℕ) (h : core + no ≤ tot) : ((activeLabels core tot no).1 ++ (activeLabels core tot no).2).Nodup := by
  unfold activeLabels
  rw [List.nodup_append]
  refine ⟨List.Nodup.map (fun a b h => by simpa using h) List.nodup_range,
    List.Nodup.map (fun a b h => by simpa using h) List.nodup_range, ?_⟩
  intro a ha b hb
  rw [List.mem_map] at ha hb
  obtain ⟨x, hx, rfl⟩ := ha
  obtain ⟨y, hy, rfl⟩ := hb
  rw [List.mem_range] at hx hy
  omega

/-- **C113, ACSE.**  The initial energy of an ACSE calculation is the constant energy plus the expectation value of the Hamiltonian
in the Hartree–Fock determinant.  Missing: one electron (the reduced Hamiltonian divides by zero) and the spins of
`C113_fails`. -/
theorem C113_acse_partial (no na nb : ℕ) (ha : na ≤ no) (hb : nb ≤ no) (hne : na + nb ≠ 1) (hsz : SpinOK na nb)
    (h1 : Fin (2 * no) → Fin (2 * no) → ℂ) (V : Fin (2 * no) → Fin (2 * no) → Fin (2 * no) → Fin (2 * no) → ℂ)
    (hh : ∀ a b, h1 a b = h1 b a) (hV : ∀ a b c d, V a b c d = V c d a b) (enc : ℝ) :
    acseE0 no na nb h1 V enc =
      some ((pair (det (hfCfg no na nb)) (secondQ h1 V (det (hfCfg no na nb) : Cfg →₀ ℂ))).re + enc) := by
  have hc : occCfg ((qubitLabels no).1.take na ++ (qubitLabels no).2.take nb) = hfCfg no na nb := hfCfg_eq no na nb ha hb
  have := e0_det (qubitLabels no) no na nb (by simp [qubitLabels])
    (by rw [← active_eq]; exact active_nodup 0 no no (by omega)) ha hb (by
      intro i hi
      have : hfCfg no na nb i = true := by rw [← hc]; exact decide_eq_true hi
      have := of_decide_eq_true this
      omega) hne hsz h1 V hh hV enc
  rw [hc] at this
  exact this

/-- **C113, VQE.**  The same for a variational calculation in which all orbitals are active.  Missing: active spaces, where it is false
(`C113_vqe_frozen_raises`, `C113_vqe_frozen_fails`). -/
theorem C113_vqe_partial (no na nb : ℕ) (ha : na ≤ no) (hb : nb ≤ no) (hne : na + nb ≠ 1) (hsz : SpinOK na nb)
    (h1 : Fin (2 * no) → Fin (2 * no) → ℂ) (V : Fin (2 * no) → Fin (2 * no) → Fin (2 * no) → Fin (2 * no) → ℂ)
    (hh : ∀ a b, h1 a b = h1 b a) (hV : ∀ a b c d, V a b c d = V c d a b) (enc : ℝ) :
    vqeE0 0 no no na nb h1 V enc =
      some ((pair (det (hfCfg no na nb)) (secondQ h1 V (det (hfCfg no na nb) : Cfg →₀ ℂ))).re + enc) := by
  unfold vqeE0
  rw [active_eq]
  exact C113_acse_partial no na nb ha hb hne hsz h1 V hh hV enc

/-- **C113 is violated** for other spins: with `2 Sz` below -1 or above 2 no storage can be created (`KeyError`). -/
theorem C113_fails (lab : List ℕ × List ℕ) (no na nb : ℕ) (h : (na : ℤ) - nb < -1 ∨ 2 < (na : ℤ) - nb)
    (h1 : Fin (2 * no) → Fin (2 * no) → ℂ) (V : Fin (2 * no) → Fin (2 * no) → Fin (2 * no) → Fin (2 * no) → ℂ) (enc : ℝ) :
    e0 lab no na nb h1 V enc = none := by
  have : s2 ((na : ℤ) - nb) = none := by
    unfold s2
    rw [if_neg (by omega), if_neg (by omega), if_neg (by omega)]
  unfold e0 hfRDM
  rw [this]
  rfl

/-- **C113 is violated** for variational calculations in an active space: when the last occupied beta orbital, counted among all spin
orbitals, does not fit in the array of the active ones, the storage cannot be created (`IndexError`). -/
theorem C113_vqe_frozen_raises (core tot no na nb : ℕ) (ht : core + no ≤ tot) (ha : 0 < na) (hao : na ≤ no) (hb : 0 < nb) (hbo : nb ≤ no)
    (h : 2 * no < core + tot + nb)
    (h1 : Fin (2 * no) → Fin (2 * no) → ℂ) (V : Fin (2 * no) → Fin (2 * no) → Fin (2 * no) → Fin (2 * no) → ℂ) (enc : ℝ) :
    vqeE0 core tot no na nb h1 V enc = none := by
  unfold vqeE0 e0 hfRDM
  cases s2 ((na : ℤ) - nb) with
  | none => rfl
  | some q =>
    rw [Option.bind_some]
    unfold build
    rw [occ_take, if_pos]
    · rfl
    · refine ⟨[0 + core, nb - 1 + core + tot], pair_mem_permute _ _ _ ?_ ?_ (by omega), nb - 1 + core + tot, by simp, ?_⟩
      · refine List.mem_append_left _ ?_
        unfold activeLabels
        rw [← List.map_take, List.take_range]
        exact List.mem_map.2 ⟨0, List.mem_range.2 (by omega), rfl⟩
      · refine List.mem_append_right _ ?_
        unfold activeLabels
        rw [← List.map_take, List.take_range]
        exact List.mem_map.2 ⟨nb - 1, List.mem_range.2 (by omega), rfl⟩
      · unfold activeLabels
        simp only [List.length_map, List.length_range]
        omega

/-- The energy of the occupation of spin orbital 0. -/
def hZero (no : ℕ) (a b : Fin (2 * no)) : ℂ := if a.val = 0 ∧ b.val = 0 then 1 else 0

theorem hZero_energy (no : ℕ) (hno : 0 < no) (l : List ℕ) :
    pair (det (occCfg l)) (secondQ (hZero no) (fun _ _ _ _ => 0) (det (occCfg l) : Cfg →₀ ℂ)) = if 0 ∈ l then 1 else 0 := by
  have h0 : (secondQ (hZero no) (fun _ _ _ _ => 0) : Oper ℂ) = cre 0 * ann 0 := by
    unfold secondQ hZero
    rw [Finset.sum_eq_single (⟨0, by omega⟩ : Fin (2 * no)), Finset.sum_eq_single (⟨0, by omega⟩ : Fin (2 * no))]
    · simp
    · intro b _ hb
      rw [if_neg (fun h => hb (Fin.ext h.2)), zero_smul]
    · intro h; exact absurd (Finset.mem_univ _) h
    · intro b _ hb
      refine Finset.sum_eq_zero fun c _ => ?_
      rw [if_neg (fun h => hb (Fin.ext h.1)), zero_smul]
    · intro h; exact absurd (Finset.mem_univ _) h
  rw [h0]
  unfold det
  rw [pair_single, number_apply, conj_one, one_mul, Finsupp.single_eq_same]
  by_cases h : 0 ∈ l <;> simp [occCfg, h]

theorem frozen_witness (no : ℕ) (lab : List ℕ × List ℕ) (hlen : lab.1.length = no ∧ lab.2.length = no) (hnd : (lab.1 ++ lab.2).Nodup)
    (hno : 0 < no) (hlt : ∀ i ∈ lab.1.take 1 ++ lab.2.take 1, i < 2 * no) :
    e0 lab no 1 1 (hZero no) (fun _ _ _ _ => 0) 0 = some (if 0 ∈ lab.1.take 1 ++ lab.2.take 1 then 1 else 0) := by
  have := e0_det lab no 1 1 hlen hnd hno hno hlt (by decide) (Or.inl rfl) (hZero no) (fun _ _ _ _ => 0)
      (fun a b => by unfold hZero; simp only [and_comm]) (fun _ _ _ _ => rfl) 0
  rw [hZero_energy no hno] at this
  rw [this]
  split <;> simp

/-- **C113 is violated** for variational calculations in an active space also silently: with two electrons in four active
orbitals over one frozen one, the initial energy is that of alpha orbital 1 and beta orbital 2, while the ACSE storage has the energy
of orbital 0. -/
theorem C113_vqe_frozen_fails : ∃ (h1 : Fin (2 * 4) → Fin (2 * 4) → ℂ) (V : Fin (2 * 4) → Fin (2 * 4) → Fin (2 * 4) → Fin (2 * 4) → ℂ),
    (∀ a b, h1 a b = h1 b a) ∧ (∀ a b c d, V a b c d = V c d a b) ∧
    acseE0 4 1 1 h1 V 0 = some 1 ∧ vqeE0 1 5 4 1 1 h1 V 0 = some 0 := by
  refine ⟨hZero 4, fun _ _ _ _ => 0, fun a b => by unfold hZero; simp only [and_comm], fun _ _ _ _ => rfl, ?_, ?_⟩
  · exact (frozen_witness 4 (qubitLabels 4) (by simp [qubitLabels]) (by decide) (by decide) (by decide)).trans
      (congrArg some (if_pos (by decide)))
  · exact (frozen_witness 4 (activeLabels 1 5 4) (by simp [activeLabels]) (by decide) (by decide) (by decide)).trans
      (congrArg some (if_neg (by decide)))

/-- **C113.**  The first point of a variational calculation: with no parameters, or all parameters zero, the objective
returns the initial energy of the storage, up to the skipped amplitudes. -/
theorem C113_zero_parameters_partial (d : ℝ) (hd : d ≠ 0) (no na nb : ℕ) (hno : 0 < no) (ha : na ≤ no) (hb : nb ≤ no)
    (hne : na + nb ≠ 1) (hsz : SpinOK na nb)
    (col : List PStr → ℕ → ℕ) (hcol : ColouringOK col) (h1 : Fin (2 * no) → Fin (2 * no) → ℂ)
    (V : Fin (2 * no) → Fin (2 * no) → Fin (2 * no) → Fin (2 * no) → ℂ) (hh : ∀ a b, h1 a b = h1 b a)
    (hV : ∀ a b c d, V a b c d = V c d a b) (enc : ℝ) (ps : List ℂ) (hp : ∀ p ∈ ps, p = 0) :
    ∃ E E0 : ℝ, objective d no na nb col h1 V enc ps = some E ∧ vqeE0 0 no no na nb h1 V enc = some E0 ∧
      |E - E0| ≤ 2 ^ (2 * no) * 1e-28 * ∑ a, ∑ b, ∑ c, ∑ e, ‖k2 h1 V ((na + nb : ℕ) : ℂ) a b c e‖ := by
  obtain ⟨l, ts, Us, Ψ, E, _, _, a3, a4, _, _, a7, a8⟩ :=
    C111_objective_partial d hd no na nb hno ha hb hne col hcol h1 V hh hV enc ps (by
      intro p h
      rw [hp p h, conj_zero])
  refine ⟨E, _, a7, C113_vqe_partial no na nb ha hb hne hsz h1 V hh hV enc, ?_⟩
  have hf : (ts.zip ps).filter (fun x => !tinyC x.2) = [] := by
    rw [List.filter_eq_nil_iff]
    intro x hx
    have := hp x.2 (List.of_mem_zip hx).2
    rw [this]
    simp [tinyC]
    norm_num
  rw [hf] at a3
  cases a3
  have : Ψ = det (hfCfg no na nb) := by
    apply DFunLike.coe_injective
    rw [a4]
    funext b
    rw [det_eq]
    simp [ket, delta, eq_comm]
  rw [← this]
  exact a8

example (h1 : Fin 4 → Fin 4 → ℂ) (V : Fin 4 → Fin 4 → Fin 4 → Fin 4 → ℂ) : acseE0 2 4 0 h1 V 0 = none :=
  C113_fails _ 2 4 0 (by norm_num) h1 V 0

example (h1 : Fin 4 → Fin 4 → ℂ) (V : Fin 4 → Fin 4 → Fin 4 → Fin 4 → ℂ) : vqeE0 1 3 2 1 1 h1 V 0 = none :=
  C113_vqe_frozen_raises 1 3 2 1 1 (by norm_num) (by norm_num) (by norm_num) (by norm_num) (by norm_num) (by norm_num) h1 V 0

end
end Props
end HQCA
