import Verif.Model.QubitOrder
import Verif.Props.ACSEEnergy
import Verif.Props.GraphColour

/-!
# C146: the assignment of spin orbitals to qubits

`QuantumStorage.set_algorithm(..., rdm_to_qubit=...)`: which assignments tomography of order 2 accepts, and what the energy of the reference means
with them.
-/

namespace HQCA
namespace Props
open Tomo Prepare QOrder Ham
noncomputable section

/-! ### The elements for arbitrary lists -/

theorem mem_rdme2_lists (f : Flags) (alp bet : List ℕ) (x : List ℕ) :
    x ∈ rdme2 f alp bet ↔ ∃ i k l j, x = [i, k, l, j] ∧
      (((i ∈ alp ∧ k ∈ alp ∧ l ∈ alp ∧ j ∈ alp) ∧ i < k ∧ j < l) ∨ ((i ∈ bet ∧ k ∈ bet ∧ l ∈ bet ∧ j ∈ bet) ∧ i < k ∧ j < l) ∨
        (i ∈ alp ∧ k ∈ bet ∧ l ∈ bet ∧ j ∈ alp)) ∧
      i * alp.length + k ≤ j * alp.length + l ∧ ¬ (f.skipDiag = true ∧ i * alp.length + k = j * alp.length + l) := by
  simp only [rdme2, block2, blockAB, List.mem_append, List.mem_flatMap, List.mem_ite_nil_left, List.mem_singleton, not_le, ge_iff_le,
    not_or, Bool.and_eq_true, beq_iff_eq, gt_iff_lt, not_lt]
  constructor
  · rintro ((⟨i, hi, k, hk, h1, l, hl, j, hj, h2, h3, rfl⟩ | ⟨i, hi, k, hk, h1, l, hl, j, hj, h2, h3, rfl⟩) |
      ⟨i, hi, k, hk, l, hl, j, hj, h2, h3, rfl⟩)
    · exact ⟨i, k, l, j, rfl, Or.inl ⟨⟨hi, hk, hl, hj⟩, h1, h2.1⟩, h2.2, h3⟩
    · exact ⟨i, k, l, j, rfl, Or.inr (Or.inl ⟨⟨hi, hk, hl, hj⟩, h1, h2.1⟩), h2.2, h3⟩
    · exact ⟨i, k, l, j, rfl, Or.inr (Or.inr ⟨hi, hk, hl, hj⟩), h2, h3⟩
  · rintro ⟨i, k, l, j, rfl, ⟨⟨hi, hk, hl, hj⟩, h1, h2⟩ | ⟨⟨hi, hk, hl, hj⟩, h1, h2⟩ | ⟨hi, hk, hl, hj⟩, h3, h4⟩
    · exact Or.inl (Or.inl ⟨i, hi, k, hk, h1, l, hl, j, hj, ⟨h2, h3⟩, h4, rfl⟩)
    · exact Or.inl (Or.inr ⟨i, hi, k, hk, h1, l, hl, j, hj, ⟨h2, h3⟩, h4, rfl⟩)
    · exact Or.inr ⟨i, hi, k, hk, l, hl, j, hj, h3, h4, rfl⟩

/-- The number operator between two other orbitals: the first string shortens the list, the second has fewer indices than operators. -/
theorem rdmeOp_between (f : Flags) (i k j N : ℕ) (h1 : i < k) (h2 : k < j) : (rdmeOp f [i, k, k, j] N : Option (List ℕ × OpD FStr ℂ)) = none := by
  unfold rdmeOp
  split
  · have hc : callerInds (opWord 2 [i, k, k, j]) = [i, k, j] := by
      have e : opWord 2 [i, k, k, j] = [(i, .cr), (k, .cr), (k, .an), (j, .an)] := rfl
      rw [e]
      have n1 : ¬ k < i := by omega
      have n2 : ¬ j < k := by omega
      have n3 : i ≠ k := by omega
      have n4 : k ≠ j := by omega
      have n5 : i ≠ j := by omega
      simp [callerInds, popLoop, Fermi.sortStep, Fermi.contractStep, Fermi.contr, n1, n2, n3, n4, n5]
    simp only [List.length_cons, List.length_nil]
    rw [if_neg (by omega)]
    apply Option.bind_eq_none_iff.mpr
    intro a _
    have : (0 + 1 + 1 + 1 + 1) / 2 = 2 := rfl
    rw [this, hc, if_pos (by simp)]
  · rfl

/-- Every other element of an accepted list can be built. -/
theorem rdmeQub_some (f : Flags) (hf : f.real = true ∨ f.imag = true) (i k l j N : ℕ) (hi : i < N) (hk : k < N) (hl : l < N) (hj : j < N)
    (h : [i, k, l, j].Nodup ∨ ¬ (i ≤ k ∧ k ≤ l ∧ l ≤ j)) :
    ∃ Q : POp ℂ, rdmeQubT Transform.jordanWigner f [i, k, l, j] N = some ([i, k, l, j], Q) := by
  have e : ∀ a b c d : ℕ, opWord 2 [a, b, c, d] = [(a, .cr), (b, .cr), (c, .an), (d, .an)] := fun _ _ _ _ => rfl
  have hc : callerInds (opWord 2 [i, k, l, j]) = [i, k, l, j] := by
    rw [C63_unchanged_partial, e]
    · rfl
    · rw [e]
      rcases h with h | h
      · left; exact h
      · right
        intro hp
        simp only [List.pairwise_cons, List.mem_cons, List.not_mem_nil, or_false, forall_eq_or_imp, forall_eq] at hp
        exact h ⟨hp.1.1, hp.2.1.1, hp.2.2.1⟩
  obtain ⟨r1, g1, _, n1⟩ := generate_spec (half f.real + half f.imag : ℂ) (opWord 2 [i, k, l, j]) N (by rw [e]; intro x hx; simp at hx; rcases hx with rfl | rfl | rfl | rfl <;> simp)
  obtain ⟨r2, g2, _, n2⟩ := generate_spec (half f.real - half f.imag : ℂ) (opWord 2 [j, l, k, i]) N (by rw [e]; intro x hx; simp at hx; rcases hx with rfl | rfl | rfl | rfl <;> simp)
  have n1 := n1 (by rw [e]; intro x hx; simp at hx; rcases hx with rfl | rfl | rfl | rfl <;> assumption)
  have n2 := n2 (by rw [e]; intro x hx; simp at hx; rcases hx with rfl | rfl | rfl | rfl <;> assumption)
  have hA : rdmeOp f [i, k, l, j] N = some ([i, k, l, j], OpD.addStr (OpD.addStr [] r1) r2) := by
    unfold rdmeOp
    rw [if_pos (by rcases hf with h | h <;> simp [h])]
    have h2 : [i, k, l, j].length / 2 = 2 := by simp
    simp only [h2]
    rw [if_neg (by simp), g1]
    simp only [Option.bind_some]
    rw [hc, if_neg (by simp)]
    have : [i, k, l, j].reverse = [j, l, k, i] := rfl
    rw [this, g2]
    rfl
  obtain ⟨Q, _, hQ, _⟩ := Transform.transform_error Transform.jordanWigner (denF 0) Transform.jw_spec (OpD.addStr (OpD.addStr [] r1) r2) N (by
    intro u hu
    have := List.mem_map_of_mem (f := (·.1)) hu
    have hA' : OpD.addStr (OpD.addStr [] r1) r2 = [r1, r2].foldl OpD.addStr [] := rfl
    rw [hA', OpD.mem_keys_foldl_addStr] at this
    simp only [List.map_nil, List.not_mem_nil, List.map_cons, List.mem_cons, or_false, false_or] at this
    rcases this with h | h <;> rw [h] <;> assumption)
  exact ⟨Q, by unfold rdmeQubT; rw [hA]; simp [hQ]⟩

/-- **C146.**  The elements of a 2-RDM can all be built exactly if no beta qubit lies between two alpha qubits. -/
theorem C146_accepted (f : Flags) (hf : f.real = true ∨ f.imag = true) (alp bet : List ℕ) (hd : ∀ x ∈ alp, x ∉ bet) (N : ℕ)
    (hN : ∀ x ∈ alp ++ bet, x < N) :
    ((rdme 2 f alp bet).mapM fun ind => (rdmeQubT Transform.jordanWigner f ind N : Option (List ℕ × POp ℂ))).isSome = true ↔
      ¬ ∃ i ∈ alp, ∃ j ∈ alp, ∃ k ∈ bet, i < k ∧ k < j := by
  constructor
  · rintro h ⟨i, hi, j, hj, k, hk, h1, h2⟩
    have hpos : 0 < alp.length := List.length_pos_of_mem hi
    have hm : [i, k, k, j] ∈ rdme 2 f alp bet := (mem_rdme2_lists f alp bet _).mpr
      ⟨i, k, k, j, rfl, Or.inr (Or.inr ⟨hi, hk, hk, hj⟩), by nlinarith, fun e => by nlinarith [e.2]⟩
    rw [mapM_eq_none _ _ _ hm (by unfold rdmeQubT; rw [rdmeOp_between f i k j N h1 h2]; rfl)] at h
    exact absurd h (by simp)
  · intro h
    have hall : ∀ x ∈ rdme 2 f alp bet, ∃ Q : POp ℂ, rdmeQubT Transform.jordanWigner f x N = some (x, Q) := by
      intro x hx
      obtain ⟨i, k, l, j, rfl, hm, _, _⟩ := (mem_rdme2_lists f alp bet x).mp hx
      have key : ∀ y, y ∈ alp ∨ y ∈ bet → y < N := fun y hy => hN y (List.mem_append.mpr hy)
      rcases hm with ⟨⟨a1, a2, a3, a4⟩, h1, h2⟩ | ⟨⟨a1, a2, a3, a4⟩, h1, h2⟩ | ⟨a1, a2, a3, a4⟩
      · exact rdmeQub_some f hf i k l j N (key _ (.inl a1)) (key _ (.inl a2)) (key _ (.inl a3)) (key _ (.inl a4)) (Or.inr (by omega))
      · exact rdmeQub_some f hf i k l j N (key _ (.inr a1)) (key _ (.inr a2)) (key _ (.inr a3)) (key _ (.inr a4)) (Or.inr (by omega))
      · refine rdmeQub_some f hf i k l j N (key _ (.inl a1)) (key _ (.inr a2)) (key _ (.inr a3)) (key _ (.inl a4)) ?_
        have e1 : i ≠ k := fun e => hd i a1 (e ▸ a2)
        have e2 : i ≠ l := fun e => hd i a1 (e ▸ a3)
        have e3 : j ≠ k := fun e => hd j a4 (e ▸ a2)
        have e4 : j ≠ l := fun e => hd j a4 (e ▸ a3)
        by_cases ho : i ≤ k ∧ k ≤ l ∧ l ≤ j
        · left
          have hkl : k ≠ l := by
            rintro rfl
            exact h ⟨i, a1, j, a4, k, a2, by omega, by omega⟩
          simp only [List.nodup_cons, List.mem_cons, List.not_mem_nil, or_false, not_or, List.nodup_nil, and_true, not_false_eq_true]
          omega
        · exact Or.inr ho
    choose! Q hQ using hall
    rw [mapM_eq_map _ _ (fun x => (x, Q x)) hQ]
    rfl

/-- **C146 is violated for the interleaved order**: with `rdm_to_qubit='alternating'` and two or more spatial orbitals, tomography of order 2 raises
for every transform, choice of parts, colouring and state. -/
theorem C146_alternating_fails (T : Term FStr ℂ → Option (POp ℂ)) (f : Flags) (no : ℕ) (hno : 2 ≤ no) (col : List PStr → ℕ → ℕ) (prep : Cfg → ℂ) :
    StateTomo.runT T 2 f (groups no .alternating).1 (groups no .alternating).2 col prep = none := by
  have hm : [0, 1, 1, 2] ∈ rdme 2 f (groups no .alternating).1 (groups no .alternating).2 := by
    refine (mem_rdme2_lists f _ _ _).mpr ⟨0, 1, 1, 2, rfl, Or.inr (Or.inr ?_), ?_, ?_⟩
    · simp only [groups, alternatingOrbs, List.mem_map, List.mem_range]
      exact ⟨⟨0, by omega, rfl⟩, ⟨0, by omega, rfl⟩, ⟨0, by omega, rfl⟩, ⟨1, by omega, rfl⟩⟩
    · omega
    · have : (groups no .alternating).1.length = no := by simp [groups, alternatingOrbs]
      rw [this]; omega
  unfold StateTomo.runT
  simp only
  rw [mapM_eq_none _ _ _ hm (by unfold rdmeQubT; rw [rdmeOp_between f 0 1 2 _ (by decide) (by decide)]; rfl)]
  rfl

/-- **C146, the energy with the interleaved order**: none is ever returned. -/
theorem C146_alternating_energy_fails (no na nb : ℕ) (hno : 2 ≤ no) (col : List PStr → ℕ → ℕ) (h1 : Fin (2 * no) → Fin (2 * no) → ℂ)
    (V : Fin (2 * no) → Fin (2 * no) → Fin (2 * no) → Fin (2 * no) → ℂ) (enc : ℝ) : energy no na nb .alternating col h1 V enc = none := by
  unfold energy
  apply Option.bind_eq_none_iff.mpr
  intro prep _
  have := C146_alternating_fails Transform.jordanWigner ⟨true, false⟩ no hno col prep
  unfold StateTomo.run
  rw [this]
  rfl

/-! ### Reordered blocks -/

theorem nodup_rdme2_lists (f : Flags) (alp bet : List ℕ) (ha : alp.Nodup) (hb : bet.Nodup) (hd : ∀ x ∈ alp, x ∉ bet) : (rdme2 f alp bet).Nodup := by
  unfold rdme2
  refine List.Nodup.append (List.Nodup.append (nodup_block2 f _ _ ha) (nodup_block2 f _ _ hb) ?_) (nodup_blockAB f _ _ _ ha hb) ?_
  · intro x hx hx'
    simp only [block2, List.mem_flatMap, List.mem_ite_nil_left, List.mem_singleton] at hx hx'
    obtain ⟨i, hi, k, hk, _, l, hl, j, hj, _, _, rfl⟩ := hx
    obtain ⟨i', hi', k', hk', _, l', hl', j', hj', _, _, e⟩ := hx'
    simp only [List.cons.injEq] at e
    exact hd i hi (e.1 ▸ hi')
  · intro x hx hx'
    simp only [block2, blockAB, List.mem_append, List.mem_flatMap, List.mem_ite_nil_left, List.mem_singleton] at hx hx'
    obtain ⟨i', hi', k', hk', l', hl', j', hj', _, _, e⟩ := hx'
    rcases hx with ⟨i, hi, k, hk, _, l, hl, j, hj, _, _, rfl⟩ | ⟨i, hi, k, hk, _, l, hl, j, hj, _, _, rfl⟩
    · simp only [List.cons.injEq] at e
      exact hd k hk (e.2.1 ▸ hk')
    · simp only [List.cons.injEq] at e
      exact hd i' hi' (e.1 ▸ hi)

/-- Reordering within the alpha and within the beta block does not change the set of elements. -/
theorem rdme2_perm (f : Flags) (no : ℕ) (alp bet : List ℕ) (ha : alp.Perm (alpha no)) (hb : bet.Perm (beta no no)) :
    (rdme 2 f alp bet).Perm (rdme 2 f (alpha no) (beta no no)) := by
  have hd : ∀ x ∈ alp, x ∉ bet := fun x h1 h2 => by
    have := (mem_alpha _ _).mp (ha.mem_iff.mp h1)
    have := (mem_beta _ _ _).mp (hb.mem_iff.mp h2)
    omega
  refine (List.perm_ext_iff_of_nodup (nodup_rdme2_lists f alp bet (ha.nodup_iff.mpr (nodup_alpha _)) (hb.nodup_iff.mpr (nodup_beta _ _)) hd)
    (nodup_rdme2 f no no)).mpr fun x => ?_
  rw [mem_rdme2_lists, mem_rdme2_lists, ha.length_eq]
  simp only [ha.mem_iff, hb.mem_iff]

theorem unique_perm (f : Flags) (no : ℕ) (alp bet : List ℕ) (ha : alp.Perm (alpha no)) (hb : bet.Perm (beta no no)) :
    ListsUnique 2 no (2 * no) f.skipDiag (rdme 2 f alp bet) := by
  have h := C27_order2_partial f no no le_rfl
  rw [← two_mul] at h
  have hp := rdme2_perm f no alp bet ha hb
  refine ⟨fun x hx => h.1 x (hp.mem_iff.mp hx), fun c a hc hA hn => ?_⟩
  rw [hp.count_eq, hp.count_eq]
  exact h.2 c a hc hA hn

/-- **C146, tomography with reordered blocks, partial.**  If the alpha spin orbitals are assigned to the first `no` qubits and the beta spin orbitals to the
others, in any order, the tensor holds the expectation values of the state by *qubit* label.  Missing: alpha qubits that are not the first ones. -/
theorem C146_reordered_partial (f : Flags) (hf : f.real = true ∨ f.imag = true) (no : ℕ) (alp bet : List ℕ) (ha : alp.Perm (alpha no))
    (hb : bet.Perm (beta no no)) (hL0 : rdme 2 f alp bet ≠ []) (col : List PStr → ℕ → ℕ) (hcol : ColouringOK col) (ψ : Cfg →₀ ℂ) (h1 : pair ψ ψ = 1)
    (hreg : ∀ b, ψ b ≠ 0 → ∀ i, 2 * no ≤ i → b i = false) (n : ℤ) (hs : Sector no n ψ) :
    ∃ D, StateTomo.run 2 f (groups no (.custom alp bet)).1 (groups no (.custom alp bet)).2 col ψ = some D ∧
      ∀ a b c d, a < 2 * no → b < 2 * no → c < 2 * no → d < 2 * no →
        ‖D [a, b, c, d] - target f ψ [a, b] [c, d]‖ ≤ 2 ^ (2 * no) * 1e-28 := by
  obtain ⟨D, h2, h3⟩ := statevector_of_unique 2 f hf (Or.inl rfl) no (2 * no) alp bet (by rw [ha.length_eq, hb.length_eq]; simp [alpha, beta]; omega)
    (unique_perm f no alp bet ha hb) hL0 col hcol ψ h1 hreg n hs
  exact ⟨D, h2, fun a b c d q1 q2 q3 q4 => h3 [a, b] [c, d] rfl rfl (by simp [q1, q2]) (by simp [q3, q4])⟩

/-! ### The energy of the reference -/

theorem occAlpha_occ (l : List ℕ) (hl : l.Nodup) (M : ℕ) : occAlpha M (Props.occ l) = (l.filter (· < M)).length := by
  induction M with
  | zero => simp [occAlpha]
  | succ M ih =>
    rw [occAlpha_succ, ih]
    have e : (l.filter (· < M + 1)).length = (l.filter (· < M)).length + l.count M := by
      clear ih hl
      induction l with
      | nil => rfl
      | cons a l ih =>
        rw [List.filter_cons, List.filter_cons, List.count_cons]
        by_cases h1 : a < M
        · rw [if_pos (by simp; omega), if_pos (by simpa using h1), if_neg (by simp; omega)]
          simp only [List.length_cons]; omega
        · by_cases h2 : a = M
          · rw [if_pos (by simp; omega), if_neg (by simpa using h1), if_pos (by simp [h2])]
            simp only [List.length_cons]; omega
          · rw [if_neg (by simp; omega), if_neg (by simpa using h1), if_neg (by simp [h2])]
            omega
    rw [e]
    congr 1
    unfold Props.occ
    by_cases h : M ∈ l
    · rw [if_pos (by simpa using h), List.count_eq_one_of_mem hl h]
    · rw [if_neg (by simpa using h), List.count_eq_zero_of_not_mem h]

/-- **C146, the energy of the reference, partial.**  With reordered blocks the energy is, up to the error of the backend, that of the determinant whose
spin orbitals *with the numbers of the occupied qubits* are occupied: the first `na` entries of the alpha list and the first `nb` of the beta list. -/
theorem C146_energy_partial (no na nb : ℕ) (hno : 0 < no) (hna : na ≤ no) (hnb : nb ≤ no) (hne : na + nb ≠ 1) (alp bet : List ℕ)
    (ha : alp.Perm (alpha no)) (hb : bet.Perm (beta no no)) (col : List PStr → ℕ → ℕ) (hcol : ColouringOK col)
    (h1 : Fin (2 * no) → Fin (2 * no) → ℂ) (V : Fin (2 * no) → Fin (2 * no) → Fin (2 * no) → Fin (2 * no) → ℂ) (hh : ∀ a b, h1 a b = h1 b a)
    (hV : ∀ a b c d, V a b c d = V c d a b) (enc : ℝ) :
    ∃ E : ℝ, energy no na nb (.custom alp bet) col h1 V enc = some E ∧
      |E - ((pair (Finsupp.single (Props.occ (alp.take na ++ bet.take nb)) 1)
          (secondQ h1 V (ket (Props.occ (alp.take na ++ bet.take nb))))).re + enc)|
        ≤ 2 ^ (2 * no) * 1e-28 * ∑ a, ∑ b, ∑ c, ∑ e, ‖k2 h1 V ((na + nb : ℕ) : ℂ) a b c e‖ := by
  classical
  have la : alp.length = no := by rw [ha.length_eq]; simp [alpha]
  have lb : bet.length = no := by rw [hb.length_eq]; simp [beta]
  have ma : ∀ x ∈ alp, x < no := fun x hx => (mem_alpha _ _).mp (ha.mem_iff.mp hx)
  have mb : ∀ x ∈ bet, no ≤ x ∧ x < no + no := fun x hx => (mem_beta _ _ _).mp (hb.mem_iff.mp hx)
  set l := alp.take na ++ bet.take nb with hl
  have hnd : l.Nodup := by
    refine List.Nodup.append ((ha.nodup_iff.mpr (nodup_alpha _)).sublist (List.take_sublist _ _))
      ((hb.nodup_iff.mpr (nodup_beta _ _)).sublist (List.take_sublist _ _)) ?_
    intro x hx hx'
    have := ma x (List.mem_of_mem_take hx)
    have := mb x (List.mem_of_mem_take hx')
    omega
  have hlt : ∀ k ∈ l, k < 2 * no := by
    intro k hk
    rcases List.mem_append.mp hk with h | h
    · have := ma k (List.mem_of_mem_take h); omega
    · have := mb k (List.mem_of_mem_take h); omega
  have hinit : initial alp bet na nb = some l := by
    unfold initial
    rw [mapM_occ _ _ (by omega), mapM_occ _ _ (by omega)]
    rfl
  obtain ⟨gs, d, g1, g2, g3⟩ := C78_jordan_wigner (2 * no) l hlt hnd
  have hk : ((Finsupp.single (Props.occ l) 1 : Cfg →₀ ℂ) : Cfg → ℂ) = ket (Props.occ l) := by
    funext b
    rw [Finsupp.single_apply]
    unfold ket
    by_cases hbb : b = Props.occ l
    · rw [if_pos hbb.symm, if_pos hbb]
    · rw [if_neg (Ne.symm hbb), if_neg hbb]
  have hsec : InSec no (2 * no) na (na + nb) (Props.occ l) := by
    refine ⟨?_, ?_, fun i hi => ?_⟩
    · rw [occAlpha_occ l hnd, hl, List.filter_append, List.filter_eq_self.mpr (by
        intro x hx; have := ma x (List.mem_of_mem_take hx); simpa using this), List.filter_eq_nil_iff.mpr (by
        intro x hx; have := mb x (List.mem_of_mem_take hx); simp; omega)]
      simp; omega
    · rw [occAlpha_occ l hnd, List.filter_eq_self.mpr (by intro x hx; have := hlt x hx; simpa using this), hl]
      simp; omega
    · unfold Props.occ
      rw [decide_eq_false_iff_not]
      intro h
      have := hlt i h
      omega
  have hst : state no na nb (.custom alp bet) = some ((d • Finsupp.single (Props.occ l) 1 : Cfg →₀ ℂ) : Cfg → ℂ) := by
    unfold QOrder.state
    show (initial alp bet na nb).bind _ = _
    rw [hinit, Option.bind_some, g1, Option.map_some]
    congr 1
    have hk0 : (fun b : Cfg => if b = (fun _ => false) then (1 : ℂ) else 0) = ket (fun _ => false) := by
      funext b
      unfold ket
      congr 1
    have hk0' := congrArg (fun ψ => (circOp gs) ψ) hk0
    simp only at hk0'
    refine Eq.trans ?_ (hk0'.trans ?_)
    · congr 1
    · rw [g3, ← hk]
      rfl
  obtain ⟨E, hE, hbd⟩ := energy_of_lists alp bet no na nb hne (by omega) (unique_perm ⟨true, false⟩ no alp bet ha hb) (by
      intro h0
      have := (rdme2_perm ⟨true, false⟩ no alp bet ha hb).length_eq
      rw [h0] at this
      exact rdme2_ne no hno (List.eq_nil_of_length_eq_zero this.symm)) col hcol h1 V hh hV enc (Finsupp.single (Props.occ l) 1) d g2 (by
      rw [hk]
      unfold pair
      rw [Finsupp.sum_single_index (by simp [conj_zero])]
      simp [ket, conj_one]) (by
      rw [hk]
      intro b hb0
      unfold ket at hb0
      split at hb0
      · rename_i h; rw [h]; exact hsec
      · exact absurd rfl hb0) (by
      rw [hk]
      intro b
      unfold ket
      split
      · exact conj_one
      · exact conj_zero)
  refine ⟨E, ?_, ?_⟩
  · unfold QOrder.energy
    rw [hst, Option.bind_some]
    exact hE
  · rw [← hk]
    exact hbd


/-! ### Orbital energies -/

theorem number_ket (a : ℕ) (b : Cfg) : (cre a * ann a : Oper ℂ) (ket b) b = if b a then 1 else 0 := by
  rw [Module.End.mul_apply]
  show (if b a then fsign b a * (ann a (ket b)) (Function.update b a false) else 0) = _
  split
  · rename_i h
    show fsign b a * (if Function.update b a false a then 0 else
      fsign (Function.update b a false) a * ket b (Function.update (Function.update b a false) a true)) = 1
    have e : Function.update (Function.update b a false) a true = b := by
      rw [Function.update_idem, ← h, Function.update_eq_self]
    have e2 : (fsign (Function.update b a false) a : ℂ) = fsign b a := by
      unfold fsign
      congr 2
      apply Finset.filter_congr
      intro x hx
      rw [Function.update_of_ne (by have := Finset.mem_range.mp hx; omega)]
    rw [e, e2]
    simp only [Function.update_self, Bool.false_eq_true, if_false]
    unfold ket
    rw [if_pos rfl, mul_one]
    unfold fsign
    rw [← pow_add, ← two_mul, pow_mul]
    simp
  · rfl

theorem diag_expect (r : ℕ) (e : Fin r → ℝ) (b : Cfg) :
    pair (Finsupp.single b 1) (secondQ (fun p q : Fin r => if p = q then ((e p : ℝ) : ℂ) else 0) (fun _ _ _ _ => 0) (ket b)) =
      ∑ p : Fin r, if b p.val then ((e p : ℝ) : ℂ) else 0 := by
  unfold pair
  rw [Finsupp.sum_single_index (by simp [conj_zero])]
  unfold secondQ
  simp only [mul_zero, zero_smul, Finset.sum_const_zero, add_zero, conj_one, one_mul, ite_smul, Finset.sum_ite_eq, Finset.mem_univ, if_true]
  rw [LinearMap.sum_apply, Finset.sum_apply]
  refine Finset.sum_congr rfl fun p _ => ?_
  rw [LinearMap.smul_apply, Pi.smul_apply, number_ket, smul_eq_mul]
  split <;> simp

/-- **C146, orbital energies, partial.**  Without interaction the energy of the reference is the sum of the orbital energies *at the numbers of the
occupied qubits*, up to the error of the backend.  An assignment that is only a relabelling would give the sum over the first `na` alpha and the
first `nb` beta orbitals. -/
theorem C146_orbital_energies_partial (no na nb : ℕ) (hno : 0 < no) (hna : na ≤ no) (hnb : nb ≤ no) (hne : na + nb ≠ 1) (alp bet : List ℕ)
    (ha : alp.Perm (alpha no)) (hb : bet.Perm (beta no no)) (col : List PStr → ℕ → ℕ) (hcol : ColouringOK col) (e : Fin (2 * no) → ℝ) (enc : ℝ) :
    ∃ E : ℝ, energy no na nb (.custom alp bet) col (fun p q => if p = q then ((e p : ℝ) : ℂ) else 0) (fun _ _ _ _ => 0) enc = some E ∧
      |E - ((∑ p : Fin (2 * no), if p.val ∈ alp.take na ++ bet.take nb then e p else 0) + enc)|
        ≤ 2 ^ (2 * no) * 1e-28 * ∑ a, ∑ b, ∑ c, ∑ d, ‖k2 (fun p q : Fin (2 * no) => if p = q then ((e p : ℝ) : ℂ) else 0) (fun _ _ _ _ => 0) ((na + nb : ℕ) : ℂ) a b c d‖ := by
  obtain ⟨E, h1, h2⟩ := C146_energy_partial no na nb hno hna hnb hne alp bet ha hb col hcol
    (fun p q => if p = q then ((e p : ℝ) : ℂ) else 0) (fun _ _ _ _ => 0)
    (fun a b => by by_cases h : a = b <;> simp [h, eq_comm]) (fun _ _ _ _ => rfl) enc
  refine ⟨E, h1, ?_⟩
  rw [diag_expect] at h2
  have : (∑ p : Fin (2 * no), if Props.occ (alp.take na ++ bet.take nb) p.val then ((e p : ℝ) : ℂ) else 0).re =
      ∑ p : Fin (2 * no), if p.val ∈ alp.take na ++ bet.take nb then e p else 0 := by
    rw [Complex.re_sum]
    refine Finset.sum_congr rfl fun p _ => ?_
    unfold Props.occ
    by_cases h : p.val ∈ alp.take na ++ bet.take nb
    · rw [if_pos (by simpa using h), if_pos h, Complex.ofReal_re]
    · rw [if_neg (by simpa using h), if_neg h, Complex.zero_re]
  rw [this] at h2
  exact h2

/-- **C146 is violated for the energy**: two spatial orbitals, one electron of each spin, orbital energy 1 for the second alpha orbital and 0
otherwise, no interaction.  The reference has energy 0.  With the qubits of the two alpha orbitals exchanged, `rdm_to_qubit=[[1,0],[2,3]]`,
the program computes 1. -/
theorem C146_energy_fails (col : List PStr → ℕ → ℕ) (hcol : ColouringOK col) :
    ∃ (e : Fin (2 * 2) → ℝ) (E E' : ℝ),
      energy 2 1 1 (.custom [0, 1] [2, 3]) col (fun p q => if p = q then ((e p : ℝ) : ℂ) else 0) (fun _ _ _ _ => 0) 0 = some E ∧
      energy 2 1 1 (.custom [1, 0] [2, 3]) col (fun p q => if p = q then ((e p : ℝ) : ℂ) else 0) (fun _ _ _ _ => 0) 0 = some E' ∧
      |E| ≤ 1e-20 ∧ |E' - 1| ≤ 1e-20 := by
  set e : Fin (2 * 2) → ℝ := fun p => if p.val = 1 then 1 else 0 with he
  obtain ⟨E, h1, h2⟩ := C146_orbital_energies_partial 2 1 1 (by omega) (by omega) (by omega) (by omega) [0, 1] [2, 3] (by decide) (by decide) col hcol e 0
  obtain ⟨E', h3, h4⟩ := C146_orbital_energies_partial 2 1 1 (by omega) (by omega) (by omega) (by omega) [1, 0] [2, 3] (by decide) (by decide) col hcol e 0
  have hk : ∀ a b c d : Fin (2 * 2), ‖k2 (fun p q : Fin (2 * 2) => if p = q then ((e p : ℝ) : ℂ) else 0) (fun _ _ _ _ => 0) ((1 + 1 : ℕ) : ℂ) a b c d‖ ≤ 64 := by
    intro a b c d
    unfold k2
    rw [zero_mul, zero_add]
    have hq : ∀ i j : Fin (2 * 2), ‖(if i = j then ((e i : ℝ) : ℂ) else 0) / (4 * (((1 + 1 : ℕ) : ℂ) - 1))‖ ≤ 1 / 4 := by
      intro i j
      rw [norm_div]
      have hd : ‖(4 * (((1 + 1 : ℕ) : ℂ) - 1))‖ = 4 := by norm_num
      rw [hd]
      have : ‖(if i = j then ((e i : ℝ) : ℂ) else 0)‖ ≤ 1 := by
        split
        · rw [Complex.norm_real, he]
          simp only
          split <;> norm_num
        · simp
      linarith
    refine (norm_sum_le_of_le (s := Finset.univ) (n := fun _ => (16 : ℝ)) fun i _ => ?_).trans (by simp; norm_num)
    refine (norm_sum_le_of_le (s := Finset.univ) (n := fun _ => (4 : ℝ)) fun j _ => ?_).trans (by simp; norm_num)
    refine (norm_sum_le_of_le (s := Finset.univ) (n := fun _ => (1 : ℝ)) fun k _ => ?_).trans (by simp)
    have hi : ∀ (P : Prop) [Decidable P] (z : ℂ), ‖z‖ ≤ 1 / 4 → ‖if P then z else 0‖ ≤ 1 / 4 := by
      intro P _ z hz
      split
      · exact hz
      · simp
    have q := hq i j
    have q' : ‖-((if i = j then ((e i : ℝ) : ℂ) else 0) / (4 * (((1 + 1 : ℕ) : ℂ) - 1)))‖ ≤ 1 / 4 := by rw [norm_neg]; exact q
    refine (norm_add₄_le).trans ?_
    have a1 := hi ((a, b, c, d) = (i, k, j, k)) _ q
    have a2 := hi ((a, b, c, d) = (k, i, k, j)) _ q
    have a3 := hi ((a, b, c, d) = (i, k, k, j)) _ q'
    have a4 := hi ((a, b, c, d) = (k, i, j, k)) _ q'
    linarith
  have hs : ∑ a, ∑ b, ∑ c, ∑ d, ‖k2 (fun p q : Fin (2 * 2) => if p = q then ((e p : ℝ) : ℂ) else 0) (fun _ _ _ _ => 0) ((1 + 1 : ℕ) : ℂ) a b c d‖ ≤ 16384 := by
    refine (Finset.sum_le_sum fun a _ => Finset.sum_le_sum fun b _ => Finset.sum_le_sum fun c _ => Finset.sum_le_sum fun d _ => hk a b c d).trans ?_
    simp
    norm_num
  refine ⟨e, E, E', h1, h3, ?_, ?_⟩
  · have hz : (∑ p : Fin (2 * 2), if p.val ∈ [0, 1].take 1 ++ [2, 3].take 1 then e p else 0) = 0 := by
      refine Finset.sum_eq_zero fun p _ => ?_
      rw [he]
      fin_cases p <;> simp
    rw [hz] at h2
    simp only [add_zero, sub_zero] at h2
    refine h2.trans ?_
    exact (mul_le_mul_of_nonneg_left hs (by norm_num)).trans (by norm_num)
  · have hz : (∑ p : Fin (2 * 2), if p.val ∈ [1, 0].take 1 ++ [2, 3].take 1 then e p else 0) = 1 := by
      rw [he]
      rw [show (2 * 2 : ℕ) = 4 from rfl, Fin.sum_univ_four]
      simp
    rw [hz] at h4
    simp only [add_zero] at h4
    refine h4.trans ?_
    exact (mul_le_mul_of_nonneg_left hs (by norm_num)).trans (by norm_num)

/-- Cases meeting the hypotheses: the default order is accepted, the interleaved one is not, and neither is an alpha block around the beta block. -/
example : ¬ ∃ i ∈ (groups 2 .default).1, ∃ j ∈ (groups 2 .default).1, ∃ k ∈ (groups 2 .default).2, i < k ∧ k < j := by decide
example : ∃ i ∈ (groups 2 .alternating).1, ∃ j ∈ (groups 2 .alternating).1, ∃ k ∈ (groups 2 .alternating).2, i < k ∧ k < j := by decide
example : ∃ i ∈ [0, 3], ∃ j ∈ [0, 3], ∃ k ∈ [1, 2], i < k ∧ k < j := by decide
example : ¬ ∃ i ∈ [2, 3], ∃ j ∈ [2, 3], ∃ k ∈ [0, 1], i < k ∧ k < j := by decide
example : [1, 0].Perm (alpha 2) ∧ [2, 3].Perm (beta 2 2) ∧ ColouringOK GraphColour.dfltCol := ⟨by decide, by decide, colouring_default⟩

end
end Props
end HQCA
