import Verif.Model.Separable
import Verif.Props.Collect
import Verif.Props.AnsatzCircuit

/-!
# C145: the Hamiltonian split into parts

A user splits the qubit Hamiltonian into groups of strings, usually commuting ones, and hands the list to the quantum solver.
-/

namespace HQCA
namespace Props
open Separable Filter Topology Instr Collect
noncomputable section

theorem part_eq (H : OpD PStr ℂ) (g : List PStr) :
    part H g = (g.filterMap fun item => H.find? (fun op => op.1 = item)).foldl OpD.addStr [] := by
  unfold part
  generalize ([] : OpD PStr ℂ) = A
  induction g generalizing A with
  | nil => rfl
  | cons x g ih =>
    rw [List.foldl_cons, ih, List.filterMap_cons]
    cases h : H.find? (fun op => op.1 = x) with
    | none => rfl
    | some op => rfl

/-- A sum over the strings of a group that are found is the sum over the Hamiltonian with multiplicities. -/
theorem sum_found {M : Type} [AddCommMonoid M] (f : PStr × ℂ → M) (H : OpD PStr ℂ) (hu : UniqueKeys H) (g : List PStr) :
    ((g.filterMap fun item => H.find? (fun op => op.1 = item)).map f).sum = (H.map fun t => g.count t.1 • f t).sum := by
  induction g with
  | nil => simp
  | cons x g ih =>
    have e : (H.map fun t => (x :: g).count t.1 • f t).sum
        = (H.map fun t => if t.1 = x then f t else 0).sum + (H.map fun t => g.count t.1 • f t).sum := by
      rw [← List.sum_map_add]
      refine congrArg List.sum (List.map_congr_left fun t _ => ?_)
      rw [List.count_cons, add_smul, add_comm]
      by_cases h : t.1 = x
      · simp [h]
      · have h' : ¬ x = t.1 := fun h2 => h h2.symm
        simp [h, h']
    rw [e, ← ih, List.filterMap_cons]
    have k : (H.map fun t => if t.1 = x then f t else 0).sum
        = ((H.find? (fun op => op.1 = x)).map f).getD 0 := by
      clear e ih
      induction H with
      | nil => simp
      | cons t H ih =>
        have hu' : UniqueKeys H := by
          unfold UniqueKeys at hu ⊢
          exact (List.nodup_cons.mp hu).2
        rw [List.map_cons, List.sum_cons, List.find?_cons]
        by_cases h : t.1 = x
        · have hz : (H.map fun t => if t.1 = x then f t else 0).sum = 0 := by
            refine List.sum_eq_zero fun y hy => ?_
            obtain ⟨u, u1, rfl⟩ := List.mem_map.mp hy
            rw [if_neg]
            intro hx
            unfold UniqueKeys at hu
            rw [List.map_cons, List.nodup_cons] at hu
            exact hu.1 (List.mem_map.mpr ⟨u, u1, by rw [hx, h]⟩)
          rw [hz]
          simp [h]
        · rw [ih hu']
          simp [h]
    rw [k]
    cases H.find? (fun op => op.1 = x) with
    | none => simp
    | some op => simp

/-- **C145, one part.**  The operator of a group has, for every string, the coefficient of the Hamiltonian as many times as the group names it. -/
theorem C145_coefficients (H : OpD PStr ℂ) (hu : UniqueKeys H) (g : List PStr) (s : PStr) :
    coef (part H g) s = g.count s * coef H s ∧ UniqueKeys (part H g) := by
  rw [part_eq]
  refine ⟨?_, OpD.foldl_addStr_unique _ _ OpD.uniqueKeys_nil⟩
  have e : (coef ([] : OpD PStr ℂ) s) = 0 := rfl
  rw [OpD.coef_foldl_addStr _ _ OpD.uniqueKeys_nil, e, zero_add, OpD.coef_eq_sum, OpD.coef_eq_sum H]
  have h := sum_found (fun t : PStr × ℂ => if t.1 = s then t.2 else 0) H hu g
  rw [h, ← List.sum_map_mul_left]
  refine congrArg List.sum (List.map_congr_left fun t _ => ?_)
  by_cases h : t.1 = s
  · simp [h]
  · simp [h]

/-- **C145, all parts.**  For every Hamiltonian and every grouping the parts add up to the Hamiltonian in which each string is weighted with the number of times
the groups name it. -/
theorem C145_total (H : OpD PStr ℂ) (hu : UniqueKeys H) (o : String) (ho : o ∈ ["given", "specified", "default"]) (gs : List (List PStr)) :
    ((separate H o gs).map denPO).sum = (H.map fun t => ((gs.flatten.count t.1 : ℂ) * t.2) • (denP 0 t.1 : Oper ℂ)).sum := by
  have hp : ∀ g, denPO (part H g) = (H.map fun t => ((g.count t.1 : ℂ) * t.2) • (denP 0 t.1 : Oper ℂ)).sum := by
    intro g
    have h := sum_found (fun t : PStr × ℂ => t.2 • (denP 0 t.1 : Oper ℂ)) H hu g
    have e : denPO (part H g) = ((g.filterMap fun item => H.find? (fun op => op.1 = item)).map
        fun t : PStr × ℂ => t.2 • (denP 0 t.1 : Oper ℂ)).sum := by
      rw [part_eq]
      unfold denPO
      rw [OpD.denD_foldl_addStr _ _ _ OpD.uniqueKeys_nil, OpD.denD_nil, zero_add]
      rfl
    rw [e, h]
    refine congrArg List.sum (List.map_congr_left fun t _ => ?_)
    rw [← Nat.cast_smul_eq_nsmul ℂ, smul_smul]
  unfold separate
  rw [if_pos ho, List.map_map]
  induction gs with
  | nil => simp
  | cons g gs ih =>
    rw [List.map_cons, List.sum_cons, ih, Function.comp, hp, ← List.sum_map_add]
    refine congrArg List.sum (List.map_congr_left fun t _ => ?_)
    rw [List.flatten_cons, List.count_append, ← add_smul, ← add_mul]
    push_cast
    rfl

/-- **C145.**  When the groups together name every string of the Hamiltonian once, the parts add up to it. -/
theorem C145_partition (H : OpD PStr ℂ) (hu : UniqueKeys H) (o : String) (ho : o ∈ ["given", "specified", "default"]) (gs : List (List PStr))
    (hg : ∀ s ∈ H.map (·.1), gs.flatten.count s = 1) : ((separate H o gs).map denPO).sum = denPO H := by
  rw [C145_total H hu o ho gs]
  unfold denPO denD
  refine congrArg List.sum (List.map_congr_left fun t ht => ?_)
  rw [hg t.1 (List.mem_map.mpr ⟨t, ht, rfl⟩)]
  simp

theorem solve_eq {r : ℕ} (run : OpD PStr ℂ → Fin r → Fin r → Fin r → Fin r → ℂ) (Hs : List (OpD PStr ℂ)) (hne : Hs ≠ []) :
    solve run Hs = some fun i k j l => (Hs.map fun h => run h i k j l).sum := by
  cases Hs with
  | nil => exact absurd rfl hne
  | cons h t =>
    have key : ∀ (t : List (OpD PStr ℂ)) (A : Fin r → Fin r → Fin r → Fin r → ℂ),
        t.foldl (fun rdm h i k j l => rdm i k j l + run h i k j l) A = fun i k j l => A i k j l + (t.map fun h => run h i k j l).sum := by
      intro t
      induction t with
      | nil => intro A; funext i k j l; simp
      | cons x t ih =>
        intro A
        rw [List.foldl_cons, ih]
        funext i k j l
        rw [List.map_cons, List.sum_cons, add_assoc]
    show some (t.foldl (fun rdm h i k j l => rdm i k j l + run h i k j l) (run h)) = _
    rw [key]
    rfl

/-- **C145, residual.**  For a Hamiltonian with real coefficients split into at least one group, each string named once, the residual that the quantum solver
collects from the parts tends, as the step tends to zero, to the expectation of the commutator with the whole Hamiltonian. -/
theorem C145_residual {r : ℕ} (H : OpD PStr ℂ) (hu : UniqueKeys H) (hr : ∀ t ∈ H, t.2.im = 0) (o : String)
    (ho : o ∈ ["given", "specified", "default"]) (gs : List (List PStr)) (hne : gs ≠ []) (hg : ∀ s ∈ H.map (·.1), gs.flatten.count s = 1)
    (n : ℕ) (hn : n ≠ 0) (ψ : Cfg →₀ ℂ) (i k j l : Fin r) (hG : (rdm2 (evState ψ) i k j l).im = 0)
    (ψd : List (PStr × ℂ) → ℝ → Cfg →₀ ℂ) (hψ : ∀ H d, (ψd H d : Cfg → ℂ) = circOp (gatesOf (applyH n d H)) ψ) :
    ∃ A : ℝ → Fin r → Fin r → Fin r → Fin r → ℂ,
      (∀ d, solve (fun h => measured d (rdm2 (evState (ψd h d)))) (separate H o gs) = some (A d)) ∧
      Tendsto (fun d => (A d i k j l).re) (𝓝[≠] 0) (𝓝 (pair ψ ((gop i k j l * denPO H - denPO H * gop i k j l : Oper ℂ) ψ)).re) := by
  have hs : separate H o gs ≠ [] := by
    unfold separate
    rw [if_pos ho]
    simpa using hne
  refine ⟨fun d i k j l => ((separate H o gs).map fun h => measured d (rdm2 (evState (ψd h d))) i k j l).sum, fun d => solve_eq _ _ hs, ?_⟩
  have him : ∀ H' ∈ separate H o gs, ∀ t ∈ H', t.2.im = 0 := by
    intro H' hH' t ht
    unfold separate at hH'
    rw [if_pos ho] at hH'
    obtain ⟨g, _, rfl⟩ := List.mem_map.mp hH'
    have h1 := C145_coefficients H hu g t.1
    have h2 := OpD.coef_of_mem _ h1.2 t ht
    rw [h1.1] at h2
    have h3 : (coef H t.1).im = 0 := by
      by_cases hm : t.1 ∈ H.map (·.1)
      · obtain ⟨u, u1, u2⟩ := List.mem_map.mp hm
        rw [← u2, OpD.coef_of_mem H hu u u1]
        exact hr u u1
      · rw [OpD.coef_of_not_mem H _ hm]; rfl
    rw [← h2, Complex.mul_im, h3]
    simp
  have h := C114_parts (separate H o gs) him n hn ψ i k j l hG ψd (fun H' _ => hψ H')
  rw [C145_partition H hu o ho gs hg] at h
  refine h.congr fun d => ?_
  unfold measuredAll
  rw [List.map_map]
  rfl

/-- **C145, commuting groups.**  When the strings of a part commute, the circuit for the part is the exact exponential, up to a global phase, for any number of
Trotter steps: the splitting error inside a group is zero. -/
theorem C145_commuting (H : List (PStr × ℂ)) (hr : ∀ t ∈ H, t.2.im = 0) (hl : ∀ a ∈ H, ∀ b ∈ H, Reduce.commute a.1 b.1 = some true ∧ a.1.length = b.1.length)
    (n : ℕ) (hn : n ≠ 0) (d : ℝ) :
    ∃ ph : ℂ, ‖ph‖ = 1 ∧ IsExp ((Complex.I * d) • denPO H) (ph • circOp (gatesOf (applyH n d H))) := by
  obtain ⟨ph, p1, p2⟩ := gates_eul (applyH n d H)
  refine ⟨ph, p1, ?_⟩
  rw [p2]
  have hm : ∀ g ∈ applyH n d H, ∃ t ∈ H, g.2 = t.1 := by
    intro g hg
    unfold applyH at hg
    obtain ⟨_, _, h2⟩ := List.mem_flatMap.mp hg
    obtain ⟨t, t1, t2⟩ := List.mem_map.mp h2
    exact ⟨t, t1, by rw [← t2]⟩
  have h := isExp_comm_sum (applyH n d H) (by
    intro a ha b hb
    obtain ⟨t, t1, t2⟩ := hm a ha
    obtain ⟨u, u1, u2⟩ := hm b hb
    rw [t2, u2]
    exact (C02_commute_iff t.1 u.1 (hl t t1 u u1).2).mp (hl t t1 u u1).1)
  have e : ((applyH n d H).map fun g => (Complex.I * (g.1 : ℝ)) • (denP 0 g.2 : Oper ℂ)).sum = (Complex.I * d) • denPO H := by
    unfold applyH
    rw [map_sum_flatMap]
    have hnc : (n : ℂ) ≠ 0 := Nat.cast_ne_zero.mpr hn
    have e1 : ∀ L : List (PStr × ℂ), (∀ t ∈ L, t.2.im = 0) →
        ((L.map fun t => ((1 / n * d * t.2.re : ℝ), t.1)).map fun g : ℝ × PStr => (Complex.I * (g.1 : ℝ)) • (denP 0 g.2 : Oper ℂ)).sum
        = (1 / (n : ℂ)) • (Complex.I * d) • denPO L := by
      intro L hL
      induction L with
      | nil => simp [denPO, denD]
      | cons t L ih =>
        have ht : ((t.2.re : ℝ) : ℂ) = t.2 := Complex.ext (by simp) (by simp [hL t (by simp)])
        have hd : denPO (t :: L) = t.2 • (denP 0 t.1 : Oper ℂ) + denPO L := OpD.denD_cons _ _ _
        simp only [List.map_cons, List.sum_cons]
        rw [ih fun u hu => hL u (by simp [hu]), hd, smul_add, smul_add, smul_smul, smul_smul, smul_smul]
        congr 2
        push_cast
        rw [ht]
        ring
    rw [e1 H hr]
    simp only [List.map_const', List.length_range, List.sum_replicate]
    rw [← Nat.cast_smul_eq_nsmul ℂ, smul_smul, mul_one_div_cancel hnc, one_smul]
  rw [e] at h
  exact h

/-- **C145 is violated.**  The call with its default arguments leaves an empty list, as does every ordering other than the three; the solver then raises
instead of using the Hamiltonian. -/
theorem C145_default_fails {r : ℕ} (H : OpD PStr ℂ) (run : OpD PStr ℂ → Fin r → Fin r → Fin r → Fin r → ℂ) :
    separate H = [] ∧ (∀ o, o ∉ ["given", "specified", "default"] → ∀ gs, separate H o gs = []) ∧ solve run (separate H) = none := by
  have h : separate H = [] := by simp [separate]
  refine ⟨h, fun o ho gs => ?_, by rw [h]; rfl⟩
  unfold separate
  rw [if_neg ho]

/-- **C145 is violated.**  Strings left out or named twice are not reported: the parts of `Z` grouped as `[["X"]]` add up to nothing, grouped as
`[["Z"], ["Z"]]` to twice the Hamiltonian. -/
theorem C145_unchecked_fails :
    ((separate [([.Z], (1 : ℂ))] "given" [[[.X]]]).map denPO).sum = 0 ∧
    ((separate [([.Z], (1 : ℂ))] "given" [[[.Z]], [[.Z]]]).map denPO).sum = (2 : ℂ) • denPO [([.Z], (1 : ℂ))] ∧
    denPO [([PL.Z], (1 : ℂ))] ≠ 0 := by
  refine ⟨?_, ?_, ?_⟩
  · rw [C145_total _ (by decide) _ (by simp)]
    simp
  · rw [C145_total _ (by decide) _ (by simp)]
    simp [denPO, denD]
  · intro h
    have h2 := congrArg (fun X : Oper ℂ => X * X) h
    have h3 : denPO [([PL.Z], (1 : ℂ))] = denP 0 [PL.Z] := by simp [denPO, denD]
    simp only [h3, denP_sq, mul_zero] at h2
    exact one_ne_zero h2

/-- The hypotheses are met: `XX + 2 YY + 3 ZI`, split into the commuting pair and the rest. -/
example : UniqueKeys [([PL.X, .X], (1 : ℂ)), ([.Y, .Y], 2), ([.Z, .I], 3)] ∧
    (∀ s ∈ [([PL.X, .X], (1 : ℂ)), ([.Y, .Y], 2), ([.Z, .I], 3)].map (·.1), [[[PL.X, .X], [.Y, .Y]], [[.Z, .I]]].flatten.count s = 1) ∧
    Reduce.commute [PL.X, .X] [.Y, .Y] = some true ∧ Reduce.commute [PL.X, .X] [.Z, .I] = some false := by decide

end
end Props
end HQCA
