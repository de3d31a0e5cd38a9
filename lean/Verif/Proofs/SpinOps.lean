import Verif.Model.SpinOps
import Verif.Proofs.CAR
import Verif.Proofs.GInt
import Verif.Props.Fermi

/-!
# Lemmas on sums of `a†_i a_j` strings
-/

set_option linter.unusedSectionVars false

namespace HQCA
namespace SpinOps
variable {K : Type} [Coef K]

/-- The operator `Σ c a†_i a_j`. -/
def esum (l : List (K × ℕ × ℕ)) : Oper K := (l.map (fun t => t.1 • (cre t.2.1 * ann t.2.2))).sum

theorem esum_nil : esum ([] : List (K × ℕ × ℕ)) = 0 := rfl
theorem esum_cons (t : K × ℕ × ℕ) (l) : esum (t :: l) = t.1 • (cre t.2.1 * ann t.2.2) + esum l := by
  simp [esum]
theorem esum_append (l m : List (K × ℕ × ℕ)) : esum (l ++ m) = esum l + esum m := by
  simp [esum]

theorem pm_spec (c : K) (i j N : ℕ) : ∃ r, pm c i j N = some r ∧
    r.2 • denF 0 r.1 = c • (cre i * ann j : Oper K) := by
  obtain ⟨r, h1, h2, _⟩ := Props.C09_fermi_generate c [(i, .cr), (j, .an)] N (by simp)
  refine ⟨r, h1, ?_⟩
  rw [h2]
  simp [fop]

theorem generate_coef (c : ℂ) (l : List (ℕ × FL)) (N : ℕ) (u : Term FStr ℂ) (h : Fermi.generate true c l N = some u) :
    ∃ e, GI e ∧ u.2 = e * c := by
  unfold Fermi.generate at h
  split at h
  · simp only [Option.some.injEq] at h
    exact ⟨1, GI.one, by rw [← h]; simp⟩
  · unfold Fermi.generateCore at h
    simp only at h
    have hs : ∃ e, GI e ∧ (Fermi.sortLoop true (l.length * l.length) c l).1 = e * c := by
      rcases sortLoop_coef true (l.length * l.length) c l with h | h
      · exact ⟨1, GI.one, by rw [h]; ring⟩
      · exact ⟨-1, GI.neg_one, by rw [h]; ring⟩
    split at h
    · simp at h
    · simp only [Option.some.injEq] at h
      exact ⟨0, GI.zero, by rw [← h]; simp⟩
    · split at h
      · simp only [Option.some.injEq] at h
        rw [← h]; exact hs
      · obtain ⟨s, _, h2⟩ := Option.map_eq_some_iff.mp h
        rw [← h2]; exact hs

theorem sumPM_spec (l : List (K × ℕ × ℕ)) (N : ℕ) : ∃ A, sumPM l N = some A ∧
    denD (denF 0) A = esum l ∧ UniqueKeys A := by
  have : ∃ r, l.mapM (fun t => pm t.1 t.2.1 t.2.2 N) = some r ∧ denD (denF 0) r = esum l := by
    induction l with
    | nil => exact ⟨[], by simp, rfl⟩
    | cons t l ih =>
      obtain ⟨r, h1, h2⟩ := ih
      obtain ⟨u, h3, h4⟩ := pm_spec t.1 t.2.1 t.2.2 N
      refine ⟨u :: r, by simp [h1, h3], ?_⟩
      rw [esum_cons, ← h4, ← h2]
      simp [denD]
  obtain ⟨r, h1, h2⟩ := this
  refine ⟨r.foldl OpD.addStr [], by simp [sumPM, h1], ?_, OpD.foldl_addStr_unique _ _ OpD.uniqueKeys_nil⟩
  rw [OpD.denD_foldl_addStr _ _ _ OpD.uniqueKeys_nil, OpD.denD_nil, zero_add, h2]

theorem sumPM_GI (l : List (ℂ × ℕ × ℕ)) (N : ℕ) (A : OpD FStr ℂ) (h : sumPM l N = some A) (c : ℂ)
    (hl : ∀ t ∈ l, ∃ z, GI z ∧ t.1 = z * c) : GIop c A := by
  obtain ⟨r, h1, rfl⟩ := Option.map_eq_some_iff.mp h
  refine (GIop.nil c).foldl r ?_
  intro u hu
  rw [OpD.mapM_option] at h1
  obtain ⟨i, hi, rfl⟩ := List.getElem_of_mem hu
  have hlen := h1.length_eq
  have := (List.forall₂_iff_get.mp h1).2 i (by omega) hi
  simp only [List.get_eq_getElem] at this
  obtain ⟨e, he, h2⟩ := generate_coef _ _ _ _ this
  obtain ⟨z, hz, h3⟩ := hl _ (List.getElem_mem (by omega : i < l.length))
  exact ⟨e * z, he.mul hz, by rw [h2, h3]; ring⟩

/-- Sums of occupation numbers act diagonally. -/
theorem esum_diag (l : List (K × ℕ)) (ψ : Cfg → K) (b : Cfg) :
    (esum (l.map (fun t => (t.1, t.2, t.2)))) ψ b = (l.map (fun t => if b t.2 then t.1 else 0)).sum * ψ b := by
  induction l with
  | nil => simp [esum]
  | cons t l ih =>
    rw [List.map_cons, esum_cons, LinearMap.add_apply, Pi.add_apply, ih, List.map_cons, List.sum_cons, add_mul]
    congr 1
    rw [LinearMap.smul_apply, Pi.smul_apply, number_apply]
    split_ifs <;> simp

theorem sum_ite_const (l : List ℕ) (b : Cfg) (c : K) :
    ((l.map (fun i => (c, i))).map (fun t : K × ℕ => if b t.2 then t.1 else 0)).sum =
      ((l.filter (fun i => b i)).length : K) * c := by
  induction l with
  | nil => simp
  | cons i l ih =>
    simp only [List.map_cons, List.sum_cons, List.filter_cons]
    rw [ih]
    split_ifs <;> simp
    ring

theorem mapM_look (alpha beta spatial : List ℕ) (ha : ∀ s ∈ spatial, s < alpha.length ∧ s < beta.length) :
    spatial.mapM (look alpha beta) = some (spatial.map (fun s => (alpha.getD s 0, beta.getD s 0))) := by
  induction spatial with
  | nil => simp
  | cons s l ih =>
    have h := ha s (by simp)
    have e : look alpha beta s = some (alpha.getD s 0, beta.getD s 0) := by
      simp [look, List.getElem?_eq_getElem h.1, List.getElem?_eq_getElem h.2, List.getD]
    rw [List.mapM_cons, e, ih (fun t ht => ha t (by simp [ht]))]
    simp

/-! ### Commutators -/

theorem comm_smul_left {R A : Type} [CommRing R] [Ring A] [Algebra R A] (c : R) (x y : A) :
    (c • x) * y - y * (c • x) = c • (x * y - y * x) := by
  rw [smul_mul_assoc, mul_smul_comm, smul_sub]

theorem comm_add_left {A : Type} [Ring A] (x y z : A) :
    (x + y) * z - z * (x + y) = (x * z - z * x) + (y * z - z * y) := by noncomm_ring

theorem comm_add_right {A : Type} [Ring A] (x y z : A) :
    x * (y + z) - (y + z) * x = (x * y - y * x) + (x * z - z * x) := by noncomm_ring

/-- `[Σ_i w_i n_i, a†_k a_l] = (w_k − w_l) a†_k a_l` (weights of repeated orbitals add). -/
theorem comm_diag (l : List (K × ℕ)) (k m : ℕ) :
    esum (l.map (fun t => (t.1, t.2, t.2))) * (cre k * ann m) - (cre k * ann m) * esum (l.map (fun t => (t.1, t.2, t.2)))
      = (((l.map (fun t => if t.2 = k then t.1 else 0)).sum - (l.map (fun t => if t.2 = m then t.1 else 0)).sum) •
          (cre k * ann m) : Oper K) := by
  induction l with
  | nil => simp [esum]
  | cons t l ih =>
    have e : t.1 • (cre t.2 * ann t.2) * (cre k * ann m) - cre k * ann m * t.1 • (cre t.2 * ann t.2) =
        t.1 • ((if t.2 = k then cre t.2 * ann m else 0) - (if t.2 = m then cre k * ann t.2 else 0) : Oper K) := by
      rw [← comm_E]; exact comm_smul_left t.1 _ _
    rw [List.map_cons, esum_cons, comm_add_left, ih, e]
    simp only [List.map_cons, List.sum_cons]
    by_cases h1 : t.2 = k <;> by_cases h2 : t.2 = m
    · subst h1; simp only [h2, if_true]; module
    · subst h1; simp only [h2, if_true, if_false]; module
    · subst h2; simp only [h1, if_true, if_false]; module
    · simp only [h1, h2, if_false]; module

theorem sum_one_of_mem (l : List ℕ) (hl : l.Nodup) (c : K) (k : ℕ) (hk : k ∈ l) :
    ((l.map (fun i => (c, i))).map (fun t : K × ℕ => if t.2 = k then t.1 else 0)).sum = c := by
  induction l with
  | nil => simp at hk
  | cons i l ih =>
    rw [List.nodup_cons] at hl
    simp only [List.map_cons, List.sum_cons]
    rcases List.mem_cons.mp hk with rfl | h
    · rw [if_pos rfl]
      have : ((l.map (fun i => (c, i))).map (fun t : K × ℕ => if t.2 = k then t.1 else 0)).sum = 0 := by
        apply List.sum_eq_zero
        intro x hx
        simp only [List.map_map, List.mem_map, Function.comp_apply] at hx
        obtain ⟨a, ha, rfl⟩ := hx
        rw [if_neg (fun e : a = k => hl.1 (e ▸ ha))]
      rw [this, add_zero]
    · rw [if_neg (fun e : i = k => hl.1 (e ▸ h)), ih hl.2 h, zero_add]

theorem sum_zero_of_not_mem (l : List ℕ) (c : K) (k : ℕ) (hk : k ∉ l) :
    ((l.map (fun i => (c, i))).map (fun t : K × ℕ => if t.2 = k then t.1 else 0)).sum = 0 := by
  apply List.sum_eq_zero
  intro x hx
  simp only [List.map_map, List.mem_map, Function.comp_apply] at hx
  obtain ⟨a, ha, rfl⟩ := hx
  rw [if_neg (fun e : a = k => hk (e ▸ ha))]

/-- `[a†_a a_b, Σ a†_{b'} a_{a'}]` against a list of pairs that does not contain `a` or `b`. -/
theorem comm_one_list (a b : ℕ) (l : List (ℕ × ℕ)) (ha : a ∉ l.map (·.1)) (hb : b ∉ l.map (·.2)) :
    (cre a * ann b) * esum (l.map (fun p => ((1 : K), p.2, p.1))) -
      esum (l.map (fun p => ((1 : K), p.2, p.1))) * (cre a * ann b) = 0 := by
  induction l with
  | nil => simp [esum]
  | cons p l ih =>
    simp only [List.map_cons, List.mem_cons, not_or] at ha hb
    rw [List.map_cons, esum_cons, comm_add_right, ih ha.2 hb.2, one_smul, comm_E, if_neg hb.1, if_neg ha.1]
    simp

theorem comm_list_one (a b : ℕ) (l : List (ℕ × ℕ)) (ha : a ∉ l.map (·.1)) (hb : b ∉ l.map (·.2)) :
    esum (l.map (fun p => ((1 : K), p.1, p.2))) * (cre b * ann a) -
      (cre b * ann a) * esum (l.map (fun p => ((1 : K), p.1, p.2))) = 0 := by
  induction l with
  | nil => simp [esum]
  | cons p l ih =>
    simp only [List.map_cons, List.mem_cons, not_or] at ha hb
    rw [List.map_cons, esum_cons, comm_add_left, ih ha.2 hb.2, one_smul, comm_E, if_neg (Ne.symm hb.1),
      if_neg (Ne.symm ha.1)]
    simp

/-- `[S₊, S₋] = 2 S_z`. -/
theorem comm_plus_minus (l : List (ℕ × ℕ)) (h1 : (l.map (·.1)).Nodup) (h2 : (l.map (·.2)).Nodup) :
    esum (l.map (fun p => ((1 : K), p.1, p.2))) * esum (l.map (fun p => ((1 : K), p.2, p.1))) -
      esum (l.map (fun p => ((1 : K), p.2, p.1))) * esum (l.map (fun p => ((1 : K), p.1, p.2)))
    = (2 : K) • esum (l.flatMap (fun p => [((1 / 2 : K), p.1, p.1), (-(1 / 2), p.2, p.2)])) := by
  induction l with
  | nil => simp [esum]
  | cons p l ih =>
    rw [List.map_cons, List.nodup_cons] at h1 h2
    have hA := comm_one_list (K := K) p.1 p.2 l h1.1 h2.1
    have hB := comm_list_one (K := K) p.1 p.2 l h1.1 h2.1
    have hC := comm_E (K := K) p.1 p.2 p.2 p.1
    rw [if_pos rfl, if_pos rfl] at hC
    have ih := ih h1.2 h2.2
    rw [List.map_cons, List.map_cons, esum_cons, esum_cons, List.flatMap_cons, esum_append, smul_add, ← ih,
      comm_add_left, comm_add_right, comm_add_right, one_smul, one_smul, hA, hB, hC, esum_cons, esum_cons, esum_nil,
      add_zero, add_zero, zero_add, smul_add, smul_smul, smul_smul]
    have e1 : (2 : K) * (1 / 2) = 1 := by
      rw [mul_one_div, div_self Coef.two_ne_zero']
    have e2 : (2 : K) * (-(1 / 2)) = -1 := by rw [mul_neg, e1]
    simp only [e1, e2]
    module

end SpinOps
end HQCA
