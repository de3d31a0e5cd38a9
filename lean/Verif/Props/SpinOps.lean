import Verif.Spec.Spin
import Verif.Proofs.SpinOps

/-!
# Property theorems: number and spin operators (C57)
-/

set_option linter.unusedSectionVars false

namespace HQCA.Props
open HQCA SpinOps
variable {K : Type} [Coef K]

/-- The orbital pairs selected by `spatial`. -/
def orbPairs (spatial alpha beta : List ℕ) : List (ℕ × ℕ) :=
  spatial.map (fun s => (alpha.getD s 0, beta.getD s 0))

/-- **C57.** `number` acts on every occupation state by the number of occupied listed orbitals. -/
theorem C57_number (orbitals : Option (List ℕ)) (N : ℕ) :
    ∃ A, SpinOps.number orbitals N = some A ∧ ∀ (ψ : Cfg → K) (b : Cfg),
      denD (denF 0) A ψ b = (occ (orbitals.getD (List.range N)) b : K) * ψ b := by
  obtain ⟨A, h1, h2, _⟩ := sumPM_spec (K := K) ((orbitals.getD (List.range N)).map (fun i => (1, i, i))) N
  refine ⟨A, h1, fun ψ b => ?_⟩
  rw [h2]
  have e : (orbitals.getD (List.range N)).map (fun i => ((1 : K), i, i)) =
      ((orbitals.getD (List.range N)).map (fun i => ((1 : K), i))).map (fun t => (t.1, t.2, t.2)) := by
    simp
  rw [e, esum_diag, sum_ite_const, mul_one, occ]

theorem projected_list (alpha beta : List ℕ) :
    alpha.map (fun a => ((1 / 2 : K), a, a)) ++ beta.map (fun b => (-(1 / 2), b, b)) =
      (alpha.map (fun a => ((1 / 2 : K), a)) ++ beta.map (fun b => (-(1 / 2), b))).map (fun t : K × ℕ => (t.1, t.2, t.2)) := by
  simp [Function.comp_def]

/-- **C57.** `spin_projected` acts on every occupation state by half the difference of the occupations. -/
theorem C57_projected (alpha beta : List ℕ) (N : ℕ) :
    ∃ A, spinProjected alpha beta N = some A ∧ ∀ (ψ : Cfg → K) (b : Cfg),
      denD (denF 0) A ψ b = ((occ alpha b : K) - occ beta b) / 2 * ψ b := by
  obtain ⟨A, h1, h2, _⟩ := sumPM_spec (K := K)
    (alpha.map (fun a => ((1 / 2 : K), a, a)) ++ beta.map (fun b => (-(1 / 2), b, b))) N
  refine ⟨A, h1, fun ψ b => ?_⟩
  rw [h2, projected_list, esum_diag, List.map_append, List.sum_append, sum_ite_const, sum_ite_const, occ, occ]
  ring

theorem esum_up (l : List (ℕ × ℕ)) : esum (l.map (fun p => ((1 : K), p.1, p.2))) = spinUp l := by
  simp [esum, spinUp, Function.comp_def]

theorem esum_down (l : List (ℕ × ℕ)) : esum (l.map (fun p => ((1 : K), p.2, p.1))) = spinDown l := by
  simp [esum, spinDown, Function.comp_def]

theorem esum_z (l : List (ℕ × ℕ)) :
    esum (l.flatMap (fun p => [((1 / 2 : K), p.1, p.1), (-(1 / 2), p.2, p.2)])) = spinZ l := by
  unfold spinZ
  induction l with
  | nil => simp [esum]
  | cons p l ih =>
    rw [List.flatMap_cons, esum_append, ih, esum_cons, esum_cons, esum_nil, List.map_cons, List.sum_cons]
    module

variable (spatial alpha beta : List ℕ) (N : ℕ)

/-- **C57.** `spin_plus` is `Σ a†_α a_β`. -/
theorem C57_plus (hs : ∀ s ∈ spatial, s < alpha.length ∧ s < beta.length) :
    ∃ A, spinPlus spatial alpha beta N = some A ∧
      denD (denF 0) A = (spinUp (orbPairs spatial alpha beta) : Oper K) := by
  obtain ⟨A, h1, h2, _⟩ := sumPM_spec (K := K) ((orbPairs spatial alpha beta).map (fun p => (1, p.1, p.2))) N
  exact ⟨A, by rw [spinPlus, mapM_look alpha beta spatial hs]; exact h1, by rw [h2, esum_up]⟩

/-- **C57.** `spin_minus` is `Σ a†_β a_α`. -/
theorem C57_minus (hs : ∀ s ∈ spatial, s < alpha.length ∧ s < beta.length) :
    ∃ A, spinMinus spatial alpha beta N = some A ∧
      denD (denF 0) A = (spinDown (orbPairs spatial alpha beta) : Oper K) := by
  obtain ⟨A, h1, h2, _⟩ := sumPM_spec (K := K) ((orbPairs spatial alpha beta).map (fun p => (1, p.2, p.1))) N
  exact ⟨A, by rw [spinMinus, mapM_look alpha beta spatial hs]; exact h1, by rw [h2, esum_down]⟩

/-- **C57.** `partial_projected_spin` is `S_z` of the chosen spatial orbitals. -/
theorem C57_partial_projected (hs : ∀ s ∈ spatial, s < alpha.length ∧ s < beta.length) :
    ∃ A, partialProjected spatial alpha beta N = some A ∧
      denD (denF 0) A = (spinZ (orbPairs spatial alpha beta) : Oper K) := by
  obtain ⟨A, h1, h2, _⟩ := sumPM_spec (K := K)
    ((orbPairs spatial alpha beta).flatMap (fun p => [((1 / 2 : K), p.1, p.1), (-(1 / 2), p.2, p.2)])) N
  exact ⟨A, by rw [partialProjected, mapM_look alpha beta spatial hs]; exact h1, by rw [h2, esum_z]⟩

/-- An index outside the orbital lists is an error. -/
theorem C57_out_of_range (h : ∃ s ∈ spatial, alpha.length ≤ s) :
    spinPlus (K := K) spatial alpha beta N = none := by
  obtain ⟨s, hs, hl⟩ := h
  have : spatial.mapM (look alpha beta) = none := by
    rw [Option.eq_none_iff_forall_ne_some]
    intro r hr
    rw [OpD.mapM_option] at hr
    obtain ⟨i, hi, rfl⟩ := List.getElem_of_mem hs
    have := (List.forall₂_iff_get.mp hr).2 i hi (by have := hr.length_eq; omega)
    simp only [List.get_eq_getElem] at this
    rw [look, List.getElem?_eq_none hl] at this
    simp at this
  rw [spinPlus, this]; rfl

theorem half_small : small (1 / 2 : ℂ) = false := by
  simp [small]; norm_num
theorem quarter_small : small (1 / 2 * (1 / 2) : ℂ) = false := by
  simp [small]; norm_num
theorem one_small : small (1 * 1 : ℂ) = false := by
  simp [small]; norm_num

theorem ring_spinSq {A : Type} [Ring A] [Algebra ℂ A] (p m z : A) (h : p * m - m * p = (2 : ℂ) • z) :
    p * m + z * z - z = ((1 / 2 : ℂ) • (p + m)) * ((1 / 2 : ℂ) • (p + m)) +
      ((1 / (2 * Complex.I) : ℂ) • (p - m)) * ((1 / (2 * Complex.I) : ℂ) • (p - m)) + z * z := by
  rw [smul_mul_smul_comm, smul_mul_smul_comm]
  have e : (1 / (2 * Complex.I) * (1 / (2 * Complex.I)) : ℂ) = -(1 / 4) := by
    rw [div_mul_div_comm, one_mul, mul_mul_mul_comm, Complex.I_mul_I]; norm_num
  have hz : z = (1 / 2 : ℂ) • (p * m - m * p) := by rw [h, smul_smul]; norm_num
  have e2 : (1 / 2 * (1 / 2) : ℂ) = 1 / 4 := by norm_num
  rw [e, e2]
  have e3 : (p + m) * (p + m) = p * p + p * m + m * p + m * m := by noncomm_ring
  have e4 : (p - m) * (p - m) = p * p - p * m - m * p + m * m := by noncomm_ring
  rw [e3, e4]
  have key : m * p = p * m - (2 : ℂ) • z := by rw [← h]; abel
  rw [key]
  module

theorem add_den {c : ℂ} (hc : small c = false) {A B : OpD FStr ℂ} (hA : GIop c A) (hB : GIop c B) (hu : UniqueKeys A) :
    denD (denF 0) (A.add B) = denD (denF 0) A + denD (denF 0) B ∧ GIop c (A.add B) ∧ UniqueKeys (A.add B) := by
  have hg := hA.foldl B hB
  refine ⟨?_, hg.clean, OpD.add_unique A B hu⟩
  rw [OpD.add, hg.clean_den hc, OpD.denD_foldl_addStr _ _ _ hu]

theorem GIop.weaken {α : Type} {c d : ℂ} {A : OpD α ℂ} (hA : GIop c A) (h : ∃ z, GI z ∧ c = z * d) : GIop d A := by
  obtain ⟨w, hw, rfl⟩ := h
  intro t ht
  obtain ⟨z, hz, h2⟩ := hA t ht
  exact ⟨z * w, hz.mul hw, by rw [h2]; ring⟩

/-- **C57.** `total_spin_squared` is exactly the physical `S²` of the chosen spatial orbitals, whenever no spin
orbital is used twice with the same spin. -/
theorem C57_total_spin (hs : ∀ s ∈ spatial, s < alpha.length ∧ s < beta.length)
    (ha : (spatial.map (alpha.getD · 0)).Nodup) (hb : (spatial.map (beta.getD · 0)).Nodup) :
    ∃ A, totalSpinSquared spatial alpha beta N = some A ∧
      denD (denF 0) A = (spinSq (orbPairs spatial alpha beta) : Oper ℂ) ∧
      denD (denF 0) A = (spinDown (orbPairs spatial alpha beta) * spinUp (orbPairs spatial alpha beta) +
        spinZ (orbPairs spatial alpha beta) * (spinZ (orbPairs spatial alpha beta) + 1) : Oper ℂ) := by
  set l := orbPairs spatial alpha beta with hl
  obtain ⟨Z, z1, z2, z3⟩ := sumPM_spec (K := ℂ)
    (l.flatMap (fun p => [((1 / 2 : ℂ), p.1, p.1), (-(1 / 2), p.2, p.2)])) N
  obtain ⟨P, p1, p2, p3⟩ := sumPM_spec (K := ℂ) (l.map (fun p => (1, p.1, p.2))) N
  obtain ⟨M, m1, m2, m3⟩ := sumPM_spec (K := ℂ) (l.map (fun p => (1, p.2, p.1))) N
  have zg : GIop (1 / 2) Z := sumPM_GI _ N Z z1 _ (by
    intro t ht
    obtain ⟨p, _, hp⟩ := List.mem_flatMap.mp ht
    simp only [List.mem_cons, List.not_mem_nil, or_false] at hp
    rcases hp with rfl | rfl
    · exact ⟨1, GI.one, by ring⟩
    · exact ⟨-1, GI.neg_one, by ring⟩)
  have pg : GIop 1 P := sumPM_GI _ N P p1 _ (by
    intro t ht
    obtain ⟨p, _, rfl⟩ := List.mem_map.mp ht
    exact ⟨1, GI.one, by ring⟩)
  have mg : GIop 1 M := sumPM_GI _ N M m1 _ (by
    intro t ht
    obtain ⟨p, _, rfl⟩ := List.mem_map.mp ht
    exact ⟨1, GI.one, by ring⟩)
  have hsm : ∀ s t u : Term FStr ℂ, Fermi.mul s t = some u →
      u.2 • denF 0 u.1 = (s.2 • denF 0 s.1) * (t.2 • denF 0 t.1 : Oper ℂ) := by
    intro s t u h
    obtain ⟨r, h1, _, h3⟩ := C10_fermi_mul s t
    rw [h1, Option.some.injEq] at h
    rw [← h]; exact h3
  have htot : ∀ s t : Term FStr ℂ, (Fermi.mul s t).isSome := by
    intro s t
    obtain ⟨r, h1, _⟩ := C10_fermi_mul s t
    rw [h1]; rfl
  obtain ⟨Q, q1⟩ := Option.isSome_iff_exists.mp (OpD.mul_isSome Fermi.mul P M (fun s _ t _ => htot s t))
  obtain ⟨R, r1⟩ := Option.isSome_iff_exists.mp (OpD.mul_isSome Fermi.mul Z Z (fun s _ t _ => htot s t))
  obtain ⟨qg, q2, q3⟩ := GIop.mul' (denF 0) Fermi.mul one_small pg mg (fun s _ t _ u => hsm s t u)
    (fun s _ t _ u => fermi_mul_coef s t u) q1
  obtain ⟨rg, r2, r3⟩ := GIop.mul' (denF 0) Fermi.mul quarter_small zg zg (fun s _ t _ u => hsm s t u)
    (fun s _ t _ u => fermi_mul_coef s t u) r1
  have zng : GIop (1 / 2) (Z.map (fun t => (t.1, t.2 * (-1)))) := by
    intro t ht
    obtain ⟨u, hu, rfl⟩ := List.mem_map.mp ht
    obtain ⟨z, hz, h2⟩ := zg u hu
    exact ⟨-z, hz.neg, by simp only [h2]; ring⟩
  have znd : denD (denF 0) (Z.map (fun t => (t.1, t.2 * (-1)))) = -denD (denF 0) Z := by
    clear * -
    induction Z with
    | nil => simp [denD]
    | cons t Z ih =>
      simp only [denD, List.map_cons, List.sum_cons] at ih ⊢
      rw [ih]
      module
  have four : ∃ z, GI z ∧ (1 * 1 : ℂ) = z * (1 / 2 * (1 / 2)) := ⟨4, ⟨4, 0, by simp⟩, by norm_num⟩
  have two : ∃ z, GI z ∧ (1 / 2 : ℂ) = z * (1 / 2 * (1 / 2)) := ⟨2, ⟨2, 0, by simp⟩, by norm_num⟩
  obtain ⟨s2, sg, s3⟩ := add_den quarter_small (GIop.weaken qg four) rg q3
  obtain ⟨t2, _, _⟩ := add_den quarter_small sg (GIop.weaken zng two) s3
  have hc : (spinUp l * spinDown l - spinDown l * spinUp l : Oper ℂ) = (2 : ℂ) • spinZ l := by
    rw [← esum_up, ← esum_down, ← esum_z]
    apply comm_plus_minus
    · rw [hl, orbPairs, List.map_map]; exact ha
    · rw [hl, orbPairs, List.map_map]; exact hb
  have hd : denD (denF 0) ((Q.add R).add (Z.map (fun t => (t.1, t.2 * (-1))))) =
      spinUp l * spinDown l + spinZ l * spinZ l - spinZ l := by
    rw [t2, s2, q2, r2, znd, p2, m2, z2, esum_up, esum_down, esum_z, sub_eq_add_neg]
  refine ⟨(Q.add R).add (Z.map (fun t => (t.1, t.2 * (-1)))), ?_, ?_, ?_⟩
  · have e1 : partialProjected (K := ℂ) spatial alpha beta N = some Z := by
      rw [partialProjected, mapM_look alpha beta spatial hs]; exact z1
    have e2 : spinPlus (K := ℂ) spatial alpha beta N = some P := by
      rw [spinPlus, mapM_look alpha beta spatial hs]; exact p1
    have e3 : spinMinus (K := ℂ) spatial alpha beta N = some M := by
      rw [spinMinus, mapM_look alpha beta spatial hs]; exact m1
    simp only [totalSpinSquared, e1, e2, e3, q1, r1, bind, Option.bind, pure]
  · rw [hd]
    exact ring_spinSq _ _ _ hc
  · rw [hd, mul_add, mul_one]
    have : (spinUp l * spinDown l : Oper ℂ) = (2 : ℂ) • spinZ l + spinDown l * spinUp l := by rw [← hc]; abel
    rw [this]
    module

/-! ### Commutation -/

/-- The number or projected-spin operator with weights `w`. -/
theorem diag_commute (l m : List (K × ℕ)) :
    Commute (esum (l.map (fun t => (t.1, t.2, t.2)))) (esum (m.map (fun t => (t.1, t.2, t.2)))) := by
  refine LinearMap.ext fun ψ => funext fun b => ?_
  rw [Module.End.mul_apply, Module.End.mul_apply, esum_diag, esum_diag, esum_diag, esum_diag]
  ring

/-- Weight of an orbital. -/
def weight (l : List (K × ℕ)) (k : ℕ) : K := (l.map (fun t => if t.2 = k then t.1 else 0)).sum

theorem diag_up (w : List (K × ℕ)) (l : List (ℕ × ℕ)) (c : K) (h : ∀ p ∈ l, weight w p.1 - weight w p.2 = c) :
    esum (w.map (fun t => (t.1, t.2, t.2))) * spinUp l - spinUp l * esum (w.map (fun t => (t.1, t.2, t.2))) =
      c • spinUp l := by
  induction l with
  | nil => simp [spinUp]
  | cons p l ih =>
    have e := comm_diag w p.1 p.2
    have h0 := h p (by simp)
    rw [weight, weight] at h0
    rw [h0] at e
    have ih := ih (fun q hq => h q (by simp [hq]))
    simp only [spinUp, List.map_cons, List.sum_cons] at ih ⊢
    rw [comm_add_right, e, ih, smul_add]

theorem diag_down (w : List (K × ℕ)) (l : List (ℕ × ℕ)) (c : K) (h : ∀ p ∈ l, weight w p.1 - weight w p.2 = c) :
    esum (w.map (fun t => (t.1, t.2, t.2))) * spinDown l - spinDown l * esum (w.map (fun t => (t.1, t.2, t.2))) =
      (-c) • spinDown l := by
  induction l with
  | nil => simp [spinDown]
  | cons p l ih =>
    have e := comm_diag w p.2 p.1
    have h0 := h p (by simp)
    rw [weight, weight] at h0
    rw [← neg_sub (List.sum _ : K), h0] at e
    have ih := ih (fun q hq => h q (by simp [hq]))
    simp only [spinDown, List.map_cons, List.sum_cons] at ih ⊢
    rw [comm_add_right, e, ih, smul_add]

theorem ring_commute {R A : Type} [CommRing R] [Ring A] [Algebra R A] (c : R) (d p m z : A)
    (hp : d * p - p * d = c • p) (hm : d * m - m * d = (-c) • m) (hz : Commute d z) :
    Commute d (m * p + z * (z + 1)) := by
  have e1 : d * m = m * d - c • m := by
    have : d * m = m * d + (d * m - m * d) := by abel
    rw [this, hm]; module
  have e2 : d * p = p * d + c • p := by
    have : d * p = p * d + (d * p - p * d) := by abel
    rw [this, hp]
  have h1 : Commute d (m * p) := by
    change d * (m * p) = m * p * d
    rw [← mul_assoc, e1, sub_mul, mul_assoc, e2, mul_add, smul_mul_assoc, mul_smul_comm, mul_assoc]
    abel
  exact h1.add_right (hz.mul_right (hz.add_right (Commute.one_right d)))

theorem spinZ_diag (l : List (ℕ × ℕ)) : (spinZ l : Oper K) =
    esum ((l.flatMap (fun p => [((1 / 2 : K), p.1), (-(1 / 2), p.2)])).map (fun t => (t.1, t.2, t.2))) := by
  rw [← esum_z, List.map_flatMap]; rfl

/-- **C57.** The operators commute with each other: particle number, projected spin (of all orbitals) and total
spin, when the α and β orbital lists share no orbital. -/
theorem C57_commute (hs : ∀ s ∈ spatial, s < alpha.length ∧ s < beta.length) (hn : spatial.Nodup)
    (hab : (alpha ++ beta).Nodup) (hN : ∀ i ∈ alpha ++ beta, i < N)
    (A Z S : OpD FStr ℂ) (h1 : SpinOps.number none N = some A) (h2 : spinProjected alpha beta N = some Z)
    (h3 : totalSpinSquared spatial alpha beta N = some S) :
    Commute (denD (denF 0) A) (denD (denF 0) Z) ∧ Commute (denD (denF 0) A) (denD (denF 0) S) ∧
      Commute (denD (denF 0) Z) (denD (denF 0) S) := by
  have hna : alpha.Nodup := (List.nodup_append.mp hab).1
  have hnb : beta.Nodup := (List.nodup_append.mp hab).2.1
  have inj : ∀ l : List ℕ, l.Nodup → (∀ s ∈ spatial, s < l.length) → (spatial.map (l.getD · 0)).Nodup := by
    intro l hl hb
    refine List.Nodup.map_on ?_ hn
    intro x hx y hy e
    rw [← List.getElem_eq_getD (h := hb x hx), ← List.getElem_eq_getD (h := hb y hy)] at e
    exact (List.Nodup.getElem_inj_iff hl).mp e
  obtain ⟨S', s1, _, s2⟩ := C57_total_spin spatial alpha beta N hs (inj alpha hna (fun s h => (hs s h).1))
    (inj beta hnb (fun s h => (hs s h).2))
  rw [s1, Option.some.injEq] at h3; subst h3
  have mem : ∀ p ∈ orbPairs spatial alpha beta, p.1 ∈ alpha ∧ p.2 ∈ beta := by
    intro p hp
    obtain ⟨s, h, rfl⟩ := List.mem_map.mp hp
    obtain ⟨ha, hb⟩ := hs s h
    constructor
    · simp only [← List.getElem_eq_getD (h := ha)]; exact List.getElem_mem ha
    · simp only [← List.getElem_eq_getD (h := hb)]; exact List.getElem_mem hb
  have hdis : ∀ x, x ∈ alpha → x ∈ beta → False := by
    intro x hx hy
    exact (List.nodup_append.mp hab).2.2 x hx x hy rfl
  obtain ⟨A', a1, a2, _⟩ := sumPM_spec (K := ℂ) ((List.range N).map (fun i => (1, i, i))) N
  have : A' = A := by
    have : SpinOps.number (K := ℂ) none N = some A' := a1
    rw [h1] at this; exact (Option.some.inj this).symm
  subst this
  obtain ⟨Z', z1, z2, _⟩ := sumPM_spec (K := ℂ)
    (alpha.map (fun a => ((1 / 2 : ℂ), a, a)) ++ beta.map (fun b => (-(1 / 2), b, b))) N
  have : Z' = Z := by
    have : spinProjected (K := ℂ) alpha beta N = some Z' := z1
    rw [h2] at this; exact (Option.some.inj this).symm
  subst this
  have ea : (List.range N).map (fun i => ((1 : ℂ), i, i)) =
      ((List.range N).map (fun i => ((1 : ℂ), i))).map (fun t => (t.1, t.2, t.2)) := by simp
  rw [ea] at a2
  rw [projected_list] at z2
  rw [a2, z2, s2]
  refine ⟨diag_commute _ _, ?_, ?_⟩
  · refine ring_commute (0 : ℂ) _ _ _ _ (diag_up _ _ _ ?_) (diag_down _ _ _ ?_) (by rw [spinZ_diag]; exact diag_commute _ _)
    all_goals
      intro p hp
      have := mem p hp
      rw [weight, weight, sum_one_of_mem _ List.nodup_range, sum_one_of_mem _ List.nodup_range, sub_self]
      · exact List.mem_range.mpr (hN _ (List.mem_append_right _ this.2))
      · exact List.mem_range.mpr (hN _ (List.mem_append_left _ this.1))
  · refine ring_commute (1 : ℂ) _ _ _ _ (diag_up _ _ _ ?_) (diag_down _ _ _ ?_) (by rw [spinZ_diag]; exact diag_commute _ _)
    all_goals
      intro p hp
      have := mem p hp
      rw [weight, weight, List.map_append, List.sum_append, List.map_append, List.sum_append,
        sum_one_of_mem _ hna _ _ this.1, sum_zero_of_not_mem _ _ _ (fun h => hdis _ this.1 h),
        sum_one_of_mem _ hnb _ _ this.2, sum_zero_of_not_mem _ _ _ (fun h => hdis _ h this.2)]
      norm_num

/-- Two spatial orbitals in blocked order: the hypotheses hold, and the operator has 14 strings. -/
example : (∀ s ∈ [0, 1], s < [0, 1].length ∧ s < [2, 3].length) ∧ ([0, 1] ++ [2, 3] : List ℕ).Nodup ∧
    (totalSpinSquared (K := GQ) [0, 1] [0, 1] [2, 3] 4).map List.length = some 14 := by
  refine ⟨by decide, by decide, by decide +kernel⟩

end HQCA.Props
