import Verif.Proofs.Gram
import Verif.Spec.Spin
import Verif.Props.RDMAlg

/-!
# C127: eigenvalues reported by `RDM.analysis`
-/

namespace HQCA
namespace Props
noncomputable section
open Analysis

/-- Number of occupied orbitals as a sum. -/
theorem occ_sum (g : List ℕ) (hg : g.Nodup) (b : Cfg) : (∑ i ∈ g.toFinset, (if b i then 1 else 0 : ℝ)) = occ g b := by
  rw [List.sum_toFinset _ hg]
  unfold occ
  induction g with
  | nil => simp
  | cons a g ih =>
    rw [List.map_cons, List.sum_cons, ih (List.nodup_cons.mp hg).2, List.filter_cons]
    split_ifs with h
    · rw [List.length_cons]; push_cast; ring
    · ring

/-- The particles of a normalized state on a list of orbitals. -/
theorem sum_nsq (g : List ℕ) (hg : g.Nodup) (n : ℕ) (ψ : Cfg →₀ ℂ) (h1 : pair ψ ψ = 1) (h : ∀ b, ψ b ≠ 0 → occ g b = n) :
    ∑ i ∈ g.toFinset, nsq (annF i ψ) = n := by
  simp only [nsq_annF]
  rw [Finset.sum_comm]
  have : ∀ b ∈ ψ.support, ∑ i ∈ g.toFinset, ‖ψ b‖ ^ 2 * (if b i then 1 else 0) = ‖ψ b‖ ^ 2 * n := by
    intro b hb
    rw [← Finset.mul_sum, occ_sum g hg, h b (Finsupp.mem_support_iff.mp hb)]
  rw [Finset.sum_congr rfl this, ← Finset.sum_mul]
  have h2 := pair_self ψ
  rw [h1] at h2
  have : (∑ b ∈ ψ.support, ‖ψ b‖ ^ 2 : ℝ) = 1 := by
    have := h2.symm
    rw [← Complex.ofReal_one] at this
    exact Complex.ofReal_injective this
  rw [this, one_mul]

theorem norm_support_one (ψ : Cfg →₀ ℂ) (h1 : pair ψ ψ = 1) : (∑ b ∈ ψ.support, ‖ψ b‖ ^ 2 : ℝ) = 1 := by
  have h2 := pair_self ψ
  rw [h1, ← Complex.ofReal_one] at h2
  exact (Complex.ofReal_injective h2).symm

/-- The two entries of a member of a basis of pairs. -/
def pairEnds (I : List ℕ) : ℕ × ℕ := (I.getD 0 0, I.getD 1 0)

/-- A two-body block of the 2-RDM of a state is the Gram matrix of the states with two particles removed. -/
theorem block_gram (ψ : Cfg →₀ ℂ) (D : List ℕ → ℂ) (B : List (List ℕ)) (r : ℕ)
    (hD : ∀ i k j m, i < r → k < r → j < r → m < r → D [i, k, j, m] = pair ψ ((cre i * (cre k * (ann m * ann j)) : Oper ℂ) ψ))
    (hB : ∀ I ∈ B, ∃ i k, I = [i, k] ∧ i < r ∧ k < r) (a b : Fin B.length) :
    block D B a b = pair (annF (pairEnds B[a]).2 (annF (pairEnds B[a]).1 ψ)) (annF (pairEnds B[b]).2 (annF (pairEnds B[b]).1 ψ)) := by
  obtain ⟨i, k, e1, hi, hk⟩ := hB B[a] (List.getElem_mem _)
  obtain ⟨j, m, e2, hj, hm⟩ := hB B[b] (List.getElem_mem _)
  unfold block
  rw [e1, e2, zero_add, show [i, k] ++ [j, m] = [i, k, j, m] from rfl, hD i k j m hi hk hj hm]
  show _ = pair (annF k (annF i ψ)) (annF m (annF j ψ))
  rw [← pair_cre, ← pair_cre, coe_annF, coe_annF]
  rfl

theorem pairEnds_inj {r : ℕ} (B : List (List ℕ)) (hn : B.Nodup) (hB : ∀ I ∈ B, ∃ i k, I = [i, k] ∧ i < r ∧ k < r) :
    Function.Injective fun a : Fin B.length => pairEnds B[a] := by
  intro a b e
  obtain ⟨i, k, e1, _, _⟩ := hB B[a] (List.getElem_mem _)
  obtain ⟨j, m, e2, _, _⟩ := hB B[b] (List.getElem_mem _)
  have : B[a] = B[b] := by
    have e' : pairEnds B[a] = pairEnds B[b] := e
    rw [e1, e2] at e'
    have h1 : i = j := congrArg Prod.fst e'
    have h2 : k = m := congrArg Prod.snd e'
    rw [e1, e2, h1, h2]
  exact Fin.ext ((List.Nodup.getElem_inj_iff hn).mp this)

theorem sum_fin_list {β : Type} [AddCommMonoid β] (B : List (List ℕ)) (f : List ℕ → β) : ∑ a : Fin B.length, f B[a] = (B.map f).sum := by
  rw [← List.sum_ofFn]
  congr 1
  exact List.ofFn_getElem_eq_map B f

theorem mem_pairBasis (g : List ℕ) (I : List ℕ) : I ∈ pairs g ↔ ∃ i j, I = [i, j] ∧ i ∈ g ∧ j ∈ g ∧ i < j := by
  unfold pairs
  simp only [List.mem_flatMap, List.mem_map, List.mem_filter, decide_eq_true_eq]
  constructor
  · rintro ⟨i, hi, j, ⟨hj, hij⟩, rfl⟩
    exact ⟨i, j, rfl, hi, hj, hij⟩
  · rintro ⟨i, j, rfl, hi, hj, hij⟩
    exact ⟨i, hi, j, ⟨hj, hij⟩, rfl⟩

theorem mem_mixedBasis (alp bet : List ℕ) (I : List ℕ) : I ∈ mixed alp bet ↔ ∃ i j, I = [i, j] ∧ i ∈ alp ∧ j ∈ bet := by
  unfold mixed
  simp only [List.mem_flatMap, List.mem_map]
  constructor
  · rintro ⟨i, hi, j, hj, rfl⟩
    exact ⟨i, j, rfl, hi, hj⟩
  · rintro ⟨i, j, rfl, hi, hj⟩
    exact ⟨i, hi, j, hj, rfl⟩

theorem pairs_nodup (g : List ℕ) (hg : g.Nodup) : (pairs g).Nodup := by
  unfold pairs
  rw [List.nodup_flatMap]
  refine ⟨fun i _ => (hg.filter _).map (fun a b e => by simpa using e), ?_⟩
  refine hg.imp fun {a b} hab => ?_
  intro I h1 h2
  simp only [List.mem_map] at h1 h2
  obtain ⟨_, _, rfl⟩ := h1
  obtain ⟨_, _, e⟩ := h2
  exact hab (by simpa using (List.cons.inj e).1.symm)

theorem mixed_nodup (alp bet : List ℕ) (ha : alp.Nodup) (hb : bet.Nodup) : (mixed alp bet).Nodup := by
  unfold mixed
  rw [List.nodup_flatMap]
  refine ⟨fun i _ => hb.map (fun a b e => by simpa using e), ?_⟩
  refine ha.imp fun {a b} hab => ?_
  intro I h1 h2
  simp only [List.mem_map] at h1 h2
  obtain ⟨_, _, rfl⟩ := h1
  obtain ⟨_, _, e⟩ := h2
  exact hab (by simpa using (List.cons.inj e).1.symm)

theorem sum_flatMap_real (l : List ℕ) (f : ℕ → List ℝ) : (l.flatMap f).sum = (l.map fun i => (f i).sum).sum := by
  induction l with
  | nil => rfl
  | cons a l ih => rw [List.flatMap_cons, List.sum_append, ih, List.map_cons, List.sum_cons]

theorem sum_pairBasis (g : List ℕ) (hg : g.Nodup) (f : ℕ → ℕ → ℝ) :
    ((pairs g).map fun I => f (pairEnds I).1 (pairEnds I).2).sum = ∑ i ∈ g.toFinset, ∑ j ∈ g.toFinset with i < j, f i j := by
  unfold pairs
  rw [List.map_flatMap, sum_flatMap_real, List.sum_toFinset _ hg]
  congr 1
  refine List.map_congr_left fun i _ => ?_
  have e : {j ∈ g.toFinset | i < j} = (g.filter fun j => decide (i < j)).toFinset := by
    ext j
    simp
  rw [List.map_map, e, List.sum_toFinset _ (hg.filter _)]
  rfl

theorem sum_mixedBasis (alp bet : List ℕ) (ha : alp.Nodup) (hb : bet.Nodup) (f : ℕ → ℕ → ℝ) :
    ((mixed alp bet).map fun I => f (pairEnds I).1 (pairEnds I).2).sum = ∑ i ∈ alp.toFinset, ∑ j ∈ bet.toFinset, f i j := by
  unfold mixed
  rw [List.map_flatMap, sum_flatMap_real, List.sum_toFinset _ ha]
  congr 1
  refine List.map_congr_left fun i _ => ?_
  rw [List.map_map, List.sum_toFinset _ hb]
  rfl

/-- Same-spin block: eigenvalues between `0` and half the number of particles of that spin, their sum the number of pairs. -/
theorem same_spin (g : List ℕ) (hg : g.Nodup) (r : ℕ) (hr : ∀ x ∈ g, x < r) (n : ℕ) (ψ : Cfg →₀ ℂ) (h1 : pair ψ ψ = 1)
    (hn : ∀ b, ψ b ≠ 0 → occ g b = n) (D : List ℕ → ℂ)
    (hD : ∀ i k j m, i < r → k < r → j < r → m < r → D [i, k, j, m] = pair ψ ((cre i * (cre k * (ann m * ann j)) : Oper ℂ) ψ)) :
    (∀ e ∈ eigvalsh (block D (pairs g)), 0 ≤ e ∧ e ≤ (n : ℝ) / 2) ∧ (eigvalsh (block D (pairs g))).sum = (n : ℝ) * (n - 1) / 2 := by
  have hB : ∀ I ∈ pairs g, ∃ i k, I = [i, k] ∧ i < r ∧ k < r := by
    intro I hI
    obtain ⟨i, j, rfl, hi, hj, _⟩ := (mem_pairBasis g I).mp hI
    exact ⟨i, j, rfl, hr i hi, hr j hj⟩
  have hm : ∀ a : Fin (pairs g).length, (pairEnds (pairs g)[a]).1 ∈ g ∧ (pairEnds (pairs g)[a]).2 ∈ g ∧ (pairEnds (pairs g)[a]).1 < (pairEnds (pairs g)[a]).2 := by
    intro a
    obtain ⟨i, j, e, hi, hj, hij⟩ := (mem_pairBasis g _).mp (List.getElem_mem a.isLt)
    rw [Fin.getElem_fin, e]
    exact ⟨hi, hj, hij⟩
  have key := eigvalsh_gram (fun a : Fin (pairs g).length => annF (pairEnds (pairs g)[a]).2 (annF (pairEnds (pairs g)[a]).1 ψ)) (block D (pairs g))
    (fun a b => block_gram ψ D (pairs g) r hD hB a b) ((n : ℝ) / 2) (fun x => by
      have := nsq_lt_pairs_le (fun a : Fin (pairs g).length => pairEnds (pairs g)[a]) (pairEnds_inj _ (pairs_nodup g hg) hB) (fun a => (hm a).2.2) g.toFinset
        (fun a => ⟨List.mem_toFinset.mpr (hm a).1, List.mem_toFinset.mpr (hm a).2.1⟩) x ψ
      rw [sum_nsq g hg n ψ h1 hn] at this
      exact this)
  refine ⟨key.1, key.2.1.trans ?_⟩
  have e : ∀ a : Fin (pairs g).length, nsq (annF (pairEnds (pairs g)[a]).2 (annF (pairEnds (pairs g)[a]).1 ψ))
      = ∑ b ∈ ψ.support, ‖ψ b‖ ^ 2 * ((if b (pairEnds (pairs g)[a]).1 then 1 else 0) * (if b (pairEnds (pairs g)[a]).2 then 1 else 0)) :=
    fun a => nsq_annF2 _ _ (hm a).2.2.ne ψ
  simp only [e]
  rw [Finset.sum_comm]
  have e2 : ∀ b ∈ ψ.support, ∑ a : Fin (pairs g).length, ‖ψ b‖ ^ 2 * ((if b (pairEnds (pairs g)[a]).1 then 1 else 0) * (if b (pairEnds (pairs g)[a]).2 then 1 else 0))
      = ‖ψ b‖ ^ 2 * ((n : ℝ) * (n - 1) / 2) := by
    intro b hb
    rw [← Finset.mul_sum]
    congr 1
    rw [sum_fin_list (pairs g) (fun I => ((if b (pairEnds I).1 then 1 else 0) * (if b (pairEnds I).2 then 1 else 0) : ℝ)),
      sum_pairBasis g hg (fun i j => ((if b i then 1 else 0) * (if b j then 1 else 0) : ℝ))]
    have := two_sum_lt g.toFinset (fun i => (if b i then 1 else 0 : ℝ))
    have sq1 : ∀ i, ((if b i then 1 else 0 : ℝ)) ^ 2 = if b i then 1 else 0 := by intro i; split_ifs <;> norm_num
    simp only [sq1] at this
    rw [occ_sum g hg, hn b (Finsupp.mem_support_iff.mp hb)] at this
    linarith
  rw [Finset.sum_congr rfl e2, ← Finset.sum_mul, norm_support_one ψ h1, one_mul]

/-- Mixed block: eigenvalues between `0` and the smaller number of particles, their sum the number of mixed pairs. -/
theorem mixed_spin (alp bet : List ℕ) (hnd : (alp ++ bet).Nodup) (r : ℕ) (hr : ∀ x ∈ alp ++ bet, x < r) (na nb : ℕ) (ψ : Cfg →₀ ℂ)
    (h1 : pair ψ ψ = 1) (hna : ∀ b, ψ b ≠ 0 → occ alp b = na) (hnb : ∀ b, ψ b ≠ 0 → occ bet b = nb) (D : List ℕ → ℂ)
    (hD : ∀ i k j m, i < r → k < r → j < r → m < r → D [i, k, j, m] = pair ψ ((cre i * (cre k * (ann m * ann j)) : Oper ℂ) ψ)) :
    (∀ e ∈ eigvalsh (block D (mixed alp bet)), 0 ≤ e ∧ e ≤ min (na : ℝ) nb) ∧ (eigvalsh (block D (mixed alp bet))).sum = (na : ℝ) * nb := by
  obtain ⟨ha, hb, hdis⟩ := List.nodup_append.mp hnd
  have hB : ∀ I ∈ mixed alp bet, ∃ i k, I = [i, k] ∧ i < r ∧ k < r := by
    intro I hI
    obtain ⟨i, j, rfl, hi, hj⟩ := (mem_mixedBasis alp bet I).mp hI
    exact ⟨i, j, rfl, hr i (List.mem_append_left _ hi), hr j (List.mem_append_right _ hj)⟩
  have hm : ∀ a : Fin (mixed alp bet).length, (pairEnds (mixed alp bet)[a]).1 ∈ alp ∧ (pairEnds (mixed alp bet)[a]).2 ∈ bet := by
    intro a
    obtain ⟨i, j, e, hi, hj⟩ := (mem_mixedBasis alp bet _).mp (List.getElem_mem a.isLt)
    rw [Fin.getElem_fin, e]
    exact ⟨hi, hj⟩
  have hinj := pairEnds_inj _ (mixed_nodup alp bet ha hb) hB
  have key := eigvalsh_gram (fun a : Fin (mixed alp bet).length => annF (pairEnds (mixed alp bet)[a]).2 (annF (pairEnds (mixed alp bet)[a]).1 ψ))
    (block D (mixed alp bet)) (fun a b => block_gram ψ D (mixed alp bet) r hD hB a b) (min (na : ℝ) nb) (fun x => by
      have q1 := nsq_pairs_le (fun a : Fin (mixed alp bet).length => pairEnds (mixed alp bet)[a]) hinj alp.toFinset
        (fun a => List.mem_toFinset.mpr (hm a).1) x ψ
      rw [sum_nsq alp ha na ψ h1 hna] at q1
      have q2 := nsq_pairs_le (fun a : Fin (mixed alp bet).length => (pairEnds (mixed alp bet)[a]).swap)
        (fun a b e => hinj (Prod.swap_injective e)) bet.toFinset (fun a => List.mem_toFinset.mpr (hm a).2) (fun a => -x a) ψ
      rw [sum_nsq bet hb nb ψ h1 hnb] at q2
      have e : ∀ a : Fin (mixed alp bet).length, (-x a) • annF (pairEnds (mixed alp bet)[a]).swap.2 (annF (pairEnds (mixed alp bet)[a]).swap.1 ψ)
          = x a • annF (pairEnds (mixed alp bet)[a]).2 (annF (pairEnds (mixed alp bet)[a]).1 ψ) := by
        intro a
        rw [Prod.fst_swap, Prod.snd_swap, annF_anti, smul_smul]
        congr 1
        ring
      simp only [e, norm_neg] at q2
      rcases min_choice (na : ℝ) nb with h | h
      · rw [h]; exact q1
      · rw [h]; exact q2)
  refine ⟨key.1, key.2.1.trans ?_⟩
  have e : ∀ a : Fin (mixed alp bet).length, nsq (annF (pairEnds (mixed alp bet)[a]).2 (annF (pairEnds (mixed alp bet)[a]).1 ψ))
      = ∑ b ∈ ψ.support, ‖ψ b‖ ^ 2 * ((if b (pairEnds (mixed alp bet)[a]).1 then 1 else 0) * (if b (pairEnds (mixed alp bet)[a]).2 then 1 else 0)) :=
    fun a => nsq_annF2 _ _ (hdis _ (hm a).1 _ (hm a).2) ψ
  simp only [e]
  rw [Finset.sum_comm]
  have e2 : ∀ b ∈ ψ.support, ∑ a : Fin (mixed alp bet).length, ‖ψ b‖ ^ 2 *
      ((if b (pairEnds (mixed alp bet)[a]).1 then 1 else 0) * (if b (pairEnds (mixed alp bet)[a]).2 then 1 else 0)) = ‖ψ b‖ ^ 2 * ((na : ℝ) * nb) := by
    intro b hb'
    rw [← Finset.mul_sum]
    congr 1
    rw [sum_fin_list (mixed alp bet) (fun I => ((if b (pairEnds I).1 then 1 else 0) * (if b (pairEnds I).2 then 1 else 0) : ℝ)),
      sum_mixedBasis alp bet ha hb (fun i j => ((if b i then 1 else 0) * (if b j then 1 else 0) : ℝ)), ← Finset.sum_mul_sum,
      occ_sum alp ha, occ_sum bet hb, hna b (Finsupp.mem_support_iff.mp hb'), hnb b (Finsupp.mem_support_iff.mp hb')]
  rw [Finset.sum_congr rfl e2, ← Finset.sum_mul, norm_support_one ψ h1, one_mul]

/-- One-body block with `m` rows, the missing ones zero: eigenvalues between `0` and `1`, their sum the number of particles. -/
theorem one_body (g : List ℕ) (hg : g.Nodup) (r : ℕ) (hr : ∀ x ∈ g, x < r) (n m : ℕ) (hm : g.length ≤ m) (ψ : Cfg →₀ ℂ) (h1 : pair ψ ψ = 1)
    (hn : ∀ b, ψ b ≠ 0 → occ g b = n) (D : List ℕ → ℂ)
    (hD : ∀ i j, i < r → j < r → D [i, j] = pair ψ ((cre i * ann j : Oper ℂ) ψ)) :
    (∀ e ∈ eigvalsh (block1 D g m), 0 ≤ e ∧ e ≤ 1) ∧ (eigvalsh (block1 D g m)).sum = n := by
  set w : Fin m → Cfg →₀ ℂ := fun a => if h : a.val < g.length then annF g[a.val] ψ else 0 with hw
  have hpz : ∀ φ : Cfg →₀ ℂ, pair φ ((0 : Cfg →₀ ℂ) : Cfg → ℂ) = 0 := fun φ => by simp [pair]
  have hsum : ∀ (x : Fin m → ℂ), ∑ a, x a • w a = ∑ k : Fin g.length, x (Fin.castLE hm k) • annF g[k] ψ := by
    intro x
    symm
    refine Finset.sum_of_injOn (Fin.castLE hm) (fun a _ b _ e => Fin.castLE_injective hm e) (fun _ _ => by simp) ?_ ?_
    · intro a _ ha
      have : ¬ a.val < g.length := fun h => ha ⟨⟨a.val, h⟩, by simp, Fin.ext rfl⟩
      rw [hw]; simp [this]
    · intro k _
      rw [hw]
      simp
  have hgr : ∀ a b, block1 D g m a b = pair (w a) (w b) := by
    intro a b
    unfold block1
    by_cases ha : a.val < g.length
    · by_cases hb : b.val < g.length
      · rw [if_pos ⟨ha, hb⟩, zero_add, show g.getD a.val 0 = g[a.val] by simp [List.getD, ha], show g.getD b.val 0 = g[b.val] by simp [List.getD, hb],
          hD _ _ (hr _ (List.getElem_mem _)) (hr _ (List.getElem_mem _))]
        have e1 : w a = annF g[a.val] ψ := by rw [hw]; simp [ha]
        have e2 : w b = annF g[b.val] ψ := by rw [hw]; simp [hb]
        rw [e1, e2, ← pair_cre, coe_annF]
        rfl
      · have e2 : w b = 0 := by rw [hw]; simp [hb]
        rw [if_neg (fun h => hb h.2), e2, hpz]
    · have e1 : w a = 0 := by rw [hw]; simp [ha]
      rw [if_neg (fun h => ha h.1), e1, pair_zero]
  have key := eigvalsh_gram w (block1 D g m) hgr 1 (fun x => by
    rw [hsum x, mul_one]
    have q := nsq_one_le (fun k : Fin g.length => g[k]) (fun a b e => Fin.ext ((List.Nodup.getElem_inj_iff hg).mp e))
      (fun k => x (Fin.castLE hm k)) ψ
    have hnq : nsq ψ = 1 := by unfold nsq; rw [h1, Complex.one_re]
    rw [hnq, mul_one] at q
    refine q.trans ?_
    have := Finset.sum_le_sum_of_subset_of_nonneg (f := fun a => ‖x a‖ ^ 2) (Finset.subset_univ (Finset.univ.image (Fin.castLE hm)))
      (fun _ _ _ => by positivity)
    rw [Finset.sum_image fun a _ b _ e => Fin.castLE_injective hm e] at this
    exact this)
  refine ⟨key.1, key.2.1.trans ?_⟩
  have hz : nsq 0 = 0 := by unfold nsq; rw [pair_zero]; rfl
  rw [← sum_nsq g hg n ψ h1 hn, List.sum_toFinset _ hg]
  have : ∑ a, nsq (w a) = ∑ k : Fin g.length, nsq (annF g[k] ψ) := by
    symm
    refine Finset.sum_of_injOn (Fin.castLE hm) (fun a _ b _ e => Fin.castLE_injective hm e) (fun _ _ => by simp) ?_ ?_
    · intro a _ ha
      have : ¬ a.val < g.length := fun h => ha ⟨⟨a.val, h⟩, by simp, Fin.ext rfl⟩
      rw [hw]; simp [this, hz]
    · intro k _
      rw [hw]
      simp
  rw [this, ← List.sum_ofFn]
  congr 1
  exact List.ofFn_getElem_eq_map g (fun i => nsq (annF i ψ))

/-- The particles on both lists together. -/
theorem occ_all (alp bet : List ℕ) (hnd : (alp ++ bet).Nodup) (hr : ∀ x ∈ alp ++ bet, x < alp.length + bet.length) (b : Cfg) :
    occAlpha (alp.length + bet.length) b = occ alp b + occ bet b := by
  have hp : (alp ++ bet).Perm (List.range (alp.length + bet.length)) := by
    refine List.perm_of_nodup_nodup_toFinset_eq hnd List.nodup_range ?_
    apply Finset.eq_of_subset_of_card_le
    · intro x hx
      rw [List.mem_toFinset] at hx ⊢
      exact List.mem_range.mpr (hr x hx)
    · rw [List.toFinset_card_of_nodup hnd, List.toFinset_card_of_nodup List.nodup_range]
      simp
  unfold occAlpha occ
  rw [← (hp.filter _).length_eq, List.filter_append, List.length_append]

/-- **C127.** `analysis` of the 2-RDM of a normalized state with `na` alpha and `nb` beta particles, `na + nb ≠ 1`.  Missing: one particle, and more beta than alpha orbitals
(`C127_raises`). -/
theorem C127_partial (alp bet : List ℕ) (hl : bet.length ≤ alp.length) (hnd : (alp ++ bet).Nodup)
    (hr : ∀ x ∈ alp ++ bet, x < alp.length + bet.length) (na nb : ℕ) (hN : na + nb ≠ 1) (ψ : Cfg →₀ ℂ) (h1 : pair ψ ψ = 1)
    (hψ : ∀ b, ψ b ≠ 0 → occ alp b = na ∧ occ bet b = nb) (D : List ℕ → ℂ)
    (hD : ∀ i k j m, i < alp.length + bet.length → k < alp.length + bet.length → j < alp.length + bet.length →
      m < alp.length + bet.length → D [i, k, j, m] = pair ψ ((cre i * (cre k * (ann m * ann j)) : Oper ℂ) ψ)) :
    ∃ aa bb ab a b, analysis ((na + nb : ℕ) : ℤ) D alp bet = some (aa, bb, ab, a, b) ∧
      (∀ e ∈ aa, 0 ≤ e ∧ e ≤ (na : ℝ) / 2) ∧ aa.sum = (na : ℝ) * (na - 1) / 2 ∧
      (∀ e ∈ bb, 0 ≤ e ∧ e ≤ (nb : ℝ) / 2) ∧ bb.sum = (nb : ℝ) * (nb - 1) / 2 ∧
      (∀ e ∈ ab, 0 ≤ e ∧ e ≤ min (na : ℝ) nb) ∧ ab.sum = (na : ℝ) * nb ∧
      (∀ e ∈ a, 0 ≤ e ∧ e ≤ 1) ∧ a.sum = na ∧ (∀ e ∈ b, 0 ≤ e ∧ e ≤ 1) ∧ b.sum = nb := by
  obtain ⟨ha, hb, hdis⟩ := List.nodup_append.mp hnd
  have hra : ∀ x ∈ alp, x < alp.length + bet.length := fun x hx => hr x (List.mem_append_left _ hx)
  have hrb : ∀ x ∈ bet, x < alp.length + bet.length := fun x hx => hr x (List.mem_append_right _ hx)
  obtain ⟨D1, r1, r2⟩ := C31_state_partial (K := ℂ) 2 (Or.inl rfl) (alp.length + bet.length) ((na + nb : ℕ) : ℤ) (by push_cast; omega) ψ
    (fun b hb => by rw [occ_all alp bet hnd hr, (hψ b hb).1, (hψ b hb).2]) D (by
    intro c a hc ha hc' ha'
    match c, hc, a, ha with
    | [i, k], _, [j, m], _ =>
      rw [show [i, k] ++ [j, m] = [i, k, j, m] from rfl, hD i k j m (hc' _ (by simp)) (hc' _ (by simp)) (ha' _ (by simp)) (ha' _ (by simp))]
      unfold rdm
      simp [rdmOp, mul_assoc])
  have hD1 : ∀ i j, i < alp.length + bet.length → j < alp.length + bet.length → D1 [i, j] = pair ψ ((cre i * ann j : Oper ℂ) ψ) := by
    intro i j hi hj
    have := r2 [i] [j] rfl rfl (by simpa using hi) (by simpa using hj)
    rw [show [i] ++ [j] = [i, j] from rfl] at this
    rw [this]
    unfold rdm
    simp [rdmOp]
  have haa := same_spin alp ha _ hra na ψ h1 (fun b h => (hψ b h).1) D hD
  have hbb := same_spin bet hb _ hrb nb ψ h1 (fun b h => (hψ b h).2) D hD
  have hab := mixed_spin alp bet hnd _ hr na nb ψ h1 (fun b h => (hψ b h).1) (fun b h => (hψ b h).2) D hD
  have h1a := one_body alp ha _ hra na alp.length le_rfl ψ h1 (fun b h => (hψ b h).1) D1 hD1
  have h1b := one_body bet hb _ hrb nb alp.length hl ψ h1 (fun b h => (hψ b h).2) D1 hD1
  refine ⟨_, _, _, _, _, ?_, haa.1, haa.2, hbb.1, hbb.2, hab.1, hab.2, h1a.1, h1a.2, h1b.1, h1b.2⟩
  unfold analysis
  rw [r1, Option.bind_some, if_neg (by omega)]

/-- One particle, or more beta than alpha orbitals: an exception. -/
theorem C127_raises (D : List ℕ → ℂ) (alp bet : List ℕ) :
    analysis 1 D alp bet = none ∧ (∀ Ne, alp.length < bet.length → analysis Ne D alp bet = none) := by
  constructor
  · unfold analysis
    rw [show (1 : ℤ) = ((2 : ℕ) : ℤ) - 1 by norm_num, C31_raises]; rfl
  · intro Ne h
    unfold analysis
    cases RDM.reduceOrder 2 (alp.length + bet.length) Ne D with
    | none => rfl
    | some D1 => rw [Option.bind_some, if_pos h]

/-- The hypotheses are met by the determinant with orbitals `0` and `2` of four. -/
example : ∃ aa bb ab a b, analysis ((1 + 1 : ℕ) : ℤ) (fun l => rdm (det (K := ℂ) fun i => i == 0 || i == 2) (l.take 2) (l.drop 2)) [0, 1] [2, 3]
      = some (aa, bb, ab, a, b) ∧ (∀ e ∈ ab, 0 ≤ e ∧ e ≤ 1) ∧ ab.sum = 1 ∧ a.sum = 1 ∧ b.sum = 1 := by
  obtain ⟨aa, bb, ab, a, b, h0, _, _, _, _, h1, h2, _, h3, _, h4⟩ := C127_partial [0, 1] [2, 3] (by decide) (by decide) (by decide) 1 1 (by decide)
    (det (K := ℂ) fun i => i == 0 || i == 2) (by unfold det; rw [pair_single, Finsupp.single_eq_same]; simp [conj_one])
    (by
      intro b hb
      have : b = fun i => i == 0 || i == 2 := by
        classical
        by_contra h
        exact hb (by unfold det; rw [Finsupp.single_apply, if_neg (Ne.symm h)])
      subst this
      exact ⟨by decide, by decide⟩)
    (fun l => rdm (det (K := ℂ) fun i => i == 0 || i == 2) (l.take 2) (l.drop 2))
    (by intro i k j m _ _ _ _; show rdm _ [i, k] [j, m] = _; unfold rdm; simp [rdmOp, mul_assoc])
  exact ⟨aa, bb, ab, a, b, h0, by simpa using h1, by simpa using h2, by simpa using h3, by simpa using h4⟩

end
end Props
end HQCA
