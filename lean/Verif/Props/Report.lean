import Verif.Model.Report
import Verif.Props.Analysis
import Verif.Props.SpinRDM

/-!
# C147: the reports of the storages
-/

namespace HQCA
namespace Props
noncomputable section
open Analysis Report SpinRDM

theorem tuples_two (r : ℕ) : RDM.tuples r 2 = (List.range r).flatMap fun i => (List.range r).map fun k => [i, k] := by
  simp only [RDM.tuples, List.map_flatMap, List.map_cons, List.map_nil, List.flatMap_singleton]
  refine List.flatMap_congr fun i _ => ?_
  induction List.range r with
  | nil => rfl
  | cons a l ih => simp [ih]

theorem tuples_two_nodup (r : ℕ) : (RDM.tuples r 2).Nodup := by
  rw [tuples_two, List.nodup_flatMap]
  refine ⟨fun i _ => List.nodup_range.map fun a b h => by simpa using h, ?_⟩
  refine (List.nodup_range (n := r)).imp fun {a b} hab => ?_
  intro x hx hx'
  simp only [List.mem_map] at hx hx'
  obtain ⟨k, _, rfl⟩ := hx
  obtain ⟨l, _, e⟩ := hx'
  simp at e
  exact hab e.1.symm

theorem sum_tuples_two {M : Type} [AddCommMonoid M] (r : ℕ) (f : List ℕ → M) :
    ((RDM.tuples r 2).map f).sum = ∑ i ∈ Finset.range r, ∑ k ∈ Finset.range r, f [i, k] := by
  rw [tuples_two, List.map_flatMap, List.flatMap_def, List.sum_flatten, List.map_map]
  have e : ∀ (g : ℕ → M), ((List.range r).map g).sum = ∑ i ∈ Finset.range r, g i := fun g => by
    rw [Finset.sum_range]
    rw [← List.sum_ofFn]
    congr 1
    apply List.ext_getElem <;> simp
  rw [e]
  refine Finset.sum_congr rfl fun i _ => ?_
  rw [← e]
  simp [List.map_map, Function.comp_def]

/-- Removing the same particle twice. -/
theorem annF_same (i : ℕ) (ψ : Cfg →₀ ℂ) : annF i (annF i ψ) = 0 := by
  have h := annF_anti i i ψ
  have h2 : (2 : ℂ) • annF i (annF i ψ) = 0 := by
    rw [two_smul]
    nth_rewrite 1 [h]
    simp
  exact (smul_eq_zero.mp h2).resolve_left (by norm_num)

/-- The number of ordered pairs of particles. -/
theorem sum_nsq2 (r n : ℕ) (ψ : Cfg →₀ ℂ) (h1 : pair ψ ψ = 1) (hn : ∀ b, ψ b ≠ 0 → occAlpha r b = n) :
    ∑ i ∈ Finset.range r, ∑ k ∈ Finset.range r, nsq (annF k (annF i ψ)) = (n : ℝ) * (n - 1) := by
  have hz : nsq 0 = 0 := by unfold nsq; rw [pair_zero]; rfl
  have e : ∀ i k, nsq (annF k (annF i ψ)) =
      ∑ b ∈ ψ.support, ‖ψ b‖ ^ 2 * ((if b i then 1 else 0) * (if b k then 1 else 0) - if i = k then (if b i then 1 else 0) else 0) := by
    intro i k
    by_cases h : i = k
    · subst h
      rw [annF_same, hz]
      symm
      apply Finset.sum_eq_zero
      intro b _
      rw [if_pos rfl]
      split_ifs <;> simp
    · rw [nsq_annF2 i k h ψ]
      simp [h]
  simp only [e]
  have s1 : ∑ i ∈ Finset.range r, ∑ k ∈ Finset.range r,
      ∑ b ∈ ψ.support, ‖ψ b‖ ^ 2 * ((if b i then 1 else 0) * (if b k then 1 else 0) - if i = k then (if b i then 1 else 0) else 0) =
      ∑ b ∈ ψ.support, ‖ψ b‖ ^ 2 * ∑ i ∈ Finset.range r, ∑ k ∈ Finset.range r,
        ((if b i then 1 else 0) * (if b k then 1 else 0) - if i = k then (if b i then 1 else 0) else 0 : ℝ) := by
    simp only [Finset.mul_sum]
    rw [Finset.sum_comm' (s := Finset.range r) (t := fun _ => Finset.range r) (t' := Finset.range r) (s' := fun _ => Finset.range r) (by simp)]
    rw [Finset.sum_congr rfl fun k _ => Finset.sum_comm]
    rw [Finset.sum_comm]
    refine Finset.sum_congr rfl fun b _ => ?_
    rw [Finset.sum_comm]
  rw [s1]
  have s2 : ∀ b ∈ ψ.support, ∑ i ∈ Finset.range r, ∑ k ∈ Finset.range r,
      ((if b i then 1 else 0) * (if b k then 1 else 0) - if i = k then (if b i then 1 else 0) else 0 : ℝ) = (n : ℝ) * (n - 1) := by
    intro b hb
    have ho := occ_sum (List.range r) List.nodup_range b
    have hr : (List.range r).toFinset = Finset.range r := by ext; simp
    have ho' : occ (List.range r) b = n := hn b (Finsupp.mem_support_iff.mp hb)
    rw [hr, ho'] at ho
    simp only [Finset.sum_sub_distrib, ← Finset.mul_sum, ← Finset.sum_mul, ho]
    have : ∑ i ∈ Finset.range r, ∑ k ∈ Finset.range r, (if i = k then (if b i then 1 else 0 : ℝ) else 0) = n := by
      rw [← ho]
      refine Finset.sum_congr rfl fun i hi => ?_
      rw [Finset.sum_ite_eq, if_pos hi]
    rw [this]
    ring
  rw [Finset.sum_congr rfl fun b hb => by rw [s2 b hb], ← Finset.sum_mul, norm_support_one ψ h1, one_mul]

/-- The whole two-body matrix: eigenvalues between `0` and the number of particles, their sum the number of ordered pairs. -/
theorem all_pairs (r n : ℕ) (ψ : Cfg →₀ ℂ) (h1 : pair ψ ψ = 1) (hn : ∀ b, ψ b ≠ 0 → occAlpha r b = n) (D : List ℕ → ℂ)
    (hD : ∀ i k j m, i < r → k < r → j < r → m < r → D [i, k, j, m] = pair ψ ((cre i * (cre k * (ann m * ann j)) : Oper ℂ) ψ)) :
    (∀ e ∈ eigvalsh (block D (RDM.tuples r 2)), 0 ≤ e ∧ e ≤ n) ∧ (eigvalsh (block D (RDM.tuples r 2))).sum = (n : ℝ) * (n - 1) ∧
      (eigvalsh (block D (RDM.tuples r 2))).card = r * r := by
  have hB : ∀ I ∈ RDM.tuples r 2, ∃ i k, I = [i, k] ∧ i < r ∧ k < r := by
    intro I hI
    rw [tuples_two] at hI
    simp only [List.mem_flatMap, List.mem_map, List.mem_range] at hI
    obtain ⟨i, hi, k, hk, rfl⟩ := hI
    exact ⟨i, k, rfl, hi, hk⟩
  have hr : (List.range r).toFinset = Finset.range r := by ext; simp
  have key := eigvalsh_gram (fun a : Fin (RDM.tuples r 2).length => annF (pairEnds (RDM.tuples r 2)[a]).2 (annF (pairEnds (RDM.tuples r 2)[a]).1 ψ))
    (block D (RDM.tuples r 2)) (fun a b => block_gram ψ D (RDM.tuples r 2) r hD hB a b) n (fun x => by
      have := nsq_pairs_le (fun a : Fin (RDM.tuples r 2).length => pairEnds (RDM.tuples r 2)[a]) (pairEnds_inj _ (tuples_two_nodup r) hB)
        (Finset.range r) (fun a => by
          obtain ⟨i, k, e, hi, _⟩ := hB (RDM.tuples r 2)[a] (List.getElem_mem _)
          simp only [e, pairEnds]
          exact Finset.mem_range.mpr hi) x ψ
      have hs := sum_nsq (List.range r) List.nodup_range n ψ h1 hn
      rw [hr] at hs
      rw [hs] at this
      exact this)
  refine ⟨key.1, key.2.1.trans ?_, key.2.2.trans ?_⟩
  · rw [sum_fin_list (RDM.tuples r 2) (fun I => nsq (annF (pairEnds I).2 (annF (pairEnds I).1 ψ))), sum_tuples_two]
    exact sum_nsq2 r n ψ h1 hn
  · rw [tuples_two]
    simp

theorem trace_state (r n : ℕ) (ψ : Cfg →₀ ℂ) (h1 : pair ψ ψ = 1) (hn : ∀ b, ψ b ≠ 0 → occAlpha r b = n) (D : List ℕ → ℂ)
    (hD : ∀ i k j m, i < r → k < r → j < r → m < r → D [i, k, j, m] = pair ψ ((cre i * (cre k * (ann m * ann j)) : Oper ℂ) ψ)) :
    (Report.trace r D).re = (n : ℝ) * (n - 1) := by
  unfold Report.trace
  rw [sum_tuples_two, Complex.re_sum, ← sum_nsq2 r n ψ h1 hn]
  refine Finset.sum_congr rfl fun i hi => ?_
  rw [Complex.re_sum]
  refine Finset.sum_congr rfl fun k hk => ?_
  rw [show [i, k] ++ [i, k] = [i, k, i, k] from rfl, hD i k i k (Finset.mem_range.mp hi) (Finset.mem_range.mp hk) (Finset.mem_range.mp hi) (Finset.mem_range.mp hk)]
  unfold nsq
  rw [← pair_cre, ← pair_cre, coe_annF, coe_annF]
  rfl

/-- What is left out of a list of nonnegative eigenvalues. -/
theorem shown_sum (s : Multiset ℝ) (h : ∀ e ∈ s, 0 ≤ e) : s.sum - s.card * 1e-10 ≤ (shown s).sum ∧ (shown s).sum ≤ s.sum := by
  classical
  induction s using Multiset.induction_on with
  | empty => simp [shown]
  | cons a s ih =>
    obtain ⟨i1, i2⟩ := ih fun e he => h e (Multiset.mem_cons_of_mem he)
    have ha := h a (Multiset.mem_cons_self a s)
    have e : shown (a ::ₘ s) = if 1e-10 < |a| then a ::ₘ shown s else shown s := by
      unfold shown
      split_ifs with hh
      · exact Multiset.filter_cons_of_pos (p := fun e : ℝ => 1e-10 < |e|) s hh
      · exact Multiset.filter_cons_of_neg (p := fun e : ℝ => 1e-10 < |e|) s hh
    rw [e, Multiset.sum_cons, Multiset.card_cons]
    push_cast
    split_ifs with hh
    · rw [Multiset.sum_cons]
      constructor <;> norm_num at * <;> linarith
    · rw [abs_of_nonneg ha] at hh
      constructor <;> norm_num at * <;> linarith

theorem mem_shown (s : Multiset ℝ) (e : ℝ) : e ∈ shown s ↔ e ∈ s ∧ 1e-10 < |e| := by
  unfold shown
  exact Multiset.mem_filter

/-- **C147, partial.**  The report for the 2-RDM of a normalised state of `n ≠ 1` electrons: the expectation values of `S_z` and `S²`; positive eigenvalues of
the 2-RDM, at most `n`, with sum `n (n-1)`, and no warning about negative ones; natural occupation numbers in `(0, 1]` with sum `n`; the sums up to the
eigenvalues below `1e-10` that are not shown.  The number reported as `N` is `n (n-1)`.  Missing: the number of electrons (`C147_number_fails`); one electron
(`C147_raises`). -/
theorem C147_report_partial (alp bet : List ℕ) (hl : alp.length = bet.length) (hnd : (alp ++ bet).Nodup)
    (hr : ∀ x ∈ alp ++ bet, x < alp.length + bet.length) (n : ℕ) (hN : n ≠ 1) (ψ : Cfg →₀ ℂ) (h1 : pair ψ ψ = 1)
    (hψ : ∀ b, ψ b ≠ 0 → occAlpha (alp.length + bet.length) b = n) (D : List ℕ → ℂ)
    (hD : ∀ i k j m, i < alp.length + bet.length → k < alp.length + bet.length → j < alp.length + bet.length →
      m < alp.length + bet.length → D [i, k, j, m] = pair ψ ((cre i * (cre k * (ann m * ann j)) : Oper ℂ) ψ)) :
    ∃ R, acse (n : ℤ) D alp bet = some R ∧ R.sz = (pair ψ ((spinZ (alp.zip bet) : Oper ℂ) ψ)).re ∧
      R.s2 = (pair ψ ((spinSq (alp.zip bet) : Oper ℂ) ψ)).re ∧ R.number = (n : ℝ) * (n - 1) ∧
      (∀ e ∈ R.eig2, 1e-10 < e ∧ e ≤ n) ∧
      (n : ℝ) * (n - 1) - ((alp.length + bet.length) ^ 2 : ℕ) * 1e-10 ≤ R.eig2.sum ∧ R.eig2.sum ≤ (n : ℝ) * (n - 1) ∧ ¬ R.negative ∧
      (∀ e ∈ R.eig1, 1e-10 < e ∧ e ≤ 1) ∧ (n : ℝ) - (alp.length + bet.length : ℕ) * 1e-10 ≤ R.eig1.sum ∧ R.eig1.sum ≤ n ∧
      vqe (n : ℤ) D alp bet = some (R.sz, R.s2, R.eig2) := by
  set r := alp.length + bet.length with hrr
  have hsec : Sector r (n : ℤ) ψ := fun b hb => by exact_mod_cast hψ b hb
  have hspin := C83_state hl hnd hr (n : ℤ) (by exact_mod_cast hN) ψ hsec D hD
  obtain ⟨D1, r1, r2⟩ := C31_state_partial (K := ℂ) 2 (Or.inl rfl) r (n : ℤ) (by push_cast; omega) ψ
    hsec D (by
    intro c a hc ha hc' ha'
    match c, hc, a, ha with
    | [i, k], _, [j, m], _ =>
      rw [show [i, k] ++ [j, m] = [i, k, j, m] from rfl, hD i k j m (hc' _ (by simp)) (hc' _ (by simp)) (ha' _ (by simp)) (ha' _ (by simp))]
      unfold rdm
      simp [rdmOp, mul_assoc])
  have hD1 : ∀ i j, i < r → j < r → D1 [i, j] = pair ψ ((cre i * ann j : Oper ℂ) ψ) := by
    intro i j hi hj
    have := r2 [i] [j] rfl rfl (by simpa using hi) (by simpa using hj)
    rw [show [i] ++ [j] = [i, j] from rfl] at this
    rw [this]
    unfold rdm
    simp [rdmOp]
  obtain ⟨p1, p2, p3⟩ := all_pairs r n ψ h1 hψ D hD
  obtain ⟨o1, o2⟩ := one_body (List.range r) List.nodup_range r (fun x hx => List.mem_range.mp hx) n r (by simp) ψ h1 hψ D1 hD1
  have o3 : (eigvalsh (block1 D1 (List.range r) r)).card = r := by simp [eigvalsh]
  obtain ⟨q1, q2⟩ := shown_sum _ fun e he => (p1 e he).1
  obtain ⟨q3, q4⟩ := shown_sum _ fun e he => (o1 e he).1
  rw [p2, p3] at q1
  rw [p2] at q2
  rw [o2, o3] at q3
  rw [o2] at q4
  refine ⟨⟨(pair ψ ((spinZ (alp.zip bet) : Oper ℂ) ψ)).re, (pair ψ ((spinSq (alp.zip bet) : Oper ℂ) ψ)).re, (Report.trace r D).re,
    shown (eigvalsh (block D (RDM.tuples r 2))), ∃ e ∈ shown (eigvalsh (block D (RDM.tuples r 2))), e < 0,
    shown (eigvalsh (block1 D1 (List.range r) r))⟩, by unfold acse; simp only; rw [← hrr, hspin, Option.bind_some, r1, Option.map_some], rfl, rfl,
    trace_state r n ψ h1 hψ D hD, ?_, ?_, q2, ?_, ?_, q3, q4, by unfold vqe; rw [← hrr, hspin]; rfl⟩
  · intro e he
    obtain ⟨h2, h3⟩ := (mem_shown (eigvalsh (block D (RDM.tuples r 2))) e).mp he
    rw [abs_of_nonneg (p1 e h2).1] at h3
    exact ⟨h3, (p1 e h2).2⟩
  · rw [pow_two]; exact q1
  · rintro ⟨e, he, hneg⟩
    obtain ⟨h2, _⟩ := (mem_shown _ e).mp he
    exact absurd (p1 e h2).1 (not_le.mpr hneg)
  · intro e he
    obtain ⟨h2, h3⟩ := (mem_shown (eigvalsh (block1 D1 (List.range r) r)) e).mp he
    rw [abs_of_nonneg (o1 e h2).1] at h3
    exact ⟨h3, (o1 e h2).2⟩

/-- **C147 is violated for the electron number**: the number reported as `N` is the number of electrons only for no electrons or two. -/
theorem C147_number_fails (alp bet : List ℕ) (hl : alp.length = bet.length) (hnd : (alp ++ bet).Nodup)
    (hr : ∀ x ∈ alp ++ bet, x < alp.length + bet.length) (n : ℕ) (ψ : Cfg →₀ ℂ) (h1 : pair ψ ψ = 1)
    (hψ : ∀ b, ψ b ≠ 0 → occAlpha (alp.length + bet.length) b = n) (D : List ℕ → ℂ)
    (hD : ∀ i k j m, i < alp.length + bet.length → k < alp.length + bet.length → j < alp.length + bet.length →
      m < alp.length + bet.length → D [i, k, j, m] = pair ψ ((cre i * (cre k * (ann m * ann j)) : Oper ℂ) ψ)) :
    (∃ R, acse (n : ℤ) D alp bet = some R ∧ R.number = n) ↔ n = 0 ∨ n = 2 := by
  by_cases hN : n = 1
  · subst hN
    constructor
    · rintro ⟨R, hR, _⟩
      unfold acse at hR
      have := (C83_raises (alp := alp) (bet := bet) D).1
      simp only [Nat.cast_one] at hR
      rw [this] at hR
      simp at hR
    · intro h; omega
  · obtain ⟨R, hR, _, _, hnum, _⟩ := C147_report_partial alp bet hl hnd hr n hN ψ h1 hψ D hD
    constructor
    · rintro ⟨R', hR', h'⟩
      obtain rfl := Option.some.inj (hR.symm.trans hR')
      rw [hnum] at h'
      have : (n : ℝ) * (n - 2) = 0 := by linarith
      rcases mul_eq_zero.mp this with h | h
      · left; exact_mod_cast h
      · right
        have : (n : ℝ) = 2 := by linarith
        exact_mod_cast this
    · rintro (rfl | rfl)
      · exact ⟨R, hR, by rw [hnum]; norm_num⟩
      · exact ⟨R, hR, by rw [hnum]; norm_num⟩

/-- One electron, or lists of different lengths: an exception, with either storage. -/
theorem C147_raises (D : List ℕ → ℂ) (alp bet : List ℕ) : acse 1 D alp bet = none ∧ vqe 1 D alp bet = none ∧
    (∀ Ne, alp.length ≠ bet.length → acse Ne D alp bet = none ∧ vqe Ne D alp bet = none) := by
  obtain ⟨h1, h2⟩ := C83_raises (alp := alp) (bet := bet) D
  refine ⟨by unfold acse; simp only; rw [h1]; rfl, by unfold vqe; rw [h1]; rfl, fun Ne hne => ⟨by unfold acse; simp only; rw [h2 Ne hne]; rfl, by unfold vqe; rw [h2 Ne hne]; rfl⟩⟩

/-- Three electrons in two spatial orbitals: the number reported is six, and no eigenvalue is reported as negative. -/
example : ∃ R, acse 3 (fun l => rdm (det (K := ℂ) fun i => decide (i < 3)) (l.take 2) (l.drop 2)) [0, 1] [2, 3] = some R ∧ R.number = 6 ∧ ¬ R.negative := by
  obtain ⟨R, h0, _, _, h3, _, _, _, h7, _⟩ := C147_report_partial [0, 1] [2, 3] (by decide) (by decide) (by decide) 3 (by decide)
    (det (K := ℂ) fun i => decide (i < 3)) (by unfold det; rw [pair_single, Finsupp.single_eq_same]; simp [conj_one])
    (by
      intro b hb
      have : b = fun i => decide (i < 3) := by
        classical
        by_contra h
        exact hb (by unfold det; rw [Finsupp.single_apply, if_neg (Ne.symm h)])
      subst this
      decide)
    (fun l => rdm (det (K := ℂ) fun i => decide (i < 3)) (l.take 2) (l.drop 2))
    (by intro i k j m _ _ _ _; unfold rdm; simp [rdmOp, mul_assoc])
  exact ⟨R, h0, by rw [h3]; norm_num, h7⟩

end
end Props
end HQCA
