import Verif.Proofs.RDMState
import Verif.Model.RDMAlg

/-!
# RDMs of determinants and of states with a fixed particle number
-/

set_option linter.unusedSectionVars false

namespace HQCA
variable {K : Type} [Coef K]

/-- The configuration `b` with the orbitals of `l` emptied. -/
def off (b : Cfg) (l : List ℕ) : Cfg := fun i => b i && !(decide (i ∈ l))

open Classical in
/-- The basis state of `b`. -/
noncomputable def delta (b : Cfg) : Cfg → K := fun x => if x = b then 1 else 0

theorem ann_delta (k : ℕ) (b : Cfg) : (ann k (delta b : Cfg → K)) =
    if b k then (fsign b k : K) • delta (Function.update b k false) else 0 := by
  funext x
  show (if x k then 0 else fsign x k * (delta b : Cfg → K) (Function.update x k true)) = _
  by_cases hb : b k
  · rw [if_pos hb]
    by_cases hx : x k
    · have : x ≠ Function.update b k false := by
        rintro rfl; simp at hx
      simp [hx, delta, this]
    · simp only [hx, Bool.false_eq_true, if_false, delta, Pi.smul_apply, smul_eq_mul]
      by_cases he : Function.update x k true = b
      · have h2 : x = Function.update b k false := by
          rw [← he, Function.update_idem]
          rw [Function.eq_update_iff]
          exact ⟨by simpa using hx, fun _ _ => rfl⟩
        rw [if_pos he, if_pos h2]
        rw [h2, fsign_update]
      · rw [if_neg he, if_neg]
        · simp
        · rintro rfl
          apply he
          rw [Function.update_idem]
          rw [Function.update_eq_iff]
          exact ⟨hb.symm, fun _ _ => rfl⟩
  · rw [if_neg hb]
    by_cases hx : x k
    · simp [hx]
    · simp only [hx, Bool.false_eq_true, if_false, delta]
      rw [if_neg]
      · simp
      · rintro rfl; simp at hb

theorem fsign_sq (b : Cfg) (k : ℕ) : (fsign b k : K) * fsign b k = 1 := by
  unfold fsign
  rw [← mul_pow]; simp

theorem off_cons (b : Cfg) (x : ℕ) (l : List ℕ) : off b (x :: l) = Function.update (off b l) x false := by
  funext i
  unfold off
  by_cases h : i = x
  · subst h; simp
  · simp [Function.update_of_ne h, h]

open Classical in
/-- Annihilators on a basis state. -/
theorem anns_delta (b : Cfg) (l : List ℕ) : ∃ s : K, s * s = 1 ∧ conj s = s ∧ (l.map ann).prod (delta b : Cfg → K) =
    if l.Nodup ∧ ∀ x ∈ l, b x = true then s • delta (off b l) else 0 := by
  induction l with
  | nil =>
    refine ⟨1, by ring, conj_one, ?_⟩
    have : off b [] = b := by funext i; simp [off]
    simp [this]
  | cons x l ih =>
    obtain ⟨s, hs, hc, e⟩ := ih
    refine ⟨s * fsign (off b l) x, ?_, ?_, ?_⟩
    · have := fsign_sq (K := K) (off b l) x
      linear_combination (fsign (off b l) x * fsign (off b l) x) * hs + this
    · rw [Coef.conj_mul, hc, fsign_conj]
    rw [List.map_cons, List.prod_cons, Module.End.mul_apply, e]
    by_cases h : l.Nodup ∧ ∀ x ∈ l, b x = true
    · rw [if_pos h, map_smul, ann_delta]
      by_cases hx : off b l x = true
      · rw [if_pos hx, if_pos, smul_smul, off_cons]
        simp only [off, Bool.and_eq_true, Bool.not_eq_true', decide_eq_false_iff_not] at hx
        refine ⟨List.nodup_cons.mpr ⟨hx.2, h.1⟩, ?_⟩
        intro y hy
        rcases List.mem_cons.mp hy with rfl | hy
        · exact hx.1
        · exact h.2 y hy
      · rw [if_neg hx, if_neg, smul_zero]
        rintro ⟨h1, h2⟩
        apply hx
        simp only [off, Bool.and_eq_true, Bool.not_eq_true', decide_eq_false_iff_not]
        exact ⟨h2 x (by simp), (List.nodup_cons.mp h1).1⟩
    · rw [if_neg h, map_zero, if_neg]
      rintro ⟨h1, h2⟩
      exact h ⟨(List.nodup_cons.mp h1).2, fun y hy => h2 y (by simp [hy])⟩

/-- The determinant with the orbitals of `b` occupied. -/
noncomputable def det (b : Cfg) : Cfg →₀ K := Finsupp.single b 1

theorem det_eq (b : Cfg) : ((det b : Cfg →₀ K) : Cfg → K) = delta b := by
  classical
  funext x
  unfold det delta
  rw [Finsupp.single_apply]
  by_cases h : x = b
  · simp [h]
  · simp [h, Ne.symm h]

open Classical in
/-- `⟨b| a†_c a_a |b⟩` for a determinant, up to the sign: one exactly on permuted pairs of occupied distinct orbitals. -/
theorem rdm_det (b : Cfg) (c a : List ℕ) :
    (¬ (c.Perm a ∧ c.Nodup ∧ ∀ x ∈ c, b x = true) → rdm (det b : Cfg →₀ K) c a = 0) ∧
    (c.Nodup → (∀ x ∈ c, b x = true) → rdm (det b : Cfg →₀ K) c c = 1) := by
  have key : ∀ c a : List ℕ, ∃ s t : K, s * s = 1 ∧ conj s = s ∧ t * t = 1 ∧ (c = a → s = t) ∧
      rdm (det b : Cfg →₀ K) c a = if (c.Nodup ∧ ∀ x ∈ c, b x = true) ∧ (a.Nodup ∧ ∀ x ∈ a, b x = true) ∧ off b c = off b a
        then s * t else 0 := by
    intro c a
    obtain ⟨s, hs, hsc, es⟩ := anns_delta (K := K) b c.reverse
    obtain ⟨t, ht, htc, et⟩ := anns_delta (K := K) b a.reverse
    by_cases hca : c = a
    · subst hca
      obtain ⟨φ, h1, h2⟩ := isAdj_cre_prod (K := K) c (det b)
      refine ⟨s, s, hs, hsc, hs, fun _ => rfl, ?_⟩
      unfold rdm rdmOp
      rw [Module.End.mul_apply, h2, det_eq, es]
      rw [det_eq, es] at h1
      simp only [List.nodup_reverse, List.mem_reverse] at h1 ⊢
      by_cases h : c.Nodup ∧ ∀ x ∈ c, b x = true
      · rw [if_pos h] at h1 ⊢
        have : φ = Finsupp.single (off b c.reverse) s := by
          ext x
          rw [h1]
          simp only [Pi.smul_apply, delta, smul_eq_mul, Finsupp.single_apply]
          by_cases hx : x = off b c.reverse
          · simp [hx]
          · simp [hx, Ne.symm hx]
        rw [this, pair_single, if_pos ⟨h, h, trivial⟩, hsc]
        simp [delta]
      · rw [if_neg h, if_neg (by tauto)]
        have := pair_smul_right φ 0 0
        rw [zero_smul, zero_mul] at this
        exact this
    · obtain ⟨φ, h1, h2⟩ := isAdj_cre_prod (K := K) c (det b)
      refine ⟨s, t, hs, hsc, ht, fun h => absurd h hca, ?_⟩
      unfold rdm rdmOp
      rw [Module.End.mul_apply, h2, det_eq, et]
      rw [det_eq, es] at h1
      have hoff : ∀ l : List ℕ, off b l.reverse = off b l := by intro l; funext i; simp [off]
      simp only [List.nodup_reverse, List.mem_reverse, hoff] at h1 ⊢
      by_cases h : c.Nodup ∧ ∀ x ∈ c, b x = true
      · rw [if_pos h] at h1
        have : φ = Finsupp.single (off b c) s := by
          ext x
          rw [h1]
          simp only [Pi.smul_apply, delta, smul_eq_mul, Finsupp.single_apply]
          by_cases hx : x = off b c
          · simp [hx]
          · simp [hx, Ne.symm hx]
        rw [this, pair_single, hsc]
        by_cases h' : a.Nodup ∧ ∀ x ∈ a, b x = true
        · rw [if_pos h']
          by_cases ho : off b c = off b a
          · rw [if_pos ⟨h, h', ho⟩]; simp [delta, ho]
          · rw [if_neg (by tauto)]; simp [delta, ho]
        · rw [if_neg h', if_neg (by tauto)]; simp
      · rw [if_neg h] at h1
        have : φ = 0 := by ext x; rw [h1]; rfl
        rw [this, pair_zero, if_neg (by tauto)]
  constructor
  · intro h
    obtain ⟨s, t, _, _, _, _, e⟩ := key c a
    rw [e, if_neg]
    rintro ⟨h1, h2, h3⟩
    apply h
    refine ⟨(List.perm_ext_iff_of_nodup h1.1 h2.1).mpr ?_, h1⟩
    intro x
    have := congrFun h3 x
    simp only [off] at this
    constructor
    · intro hx
      have hb := h1.2 x hx
      simpa [hb, hx] using this
    · intro hx
      have hb := h2.2 x hx
      simpa [hb, hx] using this
  · intro h1 h2
    obtain ⟨s, t, hs, _, _, hst, e⟩ := key c c
    rw [e, if_pos ⟨⟨h1, h2⟩, ⟨h1, h2⟩, rfl⟩, ← hst rfl, hs]

/-! ### Contraction for a fixed particle number -/

theorem number_apply (k : ℕ) (ψ : Cfg → K) (b : Cfg) : (cre k * ann k : Oper K) ψ b = if b k then ψ b else 0 := by
  show (if b k then fsign b k * (if (Function.update b k false) k then 0 else
    fsign (Function.update b k false) k * ψ (Function.update (Function.update b k false) k true)) else 0) = _
  by_cases h : b k
  · have h2 : Function.update (Function.update b k false) k true = b := by
      rw [Function.update_idem, Function.update_eq_iff]
      exact ⟨h.symm, fun _ _ => rfl⟩
    have h3 : (fsign (Function.update b k false) k : K) = fsign b k := by rw [fsign_update]
    simp only [h, if_true, Function.update_self, Bool.false_eq_true, if_false, h2, h3]
    rw [← mul_assoc, fsign_sq, one_mul]
  · simp [h]

theorem number_sum (r : ℕ) (n : ℤ) (χ : Cfg → K) (h : Sector r n χ) :
    ((List.range r).map (fun x => (cre x * ann x : Oper K) χ)).sum = (n : K) • χ := by
  funext b
  have hs : ∀ L : List (Cfg → K), L.sum b = (L.map (fun f => f b)).sum := by
    intro L
    induction L with
    | nil => rfl
    | cons f L ih => simp [ih]
  rw [hs, List.map_map]
  simp only [Function.comp_def, number_apply, Pi.smul_apply, smul_eq_mul]
  have hc : ∀ l : List ℕ, (l.map (fun x => if b x then χ b else 0)).sum = ((l.filter (fun i => b i)).length : K) * χ b := by
    intro l
    induction l with
    | nil => simp
    | cons x l ih =>
      rw [List.map_cons, List.sum_cons, ih, List.filter_cons]
      by_cases hx : b x
      · simp [hx]; ring
      · simp [hx]
  rw [hc]
  by_cases hb : χ b = 0
  · simp [hb]
  · have := h b hb
    rw [← this]
    simp [occAlpha]

theorem pair_list_sum (φ : Cfg →₀ K) (L : List (Cfg → K)) : pair φ L.sum = (L.map (pair φ)).sum := by
  induction L with
  | nil =>
    have := pair_smul_right φ 0 0
    rw [zero_smul, zero_mul] at this
    simpa using this
  | cons f L ih => rw [List.sum_cons, pair_add_right, ih, List.map_cons, List.sum_cons]

/-- Contracting the last pair of indices of the RDM of an `n`-electron state. -/
theorem rdm_contract (ψ : Cfg →₀ K) (r : ℕ) (n : ℤ) (h : Sector r n ψ) (c a : List ℕ) (ha : ∀ x ∈ a, x < r) :
    ((List.range r).map (fun x => rdm ψ (c ++ [x]) (a ++ [x]))).sum = ((n - a.length : ℤ) : K) * rdm ψ c a := by
  have h1 := h.anns a.reverse
  have hr : Props.nAlpha r a.reverse = a.length := by
    unfold Props.nAlpha
    rw [List.countP_reverse, List.countP_eq_length]
    simpa using ha
  rw [hr] at h1
  have h2 := number_sum r _ _ h1
  have e : ∀ x, rdm ψ (c ++ [x]) (a ++ [x]) =
      pair ψ ((c.map cre).prod ((cre x * ann x : Oper K) ((a.reverse.map ann).prod ψ))) := by
    intro x
    unfold rdm rdmOp
    simp only [List.map_append, List.prod_append, List.map_cons, List.map_nil, List.prod_cons, List.prod_nil, mul_one,
      List.reverse_append, List.reverse_cons, List.reverse_nil, List.nil_append, List.singleton_append,
      Module.End.mul_apply]
  simp only [e]
  have : ((List.range r).map (fun x => pair ψ ((c.map cre).prod ((cre x * ann x : Oper K) ((a.reverse.map ann).prod ψ))))).sum
      = pair ψ ((c.map cre).prod (((List.range r).map (fun x => (cre x * ann x : Oper K) ((a.reverse.map ann).prod ψ))).sum)) := by
    rw [map_list_sum, pair_list_sum, List.map_map, List.map_map]
    rfl
  rw [this, h2, map_smul, pair_smul_right]
  unfold rdm rdmOp
  rw [Module.End.mul_apply]

/-! ### Traces -/

theorem tuples_sum_snoc (r n : ℕ) (f : List ℕ → K) : ((RDM.tuples r (n + 1)).map f).sum =
    ((RDM.tuples r n).map (fun t => ((List.range r).map (fun x => f (t ++ [x]))).sum)).sum := by
  have fm : ∀ (l : List ℕ) (g : ℕ → List (List ℕ)) (f : List ℕ → K),
      ((l.flatMap g).map f).sum = (l.map (fun i => ((g i).map f).sum)).sum := by
    intro l g f
    induction l with
    | nil => rfl
    | cons x l ih => simp [ih]
  induction n generalizing f with
  | zero =>
    simp only [RDM.tuples, fm]
    simp
  | succ n ih =>
    rw [RDM.tuples, fm]
    have : ∀ i, (((RDM.tuples r (n + 1)).map (i :: ·)).map f).sum =
        ((RDM.tuples r n).map (fun t => ((List.range r).map (fun x => f (i :: (t ++ [x])))).sum)).sum := by
      intro i
      rw [List.map_map, ← ih (fun t => f (i :: t))]
      rfl
    simp only [this]
    conv_rhs => rw [RDM.tuples, fm]
    congr 1
    apply List.map_congr_left
    intro i _
    rw [List.map_map]
    rfl

theorem mem_tuples (r n : ℕ) (t : List ℕ) : t ∈ RDM.tuples r n ↔ t.length = n ∧ ∀ x ∈ t, x < r := by
  induction n generalizing t with
  | zero => simp [RDM.tuples]; rintro rfl; simp
  | succ n ih =>
    simp only [RDM.tuples, List.mem_flatMap, List.mem_map, List.mem_range]
    constructor
    · rintro ⟨i, hi, u, hu, rfl⟩
      obtain ⟨h1, h2⟩ := (ih u).mp hu
      exact ⟨by simp [h1], by simpa [hi] using h2⟩
    · rintro ⟨h1, h2⟩
      cases t with
      | nil => simp at h1
      | cons x t =>
        exact ⟨x, h2 x (by simp), t, (ih t).mpr ⟨by simpa using h1, fun y hy => h2 y (by simp [hy])⟩, rfl⟩

/-- The trace of the `p`-RDM of a normalised `n`-electron state is `n(n-1)…(n-p+1)`. -/
theorem rdm_trace (ψ : Cfg →₀ K) (r n : ℕ) (h1 : pair ψ ψ = 1) (h : Sector r n ψ) (p : ℕ) :
    ((RDM.tuples r p).map (fun c => rdm ψ c c)).sum = (n.descFactorial p : K) := by
  induction p with
  | zero => simp [RDM.tuples, rdm, rdmOp, h1]
  | succ p ih =>
    rw [tuples_sum_snoc]
    have : ∀ t ∈ RDM.tuples r p, ((List.range r).map (fun x => rdm ψ (t ++ [x]) (t ++ [x]))).sum =
        (((n : ℤ) - p : ℤ) : K) * rdm ψ t t := by
      intro t ht
      obtain ⟨hl, ht⟩ := (mem_tuples r p t).mp ht
      rw [rdm_contract ψ r n h t t ht, hl]
    rw [List.map_congr_left this, List.sum_map_mul_left, ih, Nat.descFactorial_succ]
    push_cast
    by_cases hp : p ≤ n
    · rw [Nat.cast_sub hp]
    · rw [Nat.descFactorial_of_lt (by omega)]; simp

end HQCA
