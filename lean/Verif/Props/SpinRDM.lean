import Verif.Model.SpinRDM
import Verif.Props.RDMAlg
import Verif.Props.SpinOps
import Mathlib.Algebra.BigOperators.Fin
import Mathlib.Algebra.BigOperators.Ring.Finset

/-!
# C83: spin expectation values from the density matrices
-/

set_option linter.unusedSectionVars false

namespace HQCA
namespace Props
open SpinRDM RDM

section
variable {K : Type} [Coef K]

theorem list_sum_range (r : ℕ) (f : ℕ → K) : ((List.range r).map f).sum = ∑ i ∈ Finset.range r, f i := by
  induction r with
  | zero => simp
  | succ r ih => rw [List.range_succ, List.map_append, List.sum_append, ih, Finset.sum_range_succ]; simp

theorem adds_nil (ind : List ℕ) : adds ([] : List (List ℕ × K)) ind = 0 := rfl

theorem adds_cons (w : List ℕ × K) (ws : List (List ℕ × K)) (ind : List ℕ) :
    adds (w :: ws) ind = (if w.1 = ind then w.2 else 0) + adds ws ind := by
  unfold adds
  rw [List.filter_cons]
  by_cases h : w.1 = ind <;> simp [h]

theorem writes_adds (ws : List (List ℕ × K)) (h : (ws.map (·.1)).Nodup) : writes ws = adds ws := by
  funext ind
  by_cases hex : ∃ w ∈ ws, w.1 = ind
  · obtain ⟨w, hw, rfl⟩ := hex
    have hu : ∀ u ∈ ws, u.1 = w.1 → u = w := by
      intro u hu he
      exact List.inj_on_of_nodup_map h hu hw he
    rw [writes_eq ws w.1 w.2 (fun u h1 h2 => by rw [hu u h1 h2]) ⟨w, hw, rfl⟩]
    have : ws.filter (fun u => u.1 = w.1) = [w] := by
      clear hu
      induction ws with
      | nil => cases hw
      | cons a ws ih =>
        rw [List.map_cons, List.nodup_cons] at h
        rw [List.filter_cons]
        rcases List.mem_cons.mp hw with rfl | hw'
        · simp only [decide_true, if_true]
          rw [List.filter_eq_nil_iff.mpr]
          intro u hu
          simp only [decide_eq_true_eq]
          intro e
          exact h.1 (List.mem_map.mpr ⟨u, hu, e⟩)
        · rw [if_neg, ih h.2 hw']
          simp only [decide_eq_true_eq]
          intro e
          exact h.1 (List.mem_map.mpr ⟨w, hw', e.symm⟩)
    unfold adds
    rw [this]; simp
  · have : ∀ w ∈ ws, w.1 ≠ ind := fun w hw he => hex ⟨w, hw, he⟩
    rw [writes_zero ws ind this]
    unfold adds
    rw [List.filter_eq_nil_iff.mpr]
    · rfl
    · intro w hw; simpa using this w hw

theorem tr1_adds (r : ℕ) (ws : List (List ℕ × K)) (B : List ℕ → K)
    (h : ∀ w ∈ ws, ∃ i j, w.1 = [i, j] ∧ i < r ∧ j < r) :
    tr1 r (adds ws) B = (ws.map (fun w => w.2 * B (w.1.drop 1 ++ w.1.take 1))).sum := by
  unfold tr1
  simp only [list_sum_range]
  induction ws with
  | nil => simp [adds_nil]
  | cons w ws ih =>
    obtain ⟨i, j, hw, hi, hj⟩ := h w (by simp)
    rw [List.map_cons, List.sum_cons, ← ih (fun u hu => h u (by simp [hu])), hw]
    simp only [adds_cons, add_mul, Finset.sum_add_distrib, hw]
    congr 1
    rw [Finset.sum_eq_single i, Finset.sum_eq_single j]
    · simp
    · intro b _ hb; simp [Ne.symm hb]
    · intro hn; simp at hn; omega
    · intro b _ hb; simp [Ne.symm hb]
    · intro hn; simp at hn; omega

theorem tr2_adds (r : ℕ) (ws : List (List ℕ × K)) (B : List ℕ → K)
    (h : ∀ w ∈ ws, ∃ i j k l, w.1 = [i, j, k, l] ∧ i < r ∧ j < r ∧ k < r ∧ l < r) :
    tr2 r (adds ws) B = (ws.map (fun w => w.2 * B (w.1.drop 2 ++ w.1.take 2))).sum := by
  unfold tr2
  simp only [list_sum_range]
  induction ws with
  | nil => simp [adds_nil]
  | cons w ws ih =>
    obtain ⟨i, j, k, l, hw, hi, hj, hk, hl⟩ := h w (by simp)
    rw [List.map_cons, List.sum_cons, ← ih (fun u hu => h u (by simp [hu])), hw]
    simp only [adds_cons, add_mul, Finset.sum_add_distrib, hw]
    congr 1
    rw [Finset.sum_eq_single i, Finset.sum_eq_single j, Finset.sum_eq_single k, Finset.sum_eq_single l]
    · simp
    · intro b _ hb; simp [Ne.symm hb]
    · intro hn; simp at hn; omega
    · intro b _ hb; simp [Ne.symm hb]
    · intro hn; simp at hn; omega
    · intro b _ hb; simp [Ne.symm hb]
    · intro hn; simp at hn; omega
    · intro b _ hb; simp [Ne.symm hb]
    · intro hn; simp at hn; omega

theorem lookup_mem (m : List (ℕ × ℕ)) (hm : (m.map (·.1)).Nodup) {x y : ℕ} (h : (x, y) ∈ m) : m.lookup x = some y := by
  induction m with
  | nil => cases h
  | cons a m ih =>
    rw [List.map_cons, List.nodup_cons] at hm
    rcases List.mem_cons.mp h with rfl | h'
    · simp [List.lookup]
    · have : (x == a.1) = false := by
        rw [beq_eq_false_iff_ne]
        rintro rfl
        exact hm.1 (List.mem_map.mpr ⟨_, h', rfl⟩)
      rw [List.lookup, this]
      exact ih hm.2 h'

theorem partner_eq (l : List (ℕ × ℕ)) (h1 : (l.map (·.1)).Nodup) (p : ℕ × ℕ) (hp : p ∈ l) :
    partner (l.map (·.1)) (l.map (·.2)) p.1 = p.2 := by
  unfold partner
  have e : (l.map (·.1)).zip (l.map (·.2)) = l := by
    have := List.zip_unzip l; rwa [List.unzip_eq_map] at this
  rw [e, lookup_mem l.reverse (by rw [List.map_reverse, List.nodup_reverse]; exact h1) (by simpa using hp)]
  rfl

theorem partner_eq' (l : List (ℕ × ℕ)) (h2 : (l.map (·.2)).Nodup) (p : ℕ × ℕ) (hp : p ∈ l) :
    partner (l.map (·.2)) (l.map (·.1)) p.2 = p.1 := by
  have := partner_eq (l.map Prod.swap) (by rw [List.map_map]; exact h2) p.swap (List.mem_map.mpr ⟨p, hp, rfl⟩)
  rw [List.map_map, List.map_map] at this
  exact this

theorem loops_eq (l : List (ℕ × ℕ)) (h1 : (l.map (·.1)).Nodup) (h2 : (l.map (·.2)).Nodup) :
    loops (l.map (·.1)) (l.map (·.2)) = l.flatMap (fun p => l.map (fun q => (p.1, p.2, q.1, q.2))) := by
  unfold loops
  rw [List.flatMap_map]
  apply List.flatMap_congr
  intro p hp
  rw [List.map_map]
  apply List.map_congr_left
  intro q hq
  simp only [Function.comp]
  rw [partner_eq l h1 p hp, partner_eq' l h2 q hq]


/-! ### The operators -/

/-- `ev (a†_a a_b)` and `ev (a†_a a†_b a_d a_c)`. -/
def ev1 (ev : Oper K →ₗ[K] K) (a b : ℕ) : K := ev (cre a * ann b)
def ev2 (ev : Oper K →ₗ[K] K) (a b c d : ℕ) : K := ev (cre a * (cre b * (ann d * ann c)))

theorem exch {R : Type} [Ring R] (a b c d e : R) (h : b * c = e - c * b) : a * b * (c * d) = a * e * d - a * (c * (b * d)) := by
  have : a * b * (c * d) = a * (b * c) * d := by noncomm_ring
  rw [this, h]
  noncomm_ring

theorem ev_updown (ev : Oper K →ₗ[K] K) (a b c d : ℕ) :
    ev (cre a * ann b * (cre c * ann d)) = (if b = c then ev1 ev a d else 0) - ev2 ev a c d b := by
  rw [exch _ _ _ _ _ (car_ann_cre b c), map_sub]
  unfold ev1 ev2
  by_cases h : b = c
  · rw [if_pos h, if_pos h, mul_one]
  · rw [if_neg h, if_neg h, mul_zero, zero_mul, map_zero]

theorem neg_end {R : Type} [Ring R] (x y z : R) : x * (y * -z) = -(x * (y * z)) := by noncomm_ring

theorem ev2_swap (ev : Oper K →ₗ[K] K) (a b c d : ℕ) : ev2 ev a b d c = -ev2 ev a b c d := by
  unfold ev2
  rw [car_ann_ann c d, neg_end, map_neg]

theorem ev_num (ev : Oper K →ₗ[K] K) (a b : ℕ) :
    ev (cre a * ann a * (cre b * ann b)) = (if a = b then ev1 ev a b else 0) + ev2 ev a b a b := by
  rw [ev_updown, ev2_swap]; ring

theorem sum_fin (l : List (ℕ × ℕ)) {M : Type} [AddCommMonoid M] (f : ℕ × ℕ → M) :
    (l.map f).sum = ∑ i : Fin l.length, f l[i] := (Fin.sum_univ_fun_getElem l f).symm


theorem ev_spinUpDown (ev : Oper K →ₗ[K] K) (l : List (ℕ × ℕ)) (h2 : (l.map (·.2)).Nodup) :
    ev (spinUp l * spinDown l) = (l.map (fun p => ev1 ev p.1 p.1)).sum -
      (l.map (fun p => (l.map (fun q => ev2 ev p.1 q.2 q.1 p.2)).sum)).sum := by
  have inj : ∀ i j : Fin l.length, (l[i].2 = l[j].2) = (i = j) := by
    intro i j
    have := (List.nodup_iff_injective_get.mp h2).eq_iff (a := Fin.cast (by simp) i) (b := Fin.cast (by simp) j)
    simp only [List.get_eq_getElem, Fin.val_cast, List.getElem_map, Fin.cast_inj] at this
    exact propext this
  unfold spinUp spinDown
  simp only [sum_fin, Finset.sum_mul_sum, map_sum, ev_updown, Finset.sum_sub_distrib, inj, Finset.sum_ite_eq,
    Finset.mem_univ, if_true]

theorem ev_spinZsq (ev : Oper K →ₗ[K] K) (l : List (ℕ × ℕ)) (h1 : (l.map (·.1)).Nodup) (h2 : (l.map (·.2)).Nodup)
    (hd : ∀ p ∈ l, ∀ q ∈ l, p.1 ≠ q.2) :
    ev (spinZ l * spinZ l) = (1 / 2 * (1 / 2) : K) * ((l.map (fun p => ev1 ev p.1 p.1 + ev1 ev p.2 p.2)).sum +
      (l.map (fun p => (l.map (fun q => ev2 ev p.1 q.1 p.1 q.1 + ev2 ev p.2 q.2 p.2 q.2 - ev2 ev p.2 q.1 p.2 q.1 -
        ev2 ev p.1 q.2 p.1 q.2)).sum)).sum) := by
  have inj2 : ∀ i j : Fin l.length, (l[i].2 = l[j].2) = (i = j) := by
    intro i j
    have := (List.nodup_iff_injective_get.mp h2).eq_iff (a := Fin.cast (by simp) i) (b := Fin.cast (by simp) j)
    simp only [List.get_eq_getElem, Fin.val_cast, List.getElem_map, Fin.cast_inj] at this
    exact propext this
  have inj1 : ∀ i j : Fin l.length, (l[i].1 = l[j].1) = (i = j) := by
    intro i j
    have := (List.nodup_iff_injective_get.mp h1).eq_iff (a := Fin.cast (by simp) i) (b := Fin.cast (by simp) j)
    simp only [List.get_eq_getElem, Fin.val_cast, List.getElem_map, Fin.cast_inj] at this
    exact propext this
  have d1 : ∀ i j : Fin l.length, (l[i].1 = l[j].2) = False := by
    intro i j; exact eq_false (hd _ (List.getElem_mem _) _ (List.getElem_mem _))
  have d2 : ∀ i j : Fin l.length, (l[i].2 = l[j].1) = False := by
    intro i j; exact eq_false (fun e => hd _ (List.getElem_mem _) _ (List.getElem_mem _) e.symm)
  have sq : ∀ a b c d : Oper K, (a - b) * (c - d) = a * c - a * d - b * c + b * d := by
    intro a b c d
    have : ∀ {R : Type} [Ring R] (a b c d : R), (a - b) * (c - d) = a * c - a * d - b * c + b * d := by
      intro R _ a b c d; noncomm_ring
    exact this a b c d
  unfold spinZ
  rw [smul_mul_smul_comm, map_smul, smul_eq_mul]
  congr 1
  simp only [sum_fin, Finset.sum_mul_sum, map_sum, sq, map_add, map_sub, ev_num, inj1, inj2, d1, d2, if_false,
    Finset.sum_sub_distrib, Finset.sum_add_distrib, Finset.sum_ite_eq, Finset.mem_univ, if_true, Finset.sum_const_zero]
  ring

end

/-! ### The expectation values -/

variable {alp bet : List ℕ}

theorem szMat_tr (l : List (ℕ × ℕ)) (r : ℕ) (hn : (l.map (·.1) ++ l.map (·.2)).Nodup) (hr : ∀ p ∈ l, p.1 < r ∧ p.2 < r)
    (ev : Oper ℂ →ₗ[ℂ] ℂ) (D1 : List ℕ → ℂ) (h1 : ∀ i j, i < r → j < r → D1 [i, j] = ev1 ev i j) :
    tr1 r (szMat (l.map (·.1)) (l.map (·.2))) D1 = ev (spinZ l) := by
  unfold szMat
  rw [writes_adds, tr1_adds]
  · simp only [List.map_append, List.map_map, List.sum_append, Function.comp_def, List.drop_succ_cons, List.drop_zero,
      List.take_succ_cons, List.take_zero, List.cons_append, List.nil_append]
    unfold spinZ
    rw [map_smul, smul_eq_mul]
    have e1 : ∀ i : Fin l.length, D1 [l[i].1, l[i].1] = ev1 ev l[i].1 l[i].1 := fun i =>
      h1 _ _ (hr _ (List.getElem_mem _)).1 (hr _ (List.getElem_mem _)).1
    have e2 : ∀ i : Fin l.length, D1 [l[i].2, l[i].2] = ev1 ev l[i].2 l[i].2 := fun i =>
      h1 _ _ (hr _ (List.getElem_mem _)).2 (hr _ (List.getElem_mem _)).2
    simp only [sum_fin, map_sum, e1, e2, map_sub, Finset.sum_sub_distrib, ← Finset.mul_sum]
    unfold ev1
    ring
  · intro w hw
    rw [List.mem_append, List.mem_map, List.mem_map] at hw
    rcases hw with ⟨x, hx, rfl⟩ | ⟨x, hx, rfl⟩
    · obtain ⟨p, hp, rfl⟩ := List.mem_map.mp hx
      exact ⟨_, _, rfl, (hr p hp).1, (hr p hp).1⟩
    · obtain ⟨p, hp, rfl⟩ := List.mem_map.mp hx
      exact ⟨_, _, rfl, (hr p hp).2, (hr p hp).2⟩
  · have : (List.map (fun pa => ([pa, pa], (1 / 2 : ℂ))) (l.map (·.1)) ++
        List.map (fun pb => ([pb, pb], -(1 / 2 : ℂ))) (l.map (·.2))).map (·.1) =
        (l.map (·.1) ++ l.map (·.2)).map (fun x => [x, x]) := by simp [Function.comp_def]
    rw [this]
    exact hn.map (fun a b h => by simpa using h)

theorem spsmOne_tr (l : List (ℕ × ℕ)) (r : ℕ) (hn : (l.map (·.1)).Nodup) (hr : ∀ p ∈ l, p.1 < r ∧ p.2 < r)
    (ev : Oper ℂ →ₗ[ℂ] ℂ) (D1 : List ℕ → ℂ) (h1 : ∀ i j, i < r → j < r → D1 [i, j] = ev1 ev i j) :
    tr1 r (spsmOne (l.map (·.1))) D1 = (l.map (fun p => ev1 ev p.1 p.1)).sum := by
  unfold spsmOne
  rw [writes_adds, tr1_adds]
  · simp only [List.map_map, Function.comp_def, List.drop_succ_cons, List.drop_zero,
      List.take_succ_cons, List.take_zero, List.cons_append, List.nil_append, one_mul]
    congr 1
    apply List.map_congr_left
    intro p hp
    exact h1 _ _ (hr p hp).1 (hr p hp).1
  · intro w hw
    obtain ⟨x, hx, rfl⟩ := List.mem_map.mp hw
    obtain ⟨p, hp, rfl⟩ := List.mem_map.mp hx
    exact ⟨_, _, rfl, (hr p hp).1, (hr p hp).1⟩
  · have : (List.map (fun pa => ([pa, pa], (1 : ℂ))) (l.map (·.1))).map (·.1) = (l.map (·.1)).map (fun x => [x, x]) := by
      simp [Function.comp_def]
    rw [this]
    exact hn.map (fun a b h => by simpa using h)

theorem sz2One_tr (l : List (ℕ × ℕ)) (r : ℕ) (hr : ∀ p ∈ l, p.1 < r ∧ p.2 < r)
    (ev : Oper ℂ →ₗ[ℂ] ℂ) (D1 : List ℕ → ℂ) (h1 : ∀ i j, i < r → j < r → D1 [i, j] = ev1 ev i j) :
    tr1 r (sz2One (l.map (·.1)) (l.map (·.2))) D1 = (1 / 4 : ℂ) * (l.map (fun p => ev1 ev p.1 p.1 + ev1 ev p.2 p.2)).sum := by
  unfold sz2One
  rw [tr1_adds]
  · simp only [List.map_append, List.map_map, List.sum_append, Function.comp_def, List.drop_succ_cons, List.drop_zero,
      List.take_succ_cons, List.take_zero, List.cons_append, List.nil_append]
    have e1 : ∀ i : Fin l.length, D1 [l[i].1, l[i].1] = ev1 ev l[i].1 l[i].1 := fun i =>
      h1 _ _ (hr _ (List.getElem_mem _)).1 (hr _ (List.getElem_mem _)).1
    have e2 : ∀ i : Fin l.length, D1 [l[i].2, l[i].2] = ev1 ev l[i].2 l[i].2 := fun i =>
      h1 _ _ (hr _ (List.getElem_mem _)).2 (hr _ (List.getElem_mem _)).2
    simp only [sum_fin, e1, e2, Finset.sum_add_distrib, ← Finset.mul_sum]
    ring
  · intro w hw
    rw [List.mem_append, List.mem_map, List.mem_map] at hw
    rcases hw with ⟨x, hx, rfl⟩ | ⟨x, hx, rfl⟩
    · obtain ⟨p, hp, rfl⟩ := List.mem_map.mp hx
      exact ⟨_, _, rfl, (hr p hp).1, (hr p hp).1⟩
    · obtain ⟨p, hp, rfl⟩ := List.mem_map.mp hx
      exact ⟨_, _, rfl, (hr p hp).2, (hr p hp).2⟩

theorem spsmTwo_tr (l : List (ℕ × ℕ)) (r : ℕ) (hn1 : (l.map (·.1)).Nodup) (hn2 : (l.map (·.2)).Nodup)
    (hr : ∀ p ∈ l, p.1 < r ∧ p.2 < r) (ev : Oper ℂ →ₗ[ℂ] ℂ) (D2 : List ℕ → ℂ)
    (h2 : ∀ i k j m, i < r → k < r → j < r → m < r → D2 [i, k, j, m] = ev2 ev i k j m) :
    tr2 r (spsmTwo (l.map (·.1)) (l.map (·.2))) D2 =
      -(l.map (fun p => (l.map (fun q => ev2 ev p.1 q.2 q.1 p.2)).sum)).sum := by
  unfold spsmTwo
  rw [loops_eq l hn1 hn2, writes_adds, tr2_adds]
  · have e : ∀ i j : Fin l.length, D2 [l[j].1, l[i].2, l[i].1, l[j].2] = ev2 ev l[j].1 l[i].2 l[i].1 l[j].2 := fun i j =>
      h2 _ _ _ _ (hr _ (List.getElem_mem _)).1 (hr _ (List.getElem_mem _)).2 (hr _ (List.getElem_mem _)).1
        (hr _ (List.getElem_mem _)).2
    simp only [List.flatMap, List.map_flatten, List.map_map, Function.comp_def, List.drop_succ_cons, List.drop_zero,
      List.take_succ_cons, List.take_zero, List.cons_append, List.nil_append, List.sum_flatten]
    simp only [sum_fin, e, neg_mul, one_mul, Finset.sum_neg_distrib]
    rw [Finset.sum_comm]
  · intro w hw
    obtain ⟨t, ht, rfl⟩ := List.mem_map.mp hw
    obtain ⟨p, hp, ht⟩ := List.mem_flatMap.mp ht
    obtain ⟨q, hq, rfl⟩ := List.mem_map.mp ht
    exact ⟨_, _, _, _, rfl, (hr p hp).1, (hr q hq).2, (hr q hq).1, (hr p hp).2⟩
  · have : ((l.flatMap (fun p => l.map (fun q => (p.1, p.2, q.1, q.2)))).map
        (fun t => ([t.1, t.2.2.2, t.2.2.1, t.2.1], (-1 : ℂ)))).map (·.1) =
        (l.product l).map (fun z => [z.1.1, z.2.2, z.2.1, z.1.2]) := by
      simp [List.product, List.map_flatMap, Function.comp_def]
    rw [this]
    refine ((List.Nodup.of_map _ hn1).product (List.Nodup.of_map _ hn1)).map ?_
    rintro ⟨⟨a, b⟩, c, d⟩ ⟨⟨a', b'⟩, c', d'⟩ h
    simp at h ⊢
    tauto

theorem sz2Two_tr (l : List (ℕ × ℕ)) (r : ℕ) (hn1 : (l.map (·.1)).Nodup) (hn2 : (l.map (·.2)).Nodup)
    (hr : ∀ p ∈ l, p.1 < r ∧ p.2 < r) (ev : Oper ℂ →ₗ[ℂ] ℂ) (D2 : List ℕ → ℂ)
    (h2 : ∀ i k j m, i < r → k < r → j < r → m < r → D2 [i, k, j, m] = ev2 ev i k j m) :
    tr2 r (sz2Two (l.map (·.1)) (l.map (·.2))) D2 = (1 / 4 : ℂ) *
      (l.map (fun p => (l.map (fun q => ev2 ev p.1 q.1 p.1 q.1 + ev2 ev p.2 q.2 p.2 q.2 - ev2 ev p.2 q.1 p.2 q.1 -
        ev2 ev p.1 q.2 p.1 q.2)).sum)).sum := by
  unfold sz2Two
  have z : ∀ a, ev2 ev a a a a = 0 := by
    intro a
    have := ev2_swap ev a a a a
    linear_combination this / 2
  rw [loops_eq l hn1 hn2, tr2_adds]
  · simp only [List.map_flatMap, List.flatMap_map, List.flatMap, List.sum_flatten, List.map_map, List.map_flatten]
    simp only [sum_fin, Finset.mul_sum]
    apply Finset.sum_congr rfl
    intro i _
    simp only [Function.comp_def, List.map_map, List.map_flatten, List.sum_flatten, sum_fin]
    apply Finset.sum_congr rfl
    intro j _
    have hi : l[i].1 < r ∧ l[i].2 < r := hr _ (List.getElem_mem (l := l) i.isLt)
    have hj : l[j].1 < r ∧ l[j].2 < r := hr _ (List.getElem_mem (l := l) j.isLt)
    simp only [List.map_cons, List.map_nil, List.sum_cons, List.sum_nil, List.drop_succ_cons, List.drop_zero,
      List.take_succ_cons, List.take_zero, List.cons_append, List.nil_append]
    rw [h2 _ _ _ _ hi.1 hj.1 hi.1 hj.1, h2 _ _ _ _ hi.2 hj.2 hi.2 hj.2, h2 _ _ _ _ hi.2 hj.1 hi.2 hj.1,
      h2 _ _ _ _ hi.1 hj.2 hi.1 hj.2]
    have a1 : (if l[i].1 = l[j].1 then (0 : ℂ) else 1 / 4) * ev2 ev l[i].1 l[j].1 l[i].1 l[j].1 =
        1 / 4 * ev2 ev l[i].1 l[j].1 l[i].1 l[j].1 := by
      by_cases h : l[i].1 = l[j].1
      · rw [← h, z]; ring
      · rw [if_neg h]
    have a2 : (if l[i].2 = l[j].2 then (0 : ℂ) else 1 / 4) * ev2 ev l[i].2 l[j].2 l[i].2 l[j].2 =
        1 / 4 * ev2 ev l[i].2 l[j].2 l[i].2 l[j].2 := by
      by_cases h : l[i].2 = l[j].2
      · rw [← h, z]; ring
      · rw [if_neg h]
    rw [a1, a2]
    ring
  · intro w hw
    obtain ⟨t, ht, hw⟩ := List.mem_flatMap.mp hw
    obtain ⟨p, hp, ht⟩ := List.mem_flatMap.mp ht
    obtain ⟨q, hq, rfl⟩ := List.mem_map.mp ht
    have a := hr p hp
    have b := hr q hq
    simp only [List.mem_cons, List.not_mem_nil, or_false] at hw
    rcases hw with rfl | rfl | rfl | rfl
    · exact ⟨_, _, _, _, rfl, a.1, b.1, a.1, b.1⟩
    · exact ⟨_, _, _, _, rfl, a.2, b.2, a.2, b.2⟩
    · exact ⟨_, _, _, _, rfl, a.2, b.1, a.2, b.1⟩
    · exact ⟨_, _, _, _, rfl, a.1, b.2, a.1, b.2⟩

theorem zip_parts (alp bet : List ℕ) (h : alp.length = bet.length) :
    alp = (alp.zip bet).map (·.1) ∧ bet = (alp.zip bet).map (·.2) :=
  ⟨(List.map_fst_zip h.le).symm, (List.map_snd_zip h.ge).symm⟩

theorem comm_up_down (l : List (ℕ × ℕ)) (h1 : (l.map (·.1)).Nodup) (h2 : (l.map (·.2)).Nodup) :
    (spinUp l * spinDown l - spinDown l * spinUp l : Oper ℂ) = (2 : ℂ) • spinZ l := by
  rw [← esum_up, ← esum_down, ← esum_z]
  exact SpinOps.comm_plus_minus l h1 h2

/-- **C83, functions.** For orbital lists of equal length without repetition and in range, and density matrices that are those of any expectation
functional, the two functions return the expectation values of `S_z` and `S²`. -/
theorem C83_functions (hl : alp.length = bet.length) (hn : (alp ++ bet).Nodup)
    (hr : ∀ x ∈ alp ++ bet, x < alp.length + bet.length) (ev : Oper ℂ →ₗ[ℂ] ℂ) (D1 D2 : List ℕ → ℂ)
    (h1 : ∀ i j, i < alp.length + bet.length → j < alp.length + bet.length → D1 [i, j] = ev (cre i * ann j))
    (h2 : ∀ i k j m, i < alp.length + bet.length → k < alp.length + bet.length → j < alp.length + bet.length →
      m < alp.length + bet.length → D2 [i, k, j, m] = ev (cre i * (cre k * (ann m * ann j)))) :
    Sz D1 alp bet = some (ev (spinZ (alp.zip bet))) ∧ S2 D2 D1 alp bet = some (ev (spinSq (alp.zip bet))) := by
  obtain ⟨z1, z2⟩ := zip_parts alp bet hl
  have hok : ok alp bet = true := by
    unfold ok
    simp only [Bool.and_eq_true, beq_iff_eq, List.all_eq_true, decide_eq_true_eq]
    exact ⟨⟨hl, fun x hx => hr x (by simp [hx])⟩, fun x hx => hr x (by simp [hx])⟩
  have hm : ∀ p ∈ alp.zip bet, p.1 < alp.length + bet.length ∧ p.2 < alp.length + bet.length := by
    intro p hp
    have := List.of_mem_zip hp
    exact ⟨hr _ (by simp [this.1]), hr _ (by simp [this.2])⟩
  have hd : ∀ p ∈ alp.zip bet, ∀ q ∈ alp.zip bet, p.1 ≠ q.2 := by
    intro p hp q hq e
    have a := (List.of_mem_zip hp).1
    have b := (List.of_mem_zip hq).2
    rw [e] at a
    exact (List.disjoint_of_nodup_append hn) a b
  have n1 : ((alp.zip bet).map (·.1)).Nodup := z1 ▸ (List.nodup_append.mp hn).1
  have n2 : ((alp.zip bet).map (·.2)).Nodup := z2 ▸ (List.nodup_append.mp hn).2.1
  have tz := szMat_tr (alp.zip bet) (alp.length + bet.length) (by rw [← z1, ← z2]; exact hn) hm ev D1 h1
  have t1 := spsmOne_tr (alp.zip bet) (alp.length + bet.length) n1 hm ev D1 h1
  have t2 := sz2One_tr (alp.zip bet) (alp.length + bet.length) hm ev D1 h1
  have t3 := spsmTwo_tr (alp.zip bet) (alp.length + bet.length) n1 n2 hm ev D2 h2
  have t4 := sz2Two_tr (alp.zip bet) (alp.length + bet.length) n1 n2 hm ev D2 h2
  rw [← z1, ← z2] at tz t2 t3 t4
  rw [← z1] at t1
  constructor
  · unfold Sz
    rw [if_pos hok, tz]
  · unfold S2
    simp only []
    rw [if_pos hok, tz, t1, t2, t3, t4]
    have hs : (spinSq (alp.zip bet) : Oper ℂ) = spinUp (alp.zip bet) * spinDown (alp.zip bet) +
        spinZ (alp.zip bet) * spinZ (alp.zip bet) - spinZ (alp.zip bet) :=
      (ring_spinSq _ _ _ (comm_up_down _ n1 n2)).symm
    rw [hs, map_sub, map_add, ev_spinUpDown ev _ n2, ev_spinZsq ev _ n1 n2 hd]
    congr 1
    ring

/-- **C83.** Spin properties of the 2-RDM of a state with `Ne ≠ 1` particles in the orbitals of the two lists: the expectation values of `S_z` and `S²`. -/
theorem C83_state (hl : alp.length = bet.length) (hn : (alp ++ bet).Nodup)
    (hr : ∀ x ∈ alp ++ bet, x < alp.length + bet.length) (Ne : ℤ) (hNe : Ne ≠ 1) (ψ : Cfg →₀ ℂ)
    (hψ : Sector (alp.length + bet.length) Ne ψ) (D : List ℕ → ℂ)
    (hD : ∀ i k j m, i < alp.length + bet.length → k < alp.length + bet.length → j < alp.length + bet.length →
      m < alp.length + bet.length → D [i, k, j, m] = pair ψ ((cre i * (cre k * (ann m * ann j)) : Oper ℂ) ψ)) :
    spinProperties Ne D alp bet = some (pair ψ ((spinZ (alp.zip bet) : Oper ℂ) ψ), pair ψ ((spinSq (alp.zip bet) : Oper ℂ) ψ)) := by
  let ev : Oper ℂ →ₗ[ℂ] ℂ :=
    { toFun := fun A => pair ψ (A ψ)
      map_add' := fun A B => by
        unfold pair; simp only [LinearMap.add_apply, Pi.add_apply, mul_add]; exact Finsupp.sum_add
      map_smul' := fun c A => by
        unfold pair; simp only [LinearMap.smul_apply, Pi.smul_apply, smul_eq_mul, RingHom.id_apply]
        rw [Finsupp.mul_sum]; apply Finsupp.sum_congr; intro b _; ring }
  obtain ⟨D1, r1, r2⟩ := C31_state_partial (K := ℂ) 2 (Or.inl rfl) (alp.length + bet.length) Ne (by push_cast; omega) ψ hψ D (by
    intro c a hc ha hc' ha'
    match c, hc, a, ha with
    | [i, k], _, [j, m], _ =>
      rw [show [i, k] ++ [j, m] = [i, k, j, m] from rfl, hD i k j m (hc' _ (by simp)) (hc' _ (by simp)) (ha' _ (by simp)) (ha' _ (by simp))]
      unfold rdm
      simp [rdmOp, mul_assoc])
  have := C83_functions hl hn hr ev D1 D (by
      intro i j hi hj
      have := r2 [i] [j] rfl rfl (by simpa using hi) (by simpa using hj)
      rw [show [i] ++ [j] = [i, j] from rfl] at this
      rw [this]
      unfold rdm
      simp [rdmOp, ev]) (fun i k j m hi hk hj hm => hD i k j m hi hk hj hm)
  unfold spinProperties
  rw [r1]
  simp only [Option.bind_eq_bind, Option.bind_some, this.1, this.2]
  rfl

/-- One electron, or lists of different lengths: an exception. -/
theorem C83_raises (D : List ℕ → ℂ) : spinProperties 1 D alp bet = none ∧
    (∀ Ne, alp.length ≠ bet.length → spinProperties Ne D alp bet = none) := by
  constructor
  · unfold spinProperties
    rw [show (1 : ℤ) = ((2 : ℕ) : ℤ) - 1 by norm_num, C31_raises]; rfl
  · intro Ne h
    unfold spinProperties
    cases RDM.reduceOrder 2 (alp.length + bet.length) Ne D with
    | none => rfl
    | some D1 =>
      have : Sz D1 alp bet = none := by
        unfold Sz ok
        rw [if_neg]
        simp [h]
      simp [this]

/-- The closed-shell determinant is a singlet; two parallel electrons have `S_z = 1`, `S² = 2`. -/
example : spinProperties 2 (buildHF 2 [0, 2] : List ℕ → GQ) [0, 1] [2, 3] = some (0, 0) ∧
    spinProperties 2 (buildHF 2 [0, 1] : List ℕ → GQ) [0, 1] [2, 3] = some (1, 2) := by
  decide +kernel

end Props
end HQCA
