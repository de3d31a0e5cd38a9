import Verif.Model.QubitTomo
import Verif.Props.Tomography
import Verif.Props.QubitParticle

/-!
# Property C93: tomography of qubit reduced density matrices
-/

set_option linter.unusedSectionVars false

namespace HQCA.Props
open Tomo Transform Rec

section
variable {K : Type} [Coef K]

/-! ### Specification -/

/-- `σ⁺_{c1} … σ⁺_{cp} σ⁻_{ap} … σ⁻_{a1}`. -/
def qrdmOp (c a : List ℕ) : Oper K := (c.map qcre).prod * (a.reverse.map qann).prod

/-- The sign-free reduced density matrix element `⟨ψ| σ⁺_{c1} … σ⁺_{cp} σ⁻_{ap} … σ⁻_{a1} |ψ⟩`. -/
noncomputable def qrdm (ψ : Cfg →₀ K) (c a : List ℕ) : K := pair ψ (qrdmOp c a ψ)

/-! ### Symmetries of the qubit RDM -/

theorem dag_raise : (dag mRaise : M2 K) = mLow := by
  funext a b
  cases a <;> cases b <;> simp [dag, mRaise, mLow, conj_one, conj_zero]

theorem dag_low : (dag mLow : M2 K) = mRaise := by
  funext a b
  cases a <;> cases b <;> simp [dag, mRaise, mLow, conj_one, conj_zero]

theorem isAdj_qcre (k : ℕ) : IsAdj (qcre k : Oper K) (qann k) := by
  have := isAdj_site k (mRaise : M2 K)
  rwa [dag_raise] at this

theorem isAdj_qann (k : ℕ) : IsAdj (qann k : Oper K) (qcre k) := by
  have := isAdj_site k (mLow : M2 K)
  rwa [dag_low] at this

theorem isAdj_qcre_prod (c : List ℕ) : IsAdj ((c.map qcre).prod : Oper K) (c.reverse.map qann).prod := by
  induction c with
  | nil => exact IsAdj.one
  | cons x c ih =>
    simp only [List.map_cons, List.prod_cons, List.reverse_cons, List.map_append, List.map_nil, List.prod_append,
      List.prod_nil, mul_one]
    exact (isAdj_qcre x).mul ih

theorem isAdj_qann_prod (a : List ℕ) : IsAdj ((a.map qann).prod : Oper K) (a.reverse.map qcre).prod := by
  induction a with
  | nil => exact IsAdj.one
  | cons x c ih =>
    simp only [List.map_cons, List.prod_cons, List.reverse_cons, List.map_append, List.map_nil, List.prod_append,
      List.prod_nil, mul_one]
    exact (isAdj_qann x).mul ih

theorem qrdm_herm (ψ : Cfg →₀ K) (c a : List ℕ) : qrdm ψ a c = conj (qrdm ψ c a) := by
  have := (isAdj_qcre_prod (K := K) c).mul (isAdj_qann_prod a.reverse)
  rw [List.reverse_reverse] at this
  obtain ⟨φ, h1, h2⟩ := this ψ
  unfold qrdm
  have e1 : (φ : Cfg → K) = qrdmOp a c ψ := h1
  have e2 : pair ψ (qrdmOp c a ψ) = pair φ ψ := h2 ψ
  rw [e2, conj_pair, e1]

theorem qcre_prod_perm {c d : List ℕ} (h : c.Perm d) : ((c.map qcre).prod : Oper K) = (d.map qcre).prod := by
  induction h with
  | nil => rfl
  | cons x _ ih => simp [ih]
  | swap x y l => simp only [List.map_cons, List.prod_cons, ← mul_assoc, qcre_comm x y]
  | trans _ _ h1 h2 => rw [h1, h2]

theorem qann_prod_perm {c d : List ℕ} (h : c.Perm d) : ((c.map qann).prod : Oper K) = (d.map qann).prod := by
  induction h with
  | nil => rfl
  | cons x _ ih => simp [ih]
  | swap x y l => simp only [List.map_cons, List.prod_cons, ← mul_assoc, qann_comm x y]
  | trans _ _ h1 h2 => rw [h1, h2]

theorem exists_dup_perm (c : List ℕ) (h : ¬ c.Nodup) : ∃ x d, c.Perm (x :: x :: d) := by
  induction c with
  | nil => simp at h
  | cons x c ih =>
    by_cases hx : x ∈ c
    · exact ⟨x, c.erase x, (List.perm_cons_erase hx).cons x⟩
    · have : ¬ c.Nodup := fun hc => h (List.nodup_cons.mpr ⟨hx, hc⟩)
      obtain ⟨y, d, hd⟩ := ih this
      exact ⟨y, x :: d, (hd.cons x).trans ((List.Perm.swap y x _).trans ((List.Perm.swap y x d).cons y))⟩

theorem qrdmOp_perm {c d a b : List ℕ} (h : c.Perm d) (h' : a.Perm b) : (qrdmOp c a : Oper K) = qrdmOp d b := by
  unfold qrdmOp
  rw [qcre_prod_perm h, qann_prod_perm ((List.reverse_perm a).trans (h'.trans (List.reverse_perm b).symm))]

theorem qrdmOp_dup (c a : List ℕ) (h : ¬ c.Nodup ∨ ¬ a.Nodup) : (qrdmOp c a : Oper K) = 0 := by
  rcases h with h | h
  · obtain ⟨x, d, hd⟩ := exists_dup_perm c h
    rw [qrdmOp_perm hd (List.Perm.refl a)]
    unfold qrdmOp
    simp only [List.map_cons, List.prod_cons, ← mul_assoc, qcre_sq, zero_mul]
  · obtain ⟨x, d, hd⟩ := exists_dup_perm a h
    have : (qrdmOp c a : Oper K) = (c.map qcre).prod * ((x :: x :: d).map qann).prod := by
      unfold qrdmOp
      rw [qann_prod_perm ((List.reverse_perm a).trans hd)]
    rw [this]
    simp only [List.map_cons, List.prod_cons, ← mul_assoc]
    rw [mul_assoc _ (qann x) (qann x), qann_sq, mul_zero, zero_mul]

theorem Sector.qcre {Na : ℕ} {n : ℤ} {ψ : Cfg → K} (h : Sector Na n ψ) (k : ℕ) :
    Sector Na (n + if k < Na then 1 else 0) (qcre k ψ) := by
  intro b hb
  replace hb : mRaise (b k) false * ψ (Function.update b k false) + mRaise (b k) true * ψ (Function.update b k true) ≠ 0 := hb
  by_cases hk : b k
  · simp [hk, mRaise] at hb
    have := h _ hb
    rw [occAlpha_update] at this
    simp [hk] at this
    rw [← this]
    split <;> ring
  · simp [hk, mRaise] at hb

theorem Sector.qann {Na : ℕ} {n : ℤ} {ψ : Cfg → K} (h : Sector Na n ψ) (k : ℕ) :
    Sector Na (n - if k < Na then 1 else 0) (qann k ψ) := by
  intro b hb
  replace hb : mLow (b k) false * ψ (Function.update b k false) + mLow (b k) true * ψ (Function.update b k true) ≠ 0 := hb
  by_cases hk : b k
  · simp [hk, mLow] at hb
  · simp [hk, mLow] at hb
    have := h _ hb
    rw [occAlpha_update] at this
    simp [hk] at this
    rw [← this]
    split <;> ring

theorem Sector.qcres {Na : ℕ} {n : ℤ} {ψ : Cfg → K} (h : Sector Na n ψ) (c : List ℕ) :
    Sector Na (n + nAlpha Na c) ((c.map Props.qcre).prod ψ) := by
  induction c with
  | nil => simpa [nAlpha] using h
  | cons x c ih =>
    rw [nAlpha_cons, List.map_cons, List.prod_cons, ← add_assoc]
    exact Sector.qcre ih x

theorem Sector.qanns {Na : ℕ} {n : ℤ} {ψ : Cfg → K} (h : Sector Na n ψ) (c : List ℕ) :
    Sector Na (n - nAlpha Na c) ((c.map Props.qann).prod ψ) := by
  induction c with
  | nil => simpa [nAlpha] using h
  | cons x c ih =>
    rw [nAlpha_cons, List.map_cons, List.prod_cons, ← sub_sub]
    exact Sector.qann ih x

theorem qrdm_sector (ψ : Cfg →₀ K) (Na : ℕ) (n : ℤ) (h : Sector Na n ψ) (c a : List ℕ)
    (hca : nAlpha Na c ≠ nAlpha Na a) : qrdm ψ c a = 0 := by
  have h1 := Sector.qcres (Sector.qanns h a.reverse) c
  have hr : nAlpha Na a.reverse = nAlpha Na a := by simp [nAlpha]
  rw [hr] at h1
  unfold qrdm pair
  rw [Finsupp.sum]
  apply Finset.sum_eq_zero
  intro b hb
  have hb' : ψ b ≠ 0 := Finsupp.mem_support_iff.mp hb
  have e1 := h b hb'
  have : (qrdmOp c a ψ : Cfg → K) b = 0 := by
    by_contra hne
    have := h1 b hne
    omega
  rw [this, mul_zero]

/-! ### Filling without signs -/

/-- Multiplicity of `l'` among the listed permutations of `l`. -/
def G (l l' : List ℕ) : K := ((unorderedPermute l).map (fun x => if x.1 = l' then (1 : K) else 0)).sum

open Classical in
theorem G_eq (l l' : List ℕ) (hne : l ≠ []) (hn : l.Nodup) : (G l l' : K) = if l'.Perm l then 1 else 0 := by
  have key : ∀ L : List (List ℕ × ℤ), (L.map (fun x => if x.1 = l' then (1 : K) else 0)).sum =
      ((L.map (·.1)).count l' : K) := by
    intro L
    induction L with
    | nil => simp
    | cons x L ih =>
      rw [List.map_cons, List.sum_cons, ih, List.map_cons, List.count_cons]
      by_cases h : x.1 = l'
      · simp [h]; ring
      · simp [h]
  unfold G
  rw [key, (C29_nodup l hne hn).count]
  by_cases hm : l'.Perm l
  · rw [if_pos hm, if_pos ((C29_all_permutations l hne l').mpr hm)]; simp
  · rw [if_neg hm, if_neg (fun h => hm ((C29_all_permutations l hne l').mp h))]; simp

theorem updatesQ_eq (p : ℕ) (hp : p = 1 ∨ p = 2) (ind : List ℕ) (temp : K) (h : ind.length = 2 * p) :
    updatesQ p ind temp = (unorderedPermute (ind.drop p).reverse).flatMap (fun i =>
      (unorderedPermute (ind.take p)).flatMap (fun j =>
        [(j.1 ++ i.1, temp)] ++ (if sameSet i.1 j.1 then [] else [(i.1 ++ j.1, conj temp)]))) := by
  rcases hp with rfl | rfl
  · match ind, h with
    | [i, j], _ =>
      unfold updatesQ
      simp only [Nat.reduceEqDiff, if_false, if_true, List.drop_succ_cons, List.drop_zero, List.take_succ_cons,
        List.take_zero, List.reverse_singleton, up1, List.flatMap_cons, List.flatMap_nil, List.append_nil]
      by_cases e : i = j
      · subst e; simp [sameSet]
      · have e' : j ≠ i := Ne.symm e
        simp [sameSet, e, e']
  · unfold updatesQ
    rw [if_pos rfl]

theorem contributionQ (p : ℕ) (hp : p = 1 ∨ p = 2) (c a c' a' : List ℕ) (temp : K) (hc : c.length = p)
    (ha : a.length = p) (hc' : c'.length = p) (ha' : a'.length = p) :
    ((updatesQ p (c ++ a.reverse) temp).map (fun u => if u.1 = c' ++ a' then u.2 else 0)).sum =
      temp * G c c' * G a a' + if sameSet a c then 0 else conj temp * G a c' * G c a' := by
  rw [updatesQ_eq p hp _ _ (by simp [hc, ha]; omega)]
  rw [List.drop_left' hc, List.take_left' hc, List.reverse_reverse, sum_map_flatMap]
  have key : ∀ i ∈ unorderedPermute a, (((unorderedPermute c).flatMap (fun j =>
        [(j.1 ++ i.1, temp)] ++ (if sameSet i.1 j.1 then [] else [(i.1 ++ j.1, conj temp)]))).map
        (fun u => if u.1 = c' ++ a' then u.2 else 0)).sum =
      temp * G c c' * (if i.1 = a' then 1 else 0) +
        (if sameSet a c then 0 else conj temp * G c a') * (if i.1 = c' then 1 else 0) := by
    intro i hi
    have hpi := perm_length (l := a) (q := i.1) (s := i.2) hi
    rw [sum_map_flatMap]
    have key2 : ∀ j ∈ unorderedPermute c, (([(j.1 ++ i.1, temp)] ++
          (if sameSet i.1 j.1 then [] else [(i.1 ++ j.1, conj temp)])).map
        (fun u => if u.1 = c' ++ a' then u.2 else 0)).sum =
        (temp * if i.1 = a' then 1 else 0) * (if j.1 = c' then 1 else 0) +
        (if sameSet a c then 0 else conj temp * if i.1 = c' then 1 else 0) * (if j.1 = a' then 1 else 0) := by
      intro j hj
      have hpj := perm_length (l := c) (q := j.1) (s := j.2) hj
      rw [sameSet_perm hpi hpj]
      have e1 : (j.1 ++ i.1 = c' ++ a') ↔ (j.1 = c' ∧ i.1 = a') :=
        ⟨fun h => List.append_inj h (by rw [hpj.length_eq, hc, hc']), fun h => by rw [h.1, h.2]⟩
      have e2 : (i.1 ++ j.1 = c' ++ a') ↔ (i.1 = c' ∧ j.1 = a') :=
        ⟨fun h => List.append_inj h (by rw [hpi.length_eq, ha, hc']), fun h => by rw [h.1, h.2]⟩
      cases hs : sameSet a c
      · simp only [Bool.false_eq_true, if_false, List.cons_append, List.nil_append, List.map_cons, List.map_nil,
          List.sum_cons, List.sum_nil, e1, e2]
        rw [ite_and_mul, ite_and_mul]
        ring
      · simp only [if_true, List.append_nil, List.map_cons, List.map_nil,
          List.sum_cons, List.sum_nil, e1]
        rw [ite_and_mul]
        ring
    rw [List.map_congr_left key2, List.sum_map_add, List.sum_map_mul_left, List.sum_map_mul_left]
    show _ * G c c' + _ * G c a' = _
    cases sameSet a c
    · simp only [Bool.false_eq_true, if_false]
      ring
    · simp only [if_true]
      ring
  rw [List.map_congr_left key, List.sum_map_add, List.sum_map_mul_left, List.sum_map_mul_left]
  show _ * G a a' + _ * G a c' = _
  cases sameSet a c
  · simp only [Bool.false_eq_true, if_false]
    ring
  · simp

/-- **Exact filling.**  `E` symmetric in each index group, Hermitian, zero on repeated indices and when the alpha
numbers differ (and, if diagonal elements are skipped, on the diagonal). -/
theorem fillQ_exact (p Na N : ℕ) (hp : p = 1 ∨ p = 2) (skip : Bool) (L : List (List ℕ))
    (hL : ListsUnique p Na N skip L) (E : List ℕ → List ℕ → K)
    (hS : ∀ c d a b : List ℕ, c.Perm d → a.Perm b → E c a = E d b)
    (hDup : ∀ c a : List ℕ, (¬ c.Nodup ∨ ¬ a.Nodup) → E c a = 0) (hH : Herm p E)
    (hz : ∀ c a, Sorted p N c → Sorted p N a → nAlpha Na c ≠ nAlpha Na a → E c a = 0)
    (hd : skip = true → ∀ c, Sorted p N c → E c c = 0)
    (c' a' : List ℕ) (hc' : c'.length = p) (ha' : a'.length = p) (hcN : ∀ x ∈ c', x < N) (haN : ∀ x ∈ a', x < N) :
    entry (buildQ p (L.map (fun ind => (ind, E (split p ind).1 (split p ind).2)))) c' a' = E c' a' := by
  classical
  have hs : ∀ r ∈ L.map (split p), Sorted p N r.1 ∧ Sorted p N r.2 := by
    intro r hr
    obtain ⟨ind, hind, rfl⟩ := List.mem_map.mp hr
    obtain ⟨c, a, rfl, h1, h2, _⟩ := hL.1 ind hind
    simpa [split, List.take_left' h1.1, List.drop_left' h1.1] using ⟨h1, h2⟩
  have hne : ∀ l : List ℕ, l.length = p → l ≠ [] := by rintro l hl rfl; simp at hl; omega
  have hterm : ∀ r ∈ L.map (split p), E r.1 r.2 * G r.1 c' * G r.2 a' +
      (if sameSet r.2 r.1 then 0 else conj (E r.1 r.2) * G r.2 c' * G r.1 a') =
      (if c'.Perm r.1 ∧ a'.Perm r.2 then E c' a' else 0) +
        (if r.1 = r.2 then 0 else if c'.Perm r.2 ∧ a'.Perm r.1 then E c' a' else 0) := by
    intro r hr
    obtain ⟨h1, h2⟩ := hs r hr
    have n1 : r.1.Nodup := h1.2.1.imp (fun h => by omega)
    have n2 : r.2.Nodup := h2.2.1.imp (fun h => by omega)
    have hsame : sameSet r.2 r.1 = true ↔ r.1 = r.2 := by
      constructor
      · intro h
        simp [sameSet] at h
        exact sorted_perm_eq h1 h2 ((List.perm_ext_iff_of_nodup n1 n2).mpr (fun x => ⟨h.2 x, h.1 x⟩))
      · intro h; simp [sameSet, h]
    rw [G_eq _ _ (hne _ h1.1) n1, G_eq _ _ (hne _ h2.1) n2, G_eq _ _ (hne _ h1.1) n1, G_eq _ _ (hne _ h2.1) n2,
      ← hH r.1 r.2 h1.1 h2.1]
    simp only [hsame]
    congr 1
    · by_cases g1 : c'.Perm r.1 <;> by_cases g2 : a'.Perm r.2 <;> simp [g1, g2]
      exact hS _ _ _ _ g1.symm g2.symm
    · by_cases e : r.1 = r.2
      · rw [if_pos e, if_pos e]
      · rw [if_neg e, if_neg e]
        by_cases g1 : c'.Perm r.2 <;> by_cases g2 : a'.Perm r.1 <;> simp [g1, g2]
        exact hS _ _ _ _ g1.symm g2.symm
  have hsum : entry (buildQ p (L.map (fun ind => (ind, E (split p ind).1 (split p ind).2)))) c' a' =
      ((L.map (split p)).map (fun r => E r.1 r.2 * G r.1 c' * G r.2 a' +
      (if sameSet r.2 r.1 then 0 else conj (E r.1 r.2) * G r.2 c' * G r.1 a'))).sum := by
    unfold entry buildQ
    rw [sum_map_flatMap, List.map_map, List.map_map]
    congr 1
    apply List.map_congr_left
    intro ind hind
    obtain ⟨c, a, rfl, h1, h2, _⟩ := hL.1 ind hind
    have : split p (c ++ a.reverse) = (c, a) := by simp [split, List.take_left' h1.1, List.drop_left' h1.1]
    simp only [Function.comp_apply, this]
    exact contributionQ p hp c a c' a' _ h1.1 h2.1 hc' ha'
  rw [hsum, List.map_congr_left hterm]
  by_cases hdup : ¬ c'.Nodup ∨ ¬ a'.Nodup
  · rw [hDup c' a' hdup]
    simp [Function.comp_def]
  have hcn : c'.Nodup := by tauto
  have han : a'.Nodup := by tauto
  obtain ⟨c0, hc0, hpc⟩ := exists_sorted p N c' hc' hcn hcN
  obtain ⟨a0, ha0, hpa⟩ := exists_sorted p N a' ha' han haN
  have hcond : ∀ r ∈ L.map (split p), ((if c'.Perm r.1 ∧ a'.Perm r.2 then E c' a' else 0) +
        (if r.1 = r.2 then 0 else if c'.Perm r.2 ∧ a'.Perm r.1 then E c' a' else 0)) =
      (if r = (c0, a0) then E c' a' else 0) + (if r = (a0, c0) then (if c0 = a0 then 0 else E c' a') else 0) := by
    intro r hr
    obtain ⟨h1, h2⟩ := hs r hr
    have e1 : c'.Perm r.1 ↔ r.1 = c0 :=
      ⟨fun h => sorted_perm_eq h1 hc0 (h.symm.trans hpc), fun h => h ▸ hpc⟩
    have e2 : a'.Perm r.2 ↔ r.2 = a0 :=
      ⟨fun h => sorted_perm_eq h2 ha0 (h.symm.trans hpa), fun h => h ▸ hpa⟩
    have e3 : c'.Perm r.2 ↔ r.2 = c0 :=
      ⟨fun h => sorted_perm_eq h2 hc0 (h.symm.trans hpc), fun h => h ▸ hpc⟩
    have e4 : a'.Perm r.1 ↔ r.1 = a0 :=
      ⟨fun h => sorted_perm_eq h1 ha0 (h.symm.trans hpa), fun h => h ▸ hpa⟩
    obtain ⟨r1, r2⟩ := r
    simp only [e1, e2, e3, e4, Prod.mk.injEq]
    congr 1
    by_cases h : r1 = a0 ∧ r2 = c0
    · obtain ⟨rfl, rfl⟩ := h
      simp only [and_self, if_true]
      simp only [eq_comm]
    · have h' : ¬(r2 = c0 ∧ r1 = a0) := fun h' => h ⟨h'.2, h'.1⟩
      simp only [if_neg h, if_neg h', ite_self]
  rw [List.map_congr_left hcond, List.sum_map_add]
  have key : ∀ (M : List (List ℕ × List ℕ)) (q : List ℕ × List ℕ) (v : K),
      (M.map (fun x => if x = q then v else 0)).sum = (M.count q : K) * v := by
    intro M q v
    induction M with
    | nil => simp
    | cons x M ih =>
      rw [List.map_cons, List.sum_cons, ih, List.count_cons]
      by_cases h : x = q
      · simp [h]; ring
      · simp [h]
  rw [key, key, count_split p L c0 a0 hc0.1, count_split p L a0 c0 ha0.1]
  have hE : E c' a' = E c0 a0 := hS _ _ _ _ hpc hpa
  by_cases hzero : E c0 a0 = 0
  · rw [hE, hzero]; simp
  · have hal : nAlpha Na c0 = nAlpha Na a0 := by
      by_contra h
      exact hzero (hz c0 a0 hc0 ha0 h)
    have hcount := hL.2 c0 a0 hc0 ha0 hal
    have hns : ¬(c0 = a0 ∧ skip = true) := by
      rintro ⟨rfl, hsk⟩
      exact hzero (hd hsk c0 hc0)
    rw [if_neg hns] at hcount
    by_cases he : c0 = a0
    · rw [if_pos he] at hcount ⊢
      rw [add_zero] at hcount
      rw [hcount]; simp
    · rw [if_neg he] at hcount ⊢
      rw [← add_mul, ← Nat.cast_add, hcount]; simp

/-! ### The measured operator -/

theorem generateCore_size (fermi : Bool) (c : K) (l : List (ℕ × FL)) (N : ℕ) (r : Term FStr K)
    (h : Fermi.generateCore fermi c l N = some r) :
    Transform.nLetters r.1 ≤ l.length ∧ (r.2 = c ∨ r.2 = -c ∨ r.2 = 0) := by
  unfold Fermi.generateCore at h
  obtain ⟨h1, h2⟩ := sortLoop_length fermi (l.length * l.length) c l
  simp only at h
  generalize hr : Fermi.sortLoop fermi (l.length * l.length) c l = sr at h h1 h2
  have hb : ∀ l2, l2.length ≤ l.length → ∀ s, Fermi.build N l2 = some s → Transform.nLetters s ≤ l.length := by
    intro l2 hl2 s hs
    cases l2 with
    | nil => simp [Fermi.build] at hs
    | cons a l2 =>
      simp only [Fermi.build, Option.some.injEq] at hs
      subst hs
      rw [nLetters_append, nLetters_replicate]
      have := nLetters_buildRest N a l2
      simp at hl2
      omega
  generalize hcr : (if (sr.2.map (·.1)).dedup.length = sr.2.length then some (some sr.2)
    else Fermi.contractLoop sr.2.length sr.2) = cr at h
  match cr, hcr, h with
  | some none, _, h =>
    simp only [Option.some.injEq] at h
    subst h
    exact ⟨by rw [nLetters_replicate]; omega, Or.inr (Or.inr rfl)⟩
  | some (some l2), hcr, h =>
    have hl2 : l2.length ≤ l.length := by
      split at hcr
      · simp at hcr; rw [← hcr, h1]
      · rw [← h1]; exact contractLoop_length _ _ _ hcr
    simp only at h
    split at h
    · simp only [Option.some.injEq] at h
      subst h
      exact ⟨by rw [nLetters_replicate]; omega, by tauto⟩
    · rcases hs : Fermi.build N l2 with _ | s
      · simp [hs] at h
      · simp only [hs, Option.map_some, Option.some.injEq] at h
        subst h
        exact ⟨hb l2 hl2 s hs, by tauto⟩

theorem wordQ_opWord (p : ℕ) (c a : List ℕ) (hc : c.length = p) (ha : a.length = p) :
    (((opWord p (c ++ a.reverse)).map (fun x => site x.1 (qmat x.2))).prod : Oper K) = qrdmOp c a := by
  rw [opWord_eq p c a hc ha]
  unfold qrdmOp
  rw [List.map_append, List.prod_append, List.map_map, List.map_map]
  rfl

end

/-- The qubit operator measured for one element. -/
theorem qrdmeQub_spec (p N : ℕ) (f : Flags) (hf : f.real = true ∨ f.imag = true) (hp3 : p ≤ 19) (c a : List ℕ)
    (hc : Sorted p N c) (ha : Sorted p N a) (hp : 2 ≤ p ∨ (p = 1 ∧ c ≠ a)) :
    ∃ Q : POp ℂ, qrdmeQub f (c ++ a.reverse) N = some (c ++ a.reverse, Q) ∧
      denPO Q = (half f.real + half f.imag : ℂ) • qrdmOp c a + (half f.real - half f.imag : ℂ) • qrdmOp a c := by
  have hlen : (c ++ a.reverse).length / 2 = p := by simp [hc.1, ha.1]; omega
  have hlen2 : (c ++ a.reverse).length = 2 * p := by simp [hc.1, ha.1]; omega
  have hrev : (c ++ a.reverse).reverse = a ++ c.reverse := by simp
  have hok : ∀ c a : List ℕ, c.length = p → a.length = p → ∀ x ∈ opWord p (c ++ a.reverse), x.2 ≠ .i := by
    intro c a hc ha x hx
    rw [opWord_eq p c a hc ha] at hx
    simp only [List.mem_append, List.mem_map] at hx
    rcases hx with ⟨_, _, rfl⟩ | ⟨_, _, rfl⟩ <;> simp
  have hltN : ∀ c a : List ℕ, Sorted p N c → Sorted p N a → ∀ x ∈ opWord p (c ++ a.reverse), x.1 < N := by
    intro c a hc ha x hx
    rw [opWord_eq p c a hc.1 ha.1] at hx
    simp only [List.mem_append, List.mem_map, List.mem_reverse] at hx
    rcases hx with ⟨y, hy, rfl⟩ | ⟨y, hy, rfl⟩
    · exact hc.2.2 y hy
    · exact ha.2.2 y hy
  have hwl : ∀ c a : List ℕ, c.length = p → a.length = p → (opWord p (c ++ a.reverse)).length = 2 * p := by
    intro c a hc ha
    rw [opWord_eq p c a hc ha]; simp [hc, ha]; omega
  have hnil : ∀ c a : List ℕ, c.length = p → a.length = p → opWord p (c ++ a.reverse) ≠ [] := by
    intro c a hc ha h
    have := hwl c a hc ha
    rw [h] at this
    simp at this
    omega
  obtain ⟨r1, g1, d1, n1⟩ := C13_qubit_generate (half f.real + half f.imag : ℂ) (opWord p (c ++ a.reverse)) N
    (hok c a hc.1 ha.1) (hnil c a hc.1 ha.1)
  obtain ⟨r2, g2, d2, n2⟩ := C13_qubit_generate (half f.real - half f.imag : ℂ) (opWord p (a ++ c.reverse)) N
    (hok a c ha.1 hc.1) (hnil a c ha.1 hc.1)
  obtain ⟨s1, c1⟩ := generateCore_size _ _ _ _ _ g1
  obtain ⟨s2, c2⟩ := generateCore_size _ _ _ _ _ g2
  rw [hwl c a hc.1 ha.1] at s1
  rw [hwl a c ha.1 hc.1] at s2
  have n1 := n1 (hltN c a hc ha)
  have n2 := n2 (hltN a c ha hc)
  rw [wordQ_opWord p c a hc.1 ha.1] at d1
  rw [wordQ_opWord p a c ha.1 hc.1] at d2
  have gi : ∀ (r : Term FStr ℂ) (w : ℂ), (∃ z, GI z ∧ w = z * (1 / 2 ^ 1)) → (r.2 = w ∨ r.2 = -w ∨ r.2 = 0) →
      ∃ z, GI z ∧ r.2 = z * (1 / 2 ^ 1) := by
    rintro r w ⟨z, hz, rfl⟩ (h | h | h)
    · exact ⟨z, hz, h⟩
    · exact ⟨-z, hz.neg, by rw [h]; ring⟩
    · exact ⟨0, by simpa using GI_natCast 0, by rw [h]; ring⟩
  have i1 := gi r1 _ (half_GI f.real f.imag).1 c1
  have i2 := gi r2 _ (half_GI f.real f.imag).2 c2
  have hA : qrdmeOp f (c ++ a.reverse) N = some (c ++ a.reverse, OpD.addStr (OpD.addStr [] r1) r2) := by
    unfold qrdmeOp
    rw [if_pos (by rcases hf with h | h <;> simp [h])]
    simp only [hlen]
    rw [if_neg (by omega), g1]
    simp only [Option.bind_some]
    rw [callerInds_sorted p N c a hc ha hp, if_neg (by omega), hrev, g2]
    rfl
  set A : OpD FStr ℂ := OpD.addStr (OpD.addStr [] r1) r2 with hAdef
  have hA' : A = [r1, r2].foldl OpD.addStr [] := rfl
  have hg : GIop (1 / 2 ^ 1) A := by
    rw [hA']
    refine (GIop.nil _).foldl [r1, r2] ?_
    intro u hu
    simp only [List.mem_cons, List.not_mem_nil, or_false] at hu
    rcases hu with rfl | rfl
    · exact i1
    · exact i2
  have hkeys : ∀ u ∈ A, u.1 = r1.1 ∨ u.1 = r2.1 := by
    intro u hu
    have := List.mem_map_of_mem (f := (·.1)) hu
    rw [hA', OpD.mem_keys_foldl_addStr] at this
    simpa using this
  obtain ⟨Q, q1, _, q3, _⟩ := transform_exact qubit (denQ 0) qu_spec (2 * p) 1 (by omega) A N
    (fun u hu => by rcases hkeys u hu with h | h <;> rw [h] <;> assumption)
    (fun u hu => ⟨by rcases hkeys u hu with h | h <;> rw [h] <;> assumption, hg u hu⟩)
  refine ⟨Q, by unfold qrdmeQub; rw [hA]; simp [q1], ?_⟩
  rw [q3, hA', OpD.denD_foldl_addStr _ _ _ OpD.uniqueKeys_nil, OpD.denD_cons, OpD.denD_cons, OpD.denD_nil, d1, d2,
    add_zero, zero_add]

/-- What an element measures: the element, its real part, or `i` times its imaginary part. -/
noncomputable def qtarget (f : Flags) (ψ : Cfg →₀ ℂ) (c a : List ℕ) : ℂ :=
  match f.real, f.imag with
  | true, true => qrdm ψ c a
  | true, false => ((qrdm ψ c a).re : ℂ)
  | false, true => Complex.I * ((qrdm ψ c a).im : ℂ)
  | false, false => 0

theorem qtarget_eq (f : Flags) (ψ : Cfg →₀ ℂ) (c a : List ℕ) :
    (half f.real + half f.imag : ℂ) * qrdm ψ c a + (half f.real - half f.imag : ℂ) * qrdm ψ a c = qtarget f ψ c a := by
  rw [qrdm_herm ψ c a]
  have hc : ∀ z : ℂ, (conj z : ℂ) = (starRingEnd ℂ) z := fun z => rfl
  rw [hc]
  obtain ⟨r, i⟩ := f
  unfold qtarget half
  apply Complex.ext <;> cases r <;> cases i <;> simp <;> ring

/-- **C93.**  With expectation values of a normalised state with a fixed number of particles on the alpha qubits, the
qubit tomography of order 2 (or order 1, imaginary part only) returns at every index the sign-free element
`⟨ψ|σ⁺…σ⁻|ψ⟩` (or its real or imaginary part), and the compact form lists the elements in the order they were requested;
not more beta than alpha orbitals.  Missing: order 1 with real parts (`C93_fails_order1`), more beta than alpha orbitals
(the element list is then wrong: `C27_fails_order2_beta`). -/
theorem C93_qubit_tomography_partial (p : ℕ) (f : Flags) (hf : f.real = true ∨ f.imag = true)
    (hp : p = 2 ∨ (p = 1 ∧ f.real = false)) (Na Nb : ℕ) (hN : Nb ≤ Na)
    (ψ : Cfg →₀ ℂ) (h1 : pair ψ ψ = 1) (n : ℤ) (hs : Sector Na n ψ)
    (meas : PStr → ℂ) (hm : ∀ s, meas s = pair ψ (denP 0 s ψ)) :
    (∃ D, qtomography p f (alpha Na) (beta Na Nb) meas = some D ∧
      ∀ c a : List ℕ, c.length = p → a.length = p → (∀ x ∈ c, x < Na + Nb) → (∀ x ∈ a, x < Na + Nb) →
        D (c ++ a) = qtarget f ψ c a) ∧
    qcompact p f (alpha Na) (beta Na Nb) meas = some ((rdme p f (alpha Na) (beta Na Nb)).map
      (fun ind => qtarget f ψ (ind.take p) (ind.drop p).reverse)) := by
  set N := Na + Nb with hNdef
  have hlen : (alpha Na).length + (beta Na Nb).length = N := by simp [alpha, beta, hNdef]
  have hp12 : p = 1 ∨ p = 2 := by omega
  set L := rdme p f (alpha Na) (beta Na Nb) with hLdef
  have hL : ListsUnique p Na N f.skipDiag L := by
    rcases hp with rfl | ⟨rfl, _⟩
    · exact C27_order2_partial f Na Nb hN
    · exact C27_order1 f Na Nb
  have hval : ∀ ind ∈ L, (qrdmeQub f ind N).map (fun r => (r.1, value meas r.2)) =
      some (ind, qtarget f ψ (split p ind).1 (split p ind).2) := by
    intro ind hind
    obtain ⟨c, a, rfl, hc, ha, hn⟩ := hL.1 ind hind
    have hne : 2 ≤ p ∨ (p = 1 ∧ c ≠ a) := by
      rcases hp with h | ⟨rfl, hr⟩
      · left; omega
      · right
        refine ⟨rfl, ?_⟩
        rintro rfl
        have hskip : f.skipDiag = true := by
          simp only [Flags.skipDiag, hr]
          simpa [hr] using hf
        have := hL.2 c c hc ha hn
        rw [if_pos rfl, if_pos ⟨rfl, hskip⟩, add_zero] at this
        exact (List.count_pos_iff.mpr hind).ne' this
    obtain ⟨Q, q1, q2⟩ := qrdmeQub_spec p N f hf (by omega) c a hc ha hne
    rw [q1, Option.map_some, value_eq ψ h1 meas hm, q2]
    have : (split p (c ++ a.reverse)) = (c, a) := by simp [split, List.take_left' hc.1, List.drop_left' hc.1]
    rw [this, LinearMap.add_apply, pair_add_right, LinearMap.smul_apply, LinearMap.smul_apply, pair_smul_right,
      pair_smul_right]
    exact congrArg some (Prod.ext rfl (qtarget_eq f ψ c a))
  have hel : qelements p f (alpha Na) (beta Na Nb) meas =
      some (L.map (fun ind => (ind, qtarget f ψ (split p ind).1 (split p ind).2))) := by
    unfold qelements
    rw [if_pos hp12, hlen, ← hLdef, mapM_eq_map L _ _ hval]
  refine ⟨⟨buildQ p (L.map (fun ind => (ind, qtarget f ψ (split p ind).1 (split p ind).2))), ?_, ?_⟩, ?_⟩
  · unfold qtomography
    rw [hel]
    rfl
  · intro c a hc ha hcN haN
    have hH : Herm p (qtarget f ψ) := by
      intro c a _ _
      rw [← qtarget_eq, ← qtarget_eq, qrdm_herm ψ c a]
      have hc : ∀ z : ℂ, (conj z : ℂ) = (starRingEnd ℂ) z := fun z => rfl
      simp only [hc]
      obtain ⟨r, i⟩ := f
      apply Complex.ext <;> cases r <;> cases i <;> simp [half] <;> ring
    exact fillQ_exact p Na N hp12 f.skipDiag L hL (qtarget f ψ)
      (by
        intro c d a b hcd hab
        rw [← qtarget_eq, ← qtarget_eq]
        unfold qrdm
        rw [qrdmOp_perm hcd hab, qrdmOp_perm hab hcd])
      (by
        intro c a h
        have z : ∀ c a : List ℕ, (¬ c.Nodup ∨ ¬ a.Nodup) → qrdm ψ c a = 0 := by
          intro c a h
          unfold qrdm
          rw [qrdmOp_dup c a h, LinearMap.zero_apply]
          have := pair_smul_right ψ 0 0
          rw [zero_smul, zero_mul] at this
          exact this
        rw [← qtarget_eq, z c a h, z a c h.symm]; ring)
      hH
      (by
        intro c a _ _ hn
        rw [← qtarget_eq, qrdm_sector ψ Na n hs c a hn, qrdm_sector ψ Na n hs a c (Ne.symm hn)]; ring)
      (by
        intro hsk c _
        rw [← qtarget_eq]
        simp only [Flags.skipDiag, Bool.and_eq_true, Bool.not_eq_true'] at hsk
        rw [hsk.1, hsk.2]
        simp [half])
      c a hc ha hcN haN
  · unfold qcompact
    rw [hel, Option.map_some, List.map_map]
    rfl

/-- The hypotheses are met by `exState` (`3/5 |1010⟩ + 4i/5 |0101⟩`, see `C62_tomography_partial`); the element
`⟨σ⁺_0 σ⁺_2 σ⁻_3 σ⁻_1⟩` of the qubit RDM is requested once and read back at all orders of its indices. -/
example : [0, 2, 3, 1] ∈ rdme 2 ⟨true, false⟩ (alpha 2) (beta 2 2) := by decide
example : (updatesQ 2 [0, 2, 3, 1] (⟨5, 1⟩ : GQ)).map (·.1) =
    [[0, 2, 1, 3], [1, 3, 0, 2], [2, 0, 1, 3], [1, 3, 2, 0], [0, 2, 3, 1], [3, 1, 0, 2], [2, 0, 3, 1], [3, 1, 2, 0]] := by
  decide +kernel

/-- **C93 is violated at order 1**: with real parts requested, tomography of the qubit 1-RDM raises for every system. -/
theorem C93_fails_order1 (f : Flags) (hf : f.real = true) (Na Nb : ℕ) (hN : 0 < Na + Nb) (meas : PStr → ℂ) :
    qtomography 1 f (alpha Na) (beta Na Nb) meas = none := by
  have hL := C27_order1 f Na Nb
  have hs : Sorted 1 (Na + Nb) [0] := ⟨rfl, by simp, by simpa using hN⟩
  have h := hL.2 [0] [0] hs hs rfl
  have hskip : f.skipDiag = false := by simp [Flags.skipDiag, hf]
  simp only [hskip, if_true] at h
  have hm : [0, 0] ∈ rdme1 f (alpha Na) (beta Na Nb) := by
    rw [← List.count_pos_iff]
    simp at h
    omega
  unfold qtomography qelements
  rw [if_pos (Or.inl rfl), show rdme 1 f (alpha Na) (beta Na Nb) = rdme1 f (alpha Na) (beta Na Nb) from rfl,
    mapM_eq_none _ _ [0, 0] hm]
  · rfl
  · have hc : callerInds (opWord 1 [0, 0]) = [0] := C63_fails 0
    have : (qrdmeQub f [0, 0] ((alpha Na).length + (beta Na Nb).length) : Option (List ℕ × POp ℂ)) = none := by
      unfold qrdmeQub qrdmeOp
      rw [if_pos (by simp [hf])]
      simp only [List.length_cons, List.length_nil, Nat.zero_add, Nat.reduceAdd, Nat.reduceDiv, Nat.mul_one,
        Nat.lt_irrefl, if_false, hc]
      simp
    rw [this]; rfl

end HQCA.Props
