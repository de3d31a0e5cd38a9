import Verif.Props.Permute
import Verif.Proofs.Adjoint

/-!
# Property C28: filling the RDM from its unique elements
-/

namespace HQCA.Props
open Rec Tomo

variable {K : Type} [Coef K]

/-- The tensor entry with creation indices `c` and annihilation indices `a` (`D[c+a]`). -/
abbrev entry (D : List ℕ → K) (c a : List ℕ) : K := D (c ++ a)

/-- Antisymmetric under exchange of neighbouring indices in either group, at order `p`. -/
def Antisym (p : ℕ) (E : List ℕ → List ℕ → K) : Prop :=
  (∀ xs x y zs a, (xs ++ x :: y :: zs).length = p → a.length = p →
    E (xs ++ y :: x :: zs) a = -E (xs ++ x :: y :: zs) a) ∧
  (∀ c xs x y zs, (xs ++ x :: y :: zs).length = p → c.length = p →
    E c (xs ++ y :: x :: zs) = -E c (xs ++ x :: y :: zs))

/-- Hermitian at order `p`. -/
def Herm (p : ℕ) (E : List ℕ → List ℕ → K) : Prop :=
  ∀ c a : List ℕ, c.length = p → a.length = p → E a c = conj (E c a)

/-- Signed multiplicity of `l'` among the listed permutations of `l`. -/
def F (l l' : List ℕ) : K := ((unorderedPermute l).map (fun x => ((x.2 : ℤ) : K) * if x.1 = l' then 1 else 0)).sum

theorem up1 (a : ℕ) : unorderedPermute [a] = [([a], 1)] := rfl
theorem up2 (a b : ℕ) : unorderedPermute [a, b] = [([a, b], 1), ([b, a], -1)] := rfl
theorem up3 (a b c : ℕ) : unorderedPermute [a, b, c] =
    [([a, b, c], 1), ([a, c, b], -1), ([b, a, c], -1), ([b, c, a], 1), ([c, a, b], 1), ([c, b, a], -1)] := by simp [unorderedPermute, inner]

theorem F_swap (p : ℕ) (hp : p ≤ 3) (l xs : List ℕ) (x y : ℕ) (zs : List ℕ) (hl : l.length = p)
    (h' : (xs ++ x :: y :: zs).length = p) :
    (F l (xs ++ y :: x :: zs) : K) = -F l (xs ++ x :: y :: zs) := by
  match l, hl with
  | [], hl => subst hl; simp at h'
  | [a], hl => subst hl; simp at h'; omega
  | [a, b], hl =>
    subst hl
    have hx : xs = [] := List.length_eq_zero_iff.mp (by simp at h'; omega)
    have hz : zs = [] := List.length_eq_zero_iff.mp (by simp at h'; omega)
    subst hx hz
    simp only [F, up2, List.map_cons, List.map_nil, List.sum_cons, List.sum_nil, List.nil_append, List.cons.injEq,
      and_true]
    push_cast
    simp only [and_comm]
    ring
  | [a, b, c], hl =>
    subst hl
    match xs, zs, h' with
    | [], [z], _ =>
      simp only [F, up3, List.map_cons, List.map_nil, List.sum_cons, List.sum_nil, List.nil_append, List.cons.injEq,
        and_true]
      push_cast
      simp only [and_comm, and_left_comm, and_assoc]
      ring
    | [w], [], _ =>
      simp only [F, up3, List.map_cons, List.map_nil, List.sum_cons, List.sum_nil, List.cons_append, List.nil_append,
        List.cons.injEq, and_true]
      push_cast
      simp only [and_comm, and_left_comm, and_assoc]
      ring
    | [], [], h' => simp at h'
    | [], _ :: _ :: _, h' => simp at h'
    | [_], _ :: _, h' => simp at h'
    | _ :: _ :: _, _, h' => simp at h'; omega
  | _ :: _ :: _ :: _ :: _, hl => simp at hl; omega

theorem F_perm (p : ℕ) (hp : p ≤ 3) (l q : List ℕ) (hl : l.length = p) (h : q.Perm l) :
    ∃ ε : K, ε * ε = 1 ∧ ∀ l', (F q l' : K) = ε * F l l' := by
  match l, hl with
  | [], hl => exact ⟨1, by ring, fun l' => by rw [List.perm_nil.mp h, one_mul]⟩
  | [a], hl => exact ⟨1, by ring, fun l' => by rw [List.perm_singleton.mp h, one_mul]⟩
  | [a, b], hl =>
    have hm := (C29_all_permutations [a, b] (by simp) q).mpr h
    simp only [up2, List.map_cons, List.map_nil, List.mem_cons, List.not_mem_nil, or_false] at hm
    rcases hm with rfl | rfl
    · exact ⟨1, by ring, fun l' => by ring⟩
    · refine ⟨-1, by ring, fun l' => ?_⟩
      simp only [F, up2, List.map_cons, List.map_nil, List.sum_cons, List.sum_nil]
      push_cast
      ring
  | [a, b, c], hl =>
    have hm := (C29_all_permutations [a, b, c] (by simp) q).mpr h
    simp only [up3, List.map_cons, List.map_nil, List.mem_cons, List.not_mem_nil, or_false] at hm
    rcases hm with rfl | rfl | rfl | rfl | rfl | rfl
    · exact ⟨1, by ring, fun l' => by ring⟩
    · refine ⟨-1, by ring, fun l' => ?_⟩
      simp only [F, up3, List.map_cons, List.map_nil, List.sum_cons, List.sum_nil]
      push_cast
      ring
    · refine ⟨-1, by ring, fun l' => ?_⟩
      simp only [F, up3, List.map_cons, List.map_nil, List.sum_cons, List.sum_nil]
      push_cast
      ring
    · refine ⟨1, by ring, fun l' => ?_⟩
      simp only [F, up3, List.map_cons, List.map_nil, List.sum_cons, List.sum_nil]
      push_cast
      ring
    · refine ⟨1, by ring, fun l' => ?_⟩
      simp only [F, up3, List.map_cons, List.map_nil, List.sum_cons, List.sum_nil]
      push_cast
      ring
    · refine ⟨-1, by ring, fun l' => ?_⟩
      simp only [F, up3, List.map_cons, List.map_nil, List.sum_cons, List.sum_nil]
      push_cast
      ring
  | _ :: _ :: _ :: _ :: _, hl => simp at hl; omega

theorem conj_intCast (n : ℤ) : conj (n : K) = n := by
  have hn : ∀ m : ℕ, conj (m : K) = m := by
    intro m
    induction m with
    | zero => simp [conj_zero]
    | succ m ih => rw [Nat.cast_succ, Coef.conj_add, ih, conj_one]
  cases n with
  | ofNat m => simpa using hn m
  | negSucc m => rw [Int.cast_negSucc, conj_neg, hn]

theorem conj_listSum (l : List K) : conj l.sum = (l.map conj).sum := by
  induction l with
  | nil => simp [conj_zero]
  | cons x l ih => rw [List.sum_cons, Coef.conj_add, ih, List.map_cons, List.sum_cons]

theorem conj_F (l l' : List ℕ) : conj (F l l' : K) = F l l' := by
  unfold F
  rw [conj_listSum, List.map_map]
  congr 1
  apply List.map_congr_left
  intro x _
  simp only [Function.comp_apply]
  rw [Coef.conj_mul, conj_intCast]
  split <;> simp [conj_one, conj_zero]

theorem sum_map_flatMap {α β : Type} (l : List α) (f : α → List β) (w : β → K) :
    ((l.flatMap f).map w).sum = (l.map (fun x => ((f x).map w).sum)).sum := by
  induction l with
  | nil => rfl
  | cons x l ih => rw [List.flatMap_cons, List.map_append, List.sum_append, ih, List.map_cons, List.sum_cons]

theorem perm_length {l q : List ℕ} {s : ℤ} (h : (q, s) ∈ unorderedPermute l) : q.Perm l := by
  have hl : l ≠ [] := by
    rintro rfl
    cases h
  exact (C29_all_permutations l hl q).mp (List.mem_map_of_mem (f := Prod.fst) h)

theorem sameSet_perm {a a' c c' : List ℕ} (h : a.Perm a') (h' : c.Perm c') : sameSet a c = sameSet a' c' := by
  unfold sameSet
  rw [Bool.eq_iff_iff]
  simp [h.mem_iff, h'.mem_iff]

theorem updates_one (ind : List ℕ) (temp : K) (h : ind.length = 2) :
    updates 1 ind temp = (unorderedPermute (ind.drop 1).reverse).flatMap (fun i =>
      (unorderedPermute (ind.take 1)).flatMap (fun j =>
        [(j.1 ++ i.1, temp * ((i.2 * j.2 : ℤ) : K))] ++
          (if sameSet i.1 j.1 then [] else [(i.1 ++ j.1, conj temp * ((i.2 * j.2 : ℤ) : K))]))) := by
  match ind, h with
  | [i, j], _ =>
    unfold updates
    simp only [if_true, List.drop_succ_cons, List.drop_zero, List.take_succ_cons, List.take_zero, List.reverse_singleton,
      up1, List.flatMap_cons, List.flatMap_nil, List.append_nil]
    by_cases e : i = j
    · subst e; simp [sameSet]
    · have e' : j ≠ i := Ne.symm e
      simp [sameSet, e, e']

theorem updates_eq (p : ℕ) (ind : List ℕ) (temp : K) (h : ind.length = 2 * p) :
    updates p ind temp = (unorderedPermute (ind.drop p).reverse).flatMap (fun i =>
      (unorderedPermute (ind.take p)).flatMap (fun j =>
        [(j.1 ++ i.1, temp * ((i.2 * j.2 : ℤ) : K))] ++
          (if sameSet i.1 j.1 then [] else [(i.1 ++ j.1, conj temp * ((i.2 * j.2 : ℤ) : K))]))) := by
  by_cases hp : p = 1
  · subst hp
    exact updates_one ind temp h
  · unfold updates
    rw [if_neg hp]

theorem ite_and_mul (P Q : Prop) [Decidable P] [Decidable Q] (x : K) :
    (if P ∧ Q then x else 0) = x * (if P then 1 else 0) * (if Q then 1 else 0) := by
  by_cases hP : P <;> by_cases hQ : Q <;> simp [hP, hQ]

/-- What one element contributes to an entry. -/
theorem contribution (p : ℕ) (c a c' a' : List ℕ) (temp : K) (hc : c.length = p) (ha : a.length = p)
    (hc' : c'.length = p) (ha' : a'.length = p) :
    ((updates p (c ++ a.reverse) temp).map (fun u => if u.1 = c' ++ a' then u.2 else 0)).sum =
      temp * F c c' * F a a' + if sameSet a c then 0 else conj temp * F a c' * F c a' := by
  rw [updates_eq p _ _ (by simp [hc, ha]; omega)]
  rw [List.drop_left' hc, List.take_left' hc, List.reverse_reverse, sum_map_flatMap]
  have key : ∀ i ∈ unorderedPermute a, (((unorderedPermute c).flatMap (fun j =>
        [(j.1 ++ i.1, temp * ((i.2 * j.2 : ℤ) : K))] ++
          (if sameSet i.1 j.1 then [] else [(i.1 ++ j.1, conj temp * ((i.2 * j.2 : ℤ) : K))]))).map
        (fun u => if u.1 = c' ++ a' then u.2 else 0)).sum =
      temp * F c c' * ((i.2 : K) * if i.1 = a' then 1 else 0) +
        if sameSet a c then 0 else conj temp * F c a' * ((i.2 : K) * if i.1 = c' then 1 else 0) := by
    intro i hi
    have hpi := perm_length (l := a) (q := i.1) (s := i.2) hi
    rw [sum_map_flatMap]
    have key2 : ∀ j ∈ unorderedPermute c, (([(j.1 ++ i.1, temp * ((i.2 * j.2 : ℤ) : K))] ++
          (if sameSet i.1 j.1 then [] else [(i.1 ++ j.1, conj temp * ((i.2 * j.2 : ℤ) : K))])).map
        (fun u => if u.1 = c' ++ a' then u.2 else 0)).sum =
        (temp * ((i.2 : K) * if i.1 = a' then 1 else 0)) * ((j.2 : K) * if j.1 = c' then 1 else 0) +
        (if sameSet a c then 0 else conj temp * ((i.2 : K) * if i.1 = c' then 1 else 0)) *
          ((j.2 : K) * if j.1 = a' then 1 else 0) := by
      intro j hj
      have hpj := perm_length (l := c) (q := j.1) (s := j.2) hj
      rw [sameSet_perm hpi hpj]
      have e1 : (j.1 ++ i.1 = c' ++ a') ↔ (j.1 = c' ∧ i.1 = a') :=
        ⟨fun h => List.append_inj h (by rw [hpj.length_eq, hc, hc']), fun h => by rw [h.1, h.2]⟩
      have e2 : (i.1 ++ j.1 = c' ++ a') ↔ (i.1 = c' ∧ j.1 = a') :=
        ⟨fun h => List.append_inj h (by rw [hpi.length_eq, ha, hc']), fun h => by rw [h.1, h.2]⟩
      cases hs : sameSet a c
      · simp only [Bool.false_eq_true, if_false, List.cons_append, List.nil_append, List.map_cons, List.map_nil,
          List.sum_cons, List.sum_nil, e1, e2]
        push_cast
        rw [ite_and_mul, ite_and_mul]
        ring
      · simp only [if_true, List.append_nil, List.map_cons, List.map_nil,
          List.sum_cons, List.sum_nil, e1]
        push_cast
        rw [ite_and_mul]
        ring
    rw [List.map_congr_left key2, List.sum_map_add, List.sum_map_mul_left, List.sum_map_mul_left]
    show _ * F c c' + _ * F c a' = _
    cases sameSet a c
    · simp only [Bool.false_eq_true, if_false]
      ring
    · simp only [if_true]
      ring
  rw [List.map_congr_left key, List.sum_map_add, List.sum_map_mul_left]
  congr 1
  cases hs : sameSet a c
  · simp only [Bool.false_eq_true, if_false]
    rw [List.sum_map_mul_left]
    show _ * F a c' = _
    ring
  · simp

/-- The filled tensor, entry by entry. -/
theorem build_eq (p : ℕ) (rs : List ((List ℕ × List ℕ) × K)) (hr : ∀ r ∈ rs, r.1.1.length = p ∧ r.1.2.length = p)
    (c' a' : List ℕ) (hc' : c'.length = p) (ha' : a'.length = p) :
    entry (build p (rs.map (fun r => (r.1.1 ++ r.1.2.reverse, r.2)))) c' a' =
      (rs.map (fun r => r.2 * F r.1.1 c' * F r.1.2 a' +
        if sameSet r.1.2 r.1.1 then 0 else conj r.2 * F r.1.2 c' * F r.1.1 a')).sum := by
  unfold entry build
  rw [sum_map_flatMap, List.map_map]
  congr 1
  apply List.map_congr_left
  intro r hr'
  exact contribution p r.1.1 r.1.2 c' a' r.2 (hr r hr').1 (hr r hr').2 hc' ha'

/-- **C28, antisymmetry, orders 1 to 3**, for any list of elements and any values.  Missing: order 4, where it is
false (`C28_fails_order4`). -/
theorem C28_antisymmetric_partial (p : ℕ) (hp : p ≤ 3) (rs : List ((List ℕ × List ℕ) × K))
    (hr : ∀ r ∈ rs, r.1.1.length = p ∧ r.1.2.length = p) :
    Antisym p (entry (build p (rs.map (fun r => (r.1.1 ++ r.1.2.reverse, r.2))))) := by
  constructor
  · intro xs x y zs a h ha
    have h' : (xs ++ y :: x :: zs).length = p := by simpa using h
    rw [build_eq p rs hr _ _ h ha, build_eq p rs hr _ _ h' ha, List.sum_neg, List.map_map]
    congr 1
    apply List.map_congr_left
    intro r hr'
    simp only [Function.comp_apply]
    rw [F_swap p hp _ _ _ _ _ (hr r hr').1 h, F_swap p hp _ _ _ _ _ (hr r hr').2 h]
    split <;> ring
  · intro c xs x y zs h hc
    have h' : (xs ++ y :: x :: zs).length = p := by simpa using h
    rw [build_eq p rs hr _ _ hc h, build_eq p rs hr _ _ hc h', List.sum_neg, List.map_map]
    congr 1
    apply List.map_congr_left
    intro r hr'
    simp only [Function.comp_apply]
    rw [F_swap p hp _ _ _ _ _ (hr r hr').1 h, F_swap p hp _ _ _ _ _ (hr r hr').2 h]
    split <;> ring

/-- **C28, Hermiticity, orders 1 to 3**, for elements on distinct indices whose values are real when creation and
annihilation indices are the same set. -/
theorem C28_hermitian_partial (p : ℕ) (hp : p ≤ 3) (rs : List ((List ℕ × List ℕ) × K))
    (hr : ∀ r ∈ rs, r.1.1.length = p ∧ r.1.2.length = p) (hn : ∀ r ∈ rs, r.1.1.Nodup ∧ r.1.2.Nodup)
    (hd : ∀ r ∈ rs, (∀ x, x ∈ r.1.1 ↔ x ∈ r.1.2) → conj r.2 = r.2) :
    Herm p (entry (build p (rs.map (fun r => (r.1.1 ++ r.1.2.reverse, r.2))))) := by
  intro c a hc ha
  rw [build_eq p rs hr _ _ hc ha, build_eq p rs hr _ _ ha hc, conj_listSum, List.map_map]
  congr 1
  apply List.map_congr_left
  intro r hr'
  simp only [Function.comp_apply]
  rw [Coef.conj_add, Coef.conj_mul, Coef.conj_mul, conj_F, conj_F]
  cases hs : sameSet r.1.2 r.1.1
  · simp only [Bool.false_eq_true, if_false]
    rw [Coef.conj_mul, Coef.conj_mul, conj_F, conj_F, Coef.conj_conj]
    ring
  · have hm : ∀ x, x ∈ r.1.1 ↔ x ∈ r.1.2 := by
      simp [sameSet] at hs
      exact fun x => ⟨hs.2 x, hs.1 x⟩
    have hper : r.1.2.Perm r.1.1 := (List.perm_ext_iff_of_nodup (hn r hr').2 (hn r hr').1).mpr (fun x => (hm x).symm)
    obtain ⟨ε, _, hε⟩ := F_perm (K := K) p hp _ _ (hr r hr').1 hper
    simp only [if_true, conj_zero]
    rw [hε, hε, hd r hr' hm]
    ring

/-- A concrete filling at order 2: an off-diagonal and a diagonal element. -/
example : let D := entry (build 2 ([(([0, 2], [1, 3]), (⟨1/3, 1/2⟩ : GQ)), (([0, 1], [0, 1]), ⟨1/5, 0⟩)].map
      (fun r => (r.1.1 ++ r.1.2.reverse, r.2))));
    D [0, 2] [1, 3] = ⟨1/3, 1/2⟩ ∧ D [2, 0] [1, 3] = ⟨-1/3, -1/2⟩ ∧ D [1, 3] [2, 0] = ⟨-1/3, 1/2⟩ ∧
      D [1, 0] [0, 1] = ⟨-1/5, 0⟩ ∧ D [0, 1] [0, 1] = ⟨1/5, 0⟩ := by decide +kernel

/-- **C28 is violated at order 4**: filling one element does not give an antisymmetric tensor. -/
theorem C28_fails_order4 :
    ¬ Antisym 4 (entry (build 4 ([(([0, 1, 2, 3], [4, 5, 6, 7]), (1 : GQ))].map
      (fun r => (r.1.1 ++ r.1.2.reverse, r.2))))) := by
  intro h
  have h1 := h.1 [0] 1 3 [2] [4, 5, 6, 7] rfl rfl
  revert h1
  decide +kernel

end HQCA.Props
