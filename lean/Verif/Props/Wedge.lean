import Verif.Props.RDMAlg

/-!
# Property C32: the wedge product
-/

set_option linter.unusedSectionVars false

namespace HQCA.Props
open Rec RDM

variable {K : Type} [Coef K]

/-- Antisymmetrised sum of `G` over the permutations of a list. -/
def asum (G : List ℕ → K) (l : List ℕ) : K :=
  ∑ σ : Equiv.Perm (Fin l.length), (((Equiv.Perm.sign σ : ℤˣ) : ℤ) : K) * G (List.ofFn (fun i => l.get (σ i)))

/-- The wedge product of a `p`- and a `q`-tensor in the normalisation of unnormalised RDMs:
`(p+q)!/(p! q!)` times the average over all signed permutations of creation and annihilation indices of
`A(first p) B(last q)`. -/
def wedgeSpec (p q : ℕ) (A B : List ℕ → K) (c a : List ℕ) : K :=
  (((p + q).factorial : K) / ((p.factorial * q.factorial : ℕ) : K)) / (((p + q).factorial * (p + q).factorial : ℕ) : K) *
    asum (fun x => asum (fun y => A (x.take p ++ y.take p) * B (x.drop p ++ y.drop p)) a) c

/-- The sum over the listed permutations is the sum over all signed permutations (up to three elements). -/
theorem asum_eq (G : List ℕ → K) (l : List ℕ) (h0 : l ≠ []) (h : l.length ≤ 3) :
    ((unorderedPermute l).map (fun x => (x.2 : K) * G x.1)).sum = asum G l := by
  have := C29_signed_permutations_partial l h0 h
  have h2 : ((unorderedPermute l : Multiset (List ℕ × ℤ)).map (fun x => (x.2 : K) * G x.1)).sum =
      ((unorderedPermute l).map (fun x => (x.2 : K) * G x.1)).sum := by
    rw [Multiset.map_coe, Multiset.sum_coe]
  rw [← h2, this, signedPerms, Multiset.map_map]
  rfl

theorem asum_swap (p : ℕ) (hp : p ≤ 3) (G : List ℕ → K) (xs : List ℕ) (x y : ℕ) (zs : List ℕ)
    (h : (xs ++ x :: y :: zs).length = p) : asum G (xs ++ y :: x :: zs) = -asum G (xs ++ x :: y :: zs) := by
  have hl : (xs ++ y :: x :: zs).length = p := by rw [← h]; simp
  rw [← asum_eq G _ (by simp) (by omega), ← asum_eq G _ (by simp) (by omega)]
  match xs, zs, h with
  | [], [], _ => simp [up2]
  | [], [z], _ => simp [up3]; ring
  | [w], [], _ => simp [up3]; ring
  | [], _ :: _ :: _, h => simp at h; omega
  | [_], _ :: _, h => simp at h; omega
  | _ :: _ :: _, _, h => simp at h; omega

theorem asum_neg (G : List ℕ → K) (l : List ℕ) : asum (fun x => -G x) l = -asum G l := by
  unfold asum
  rw [← Finset.sum_neg_distrib]
  apply Finset.sum_congr rfl
  intros; ring

theorem wedgeSpec_antisym (p q : ℕ) (h : p + q ≤ 3) (A B : List ℕ → K) : Antisym (p + q) (wedgeSpec p q A B) := by
  constructor
  · intro xs x y zs a h1 h2
    unfold wedgeSpec
    rw [asum_swap (p + q) h _ xs x y zs h1]; ring
  · intro c xs x y zs h1 h2
    unfold wedgeSpec
    have : ∀ G : List ℕ → List ℕ → K, asum (fun u => asum (G u) (xs ++ y :: x :: zs)) c =
        -asum (fun u => asum (G u) (xs ++ x :: y :: zs)) c := by
      intro G
      rw [← asum_neg]
      congr 1
      funext u
      exact asum_swap (p + q) h _ xs x y zs h1
    rw [this]; ring

theorem sumTerms_eq (p q : ℕ) (h0 : 0 < p + q) (h : p + q ≤ 3) (A B : List ℕ → K) (i j : List ℕ)
    (hi : i.length = p + q) (hj : j.length = p + q) : sumTerms p q A B i j = wedgeSpec p q A B i j := by
  have ni : i ≠ [] := by rintro rfl; simp at hi; omega
  have nj : j ≠ [] := by rintro rfl; simp at hj; omega
  unfold sumTerms wedgeSpec
  rw [C29_count i ni, C29_count j nj, hi, hj]
  rw [← asum_eq _ i ni (by omega)]
  simp only [← asum_eq _ j nj (hj.trans_le h)]
  have : ((unorderedPermute i).flatMap (fun c => (unorderedPermute j).map (fun a =>
      A (c.1.take p ++ a.1.take p) * B (c.1.drop p ++ a.1.drop p) * ((c.2 * a.2 : ℤ) : K)))).sum =
      ((unorderedPermute i).map (fun x => (x.2 : K) * ((unorderedPermute j).map (fun y => (y.2 : K) *
        (A (x.1.take p ++ y.1.take p) * B (x.1.drop p ++ y.1.drop p)))).sum)).sum := by
    rw [List.flatMap_def, List.sum_flatten, List.map_map]
    congr 1
    apply List.map_congr_left
    intro x _
    rw [Function.comp_apply, ← List.sum_map_mul_left]
    congr 1
    apply List.map_congr_left
    intro y _
    push_cast; ring
  rw [this]
  ring

theorem ascending_iff (l : List ℕ) : ascending l = true ↔ l.Pairwise (· ≤ ·) := by
  induction l with
  | nil => simp [ascending]
  | cons a l ih =>
    cases l with
    | nil => simp [ascending]
    | cons b l =>
      rw [ascending, Bool.and_eq_true, ih, decide_eq_true_eq]
      constructor
      · rintro ⟨h1, h2⟩
        refine List.pairwise_cons.mpr ⟨?_, h2⟩
        intro x hx
        rcases List.mem_cons.mp hx with rfl | hx
        · exact h1
        · exact h1.trans ((List.pairwise_cons.mp h2).1 x hx)
      · intro h
        exact ⟨(List.pairwise_cons.mp h).1 b (by simp), (List.pairwise_cons.mp h).2⟩

/-- The index lists kept by the product: disjoint concatenations that are already in ascending order. -/
theorem mem_terms (c1 c2 : List (List ℕ)) (i : List ℕ) :
    i ∈ terms c1 c2 ↔ ∃ c ∈ c1, ∃ s ∈ c2, i = c ++ s ∧ (∀ x ∈ c, x ∉ s) ∧ i.Pairwise (· ≤ ·) := by
  have inner : ∀ (c : List ℕ) (c2 acc : List (List ℕ)), i ∈ c2.foldl (fun acc s =>
      if c.any (· ∈ s) || !ascending (c ++ s) || decide (c ++ s ∈ acc) then acc else acc ++ [c ++ s]) acc ↔
      i ∈ acc ∨ ∃ s ∈ c2, i = c ++ s ∧ (∀ x ∈ c, x ∉ s) ∧ i.Pairwise (· ≤ ·) := by
    intro c c2
    induction c2 with
    | nil => simp
    | cons s c2 ih =>
      intro acc
      rw [List.foldl_cons, ih]
      by_cases hc : (c.any (· ∈ s) || !ascending (c ++ s) || decide (c ++ s ∈ acc)) = true
      · rw [if_pos hc]
        constructor
        · rintro (h | ⟨t, ht, h⟩)
          · exact Or.inl h
          · exact Or.inr ⟨t, by simp [ht], h⟩
        · rintro (h | ⟨t, ht, e, h1, h2⟩)
          · exact Or.inl h
          · rcases List.mem_cons.mp ht with rfl | ht
            · left
              simp only [Bool.or_eq_true, List.any_eq_true, decide_eq_true_eq, Bool.not_eq_true'] at hc
              rcases hc with (⟨x, hx, hx2⟩ | hc) | hc
              · exact absurd hx2 (h1 x hx)
              · rw [e, ← ascending_iff, hc] at h2; cases h2
              · rw [e]; exact hc
            · exact Or.inr ⟨t, ht, e, h1, h2⟩
      · rw [if_neg hc]
        simp only [Bool.or_eq_true, List.any_eq_true, decide_eq_true_eq, Bool.not_eq_true', not_or, not_exists, not_and,
          Bool.not_eq_false, ascending_iff] at hc
        simp only [List.mem_append, List.mem_singleton]
        constructor
        · rintro ((h | h) | ⟨t, ht, h⟩)
          · exact Or.inl h
          · exact Or.inr ⟨s, by simp, h, hc.1.1, by rw [h]; exact hc.1.2⟩
          · exact Or.inr ⟨t, by simp [ht], h⟩
        · rintro (h | ⟨t, ht, e, h⟩)
          · exact Or.inl (Or.inl h)
          · rcases List.mem_cons.mp ht with rfl | ht
            · exact Or.inl (Or.inr e)
            · exact Or.inr ⟨t, ht, e, h⟩
  have outer : ∀ (c1 acc : List (List ℕ)), i ∈ c1.foldl (fun acc c => c2.foldl (fun acc s =>
      if c.any (· ∈ s) || !ascending (c ++ s) || decide (c ++ s ∈ acc) then acc else acc ++ [c ++ s]) acc) acc ↔
      i ∈ acc ∨ ∃ c ∈ c1, ∃ s ∈ c2, i = c ++ s ∧ (∀ x ∈ c, x ∉ s) ∧ i.Pairwise (· ≤ ·) := by
    intro c1
    induction c1 with
    | nil => simp
    | cons c c1 ih =>
      intro acc
      rw [List.foldl_cons, ih, inner]
      simp only [List.mem_cons, exists_eq_or_imp]
      rw [or_assoc]
  unfold terms
  rw [outer]
  simp

theorem mem_nonzero (r p : ℕ) (A : List ℕ → K) (t : List ℕ) :
    t ∈ nonzero r p A ↔ (t.length = 2 * p ∧ ∀ x ∈ t, x < r) ∧ A t ≠ 0 := by
  unfold nonzero
  rw [List.mem_filter, mem_tuples]
  have : (!isZero (A t)) = true ↔ A t ≠ 0 := by
    rw [Bool.not_eq_true', ← Bool.not_eq_true, Coef.isZero_iff]
  rw [this]

/-- The creation (or annihilation) index lists kept by `A * B`. -/
def creTerms (r p q : ℕ) (A B : List ℕ → K) : List (List ℕ) :=
  terms ((nonzero r p A).map (·.take p)) ((nonzero r q B).map (·.take q))
def annTerms (r p q : ℕ) (A B : List ℕ → K) : List (List ℕ) :=
  terms ((nonzero r p A).map (·.drop p)) ((nonzero r q B).map (·.drop q))

theorem append_antisym_zero (p : ℕ) (hp : p ≤ 3) (A : List ℕ → K) (hA : Antisym p (entry A)) (t : List ℕ)
    (ht : t.length = 2 * p) (h : A t ≠ 0) : (t.take p).Nodup ∧ (t.drop p).Nodup := by
  have l1 : (t.take p).length = p := by simp; omega
  have l2 : (t.drop p).length = p := by simp; omega
  have e : entry A (t.take p) (t.drop p) = A t := by simp [entry]
  constructor
  · by_contra hn
    apply h
    rw [← e]
    exact anti_dup p hp (fun l => entry A l (t.drop p)) (fun xs x y zs h => hA.1 xs x y zs _ h l2) _ l1 hn
  · by_contra hn
    apply h
    rw [← e]
    exact anti_dup p hp (fun l => entry A (t.take p) l) (fun xs x y zs h => hA.2 _ xs x y zs h l1) _ l2 hn

theorem mem_creTerms (r p q : ℕ) (hp : p ≤ 3) (hq : q ≤ 3) (A B : List ℕ → K) (hA : Antisym p (entry A))
    (hB : Antisym q (entry B)) (i : List ℕ) : (i ∈ creTerms r p q A B ↔ Sorted (p + q) r i ∧
      (∃ u, u.length = p ∧ (∀ x ∈ u, x < r) ∧ A (i.take p ++ u) ≠ 0) ∧
      (∃ u, u.length = q ∧ (∀ x ∈ u, x < r) ∧ B (i.drop p ++ u) ≠ 0)) := by
  unfold creTerms
  rw [mem_terms]
  constructor
  · rintro ⟨c, hc, s, hs, rfl, hd, ha⟩
    obtain ⟨t, ht, rfl⟩ := List.mem_map.mp hc
    obtain ⟨t', ht', rfl⟩ := List.mem_map.mp hs
    obtain ⟨⟨l1, b1⟩, n1⟩ := (mem_nonzero r p A t).mp ht
    obtain ⟨⟨l2, b2⟩, n2⟩ := (mem_nonzero r q B t').mp ht'
    have lt1 : (t.take p).length = p := by simp; omega
    have lt2 : (t'.take q).length = q := by simp; omega
    have nd1 := (append_antisym_zero p hp A hA t l1 n1).1
    have nd2 := (append_antisym_zero q hq B hB t' l2 n2).1
    have hnd : (t.take p ++ t'.take q).Nodup := by
      rw [List.nodup_append]
      exact ⟨nd1, nd2, fun a ha b hb e => hd a ha (e ▸ hb)⟩
    refine ⟨⟨by rw [List.length_append, lt1, lt2], ?_, ?_⟩, ⟨t.drop p, by simp; omega, ?_, ?_⟩, ⟨t'.drop q, by simp; omega, ?_, ?_⟩⟩
    · exact (ha.and hnd).imp (fun h => lt_of_le_of_ne h.1 h.2)
    · intro x hx
      rcases List.mem_append.mp hx with hx | hx
      · exact b1 x (List.mem_of_mem_take hx)
      · exact b2 x (List.mem_of_mem_take hx)
    · exact fun x hx => b1 x (List.mem_of_mem_drop hx)
    · rw [List.take_left' lt1, List.take_append_drop]; exact n1
    · exact fun x hx => b2 x (List.mem_of_mem_drop hx)
    · rw [List.drop_left' lt1, List.take_append_drop]; exact n2
  · rintro ⟨⟨hl, hs, hr⟩, ⟨u, hu, hur, hA'⟩, ⟨v, hv, hvr, hB'⟩⟩
    have l1 : (i.take p).length = p := by simp; omega
    have l2 : (i.drop p).length = q := by simp; omega
    refine ⟨i.take p, List.mem_map.mpr ⟨i.take p ++ u, ?_, List.take_left' l1⟩, i.drop p,
      List.mem_map.mpr ⟨i.drop p ++ v, ?_, List.take_left' l2⟩, by simp, ?_, hs.imp (fun h => by omega)⟩
    · rw [mem_nonzero]
      refine ⟨⟨by rw [List.length_append, l1, hu]; omega, ?_⟩, hA'⟩
      intro x hx
      rcases List.mem_append.mp hx with hx | hx
      · exact hr x (List.mem_of_mem_take hx)
      · exact hur x hx
    · rw [mem_nonzero]
      refine ⟨⟨by rw [List.length_append, l2, hv]; omega, ?_⟩, hB'⟩
      intro x hx
      rcases List.mem_append.mp hx with hx | hx
      · exact hr x (List.mem_of_mem_drop hx)
      · exact hvr x hx
    · intro x hx hx'
      have hn : (i.take p ++ i.drop p).Nodup := by
        rw [List.take_append_drop]; exact hs.imp (fun h => by omega)
      exact (List.nodup_append.mp hn).2.2 x hx x hx' rfl

theorem mem_annTerms (r p q : ℕ) (hp : p ≤ 3) (hq : q ≤ 3) (A B : List ℕ → K) (hA : Antisym p (entry A))
    (hB : Antisym q (entry B)) (i : List ℕ) : (i ∈ annTerms r p q A B ↔ Sorted (p + q) r i ∧
      (∃ u, u.length = p ∧ (∀ x ∈ u, x < r) ∧ A (u ++ i.take p) ≠ 0) ∧
      (∃ u, u.length = q ∧ (∀ x ∈ u, x < r) ∧ B (u ++ i.drop p) ≠ 0)) := by
  unfold annTerms
  rw [mem_terms]
  constructor
  · rintro ⟨c, hc, s, hs, rfl, hd, ha⟩
    obtain ⟨t, ht, rfl⟩ := List.mem_map.mp hc
    obtain ⟨t', ht', rfl⟩ := List.mem_map.mp hs
    obtain ⟨⟨l1, b1⟩, n1⟩ := (mem_nonzero r p A t).mp ht
    obtain ⟨⟨l2, b2⟩, n2⟩ := (mem_nonzero r q B t').mp ht'
    have lt1 : (t.drop p).length = p := by simp; omega
    have lt2 : (t'.drop q).length = q := by simp; omega
    have nd1 := (append_antisym_zero p hp A hA t l1 n1).2
    have nd2 := (append_antisym_zero q hq B hB t' l2 n2).2
    have hnd : (t.drop p ++ t'.drop q).Nodup := by
      rw [List.nodup_append]
      exact ⟨nd1, nd2, fun a ha b hb e => hd a ha (e ▸ hb)⟩
    refine ⟨⟨by rw [List.length_append, lt1, lt2], ?_, ?_⟩, ⟨t.take p, by simp; omega, ?_, ?_⟩, ⟨t'.take q, by simp; omega, ?_, ?_⟩⟩
    · exact (ha.and hnd).imp (fun h => lt_of_le_of_ne h.1 h.2)
    · intro x hx
      rcases List.mem_append.mp hx with hx | hx
      · exact b1 x (List.mem_of_mem_drop hx)
      · exact b2 x (List.mem_of_mem_drop hx)
    · exact fun x hx => b1 x (List.mem_of_mem_take hx)
    · rw [List.take_left' lt1, List.take_append_drop]; exact n1
    · exact fun x hx => b2 x (List.mem_of_mem_take hx)
    · rw [List.drop_left' lt1, List.take_append_drop]; exact n2
  · rintro ⟨⟨hl, hs, hr⟩, ⟨u, hu, hur, hA'⟩, ⟨v, hv, hvr, hB'⟩⟩
    have l1 : (i.take p).length = p := by simp; omega
    have l2 : (i.drop p).length = q := by simp; omega
    refine ⟨i.take p, List.mem_map.mpr ⟨u ++ i.take p, ?_, List.drop_left' hu⟩, i.drop p,
      List.mem_map.mpr ⟨v ++ i.drop p, ?_, List.drop_left' hv⟩, by simp, ?_, hs.imp (fun h => by omega)⟩
    · rw [mem_nonzero]
      refine ⟨⟨by rw [List.length_append, l1, hu]; omega, ?_⟩, hA'⟩
      intro x hx
      rcases List.mem_append.mp hx with hx | hx
      · exact hur x hx
      · exact hr x (List.mem_of_mem_take hx)
    · rw [mem_nonzero]
      refine ⟨⟨by rw [List.length_append, l2, hv]; omega, ?_⟩, hB'⟩
      intro x hx
      rcases List.mem_append.mp hx with hx | hx
      · exact hvr x hx
      · exact hr x (List.mem_of_mem_drop hx)
    · intro x hx hx'
      have hn : (i.take p ++ i.drop p).Nodup := by
        rw [List.take_append_drop]; exact hs.imp (fun h => by omega)
      exact (List.nodup_append.mp hn).2.2 x hx x hx' rfl

/-- What the code's product is, for antisymmetric factors with `p+q ≤ 3`: the wedge product at the index lists it keeps,
zero elsewhere. -/
theorem wedge_kept (r p q : ℕ) (h0 : 0 < p + q) (h : p + q ≤ 3) (A B : List ℕ → K) (hA : Antisym p (entry A))
    (hB : Antisym q (entry B)) (c a : List ℕ) (hc : c.length = p + q) (ha : a.length = p + q) :
    ((∃ i ∈ creTerms r p q A B, c.Perm i) → (∃ j ∈ annTerms r p q A B, a.Perm j) →
      wedge r p q A B (c ++ a) = wedgeSpec p q A B c a) ∧
    (¬ ((∃ i ∈ creTerms r p q A B, c.Perm i) ∧ (∃ j ∈ annTerms r p q A B, a.Perm j)) →
      wedge r p q A B (c ++ a) = 0) := by
  have hS := wedgeSpec_antisym p q h A B
  have hcre := fun i hi => ((mem_creTerms r p q (by omega) (by omega) A B hA hB i).mp hi).1
  have hann := fun i hi => ((mem_annTerms r p q (by omega) (by omega) A B hA hB i).mp hi).1
  have hne : ∀ i, Sorted (p + q) r i → i ≠ [] := by
    rintro i hi rfl
    have := hi.1; simp at this; omega
  constructor
  · rintro ⟨i, hi, hci⟩ ⟨j, hj, haj⟩
    apply writes_eq
    · intro w hw e
      simp only [List.mem_flatMap, List.mem_map] at hw
      obtain ⟨i', hi', j', hj', x, hx, y, hy, rfl⟩ := hw
      have si := hcre i' hi'
      have sj := hann j' hj'
      have hxp : x.1.Perm i' := (C29_all_permutations i' (hne _ si) x.1).mp (List.mem_map_of_mem hx)
      have hyp : y.1.Perm j' := (C29_all_permutations j' (hne _ sj) y.1).mp (List.mem_map_of_mem hy)
      obtain ⟨e1, e2⟩ := List.append_inj e (by rw [hxp.length_eq, si.1, hc])
      have h1 := anti_perm (p + q) h (fun l => wedgeSpec p q A B l y.1)
        (fun xs x' y' zs h => hS.1 xs x' y' zs y.1 h (by rw [hyp.length_eq, sj.1])) i' si.1 x hx
      have h2 := anti_perm (p + q) h (fun l => wedgeSpec p q A B i' l)
        (fun xs x' y' zs h => hS.2 i' xs x' y' zs h si.1) j' sj.1 y hy
      rw [← e1, ← e2, h1, h2, sumTerms_eq p q h0 h A B i' j' si.1 sj.1]
      push_cast; ring
    · have si := hcre i hi
      have sj := hann j hj
      obtain ⟨x, hx, rfl⟩ := List.mem_map.mp ((C29_all_permutations i (hne _ si) c).mpr hci)
      obtain ⟨y, hy, rfl⟩ := List.mem_map.mp ((C29_all_permutations j (hne _ sj) a).mpr haj)
      refine ⟨(x.1 ++ y.1, sumTerms p q A B i j * ((x.2 * y.2 : ℤ) : K)), ?_, rfl⟩
      simp only [List.mem_flatMap, List.mem_map]
      exact ⟨i, hi, j, hj, x, hx, y, hy, rfl⟩
  · intro hno
    apply writes_zero
    intro w hw e
    simp only [List.mem_flatMap, List.mem_map] at hw
    obtain ⟨i', hi', j', hj', x, hx, y, hy, rfl⟩ := hw
    have si := hcre i' hi'
    have sj := hann j' hj'
    have hxp : x.1.Perm i' := (C29_all_permutations i' (hne _ si) x.1).mp (List.mem_map_of_mem hx)
    have hyp : y.1.Perm j' := (C29_all_permutations j' (hne _ sj) y.1).mp (List.mem_map_of_mem hy)
    obtain ⟨e1, e2⟩ := List.append_inj e (by rw [hxp.length_eq, si.1, hc])
    exact hno ⟨⟨i', hi', e1 ▸ hxp⟩, ⟨j', hj', e2 ▸ hyp⟩⟩

/-- **C32, `p+q ≤ 3`, when no term is dropped**: if every ascending pair of index lists with a nonzero wedge product is
among the concatenations of nonzero index lists of the factors, the product is the wedge product at every index.
Missing: the general case, where terms are lost (`C32_fails_lost`), and order 4 (`C29_fails_four`). -/
theorem C32_wedge_partial (r p q : ℕ) (h0 : 0 < p + q) (h : p + q ≤ 3) (A B : List ℕ → K) (hA : Antisym p (entry A))
    (hB : Antisym q (entry B))
    (hk : ∀ i j, Sorted (p + q) r i → Sorted (p + q) r j → wedgeSpec p q A B i j ≠ 0 →
      i ∈ creTerms r p q A B ∧ j ∈ annTerms r p q A B)
    (c a : List ℕ) (hc : c.length = p + q) (ha : a.length = p + q) (hcr : ∀ x ∈ c, x < r) (har : ∀ x ∈ a, x < r) :
    wedge r p q A B (c ++ a) = wedgeSpec p q A B c a := by
  have hS := wedgeSpec_antisym p q h A B
  obtain ⟨k1, k2⟩ := wedge_kept r p q h0 h A B hA hB c a hc ha
  by_cases hz : wedgeSpec p q A B c a = 0
  · by_cases hh : (∃ i ∈ creTerms r p q A B, c.Perm i) ∧ (∃ j ∈ annTerms r p q A B, a.Perm j)
    · exact k1 hh.1 hh.2
    · rw [k2 hh, hz]
  · have hcn : c.Nodup := by
      by_contra hn
      exact hz (anti_dup _ h (fun l => wedgeSpec p q A B l a) (fun xs x y zs h => hS.1 xs x y zs a h ha) c hc hn)
    have han : a.Nodup := by
      by_contra hn
      exact hz (anti_dup _ h (fun l => wedgeSpec p q A B c l) (fun xs x y zs h => hS.2 c xs x y zs h hc) a ha hn)
    obtain ⟨i, hi, hci⟩ := exists_sorted (p + q) r c hc hcn hcr
    obtain ⟨j, hj, haj⟩ := exists_sorted (p + q) r a ha han har
    have hne : ∀ i, Sorted (p + q) r i → i ≠ [] := by
      rintro i hi rfl
      have := hi.1; simp at this; omega
    obtain ⟨x, hx, ex⟩ := List.mem_map.mp ((C29_all_permutations i (hne _ hi) c).mpr hci)
    obtain ⟨y, hy, ey⟩ := List.mem_map.mp ((C29_all_permutations j (hne _ hj) a).mpr haj)
    have h1 := anti_perm (p + q) h (fun l => wedgeSpec p q A B l a)
        (fun xs x' y' zs h => hS.1 xs x' y' zs a h ha) i hi.1 x hx
    have h2 := anti_perm (p + q) h (fun l => wedgeSpec p q A B i l)
        (fun xs x' y' zs h => hS.2 i xs x' y' zs h hi.1) j hj.1 y hy
    have hnz : wedgeSpec p q A B i j ≠ 0 := by
      intro h0
      apply hz
      rw [h0, mul_zero, ey] at h2
      simp only [ex, h2, mul_zero] at h1
      exact h1
    obtain ⟨m1, m2⟩ := hk i j hi hj hnz
    exact k1 ⟨i, m1, hci⟩ ⟨j, m2, haj⟩

/-! ### The products used in the reconstruction -/

theorem wedgeSpec_11 (A B : List ℕ → K) (i j k l : ℕ) : wedgeSpec 1 1 A B [i, j] [k, l] =
    (A [i, k] * B [j, l] - A [i, l] * B [j, k] - A [j, k] * B [i, l] + A [j, l] * B [i, k]) / 2 := by
  have h2 : (2 : K) ≠ 0 := Coef.two_ne_zero'
  unfold wedgeSpec
  rw [← asum_eq _ [i, j] (by simp) (by simp)]
  simp only [← asum_eq _ [k, l] (by simp) (by simp)]
  have h4 : (4 : K) ≠ 0 := by
    rw [show (4 : K) = 2 * 2 by norm_num]; exact mul_ne_zero h2 h2
  simp [up2, Nat.factorial]
  field_simp
  ring

theorem antisym_one (E : List ℕ → List ℕ → K) : Antisym 1 E :=
  ⟨fun xs x y zs _ h _ => by simp at h; omega, fun _ xs x y zs h _ => by simp at h; omega⟩

/-- **C32.**  `D1 * D1` for every 1-tensor: `D_ik D_jl - D_il D_jk` at every index. -/
theorem C32_square (r : ℕ) (D : List ℕ → K) (i j k l : ℕ) (hi : i < r) (hj : j < r) (hk : k < r) (hl : l < r) :
    wedge r 1 1 D D [i, j, k, l] = D [i, k] * D [j, l] - D [i, l] * D [j, k] := by
  have h2 : (2 : K) ≠ 0 := Coef.two_ne_zero'
  have e : ∀ i j k l, wedgeSpec 1 1 D D [i, j] [k, l] = D [i, k] * D [j, l] - D [i, l] * D [j, k] := by
    intro i j k l
    rw [wedgeSpec_11]; field_simp; ring
  have := C32_wedge_partial r 1 1 (by omega) (by omega) D D (antisym_one _) (antisym_one _) ?_ [i, j] [k, l] rfl rfl
    (by simp [hi, hj]) (by simp [hk, hl])
  · rw [← e]; exact this
  · intro c a hc ha hne
    obtain ⟨i, j, rfl, hij, hj⟩ := sorted_two.mp hc
    obtain ⟨k, l, rfl, hkl, hl⟩ := sorted_two.mp ha
    rw [e] at hne
    rw [mem_creTerms r 1 1 (by omega) (by omega) D D (antisym_one _) (antisym_one _),
      mem_annTerms r 1 1 (by omega) (by omega) D D (antisym_one _) (antisym_one _)]
    have hor : (D [i, k] ≠ 0 ∧ D [j, l] ≠ 0) ∨ (D [i, l] ≠ 0 ∧ D [j, k] ≠ 0) := by
      by_contra hn
      apply hne
      have a1 : D [i, k] * D [j, l] = 0 := by
        rw [mul_eq_zero]; tauto
      have a2 : D [i, l] * D [j, k] = 0 := by
        rw [mul_eq_zero]; tauto
      rw [a1, a2, sub_zero]
    rcases hor with ⟨x1, x2⟩ | ⟨x1, x2⟩
    · exact ⟨⟨hc, ⟨[k], rfl, by simp; omega, x1⟩, ⟨[l], rfl, by simp; omega, x2⟩⟩,
        ⟨ha, ⟨[i], rfl, by simp; omega, x1⟩, ⟨[j], rfl, by simp; omega, x2⟩⟩⟩
    · exact ⟨⟨hc, ⟨[l], rfl, by simp; omega, x1⟩, ⟨[k], rfl, by simp; omega, x2⟩⟩,
        ⟨ha, ⟨[j], rfl, by simp; omega, x2⟩, ⟨[i], rfl, by simp; omega, x1⟩⟩⟩

/-- **C32 is violated: terms are lost.**  The factors `A = |1⟩⟨1|`, `B = |0⟩⟨0|` have wedge product `1` at `0 1; 0 1`, but
the code returns the zero tensor; with the factors exchanged it returns the right value, so the product is not commutative. -/
theorem C32_fails_lost :
    let A : List ℕ → GQ := fun t => if t = [1, 1] then 1 else 0
    let B : List ℕ → GQ := fun t => if t = [0, 0] then 1 else 0
    wedge 2 1 1 A B [0, 1, 0, 1] = 0 ∧ wedge 2 1 1 B A [0, 1, 0, 1] = 1 / 2 ∧ wedgeSpec 1 1 A B [0, 1] [0, 1] = 1 / 2 := by
  refine ⟨by decide +kernel, by decide +kernel, ?_⟩
  rw [wedgeSpec_11]
  decide +kernel

/-- `|12⟩⟨12|` antisymmetrised. -/
def exCumF (a b : ℕ) : GQ := if a = 1 ∧ b = 2 then 1 else if a = 2 ∧ b = 1 then -1 else 0
def exCum : List ℕ → GQ
  | [a, b, c, d] => exCumF a b * exCumF c d
  | _ => 0

theorem exCumF_swap (a b : ℕ) : exCumF b a = -exCumF a b := by
  unfold exCumF
  by_cases h1 : a = 1 ∧ b = 2
  · obtain ⟨rfl, rfl⟩ := h1; decide +kernel
  · by_cases h2 : a = 2 ∧ b = 1
    · obtain ⟨rfl, rfl⟩ := h2; decide +kernel
    · rw [if_neg (by omega), if_neg (by omega), if_neg h1, if_neg h2, neg_zero]

/-- **C32 is violated in `reconstruct`**: an antisymmetric 2-cumulant on orbitals 1, 2 times a 1-RDM with orbital 0
occupied loses the element `0 1 2; 0 1 2` of the 3-RDM. -/
theorem C32_fails_cumulant :
    let B : List ℕ → GQ := fun t => if t = [0, 0] then 1 else 0
    Antisym 2 (entry exCum) ∧ wedge 3 2 1 exCum B [0, 1, 2, 0, 1, 2] = 0 ∧
      wedgeSpec 2 1 exCum B [0, 1, 2] [0, 1, 2] = 1 / 3 := by
  refine ⟨?_, by decide +kernel, ?_⟩
  · constructor
    · intro xs x y zs a h ha
      match xs, zs, a, h, ha with
      | [], [], [u, v], _, _ =>
        show exCumF y x * exCumF u v = -(exCumF x y * exCumF u v)
        rw [exCumF_swap x y]; ring
      | [], _ :: _, _, h, _ => simp at h
      | _ :: _, _, _, h, _ => simp at h; omega
    · intro c xs x y zs h hc
      match xs, zs, c, h, hc with
      | [], [], [u, v], _, _ =>
        show exCumF u v * exCumF y x = -(exCumF u v * exCumF x y)
        rw [exCumF_swap x y]; ring
      | [], _ :: _, _, h, _ => simp at h
      | _ :: _, _, _, h, _ => simp at h; omega
  · unfold wedgeSpec
    rw [← asum_eq _ [0, 1, 2] (by simp) (by simp)]
    simp only [← asum_eq _ [0, 1, 2] (by simp) (by simp)]
    decide +kernel

/-! ### Hartree–Fock -/

theorem hf1 (occ : List ℕ) (a c : ℕ) : (buildHF 1 occ [a, c] : K) = if a = c ∧ a ∈ occ then 1 else 0 := by
  have := C30_hartree_fock_partial (K := K) 1 (by omega) (by omega) occ [a] [c] rfl rfl
  rw [show [a] ++ [c] = [a, c] from rfl] at this
  rw [this]
  by_cases h : a = c ∧ a ∈ occ
  · obtain ⟨rfl, h⟩ := h
    rw [if_pos ⟨rfl, h⟩]
    exact (rdm_det (occCfg occ) [a] [a]).2 (by simp) (by simpa [occCfg] using h)
  · rw [if_neg h]
    exact (rdm_det (occCfg occ) [a] [c]).1 (by simpa [occCfg] using h)

theorem hf2 (occ : List ℕ) (a b c d : ℕ) : (buildHF 2 occ [a, b, c, d] : K) =
    (if a = c ∧ a ∈ occ then 1 else 0) * (if b = d ∧ b ∈ occ then 1 else 0) -
    (if a = d ∧ a ∈ occ then 1 else 0) * (if b = c ∧ b ∈ occ then 1 else 0) := by
  have := C30_hartree_fock_partial (K := K) 2 (by omega) (by omega) occ [a, b] [c, d] rfl rfl
  rw [show [a, b] ++ [c, d] = [a, b, c, d] from rfl] at this
  rw [this]
  have hA := rdm_antisym 2 (det (occCfg occ) : Cfg →₀ K)
  by_cases hab : a = b
  · subst hab
    rw [(rdm_det (K := K) (occCfg occ) [a, a] [c, d]).1 (by simp)]
    ring
  by_cases hocc : a ∈ occ ∧ b ∈ occ
  · have h1 := (rdm_det (K := K) (occCfg occ) [a, b] [a, b]).2 (by simp [hab]) (by simpa [occCfg] using hocc)
    by_cases h2 : a = c ∧ b = d
    · obtain ⟨rfl, rfl⟩ := h2
      rw [h1]; simp [hab, hocc]
    · by_cases h3 : a = d ∧ b = c
      · obtain ⟨rfl, rfl⟩ := h3
        have := hA.2 [a, b] [] a b [] rfl rfl
        simp only [List.nil_append] at this
        rw [this, h1]; simp [hab, Ne.symm hab, hocc]
      · rw [(rdm_det (K := K) (occCfg occ) [a, b] [c, d]).1]
        · have e1 : ¬ (a = c ∧ a ∈ occ) ∨ ¬ (b = d ∧ b ∈ occ) := by tauto
          have e2 : ¬ (a = d ∧ a ∈ occ) ∨ ¬ (b = c ∧ b ∈ occ) := by tauto
          rcases e1 with e1 | e1 <;> rcases e2 with e2 | e2 <;> simp [e1, e2]
        · rintro ⟨hp, _⟩
          have m1 : c ∈ [a, b] := hp.mem_iff.mpr (by simp)
          have m2 : d ∈ [a, b] := hp.mem_iff.mpr (by simp)
          have m3 : a ∈ [c, d] := hp.mem_iff.mp (by simp)
          have m4 : b ∈ [c, d] := hp.mem_iff.mp (by simp)
          simp only [List.mem_cons, List.not_mem_nil, or_false] at m1 m2 m3 m4
          rcases m3 with m3 | m3
          · rcases m4 with m4 | m4
            · exact hab (m3.trans m4.symm)
            · exact h2 ⟨m3, m4⟩
          · rcases m4 with m4 | m4
            · exact h3 ⟨m3, m4⟩
            · exact hab (m3.trans m4.symm)
  · rw [(rdm_det (K := K) (occCfg occ) [a, b] [c, d]).1]
    · have e1 : ¬ (a = c ∧ a ∈ occ) ∨ ¬ (b = d ∧ b ∈ occ) := by tauto
      have e2 : ¬ (a = d ∧ a ∈ occ) ∨ ¬ (b = c ∧ b ∈ occ) := by tauto
      rcases e1 with e1 | e1 <;> rcases e2 with e2 | e2 <;> simp [e1, e2]
    · rintro ⟨_, _, h⟩
      apply hocc
      simpa [occCfg] using h

/-- **C32.**  The Hartree–Fock 2-RDM is the product of its 1-RDMs. -/
theorem C32_hf_two (r : ℕ) (occ : List ℕ) (c a : List ℕ) (hc : c.length = 2) (ha : a.length = 2)
    (hcr : ∀ x ∈ c, x < r) (har : ∀ x ∈ a, x < r) :
    (wedge r 1 1 (buildHF 1 occ) (buildHF 1 occ) (c ++ a) : K) = buildHF 2 occ (c ++ a) := by
  match c, a, hc, ha with
  | [i, j], [k, l], _, _ =>
    simp only [List.mem_cons, List.not_mem_nil, or_false, forall_eq_or_imp, forall_eq] at hcr har
    rw [show [i, j] ++ [k, l] = [i, j, k, l] from rfl, C32_square r _ i j k l hcr.1 hcr.2 har.1 har.2, hf2, hf1, hf1, hf1, hf1]

theorem asum_zero (G : List ℕ → K) (l : List ℕ) (h : ∀ x : List ℕ, x.Perm l → G x = 0) : asum G l = 0 := by
  unfold asum
  apply Finset.sum_eq_zero
  intro σ _
  rw [h _ ?_, mul_zero]
  have : List.ofFn (fun i => l.get (σ i)) = List.ofFn ((fun i => l.get i) ∘ σ) := rfl
  rw [this]
  refine (Equiv.Perm.ofFn_comp_perm σ _).trans ?_
  rw [List.ofFn_get]

theorem spec_hf3 [CharZero K] (r : ℕ) (occ c a : List ℕ) (hc : Sorted 3 r c) (ha : Sorted 3 r a) :
    (wedgeSpec 2 1 (buildHF 2 occ) (buildHF 1 occ) c a : K) = if c = a ∧ ∀ x ∈ c, x ∈ occ then 1 else 0 := by
  by_cases h : c = a ∧ ∀ x ∈ c, x ∈ occ
  · obtain ⟨rfl, h⟩ := h
    rw [if_pos ⟨rfl, h⟩]
    obtain ⟨i, j, k, rfl, h1, h2, h3⟩ := sorted_three.mp hc
    simp only [List.mem_cons, List.not_mem_nil, or_false, forall_eq_or_imp, forall_eq] at h
    unfold wedgeSpec
    rw [← asum_eq _ [i, j, k] (by simp) (by simp)]
    simp only [← asum_eq _ [i, j, k] (by simp) (by simp)]
    have e1 : i ≠ j := by omega
    have e2 : i ≠ k := by omega
    have e3 : j ≠ k := by omega
    simp [up3, hf2, hf1, e1, e2, e3, e1.symm, e2.symm, e3.symm, h, Nat.factorial]
    norm_num
  · rw [if_neg h]
    unfold wedgeSpec
    rw [asum_zero, mul_zero]
    intro x hx
    apply asum_zero
    intro y hy
    have lx : x.length = 3 := by rw [hx.length_eq, hc.1]
    have ly : y.length = 3 := by rw [hy.length_eq, ha.1]
    match x, y, lx, ly with
    | [x1, x2, x3], [y1, y2, y3], _, _ =>
      simp only [List.take, List.drop, List.cons_append, List.nil_append]
      rw [hf2, hf1]
      by_contra hne
      apply h
      have h3 : x3 = y3 ∧ x3 ∈ occ := by
        by_contra h3; rw [if_neg h3, mul_zero] at hne; exact hne rfl
      have h12 : ((x1 = y1 ∧ x1 ∈ occ) ∧ (x2 = y2 ∧ x2 ∈ occ)) ∨ ((x1 = y2 ∧ x1 ∈ occ) ∧ (x2 = y1 ∧ x2 ∈ occ)) := by
        by_contra h12
        apply hne
        have e1 : ¬ (x1 = y1 ∧ x1 ∈ occ) ∨ ¬ (x2 = y2 ∧ x2 ∈ occ) := by tauto
        have e2 : ¬ (x1 = y2 ∧ x1 ∈ occ) ∨ ¬ (x2 = y1 ∧ x2 ∈ occ) := by tauto
        rcases e1 with e1 | e1 <;> rcases e2 with e2 | e2 <;> simp [e1, e2]
      have hxy : [x1, x2, x3].Perm [y1, y2, y3] := by
        rcases h12 with h | h
        · rw [h.1.1, h.2.1, h3.1]
        · rw [h.1.1, h.2.1, h3.1]; exact List.Perm.swap _ _ _
      refine ⟨sorted_perm_eq hc ha (hx.symm.trans (hxy.trans hy)), ?_⟩
      intro z hz
      have := hx.mem_iff.mpr hz
      simp only [List.mem_cons, List.not_mem_nil, or_false] at this
      rcases this with rfl | rfl | rfl
      · rcases h12 with h | h; exact h.1.2; exact h.1.2
      · rcases h12 with h | h; exact h.2.2; exact h.2.2
      · exact h3.2

/-- **C32.**  The Hartree–Fock 3-RDM is the product of its 2- and 1-RDMs. -/
theorem C32_hf_three [CharZero K] (r : ℕ) (occ : List ℕ) (c a : List ℕ) (hc : c.length = 3) (ha : a.length = 3)
    (hcr : ∀ x ∈ c, x < r) (har : ∀ x ∈ a, x < r) :
    (wedge r 2 1 (buildHF 2 occ) (buildHF 1 occ) (c ++ a) : K) = buildHF 3 occ (c ++ a) := by
  have hA := (C30_antisymmetric_partial (K := K) 2 (by omega) (by omega) occ).1
  have hB := (C30_antisymmetric_partial (K := K) 1 (by omega) (by omega) occ).1
  have hE := (C30_antisymmetric_partial (K := K) 3 (by omega) (by omega) occ).1
  have hW := wedgeSpec_antisym 2 1 (by omega) (buildHF 2 occ : List ℕ → K) (buildHF 1 occ)
  rw [C32_wedge_partial r 2 1 (by omega) (by omega) _ _ hA hB ?_ c a hc ha hcr har]
  · have zE : ∀ c a : List ℕ, c.length = 3 → a.length = 3 → ¬ (c.Nodup ∧ a.Nodup) →
        (wedgeSpec 2 1 (buildHF 2 occ) (buildHF 1 occ) c a : K) = buildHF 3 occ (c ++ a) := by
      intro c a hc ha hn
      by_cases hcn : c.Nodup
      · have han : ¬ a.Nodup := fun h => hn ⟨hcn, h⟩
        rw [anti_dup 3 (by omega) (fun l => wedgeSpec 2 1 (buildHF 2 occ : List ℕ → K) (buildHF 1 occ) c l)
          (fun xs x y zs h => hW.2 c xs x y zs h hc) a ha han]
        exact (anti_dup 3 (by omega) (fun l => entry (buildHF 3 occ : List ℕ → K) c l)
          (fun xs x y zs h => hE.2 c xs x y zs h hc) a ha han).symm
      · rw [anti_dup 3 (by omega) (fun l => wedgeSpec 2 1 (buildHF 2 occ : List ℕ → K) (buildHF 1 occ) l a)
          (fun xs x y zs h => hW.1 xs x y zs a h ha) c hc hcn]
        exact (anti_dup 3 (by omega) (fun l => entry (buildHF 3 occ : List ℕ → K) l a)
          (fun xs x y zs h => hE.1 xs x y zs a h ha) c hc hcn).symm
    by_cases hn : c.Nodup ∧ a.Nodup
    swap
    · exact zE c a hc ha hn
    obtain ⟨i, hi, hci⟩ := exists_sorted 3 r c hc hn.1 hcr
    obtain ⟨j, hj, haj⟩ := exists_sorted 3 r a ha hn.2 har
    have hne : ∀ i, Sorted 3 r i → i ≠ [] := by
      rintro i hi rfl
      have := hi.1; simp at this
    obtain ⟨x, hx, rfl⟩ := List.mem_map.mp ((C29_all_permutations i (hne _ hi) c).mpr hci)
    obtain ⟨y, hy, rfl⟩ := List.mem_map.mp ((C29_all_permutations j (hne _ hj) a).mpr haj)
    have h1 := anti_perm 3 (by omega) (fun l => wedgeSpec 2 1 (buildHF 2 occ : List ℕ → K) (buildHF 1 occ) l y.1)
        (fun xs x' y' zs h => hW.1 xs x' y' zs y.1 h ha) i hi.1 x hx
    have h2 := anti_perm 3 (by omega) (fun l => wedgeSpec 2 1 (buildHF 2 occ : List ℕ → K) (buildHF 1 occ) i l)
        (fun xs x' y' zs h => hW.2 i xs x' y' zs h hi.1) j hj.1 y hy
    have h3 := anti_perm 3 (by omega) (fun l => entry (buildHF 3 occ : List ℕ → K) l y.1)
        (fun xs x' y' zs h => hE.1 xs x' y' zs y.1 h ha) i hi.1 x hx
    have h4 := anti_perm 3 (by omega) (fun l => entry (buildHF 3 occ : List ℕ → K) i l)
        (fun xs x' y' zs h => hE.2 i xs x' y' zs h hi.1) j hj.1 y hy
    simp only [entry] at h3 h4
    rw [h1, h2, h3, h4, spec_hf3 r occ i j hi hj,
      C30_hartree_fock_partial (K := K) 3 (by omega) (by omega) occ i j hi.1 hj.1]
    congr 2
    by_cases h : i = j ∧ ∀ x ∈ i, x ∈ occ
    · obtain ⟨rfl, h⟩ := h
      rw [if_pos ⟨rfl, h⟩, (rdm_det (K := K) (occCfg occ) i i).2 (hi.2.1.imp (fun h => by omega)) (by simpa [occCfg] using h)]
    · rw [if_neg h, (rdm_det (K := K) (occCfg occ) i j).1]
      rintro ⟨h1, h2, h3⟩
      exact h ⟨sorted_perm_eq hi hj h1, by simpa [occCfg] using h3⟩
  · intro i j hi hj hne
    rw [spec_hf3 r occ i j hi hj] at hne
    have h : i = j ∧ ∀ x ∈ i, x ∈ occ := by
      by_contra h; rw [if_neg h] at hne; exact hne rfl
    obtain ⟨rfl, h⟩ := h
    rw [mem_creTerms r 2 1 (by omega) (by omega) _ _ hA hB, mem_annTerms r 2 1 (by omega) (by omega) _ _ hA hB]
    have hs := hi
    obtain ⟨a, b, c, rfl, h1, h2, h3⟩ := sorted_three.mp hi
    simp only [List.mem_cons, List.not_mem_nil, or_false, forall_eq_or_imp, forall_eq] at h
    have e1 : a ≠ b := by omega
    have n2 : (buildHF 2 occ [a, b, a, b] : K) ≠ 0 := by rw [hf2]; simp [h, e1]
    have n1 : (buildHF 1 occ [c, c] : K) ≠ 0 := by rw [hf1]; simp [h]
    exact ⟨⟨hs, ⟨[a, b], rfl, by simp; omega, n2⟩, ⟨[c], rfl, by simp; omega, n1⟩⟩,
      ⟨hs, ⟨[a, b], rfl, by simp; omega, n2⟩, ⟨[c], rfl, by simp; omega, n1⟩⟩⟩

end HQCA.Props
