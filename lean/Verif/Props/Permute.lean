import Verif.Model.RDM
import Mathlib.GroupTheory.Perm.Sign
import Mathlib.Data.Fintype.Perm
import Mathlib.Data.List.FinRange
import Mathlib.Data.List.Permutation

/-!
# Property C29: signed permutations
-/

namespace HQCA.Props
open Rec

variable {α β : Type}

theorem inner_map (f : α → β) (d : ℕ) (temp ch : List α) (s : ℤ) :
    inner d (temp.map f) (ch.map f) s = (inner d temp ch s).map (fun x => (x.1.map f, x.2)) := by
  induction d generalizing temp ch s with
  | zero => simp [inner]
  | succ d ih =>
    unfold inner
    have : ∀ (l : List (α × ℕ)) (s : ℤ) (acc : List (List α × ℤ)),
        ((l.map (fun x => (f x.1, x.2))).foldl (fun (st : ℤ × List (List β × ℤ)) (x : β × ℕ) =>
          (st.1 * (-1) ^ x.2, st.2 ++ inner d (temp.map f ++ [x.1]) ((ch.map f).eraseIdx x.2) (st.1 * (-1) ^ x.2)))
          (s, acc.map (fun x => (x.1.map f, x.2)))).2 =
        ((l.foldl (fun (st : ℤ × List (List α × ℤ)) (x : α × ℕ) =>
          (st.1 * (-1) ^ x.2, st.2 ++ inner d (temp ++ [x.1]) (ch.eraseIdx x.2) (st.1 * (-1) ^ x.2)))
          (s, acc)).2).map (fun x => (x.1.map f, x.2)) := by
      intro l
      induction l with
      | nil => intro s acc; rfl
      | cons x l ihl =>
        intro s acc
        simp only [List.map_cons, List.foldl_cons]
        rw [← ihl]
        congr 2
        rw [List.map_append, ← ih, List.eraseIdx_map, List.map_append]
        rfl
    have h := this ch.zipIdx s []
    rw [← h, List.zipIdx_map]
    rfl

theorem unorderedPermute_map (f : α → β) (l : List α) :
    unorderedPermute (l.map f) = (unorderedPermute l).map (fun x => (x.1.map f, x.2)) := by
  unfold unorderedPermute
  rw [List.zipIdx_map, List.flatMap_map, List.map_flatMap]
  congr 1
  funext x
  simp only [Prod.map_fst, Prod.map_snd, id, List.length_map]
  rw [List.eraseIdx_map, show [f x.1] = [x.1].map f from rfl, inner_map]

/-- The signed permutations of a list, by positions. -/
def signedPerms (l : List α) : Multiset (List α × ℤ) :=
  (Finset.univ : Finset (Equiv.Perm (Fin l.length))).val.map
    (fun σ => (List.ofFn (fun i => l.get (σ i)), ((Equiv.Perm.sign σ : ℤˣ) : ℤ)))

/-- **C29, up to three elements** (RDM orders 1 to 3): every permutation once, with its sign.  Missing: four and
more elements, where the signs are wrong (`C29_fails_four`), and the empty list (`C29_empty`). -/
theorem C29_signed_permutations_partial (l : List α) (h0 : l ≠ []) (h : l.length ≤ 3) :
    (unorderedPermute l : Multiset (List α × ℤ)) = signedPerms l := by
  have key : ∀ n : ℕ, 0 < n → n ≤ 3 → (unorderedPermute (List.finRange n) : Multiset (List (Fin n) × ℤ)) =
      (Finset.univ : Finset (Equiv.Perm (Fin n))).val.map
        (fun σ : Equiv.Perm (Fin n) => (List.ofFn (fun i => σ i), ((Equiv.Perm.sign σ : ℤˣ) : ℤ))) := by
    intro n h0 h3
    match n, h0, h3 with
    | 1, _, _ => decide +kernel
    | 2, _, _ => decide +kernel
    | 3, _, _ => decide +kernel
  have hl : l = (List.finRange l.length).map l.get := by
    rw [List.map_get_finRange]
  have hk := key l.length (List.length_pos_iff.mpr h0) h
  unfold signedPerms
  conv_lhs => rw [hl, unorderedPermute_map, ← Multiset.map_coe, hk, Multiset.map_map]
  congr 1
  funext σ
  simp [List.map_ofFn, Function.comp_def]

/-- **C29 is violated from four elements on**: for every list of four distinct elements some permutation is given
the wrong sign. -/
theorem C29_fails_four (a b c d : α) :
    ([a, d, b, c], (-1 : ℤ)) ∈ unorderedPermute [a, b, c, d] ∧
      (∃ σ : Equiv.Perm (Fin 4), List.ofFn (fun i => [a, b, c, d].get (σ i)) = [a, d, b, c] ∧ Equiv.Perm.sign σ = 1) := by
  constructor
  · have h : (([0, 3, 1, 2] : List (Fin 4)), (-1 : ℤ)) ∈ unorderedPermute (List.finRange 4) := by decide +kernel
    have := List.mem_map_of_mem (f := fun x : List (Fin 4) × ℤ => (x.1.map [a, b, c, d].get, x.2)) h
    rw [← unorderedPermute_map] at this
    simpa [List.finRange_succ] using this
  · refine ⟨⟨![0, 3, 1, 2], ![0, 2, 3, 1], by decide, by decide⟩, ?_, by decide +kernel⟩
    simp [List.ofFn_succ]

/-- No permutation of the empty list is produced. -/
theorem C29_empty : unorderedPermute ([] : List α) = [] := rfl

/-! ### Completeness without signs, any length -/

theorem foldl_snd_map (d : ℕ) (temp ch : List α) (l : List (α × ℕ)) (s : ℤ) (acc : List (List α × ℤ)) (p : List α) :
    p ∈ (l.foldl (fun (st : ℤ × List (List α × ℤ)) (x : α × ℕ) =>
      (st.1 * (-1) ^ x.2, st.2 ++ inner d (temp ++ [x.1]) (ch.eraseIdx x.2) (st.1 * (-1) ^ x.2))) (s, acc)).2.map (·.1) ↔
    p ∈ acc.map (·.1) ∨ ∃ x ∈ l, ∃ s', p ∈ (inner d (temp ++ [x.1]) (ch.eraseIdx x.2) s').map (·.1) := by
  induction l generalizing s acc with
  | nil => simp
  | cons x l ih =>
    rw [List.foldl_cons, ih]
    have hind : ∀ (d : ℕ) (t c : List α) (s s' : ℤ), (inner d t c s).map (·.1) = (inner d t c s').map (·.1) := by
      intro d
      induction d with
      | zero => intro t c s s'; rfl
      | succ d ihd =>
        intro t c s s'
        unfold inner
        have : ∀ (l : List (α × ℕ)) (s s' : ℤ) (a a' : List (List α × ℤ)), a.map (·.1) = a'.map (·.1) →
            ((l.foldl (fun (st : ℤ × List (List α × ℤ)) (x : α × ℕ) =>
              (st.1 * (-1) ^ x.2, st.2 ++ inner d (t ++ [x.1]) (c.eraseIdx x.2) (st.1 * (-1) ^ x.2))) (s, a)).2).map (·.1) =
            ((l.foldl (fun (st : ℤ × List (List α × ℤ)) (x : α × ℕ) =>
              (st.1 * (-1) ^ x.2, st.2 ++ inner d (t ++ [x.1]) (c.eraseIdx x.2) (st.1 * (-1) ^ x.2))) (s', a')).2).map (·.1) := by
          intro l
          induction l with
          | nil => intro s s' a a' h; exact h
          | cons y l ihl =>
            intro s s' a a' h
            simp only [List.foldl_cons]
            apply ihl
            rw [List.map_append, List.map_append, h, ihd _ _ (s * (-1) ^ y.2) (s' * (-1) ^ y.2)]
        exact this _ _ _ _ _ rfl
    rw [List.map_append, List.mem_append]
    constructor
    · rintro ((h | h) | ⟨y, hy, s', h⟩)
      · exact Or.inl h
      · exact Or.inr ⟨x, by simp, _, h⟩
      · exact Or.inr ⟨y, by simp [hy], s', h⟩
    · rintro (h | ⟨y, hy, s', h⟩)
      · exact Or.inl (Or.inl h)
      · rcases List.mem_cons.mp hy with rfl | hy
        · exact Or.inl (Or.inr (by rw [hind _ _ _ _ s']; exact h))
        · exact Or.inr ⟨y, hy, s', h⟩

theorem perm_cons_eraseIdx (ch : List α) (n : ℕ) (a : α) (h : ch[n]? = some a) : (a :: ch.eraseIdx n).Perm ch := by
  obtain ⟨hn, e⟩ := List.getElem?_eq_some_iff.mp h
  subst e
  exact List.getElem_cons_eraseIdx_perm hn

theorem mem_inner (d : ℕ) (temp ch : List α) (s : ℤ) (hd : ch.length = d) (p : List α) :
    p ∈ (inner d temp ch s).map (·.1) ↔ ∃ q, q.Perm ch ∧ p = temp ++ q := by
  induction d generalizing temp ch s p with
  | zero =>
    have : ch = [] := List.length_eq_zero_iff.mp hd
    subst this
    simp [inner]
  | succ d ih =>
    unfold inner
    rw [foldl_snd_map]
    simp only [List.map_nil, List.not_mem_nil, false_or]
    constructor
    · rintro ⟨x, hx, s', h⟩
      rw [List.mem_zipIdx_iff_getElem?] at hx
      have hp := perm_cons_eraseIdx ch x.2 x.1 hx
      rw [ih _ _ _ (by have := hp.length_eq; simp at this; omega)] at h
      obtain ⟨q, hq, rfl⟩ := h
      exact ⟨x.1 :: q, (List.Perm.cons _ hq).trans hp, by simp⟩
    · rintro ⟨q, hq, rfl⟩
      cases q with
      | nil => have := hq.length_eq; simp at this; omega
      | cons a q =>
        have ha : a ∈ ch := hq.subset (by simp)
        obtain ⟨n, hn, e⟩ := List.getElem_of_mem ha
        have hg : ch[n]? = some a := by rw [List.getElem?_eq_getElem hn, e]
        have hp := perm_cons_eraseIdx ch n a hg
        refine ⟨(a, n), List.mem_zipIdx_iff_getElem?.mpr hg, 1, ?_⟩
        rw [ih _ _ _ (by have := hp.length_eq; simp at this; show (ch.eraseIdx n).length = d; omega)]
        exact ⟨q, (List.Perm.cons_inv (hq.trans hp.symm)), by simp⟩

/-- **C29, completeness for every length**: exactly the permutations of a nonempty list are produced. -/
theorem C29_all_permutations (l : List α) (h : l ≠ []) (p : List α) :
    p ∈ (unorderedPermute l).map (·.1) ↔ p.Perm l := by
  unfold unorderedPermute
  rw [List.map_flatMap, List.mem_flatMap]
  have hl : 0 < l.length := List.length_pos_iff.mpr h
  constructor
  · rintro ⟨x, hx, hp⟩
    rw [List.mem_zipIdx_iff_getElem?] at hx
    have hp' := perm_cons_eraseIdx l x.2 x.1 hx
    rw [mem_inner _ _ _ _ (by have := hp'.length_eq; simp at this; omega)] at hp
    obtain ⟨q, hq, rfl⟩ := hp
    exact (List.Perm.cons _ hq).trans hp'
  · intro hp
    cases p with
    | nil => have := hp.length_eq; simp at this; omega
    | cons a q =>
      have ha : a ∈ l := hp.subset (by simp)
      obtain ⟨n, hn, e⟩ := List.getElem_of_mem ha
      have hg : l[n]? = some a := by rw [List.getElem?_eq_getElem hn, e]
      have hp' := perm_cons_eraseIdx l n a hg
      refine ⟨(a, n), List.mem_zipIdx_iff_getElem?.mpr hg, ?_⟩
      rw [mem_inner _ _ _ _ (by have := hp'.length_eq; simp at this; show (l.eraseIdx n).length = l.length - 1; omega)]
      exact ⟨q, List.Perm.cons_inv (hp.trans hp'.symm), rfl⟩

theorem inner_length (d : ℕ) (temp ch : List α) (s : ℤ) (hd : ch.length = d) :
    (inner d temp ch s).length = d.factorial := by
  induction d generalizing temp ch s with
  | zero => rfl
  | succ d ih =>
    unfold inner
    have : ∀ (l : List (α × ℕ)) (s : ℤ) (acc : List (List α × ℤ)), (∀ x ∈ l, x.2 < ch.length) →
        ((l.foldl (fun (st : ℤ × List (List α × ℤ)) (x : α × ℕ) =>
          (st.1 * (-1) ^ x.2, st.2 ++ inner d (temp ++ [x.1]) (ch.eraseIdx x.2) (st.1 * (-1) ^ x.2))) (s, acc)).2).length =
        acc.length + l.length * d.factorial := by
      intro l
      induction l with
      | nil => intro s acc _; simp
      | cons x l ihl =>
        intro s acc hx
        have h1 := hx x (by simp)
        rw [List.foldl_cons, ihl _ _ (fun y hy => hx y (by simp [hy])), List.length_append,
          ih _ _ _ (by rw [List.length_eraseIdx_of_lt h1]; omega), List.length_cons]
        ring
    rw [this _ _ _ (by
      intro x hx
      have := List.mem_zipIdx hx
      omega)]
    simp [hd, Nat.factorial_succ]

/-- **C29, number**: `n!` entries for a nonempty list, so on distinct elements each permutation occurs once. -/
theorem C29_count (l : List α) (h : l ≠ []) : (unorderedPermute l).length = l.length.factorial := by
  unfold unorderedPermute
  have hl : 0 < l.length := List.length_pos_iff.mpr h
  rw [List.length_flatMap]
  have : ∀ x ∈ l.zipIdx, (inner (l.length - 1) [x.1] (l.eraseIdx x.2) ((-1) ^ x.2)).length = (l.length - 1).factorial := by
    intro x hx
    apply inner_length
    have := List.mem_zipIdx hx
    rw [List.length_eraseIdx_of_lt (by omega)]
  rw [List.map_congr_left this]
  simp [Nat.mul_factorial_pred (by omega : l.length ≠ 0)]

/-- **C29, once each** for distinct elements. -/
theorem C29_nodup [DecidableEq α] (l : List α) (h : l ≠ []) (hn : l.Nodup) : ((unorderedPermute l).map (·.1)).Nodup := by
  have h1 : ((unorderedPermute l).map (·.1)).length = l.permutations.length := by
    rw [List.length_map, C29_count l h, List.length_permutations]
  have h2 : l.permutations.Nodup := List.nodup_permutations l hn
  have h3 : l.permutations ⊆ (unorderedPermute l).map (·.1) := by
    intro p hp
    rw [C29_all_permutations l h]
    exact List.mem_permutations.mp hp
  have h4 := (List.subperm_of_subset h2 h3).perm_of_length_le (by rw [h1])
  exact h4.nodup_iff.mp h2

example : unorderedPermute [5, 7, 9] = [([5, 7, 9], 1), ([5, 9, 7], -1), ([7, 5, 9], -1), ([7, 9, 5], 1),
    ([9, 5, 7], 1), ([9, 7, 5], -1)] := by decide +kernel

/-! ### Ordered choices -/

theorem mem_permute (ch : List ℕ) (d : ℕ) (temp p : List ℕ) :
    p ∈ permute ch d temp ↔ ∃ q, p = temp ++ q ∧ q.length = d ∧ (∀ x ∈ q, x ∈ ch) ∧
      List.Pairwise (· < ·) (temp.getLast?.toList ++ q) := by
  induction d generalizing temp with
  | zero =>
    simp only [permute, List.mem_singleton]
    constructor
    · rintro rfl
      refine ⟨[], by simp, rfl, by simp, ?_⟩
      cases p.getLast? <;> simp
    · rintro ⟨q, rfl, hq, _⟩
      rw [List.length_eq_zero_iff.mp hq, List.append_nil]
  | succ d ih =>
    unfold permute
    rw [List.mem_flatMap]
    constructor
    · rintro ⟨i, hi, h⟩
      cases ht : temp.getLast? with
      | none =>
        simp only [ht] at h
        rw [ih] at h
        obtain ⟨q, rfl, h1, h2, h3⟩ := h
        refine ⟨i :: q, by simp, by simp [h1], ?_, by simpa using h3⟩
        intro x hx
        rcases List.mem_cons.mp hx with rfl | hx
        · exact hi
        · exact h2 x hx
      | some t =>
        simp only [ht] at h
        split at h
        · rename_i hit
          rw [ih] at h
          obtain ⟨q, rfl, h1, h2, h3⟩ := h
          simp only [List.getLast?_append, List.getLast?_singleton, Option.some_or, Option.toList_some,
            List.singleton_append, List.pairwise_cons] at h3
          refine ⟨i :: q, by simp, by simp [h1], ?_, ?_⟩
          · intro x hx
            rcases List.mem_cons.mp hx with rfl | hx
            · exact hi
            · exact h2 x hx
          · simp only [Option.toList_some, List.singleton_append, List.pairwise_cons]
            refine ⟨?_, h3⟩
            intro x hx
            rcases List.mem_cons.mp hx with rfl | hx
            · exact hit
            · exact lt_trans hit (h3.1 x hx)
        · cases h
    · rintro ⟨q, rfl, h1, h2, h3⟩
      cases q with
      | nil => simp at h1
      | cons i q =>
        refine ⟨i, h2 i (by simp), ?_⟩
        have h3' : List.Pairwise (· < ·) ((temp ++ [i]).getLast?.toList ++ q) := by
          rw [List.pairwise_append] at h3
          simpa using h3.2.1
        have hrec := (ih (temp ++ [i])).mpr ⟨q, by simp, by simpa using h1, fun x hx => h2 x (by simp [hx]), h3'⟩
        cases ht : temp.getLast? with
        | none => simpa using hrec
        | some t =>
          simp only
          rw [if_pos]
          · simpa using hrec
          · rw [ht] at h3
            simp only [Option.toList_some, List.singleton_append, List.pairwise_cons] at h3
            exact h3.1 i (by simp)

/-- **C29, ordered choices**: `permute` lists exactly the increasing selections of `d` of the choices. -/
theorem C29_permute (ch : List ℕ) (d : ℕ) (p : List ℕ) :
    p ∈ permute ch d [] ↔ p.length = d ∧ (∀ x ∈ p, x ∈ ch) ∧ p.Pairwise (· < ·) := by
  rw [mem_permute]
  simp

/-- ... each once, when the choices are distinct. -/
theorem C29_permute_nodup (ch : List ℕ) (hc : ch.Nodup) (d : ℕ) (temp : List ℕ) : (permute ch d temp).Nodup := by
  induction d generalizing temp with
  | zero => simp [permute]
  | succ d ih =>
    unfold permute
    rw [List.nodup_flatMap]
    constructor
    · intro i _
      split
      · exact ih _
      · split
        · exact ih _
        · exact List.nodup_nil
    · refine hc.imp ?_
      intro a b hab
      have key : ∀ i p, p ∈ (match temp.getLast? with
          | none => permute ch d (temp ++ [i])
          | some t => if i > t then permute ch d (temp ++ [i]) else []) → ∃ q, p = temp ++ i :: q := by
        intro i p hp
        split at hp
        · rw [mem_permute] at hp
          obtain ⟨q, rfl, _⟩ := hp
          exact ⟨q, by simp⟩
        · split at hp
          · rw [mem_permute] at hp
            obtain ⟨q, rfl, _⟩ := hp
            exact ⟨q, by simp⟩
          · cases hp
      intro p hp hp'
      obtain ⟨q, e⟩ := key a p hp
      obtain ⟨q', e'⟩ := key b p hp'
      rw [e] at e'
      have := List.append_cancel_left e'
      simp at this
      exact hab this.1

example : permute [0, 2, 5, 6] 2 [] = [[0, 2], [0, 5], [0, 6], [2, 5], [2, 6], [5, 6]] := by decide +kernel

end HQCA.Props
