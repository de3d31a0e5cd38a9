import Verif.Props.RDMFill
import Verif.Props.RDMUnique
import Mathlib.Data.List.Sort

/-!
# Exact elements give the exact tensor

If the requested elements carry the values of an antisymmetric Hermitian tensor `E` that vanishes outside the
spin-conserving sector, the filled tensor is `E` on all index lists.
-/

namespace HQCA.Props
open Rec Tomo

variable {K : Type} [Coef K]

theorem anti_perm (p : ℕ) (hp : p ≤ 3) (g : List ℕ → K)
    (hg : ∀ xs x y zs, (xs ++ x :: y :: zs).length = p → g (xs ++ y :: x :: zs) = -g (xs ++ x :: y :: zs))
    (l : List ℕ) (hl : l.length = p) (x : List ℕ × ℤ) (hx : x ∈ unorderedPermute l) : g x.1 = (x.2 : K) * g l := by
  match l, hl with
  | [], hl => cases hx
  | [a], hl =>
    simp only [up1, List.mem_singleton] at hx
    subst hx
    simp
  | [a, b], hl =>
    simp only [up2, List.mem_cons, List.not_mem_nil, or_false] at hx
    have := hg [] a b [] (by simpa using hl)
    simp only [List.nil_append] at this
    rcases hx with rfl | rfl
    · simp
    · simp [this]
  | [a, b, c], hl =>
    simp only [up3, List.mem_cons, List.not_mem_nil, or_false] at hx
    have h1 := hg [a] b c [] (by simpa using hl)
    have h2 := hg [] a b [c] (by simpa using hl)
    have h3 := hg [b] a c [] (by simpa using hl)
    have h4 := hg [] a c [b] (by simpa using hl)
    have h5 := hg [c] a b [] (by simpa using hl)
    simp only [List.nil_append, List.cons_append] at h1 h2 h3 h4 h5
    rcases hx with rfl | rfl | rfl | rfl | rfl | rfl
    · simp
    · simp [h1]
    · simp [h2]
    · simp [h3, h2]
    · simp [h4, h1]
    · simp [h5, h4, h1]
  | _ :: _ :: _ :: _ :: _, hl => simp at hl; omega

theorem eq_zero_of_eq_neg (x : K) (h : x = -x) : x = 0 := by
  have h2 : (2 : K) * x = 0 := by linear_combination h
  rcases mul_eq_zero.mp h2 with h2 | h2
  · exact absurd h2 Coef.two_ne_zero'
  · exact h2

theorem anti_dup (p : ℕ) (hp : p ≤ 3) (g : List ℕ → K)
    (hg : ∀ xs x y zs, (xs ++ x :: y :: zs).length = p → g (xs ++ y :: x :: zs) = -g (xs ++ x :: y :: zs))
    (l : List ℕ) (hl : l.length = p) (hn : ¬ l.Nodup) : g l = 0 := by
  match l, hl with
  | [], hl => simp at hn
  | [a], hl => simp at hn
  | [a, b], hl =>
    have : a = b := by simpa using hn
    subst this
    exact eq_zero_of_eq_neg _ (by simpa using hg [] a a [] (by simpa using hl))
  | [a, b, c], hl =>
    have h1 := hg [a] b c [] (by simpa using hl)
    have h2 := hg [] a b [c] (by simpa using hl)
    have h3 := hg [b] a c [] (by simpa using hl)
    simp only [List.nil_append, List.cons_append] at h1 h2 h3
    by_cases hab : a = b
    · subst hab
      exact eq_zero_of_eq_neg _ h2
    · by_cases hbc : b = c
      · subst hbc
        exact eq_zero_of_eq_neg _ h1
      · have hac : a = c := by
          by_contra hac
          apply hn
          simp [hab, hbc, hac]
        subst hac
        have : g [b, a, a] = 0 := eq_zero_of_eq_neg _ h3
        rw [this] at h2
        exact neg_eq_zero.mp h2.symm
  | _ :: _ :: _ :: _ :: _, hl => simp at hl; omega

open Classical in
theorem F_mul (p : ℕ) (hp : p ≤ 3) (hp0 : 0 < p) (g : List ℕ → K)
    (hg : ∀ xs x y zs, (xs ++ x :: y :: zs).length = p → g (xs ++ y :: x :: zs) = -g (xs ++ x :: y :: zs))
    (l l' : List ℕ) (hl : l.length = p) (hn : l.Nodup) : g l * F l l' = if l'.Perm l then g l' else 0 := by
  have hne : l ≠ [] := by rintro rfl; simp at hl; omega
  unfold F
  rw [← List.sum_map_mul_left]
  have e : ∀ x ∈ unorderedPermute l, g l * ((x.2 : K) * if x.1 = l' then 1 else 0) = if x.1 = l' then g l' else 0 := by
    intro x hx
    have := anti_perm p hp g hg l hl x hx
    split
    · rename_i h; rw [← h, this]; ring
    · ring
  rw [List.map_congr_left e]
  have key : ∀ L : List (List ℕ × ℤ), (L.map (fun x => if x.1 = l' then g l' else 0)).sum =
      ((L.map (·.1)).count l' : K) * g l' := by
    intro L
    induction L with
    | nil => simp
    | cons x L ih =>
      rw [List.map_cons, List.sum_cons, ih, List.map_cons, List.count_cons]
      by_cases h : x.1 = l'
      · simp [h]; ring
      · simp [h]
  rw [key, (C29_nodup l hne hn).count]
  by_cases hm : l'.Perm l
  · rw [if_pos hm, if_pos ((C29_all_permutations l hne l').mpr hm)]; simp
  · rw [if_neg hm, if_neg (fun h => hm ((C29_all_permutations l hne l').mp h))]; simp

theorem exists_sorted (p N : ℕ) (c : List ℕ) (hc : c.length = p) (hn : c.Nodup) (hN : ∀ x ∈ c, x < N) :
    ∃ c0, Sorted p N c0 ∧ c.Perm c0 := by
  refine ⟨c.mergeSort (· ≤ ·), ⟨by rw [List.length_mergeSort, hc], ?_, ?_⟩, (List.mergeSort_perm c _).symm⟩
  · have h1 : (c.mergeSort (· ≤ ·)).Pairwise (· ≤ ·) := by
      have := List.pairwise_mergeSort (le := fun a b : ℕ => decide (a ≤ b)) (by intro a b c; simp; omega)
        (by intro a b; simp; omega) c
      simpa using this
    have h2 : (c.mergeSort (· ≤ ·)).Nodup := (List.mergeSort_perm c _).nodup_iff.mpr hn
    exact (h1.and h2).imp (fun h => lt_of_le_of_ne h.1 h.2)
  · intro x hx
    exact hN x ((List.mergeSort_perm c _).mem_iff.mp hx)

theorem sorted_perm_eq {p N : ℕ} {c d : List ℕ} (hc : Sorted p N c) (hd : Sorted p N d) (h : c.Perm d) : c = d :=
  List.Perm.eq_of_pairwise (le := (· < ·)) (by intro a b _ _ h1 h2; omega) hc.2.1 hd.2.1 h

/-- The elements requested, split into creation and annihilation lists. -/
def split (p : ℕ) (ind : List ℕ) : List ℕ × List ℕ := (ind.take p, (ind.drop p).reverse)

theorem build_split (p : ℕ) (L : List (List ℕ)) (v : List ℕ → K) :
    L.map (fun ind => (ind, v ind)) =
      (L.map (fun ind => (split p ind, v ind))).map (fun r => (r.1.1 ++ r.1.2.reverse, r.2)) := by
  rw [List.map_map]
  apply List.map_congr_left
  intro ind _
  simp [split]

theorem count_split (p : ℕ) (L : List (List ℕ)) (c a : List ℕ) (hc : c.length = p) :
    (L.map (split p)).count (c, a) = L.count (c ++ a.reverse) := by
  induction L with
  | nil => rfl
  | cons x L ih =>
    rw [List.map_cons, List.count_cons, List.count_cons, ih]
    congr 1
    have : (split p x == (c, a)) = (x == c ++ a.reverse) := by
      rw [Bool.eq_iff_iff, beq_iff_eq, beq_iff_eq]
      constructor
      · intro h
        simp only [split, Prod.mk.injEq] at h
        rw [← h.1, ← h.2]
        simp
      · rintro rfl
        simp [split, List.take_left' hc, List.drop_left' hc]
    rw [this]

/-- **Exact filling, orders 1 to 3.**  `E` antisymmetric and Hermitian, zero when the alpha numbers differ (and, if
diagonal elements are skipped, on the diagonal); `L` any list of unique elements; then the tensor filled from the values
`E c a` is `E`. -/
theorem fill_exact (p Na N : ℕ) (hp0 : 0 < p) (hp : p ≤ 3) (skip : Bool) (L : List (List ℕ))
    (hL : ListsUnique p Na N skip L) (E : List ℕ → List ℕ → K) (hA : Antisym p E) (hH : Herm p E)
    (hz : ∀ c a, Sorted p N c → Sorted p N a → nAlpha Na c ≠ nAlpha Na a → E c a = 0)
    (hd : skip = true → ∀ c, Sorted p N c → E c c = 0)
    (c' a' : List ℕ) (hc' : c'.length = p) (ha' : a'.length = p) (hcN : ∀ x ∈ c', x < N) (haN : ∀ x ∈ a', x < N) :
    entry (build p (L.map (fun ind => (ind, E (split p ind).1 (split p ind).2)))) c' a' = E c' a' := by
  classical
  have hs : ∀ r ∈ L.map (split p), Sorted p N r.1 ∧ Sorted p N r.2 := by
    intro r hr
    obtain ⟨ind, hind, rfl⟩ := List.mem_map.mp hr
    obtain ⟨c, a, rfl, h1, h2, _⟩ := hL.1 ind hind
    simpa [split, List.take_left' h1.1, List.drop_left' h1.1] using ⟨h1, h2⟩
  rw [build_split p L (fun ind => E (split p ind).1 (split p ind).2), build_eq]
  rotate_left
  · intro r hr
    obtain ⟨ind, hind, rfl⟩ := List.mem_map.mp hr
    have := hs _ (List.mem_map_of_mem (f := split p) hind)
    exact ⟨this.1.1, this.2.1⟩
  · exact hc'
  · exact ha'
  rw [List.map_map]
  have hterm : ∀ r ∈ L.map (split p), E r.1 r.2 * F r.1 c' * F r.2 a' +
      (if sameSet r.2 r.1 then 0 else conj (E r.1 r.2) * F r.2 c' * F r.1 a') =
      (if c'.Perm r.1 ∧ a'.Perm r.2 then E c' a' else 0) +
        (if r.1 = r.2 then 0 else if c'.Perm r.2 ∧ a'.Perm r.1 then E c' a' else 0) := by
    intro r hr
    obtain ⟨h1, h2⟩ := hs r hr
    have n1 : r.1.Nodup := h1.2.1.imp (fun h => by omega)
    have n2 : r.2.Nodup := h2.2.1.imp (fun h => by omega)
    have hsame : sameSet r.2 r.1 = true ↔ r.1 = r.2 := by
      constructor
      · intro h
        simp [sameSet] at h
        exact sorted_perm_eq h1 h2 ((List.perm_ext_iff_of_nodup n1 n2).mpr (fun x => ⟨h.2 x, h.1 x⟩))
      · intro h; simp [sameSet, h]
    have f1 : E r.1 r.2 * F r.1 c' * F r.2 a' = if c'.Perm r.1 ∧ a'.Perm r.2 then E c' a' else 0 := by
      rw [F_mul p hp hp0 (fun l => E l r.2) (fun xs x y zs h => hA.1 xs x y zs r.2 h h2.1) r.1 c' h1.1 n1]
      by_cases h : c'.Perm r.1
      · rw [if_pos h, F_mul p hp hp0 (fun l => E c' l) (fun xs x y zs h => hA.2 c' xs x y zs h hc') r.2 a' h2.1 n2]
        simp [h]
      · simp [h]
    have f2 : conj (E r.1 r.2) * F r.2 c' * F r.1 a' = if c'.Perm r.2 ∧ a'.Perm r.1 then E c' a' else 0 := by
      rw [← hH r.1 r.2 h1.1 h2.1,
        F_mul p hp hp0 (fun l => E l r.1) (fun xs x y zs h => hA.1 xs x y zs r.1 h h1.1) r.2 c' h2.1 n2]
      by_cases h : c'.Perm r.2
      · rw [if_pos h, F_mul p hp hp0 (fun l => E c' l) (fun xs x y zs h => hA.2 c' xs x y zs h hc') r.1 a' h1.1 n1]
        simp [h]
      · simp [h]
    rw [f1, f2]
    simp only [hsame]
  have hfun : ((fun r : (List ℕ × List ℕ) × K => r.2 * F r.1.1 c' * F r.1.2 a' +
      if sameSet r.1.2 r.1.1 then 0 else conj r.2 * F r.1.2 c' * F r.1.1 a') ∘
      (fun ind => (split p ind, E (split p ind).1 (split p ind).2))) =
      (fun r : List ℕ × List ℕ => E r.1 r.2 * F r.1 c' * F r.2 a' +
      (if sameSet r.2 r.1 then 0 else conj (E r.1 r.2) * F r.2 c' * F r.1 a')) ∘ split p := rfl
  rw [hfun, ← List.map_map, List.map_congr_left hterm]
  by_cases hcn : c'.Nodup
  swap
  · rw [anti_dup p hp (fun l => E l a') (fun xs x y zs h => hA.1 xs x y zs a' h ha') c' hc' hcn]
    simp [Function.comp_def]
  by_cases han : a'.Nodup
  swap
  · rw [anti_dup p hp (fun l => E c' l) (fun xs x y zs h => hA.2 c' xs x y zs h hc') a' ha' han]
    simp [Function.comp_def]
  obtain ⟨c0, hc0, hpc⟩ := exists_sorted p N c' hc' hcn hcN
  obtain ⟨a0, ha0, hpa⟩ := exists_sorted p N a' ha' han haN
  have hcond : ∀ r ∈ L.map (split p), ((if c'.Perm r.1 ∧ a'.Perm r.2 then E c' a' else 0) +
        (if r.1 = r.2 then 0 else if c'.Perm r.2 ∧ a'.Perm r.1 then E c' a' else 0)) =
      (if r = (c0, a0) then E c' a' else 0) + (if r = (a0, c0) then (if c0 = a0 then 0 else E c' a') else 0) := by
    intro r hr
    obtain ⟨h1, h2⟩ := hs r hr
    have e1 : c'.Perm r.1 ↔ r.1 = c0 :=
      ⟨fun h => sorted_perm_eq h1 hc0 (h.symm.trans hpc), fun h => h ▸ hpc⟩
    have e2 : a'.Perm r.2 ↔ r.2 = a0 :=
      ⟨fun h => sorted_perm_eq h2 ha0 (h.symm.trans hpa), fun h => h ▸ hpa⟩
    have e3 : c'.Perm r.2 ↔ r.2 = c0 :=
      ⟨fun h => sorted_perm_eq h2 hc0 (h.symm.trans hpc), fun h => h ▸ hpc⟩
    have e4 : a'.Perm r.1 ↔ r.1 = a0 :=
      ⟨fun h => sorted_perm_eq h1 ha0 (h.symm.trans hpa), fun h => h ▸ hpa⟩
    obtain ⟨r1, r2⟩ := r
    simp only [e1, e2, e3, e4, Prod.mk.injEq]
    congr 1
    by_cases h : r1 = a0 ∧ r2 = c0
    · obtain ⟨rfl, rfl⟩ := h
      simp only [and_self, if_true]
      simp only [eq_comm]
    · have h' : ¬(r2 = c0 ∧ r1 = a0) := fun h' => h ⟨h'.2, h'.1⟩
      simp only [if_neg h, if_neg h', ite_self]
  rw [List.map_congr_left hcond, List.sum_map_add]
  have key : ∀ (M : List (List ℕ × List ℕ)) (q : List ℕ × List ℕ) (v : K),
      (M.map (fun x => if x = q then v else 0)).sum = (M.count q : K) * v := by
    intro M q v
    induction M with
    | nil => simp
    | cons x M ih =>
      rw [List.map_cons, List.sum_cons, ih, List.count_cons]
      by_cases h : x = q
      · simp [h]; ring
      · simp [h]
  rw [key, key, count_split p L c0 a0 hc0.1, count_split p L a0 c0 ha0.1]
  have hE : ∃ ε : K, E c' a' = ε * E c0 a0 := by
    have h1 := F_mul p hp hp0 (fun l => E l a') (fun xs x y zs h => hA.1 xs x y zs a' h ha') c0 c' hc0.1
      (hc0.2.1.imp (fun h => by omega))
    have h2 := F_mul p hp hp0 (fun l => E c0 l) (fun xs x y zs h => hA.2 c0 xs x y zs h hc0.1) a0 a' ha0.1
      (ha0.2.1.imp (fun h => by omega))
    rw [if_pos hpc] at h1
    rw [if_pos hpa] at h2
    exact ⟨F c0 c' * F a0 a', by rw [← h1, ← h2]; ring⟩
  obtain ⟨ε, hε⟩ := hE
  by_cases hzero : E c0 a0 = 0
  · rw [hε, hzero]; simp
  · have hal : nAlpha Na c0 = nAlpha Na a0 := by
      by_contra h
      exact hzero (hz c0 a0 hc0 ha0 h)
    have hcount := hL.2 c0 a0 hc0 ha0 hal
    have hns : ¬(c0 = a0 ∧ skip = true) := by
      rintro ⟨rfl, hsk⟩
      exact hzero (hd hsk c0 hc0)
    rw [if_neg hns] at hcount
    by_cases he : c0 = a0
    · rw [if_pos he] at hcount ⊢
      rw [add_zero] at hcount
      rw [hcount]; simp
    · rw [if_neg he] at hcount ⊢
      rw [← add_mul, ← Nat.cast_add, hcount]; simp

end HQCA.Props
