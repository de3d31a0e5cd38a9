import Mathlib.LinearAlgebra.Span.Basic
import Mathlib.LinearAlgebra.LinearIndependent.Basic
import Mathlib.Data.ZMod.Basic
import Mathlib.Tactic.FinCases
import Mathlib.Tactic.LinearCombination
import Mathlib.Algebra.BigOperators.Intervals
import Verif.Model.Stabilizer

/-!
# Gaussian elimination over the two-element field
-/

set_option linter.unusedSectionVars false

namespace HQCA
namespace Stab

theorem zcases (a : ZMod 2) : a = 0 ∨ a = 1 := by
  revert a; decide
theorem z_add_self (a : ZMod 2) : a + a = 0 := CharTwo.add_self_eq_zero a
theorem z_ne_one {a : ZMod 2} : a ≠ 1 ↔ a = 0 := by
  rcases zcases a with h | h <;> simp [h]
theorem z_ne_zero {a : ZMod 2} : a ≠ 0 ↔ a = 1 := by
  rcases zcases a with h | h <;> simp [h]

/-- The row space of the first `l` rows. -/
def rowSpace (l : ℕ) (E : ℕ → Vec) : Submodule (ZMod 2) Vec :=
  Submodule.span (ZMod 2) {v | ∃ r, r < l ∧ E r = v}

theorem rowSpace_row {l : ℕ} {E : ℕ → Vec} {r : ℕ} (h : r < l) : E r ∈ rowSpace l E :=
  Submodule.subset_span ⟨r, h, rfl⟩

theorem rowSpace_le {l : ℕ} {E F : ℕ → Vec} (h : ∀ r < l, E r ∈ rowSpace l F) :
    rowSpace l E ≤ rowSpace l F := by
  refine Submodule.span_le.mpr ?_
  rintro v ⟨r, hr, rfl⟩
  exact h r hr

theorem vec_add_self (v : Vec) : v + v = 0 := by
  funext i; exact z_add_self _

theorem rowSpace_swap (l : ℕ) (E : ℕ → Vec) (a r : ℕ) (ha : a < l) (hr : r < l) :
    rowSpace l (swap E a r) = rowSpace l E := by
  apply le_antisymm
  · refine rowSpace_le fun i hi => ?_
    unfold swap
    split_ifs
    · exact rowSpace_row hr
    · exact rowSpace_row ha
    · exact rowSpace_row hi
  · refine rowSpace_le fun i hi => ?_
    by_cases h1 : i = a
    · subst h1
      have h := rowSpace_row (E := swap E i r) hr
      have h2 : swap E i r r = E i := by
        unfold swap
        by_cases h : r = i
        · subst h; simp
        · simp [h]
      rwa [h2] at h
    · by_cases h3 : i = r
      · subst h3
        have h := rowSpace_row (E := swap E a i) ha
        have h2 : swap E a i a = E i := by simp [swap]
        rwa [h2] at h
      · have h := rowSpace_row (E := swap E a r) hi
        have h2 : swap E a r i = E i := by simp [swap, h1, h3]
        rwa [h2] at h

theorem rowSpace_clear (l : ℕ) (E : ℕ → Vec) (a c : ℕ) (ha : a < l) :
    rowSpace l (clear E a l c) = rowSpace l E := by
  have h0 : clear E a l c a = E a := by simp [clear]
  apply le_antisymm
  · refine rowSpace_le fun i hi => ?_
    unfold clear
    split_ifs
    · exact rowSpace_row hi
    · exact Submodule.add_mem _ (rowSpace_row hi) (rowSpace_row ha)
    · exact rowSpace_row hi
  · refine rowSpace_le fun i hi => ?_
    have hA := rowSpace_row (E := clear E a l c) ha
    rw [h0] at hA
    have hI := rowSpace_row (E := clear E a l c) hi
    by_cases h1 : i = a
    · subst h1; exact hA
    · by_cases h2 : E i c = 1
      · have : clear E a l c i = E i + E a := by simp [clear, h1, hi, h2]
        rw [this] at hI
        have h3 := Submodule.add_mem _ hI hA
        rwa [add_assoc, vec_add_self, add_zero] at h3
      · have : clear E a l c i = E i := by simp [clear, h1, h2]
        rwa [this] at hI

/-- The loop invariant after the columns below `c`. -/
structure Inv (l c : ℕ) (E : ℕ → Vec) (piv : List ℕ) : Prop where
  len : piv.length ≤ l
  lt : ∀ p ∈ piv, p < c
  sorted : piv.Pairwise (· < ·)
  one : ∀ k (h : k < piv.length), E k (piv[k]) = 1
  zero : ∀ k (h : k < piv.length), ∀ r < l, r ≠ k → E r (piv[k]) = 0
  left : ∀ k (h : k < piv.length), ∀ j < piv[k], E k j = 0
  below : ∀ r, piv.length ≤ r → r < l → ∀ j < c, E r j = 0

theorem findRow_some {E : ℕ → Vec} {a l c r : ℕ} (h : findRow E a l c = some r) :
    a ≤ r ∧ r < l ∧ E r c = 1 := by
  unfold findRow at h
  have h1 := List.mem_of_find?_eq_some h
  have h2 := List.find?_some h
  rw [List.mem_range'_1] at h1
  refine ⟨h1.1, ?_, by simpa using h2⟩
  omega

theorem findRow_none {E : ℕ → Vec} {a l c : ℕ} (h : findRow E a l c = none) (r : ℕ) (h1 : a ≤ r)
    (h2 : r < l) : E r c = 0 := by
  unfold findRow at h
  rw [List.find?_eq_none] at h
  have := h r (by rw [List.mem_range'_1]; omega)
  exact z_ne_one.mp (by simpa using this)

/-- Clearing a column below and above a new pivot keeps the invariant. -/
theorem Inv.clear {l c : ℕ} {E : ℕ → Vec} {piv : List ℕ} (h : Inv l c E piv) (ha : piv.length < l)
    (h1 : E piv.length c = 1) : Inv l (c + 1) (Stab.clear E piv.length l c) (piv ++ [c]) := by
  have hb := h.below piv.length le_rfl ha
  have hsame : ∀ r j, j < c → Stab.clear E piv.length l c r j = E r j := by
    intro r j hj
    unfold Stab.clear
    split_ifs
    · rfl
    · simp [hb j hj]
    · rfl
  have hp : ∀ k (hk : k < piv.length), piv[k] < c := fun k hk => h.lt _ (List.getElem_mem hk)
  refine ⟨by simp; omega, ?_, ?_, ?_, ?_, ?_, ?_⟩
  · intro p hp'
    rcases List.mem_append.mp hp' with h2 | h2
    · have := h.lt p h2; omega
    · simp at h2; omega
  · rw [List.pairwise_append]
    refine ⟨h.sorted, by simp, ?_⟩
    intro x hx y hy
    simp at hy; subst hy
    exact h.lt x hx
  · intro k hk
    by_cases hk' : k < piv.length
    · rw [List.getElem_append_left hk', hsame _ _ (hp k hk')]
      exact h.one k hk'
    · have : k = piv.length := by simp at hk; omega
      subst this
      simp [Stab.clear, h1]
  · intro k hk r hr hrk
    by_cases hk' : k < piv.length
    · rw [List.getElem_append_left hk', hsame _ _ (hp k hk')]
      exact h.zero k hk' r hr hrk
    · have : k = piv.length := by simp at hk; omega
      subst this
      simp only [List.getElem_concat_length, Stab.clear, if_neg hrk]
      split_ifs with h2
      · simp [h2.2, h1, z_add_self]
      · exact z_ne_one.mp (fun h3 => h2 ⟨hr, h3⟩)
  · intro k hk j hj
    by_cases hk' : k < piv.length
    · rw [List.getElem_append_left hk'] at hj
      rw [hsame _ _ (lt_trans hj (hp k hk'))]
      exact h.left k hk' j hj
    · have : k = piv.length := by simp at hk; omega
      subst this
      simp only [List.getElem_concat_length] at hj
      rw [hsame _ _ hj]
      exact hb j hj
  · intro r hr hrl j hj
    simp at hr
    rcases Nat.lt_succ_iff_lt_or_eq.mp hj with h2 | h2
    · rw [hsame _ _ h2]
      exact h.below r (by omega) hrl j h2
    · subst h2
      unfold Stab.clear
      rw [if_neg (by omega)]
      split_ifs with h2
      · simp [h2.2, h1, z_add_self]
      · exact z_ne_one.mp (fun h3 => h2 ⟨hrl, h3⟩)

theorem Inv.swap {l c : ℕ} {E : ℕ → Vec} {piv : List ℕ} (h : Inv l c E piv) (r : ℕ)
    (hr : piv.length < r) (hrl : r < l) : Inv l c (Stab.swap E piv.length r) piv := by
  have hsmall : ∀ k < piv.length, Stab.swap E piv.length r k = E k := by
    intro k hk
    unfold Stab.swap
    rw [if_neg (by omega), if_neg (by omega)]
  refine ⟨h.len, h.lt, h.sorted, ?_, ?_, ?_, ?_⟩
  · intro k hk; rw [hsmall k hk]; exact h.one k hk
  · intro k hk i hi hik
    unfold Stab.swap
    split_ifs with h1 h2
    · exact h.zero k hk r hrl (by omega)
    · exact h.zero k hk _ (by omega) (by omega)
    · exact h.zero k hk i hi hik
  · intro k hk; rw [hsmall k hk]; exact h.left k hk
  · intro i hi hil j hj
    unfold Stab.swap
    split_ifs with h1 h2
    · exact h.below r (by omega) hrl j hj
    · exact h.below _ le_rfl (by omega) j hj
    · exact h.below i hi hil j hj

theorem Inv.column {l c : ℕ} {st : (ℕ → Vec) × List ℕ} (h : Inv l c st.1 st.2) :
    Inv l (c + 1) (column l st c).1 (column l st c).2 ∧
      rowSpace l (column l st c).1 = rowSpace l st.1 := by
  unfold Stab.column
  simp only
  split_ifs with h1 h2
  · refine ⟨⟨h.len, fun p hp => by have := h.lt p hp; omega, h.sorted, h.one, h.zero, h.left, ?_⟩, rfl⟩
    intro r hr hrl; omega
  · have ha := lt_of_le_of_ne h.len h1
    exact ⟨h.clear ha h2, rowSpace_clear _ _ _ _ ha⟩
  · have ha := lt_of_le_of_ne h.len h1
    split
    · rename_i r hr
      obtain ⟨h3, h4, h5⟩ := findRow_some hr
      have hs := h.swap r (by omega) h4
      refine ⟨hs.clear ha ?_, ?_⟩
      · simp [Stab.swap, h5]
      · rw [rowSpace_clear _ _ _ _ ha, rowSpace_swap _ _ _ _ ha h4]
    · rename_i hn
      refine ⟨⟨h.len, fun p hp => by have := h.lt p hp; omega, h.sorted, h.one, h.zero, h.left, ?_⟩, rfl⟩
      intro r hr hrl j hj
      rcases Nat.lt_succ_iff_lt_or_eq.mp hj with h3 | h3
      · exact h.below r hr hrl j h3
      · subst h3
        by_cases h4 : r = st.2.length
        · subst h4; exact z_ne_one.mp h2
        · exact findRow_none hn r (by omega) hrl

theorem eliminate_inv (l w : ℕ) (E : ℕ → Vec) :
    Inv l w (eliminate l w E).1 (eliminate l w E).2 ∧
      rowSpace l (eliminate l w E).1 = rowSpace l E := by
  unfold eliminate
  induction w with
  | zero => exact ⟨⟨by simp, by simp, by simp, by simp, by simp, by simp, by simp⟩, rfl⟩
  | succ w ih =>
    rw [List.range_succ, List.foldl_append, List.foldl_cons, List.foldl_nil]
    have := Inv.column ih.1
    exact ⟨this.1, this.2.trans ih.2⟩

/-! ## Support of the rows -/

theorem rowSpace_support {l w : ℕ} {E : ℕ → Vec} (h : ∀ r < l, ∀ j, w ≤ j → E r j = 0) {v : Vec}
    (hv : v ∈ rowSpace l E) : ∀ j, w ≤ j → v j = 0 := by
  intro j hj
  induction hv using Submodule.span_induction with
  | mem x hx => obtain ⟨r, hr, rfl⟩ := hx; exact h r hr j hj
  | zero => rfl
  | add x y _ _ hx hy => simp [hx, hy]
  | smul a x _ hx => simp [hx]

/-- Ordinary scalar product of the first `w` entries. -/
def dot (w : ℕ) (u v : Vec) : ZMod 2 := ∑ j ∈ Finset.range w, u j * v j

theorem dot_add (w : ℕ) (u v x : Vec) : dot w (u + v) x = dot w u x + dot w v x := by
  simp [dot, add_mul, Finset.sum_add_distrib]

theorem dot_rowSpace {w l : ℕ} {E : ℕ → Vec} {v x : Vec} (h : ∀ r < l, dot w (E r) x = 0)
    (hv : v ∈ rowSpace l E) : dot w v x = 0 := by
  induction hv using Submodule.span_induction with
  | mem u hu => obtain ⟨r, hr, rfl⟩ := hu; exact h r hr
  | zero => simp [dot]
  | add a b _ _ ha hb => rw [dot_add, ha, hb, add_zero]
  | smul c a _ ha =>
    have : dot w (c • a) x = c * dot w a x := by
      simp [dot, Finset.mul_sum, mul_assoc]
    rw [this, ha, mul_zero]

/-- The rows of the result that matter: those with a pivot. -/
theorem Inv.rowSpace_eq {l w : ℕ} {E : ℕ → Vec} {piv : List ℕ} (h : Inv l w E piv)
    (hs : ∀ r < l, ∀ j, w ≤ j → E r j = 0) : rowSpace l E = rowSpace piv.length E := by
  apply le_antisymm
  · refine Submodule.span_le.mpr ?_
    rintro v ⟨r, hr, rfl⟩
    by_cases hp : r < piv.length
    · exact rowSpace_row hp
    · have : E r = 0 := by
        funext j
        by_cases hj : j < w
        · exact h.below r (by omega) hr j hj
        · exact hs r hr j (by omega)
      rw [this]; exact Submodule.zero_mem _
  · refine Submodule.span_le.mpr ?_
    rintro v ⟨r, hr, rfl⟩
    exact rowSpace_row (lt_of_lt_of_le hr h.len)

/-- The pivot rows are linearly independent. -/
theorem Inv.independent {l w : ℕ} {E : ℕ → Vec} {piv : List ℕ} (h : Inv l w E piv) :
    LinearIndependent (ZMod 2) (fun k : Fin piv.length => E k) := by
  rw [Fintype.linearIndependent_iff]
  intro g hg k
  have := congrFun hg (piv[k.1])
  simp only [Finset.sum_apply, Pi.smul_apply, smul_eq_mul, Pi.zero_apply] at this
  rw [Finset.sum_eq_single k] at this
  · rwa [h.one k.1 k.2, mul_one] at this
  · intro b _ hb
    rw [h.zero k.1 k.2 b.1 (lt_of_lt_of_le b.2 h.len) (fun he => hb (Fin.ext he)), mul_zero]
  · intro h'; exact absurd (Finset.mem_univ _) h'

/-- A combination of the rows is determined by its entries in the pivot columns. -/
theorem Inv.expand {l w : ℕ} {E : ℕ → Vec} {piv : List ℕ} (h : Inv l w E piv) {v : Vec}
    (hv : v ∈ rowSpace piv.length E) :
    v = ∑ k : Fin piv.length, v (piv[k.1]) • E k := by
  induction hv using Submodule.span_induction with
  | mem x hx =>
    obtain ⟨r, hr, rfl⟩ := hx
    rw [Finset.sum_eq_single (⟨r, hr⟩ : Fin piv.length)]
    · simp [h.one r hr]
    · intro b _ hb
      rw [h.zero b.1 b.2 r (lt_of_lt_of_le hr h.len) (fun he => hb (Fin.ext he.symm)), zero_smul]
    · intro h'; exact absurd (Finset.mem_univ _) h'
  | zero => simp
  | add x y _ _ hx hy =>
    conv_lhs => rw [hx, hy]
    rw [← Finset.sum_add_distrib]
    exact Finset.sum_congr rfl fun k _ => by rw [← add_smul]; rfl
  | smul a x _ hx =>
    conv_lhs => rw [hx]
    rw [Finset.smul_sum]
    exact Finset.sum_congr rfl fun k _ => by rw [smul_smul]; rfl

/-! ## The null vectors -/

theorem foldl_add_sum (L : List ℕ) (f : ℕ → ZMod 2) (a : ZMod 2) :
    L.foldl (fun acc m => acc + f m) a = a + (L.map f).sum := by
  induction L generalizing a with
  | nil => simp
  | cons x L ih => simp [ih, add_assoc]

theorem sum_single (L : List ℕ) (hL : L.Nodup) (f : ℕ) (g : ℕ → ZMod 2) :
    (L.map (fun m => g m * (if m = f then 1 else 0))).sum = if f ∈ L then g f else 0 := by
  induction L with
  | nil => simp
  | cons x L ih =>
    rw [List.nodup_cons] at hL
    rw [List.map_cons, List.sum_cons, ih hL.2]
    by_cases h : x = f
    · subst h; simp [hL.1]
    · have : ¬ f = x := fun e => h e.symm
      simp [h, this]

theorem filter_lt_length (piv : List ℕ) (hs : piv.Pairwise (· < ·)) (k : ℕ) (hk : k < piv.length) :
    (piv.filter (fun c => decide (c < piv[k]))).length = k := by
  induction piv generalizing k with
  | nil => simp at hk
  | cons x L ih =>
    rw [List.pairwise_cons] at hs
    cases k with
    | zero =>
      simp only [List.getElem_cons_zero, List.length_eq_zero_iff, List.filter_eq_nil_iff]
      intro a ha
      rcases List.mem_cons.mp ha with h | h
      · simp [h]
      · have := hs.1 a h; simp; omega
    | succ k =>
      have hk' : k < L.length := by simpa using hk
      have hx := hs.1 _ (List.getElem_mem hk')
      simp only [List.getElem_cons_succ]
      rw [List.filter_cons_of_pos (by simpa using hx), List.length_cons, ih hs.2 k hk']

theorem count_before (piv : List ℕ) (hs : piv.Pairwise (· < ·)) (k : ℕ) (hk : k < piv.length) :
    ((List.range piv[k]).filter (fun c => decide (c ∈ piv))).length = k := by
  refine Eq.trans (List.Perm.length_eq ?_) (filter_lt_length piv hs k hk)
  rw [List.perm_ext_iff_of_nodup]
  · intro a; simp [and_comm]
  · exact List.Nodup.filter _ List.nodup_range
  · exact List.Nodup.filter _ (hs.imp (fun h => Nat.ne_of_lt h))

theorem Inv.nullVec_pivot {l w : ℕ} {E : ℕ → Vec} {piv : List ℕ} (h : Inv l w E piv) {f : ℕ}
    (hf : f < w) (hp : f ∉ piv) (k : ℕ) (hk : k < piv.length) :
    nullVec w E piv f (piv[k]) = E k f := by
  unfold nullVec
  rw [if_pos (List.getElem_mem hk)]
  simp only [count_before piv h.sorted k hk]
  rw [foldl_add_sum, zero_add, sum_single _ (List.Nodup.filter _ List.nodup_range')]
  split_ifs with h1
  · rfl
  · symm
    have hne : f ≠ piv[k] := fun e => hp (e ▸ List.getElem_mem hk)
    have : ¬ (piv[k] < f) := by
      intro h2
      apply h1
      simp only [List.mem_filter, List.mem_range'_1, decide_eq_true_eq]
      exact ⟨by omega, hp⟩
    exact h.left k hk f (by omega)

theorem nullVec_free {w : ℕ} {E : ℕ → Vec} {piv : List ℕ} {f n : ℕ} (hn : n ∉ piv) (hw : n < w) :
    nullVec w E piv f n = if n = f then 1 else 0 := by
  unfold nullVec
  rw [if_neg hn, if_pos hw]

theorem Inv.nullVec_support {l w : ℕ} {E : ℕ → Vec} {piv : List ℕ} (h : Inv l w E piv) (f n : ℕ)
    (hn : w ≤ n) : nullVec w E piv f n = 0 := by
  unfold nullVec
  rw [if_neg (fun hm => by have := h.lt n hm; omega), if_neg (by omega)]

theorem mem_getElem {piv : List ℕ} {p : ℕ} (h : p ∈ piv) : ∃ k, ∃ hk : k < piv.length, piv[k] = p :=
  List.getElem_of_mem h

/-- Null vectors are orthogonal to every row. -/
theorem Inv.dot_nullVec {l w : ℕ} {E : ℕ → Vec} {piv : List ℕ} (h : Inv l w E piv) {f : ℕ}
    (hf : f < w) (hp : f ∉ piv) (r : ℕ) (hr : r < l) : dot w (E r) (nullVec w E piv f) = 0 := by
  unfold dot
  by_cases hk : r < piv.length
  · have hpm := List.getElem_mem hk
    have hne : piv[r] ≠ f := fun e => hp (e ▸ hpm)
    rw [Finset.sum_eq_add (piv[r]) f hne]
    · rw [h.one r hk, h.nullVec_pivot hf hp r hk, nullVec_free hp hf, if_pos rfl, one_mul, mul_one,
        z_add_self]
    · intro c hc hcc
      have hcw := Finset.mem_range.mp hc
      by_cases hcp : c ∈ piv
      · obtain ⟨k', hk', rfl⟩ := mem_getElem hcp
        have : r ≠ k' := fun e => hcc.1 (by subst e; rfl)
        rw [h.zero k' hk' r hr this, zero_mul]
      · rw [nullVec_free hcp hcw, if_neg hcc.2, mul_zero]
    · intro h1; exact absurd (Finset.mem_range.mpr (h.lt _ hpm)) h1
    · intro h1; exact absurd (Finset.mem_range.mpr hf) h1
  · refine Finset.sum_eq_zero fun j hj => ?_
    rw [h.below r (by omega) hr j (Finset.mem_range.mp hj), zero_mul]

/-- Every vector orthogonal to all rows is a sum of null vectors. -/
theorem Inv.kernel {l w : ℕ} {E : ℕ → Vec} {piv : List ℕ} (h : Inv l w E piv) {v : Vec}
    (hv : ∀ j, w ≤ j → v j = 0) (h0 : ∀ r < l, dot w (E r) v = 0) :
    v = ∑ f ∈ (Finset.range w).filter (fun f => f ∉ piv), v f • nullVec w E piv f := by
  funext n
  rw [Finset.sum_apply]
  simp only [Pi.smul_apply, smul_eq_mul]
  by_cases hn : n < w
  · by_cases hp : n ∈ piv
    · obtain ⟨k, hk, rfl⟩ := mem_getElem hp
      have hd := h0 k (lt_of_lt_of_le hk h.len)
      unfold dot at hd
      rw [← Finset.sum_filter_add_sum_filter_not _ (fun f => f ∉ piv)] at hd
      have h2 : ∑ x ∈ (Finset.range w).filter (fun f => ¬ f ∉ piv), E k x * v x = v (piv[k]) := by
        rw [Finset.sum_eq_single (piv[k])]
        · rw [h.one k hk, one_mul]
        · intro b hb hbk
          simp only [Finset.mem_filter, not_not] at hb
          obtain ⟨k', hk', rfl⟩ := mem_getElem hb.2
          rw [h.zero k' hk' k (lt_of_lt_of_le hk h.len) (fun e => hbk (by subst e; rfl)), zero_mul]
        · intro h'; exact absurd (by simp [hn]) h'
      rw [h2] at hd
      have h3 : v (piv[k]) = ∑ x ∈ (Finset.range w).filter (fun f => f ∉ piv), E k x * v x := by
        have := z_add_self (∑ x ∈ (Finset.range w).filter (fun f => f ∉ piv), E k x * v x)
        linear_combination hd - this
      rw [h3]
      refine Finset.sum_congr rfl fun f hf => ?_
      simp only [Finset.mem_filter, Finset.mem_range] at hf
      rw [h.nullVec_pivot hf.1 hf.2 k hk, mul_comm]
    · rw [Finset.sum_eq_single n]
      · rw [nullVec_free hp hn, if_pos rfl, mul_one]
      · intro b _ hb
        rw [nullVec_free hp hn, if_neg (fun e => hb e.symm), mul_zero]
      · intro h'; exact absurd (by simp [hn, hp]) h'
  · rw [hv n (by omega)]
    symm
    refine Finset.sum_eq_zero fun f _ => ?_
    rw [h.nullVec_support f n (by omega), mul_zero]

end Stab
end HQCA
