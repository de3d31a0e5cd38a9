import Verif.Proofs.StabConj
import Verif.Proofs.StabDec

/-!
# The simplification of commuting rows ends and every gate carries the strings over
-/

namespace HQCA
namespace StabCirc
open Stab Prim

/-- Rows `m` are what the strings `m0` become behind the recorded gates. -/
def Track (N : ℕ) (m0 : List Vec) (st : List Vec × List SG) : Prop :=
  Uni (circOp (st.2.flatMap circuit)) ∧ List.Forall₂ (fun v0 v => (circOp (st.2.flatMap circuit) * denP 0 (checkToPauli N v0) : Oper ℂ) =
    denP 0 (checkToPauli N v) * circOp (st.2.flatMap circuit)) m0 st.1

theorem Track.put {N : ℕ} {m0 : List Vec} {st : List Vec × List SG} (h : Track N m0 st) (g : SG) (hu : Uni (circOp (circuit g)))
    (hg : ∀ v ∈ st.1, (circOp (circuit g) * denP 0 (checkToPauli N v) : Oper ℂ) = denP 0 (checkToPauli N (act N g v)) * circOp (circuit g)) :
    Track N m0 (put N st g) := by
  unfold Track StabCirc.put at *
  simp only [List.flatMap_append, List.flatMap_cons, List.flatMap_nil, List.append_nil, circOp_append]
  rw [List.forall₂_map_right_iff]
  refine ⟨hu.mul h.1, ?_⟩
  replace h := h.2
  have h2 : List.Forall₂ (fun v0 v => v ∈ st.1 ∧ (circOp (st.2.flatMap circuit) * denP 0 (checkToPauli N v0) : Oper ℂ) =
      denP 0 (checkToPauli N v) * circOp (st.2.flatMap circuit)) m0 st.1 := by
    rw [List.forall₂_iff_get] at h ⊢
    exact ⟨h.1, fun i a b => ⟨List.get_mem _ _, h.2 i a b⟩⟩
  refine h2.imp fun v0 v hv => ?_
  rw [mul_assoc, hv.2, ← mul_assoc, hg v hv.1, mul_assoc]

theorem Track.start (N : ℕ) (m0 : List Vec) : Track N m0 (m0, []) := by
  unfold Track
  simp [circOp, List.forall₂_same, Uni.one]

/-! ## Removing `Y` -/

/-- `Y` becomes `X` on the qubits below `i`. -/
def clr (N i : ℕ) (v : Vec) : Vec := fun j => if j < i ∧ v j = 1 ∧ v (j + N) = 1 then 0 else v j

/-- A qubit with a `Y` has no `X`. -/
def YFree (N : ℕ) (m : List Vec) : Prop :=
  ∀ i < N, (∃ v ∈ m, v i = 1 ∧ v (i + N) = 1) → ∀ v ∈ m, v i = 0 → v (i + N) = 0

theorem yFold (N : ℕ) (m : List Vec) (h : YFree N m) (i : ℕ) (hi : i ≤ N) :
    ((List.range i).foldl (yStep N) (m, [])).1 = m.map (clr N i) ∧ Track N m ((List.range i).foldl (yStep N) (m, [])) := by
  induction i with
  | zero =>
    refine ⟨?_, Track.start N m⟩
    have : clr N 0 = id := by funext v j; simp [clr]
    simp [this]
  | succ i ih =>
    obtain ⟨h1, h2⟩ := ih (by omega)
    rw [List.range_succ, List.foldl_append, List.foldl_cons, List.foldl_nil]
    set st := (List.range i).foldl (yStep N) (m, []) with hst
    have hz : ∀ v : Vec, clr N i v i = v i := fun v => by simp [clr]
    have hx : ∀ v : Vec, clr N i v (i + N) = v (i + N) := fun v => by
      unfold clr
      rw [if_neg (by omega)]
    unfold yStep
    by_cases hy : ∃ v ∈ m, v i = 1 ∧ v (i + N) = 1
    · have hx0 := h i (by omega) hy
      rw [if_pos (by
        rw [h1, List.any_map, List.any_eq_true]
        obtain ⟨v, hv, e⟩ := hy
        refine ⟨v, hv, ?_⟩
        simp only [Function.comp, hz, hx, decide_eq_true_eq]
        exact e)]
      refine ⟨?_, h2.put _ (uni_si i) ?_⟩
      · simp only [StabCirc.put, h1, List.map_map]
        refine List.map_congr_left fun v hv => ?_
        funext j
        simp only [Function.comp, act, hz, hx]
        by_cases hj : j = i
        · subst hj
          rcases zcases (v j) with e1 | e1 <;> rcases zcases (v (j + N)) with e2 | e2
          · simp [e1, e2, clr]
          · exact absurd (hx0 v hv e1) (by rw [e2]; decide)
          · simp [e1, e2, clr]
          · simp [e1, e2, clr]
        · have : clr N (i + 1) v j = clr N i v j := by
            unfold clr
            have : (j < i + 1) = (j < i) := by apply propext; omega
            simp only [this]
          rw [this]
          split_ifs <;> simp [hj]
      · rw [h1]
        intro v hv
        obtain ⟨u, hu, rfl⟩ := List.mem_map.mp hv
        refine conj_si N i (by omega) _ ?_
        rw [hz, hx]
        exact hx0 u hu
    · rw [if_neg (by
        rw [h1, List.any_map, List.any_eq_true]
        rintro ⟨v, hv, e⟩
        simp only [Function.comp, hz, hx, decide_eq_true_eq] at e
        exact hy ⟨v, hv, e⟩)]
      refine ⟨?_, h2⟩
      rw [h1]
      refine List.map_congr_left fun v hv => ?_
      funext j
      unfold clr
      by_cases hj : j = i
      · subst hj
        rw [if_neg (by omega), if_neg fun e => hy ⟨v, hv, e.2⟩]
      · have : (j < i + 1) = (j < i) := by apply propext; omega
        simp only [this]

/-! ## Controlled-not gates -/

/-- Rows of the second stage: `n` main rows with pivots `p k` (`k < nx`), and one `Z` row for every qubit of `fs`. -/
structure J (N n nx : ℕ) (p : ℕ → ℕ) (T : ℕ → Prop) (fs : List ℕ) (g z : ℕ → Vec) : Prop where
  le : nx ≤ n
  plt : ∀ k < nx, p k < N
  one : ∀ k < nx, g k (p k + N) = 1
  zero : ∀ k < nx, ∀ r < n, r ≠ k → g r (p k + N) = 0
  left : ∀ k < nx, ∀ j < p k, g k (j + N) = 0
  rest : ∀ r < n, nx ≤ r → ∀ j < N, g r (j + N) = 0
  tz : ∀ r < n, ∀ i < N, T i → g r i = 0
  tx : ∀ r < n, ∀ i < N, g r (i + N) = 1 → T i
  flt : ∀ f ∈ fs, f < N
  nodup : fs.Nodup
  fp : ∀ f ∈ fs, ∀ k < nx, f ≠ p k
  zx : ∀ f ∈ fs, ∀ j < N, z f (j + N) = 0
  zp : ∀ f ∈ fs, ∀ k < nx, z f (p k) = g k (f + N)
  zz : ∀ f ∈ fs, ∀ j < N, (∀ k < nx, j ≠ p k) → z f j = if j = f then 1 else 0
  all : ∀ k < nx, ∀ f < N, f ≠ p k → g k (f + N) = 1 → f ∈ fs

/-- The rows. -/
def rowsOf (n : ℕ) (fs : List ℕ) (g z : ℕ → Vec) : List Vec := (List.range n).map g ++ fs.map z

/-- Number of `X` entries of the main rows. -/
def ones (N n : ℕ) (g : ℕ → Vec) : ℕ := ∑ k ∈ Finset.range n, ((Finset.range N).filter fun j => g k (j + N) = 1).card

theorem firstPair_some {N : ℕ} {v : Vec} {i j : ℕ} (h : firstPair N v = some (i, j)) :
    j < i ∧ i < N ∧ v (i + N) = 1 ∧ v (j + N) = 1 ∧ ∀ j' < j, v (j' + N) ≠ 1 := by
  unfold firstPair at h
  obtain ⟨i', hi', h2⟩ := List.exists_of_findSome?_eq_some h
  rw [Option.map_eq_some_iff] at h2
  obtain ⟨j', hj', e⟩ := h2
  cases e
  have h3 := List.find?_some hj'
  have h4 := List.mem_of_find?_eq_some hj'
  simp only [decide_eq_true_eq] at h3
  refine ⟨List.mem_range.mp h4, List.mem_range.mp hi', h3.1, h3.2, ?_⟩
  intro k hk e
  rw [List.find?_range_eq_some] at hj'
  have := hj'.2.2 k hk
  simp [h3.1, e] at this

theorem firstPair_none {N : ℕ} {v : Vec} (h : firstPair N v = none) {i j : ℕ} (hi : i < N) (hj : j < N) (hij : i ≠ j) (h1 : v (i + N) = 1) :
    v (j + N) = 0 := by
  unfold firstPair at h
  rw [List.findSome?_eq_none_iff] at h
  by_contra hc
  have h2 := z_ne_zero.mp hc
  rcases Nat.lt_or_ge i j with hl | hl
  · have := h j (List.mem_range.mpr hj)
    rw [Option.map_eq_none_iff, List.find?_eq_none] at this
    exact this i (List.mem_range.mpr hl) (by simp [h1, h2])
  · have := h i (List.mem_range.mpr hi)
    rw [Option.map_eq_none_iff, List.find?_eq_none] at this
    exact this j (List.mem_range.mpr (by omega)) (by simp [h1, h2])

theorem rank_append (a b : List Vec) (i : ℕ) : rank (a ++ b) i = rank a i + rank b i := by
  simp [rank]

theorem rank_zero {m : List Vec} {i : ℕ} (h : ∀ v ∈ m, v i = 0) : rank m i = 0 := by
  unfold rank
  rw [List.length_eq_zero_iff, List.filter_eq_nil_iff]
  intro v hv
  simp [h v hv]

theorem rank_pos {m : List Vec} {i : ℕ} {v : Vec} (h : v ∈ m) (h1 : v i = 1) : 1 ≤ rank m i := by
  unfold rank
  exact List.length_pos_of_mem (List.mem_filter.mpr ⟨h, by simp [h1]⟩)

theorem rank_le_one {α : Type} (L : List α) (hL : L.Nodup) (f : α → Vec) (a : α) (i : ℕ) (h : ∀ b ∈ L, b ≠ a → f b i = 0) :
    rank (L.map f) i ≤ 1 := by
  unfold rank
  rw [List.filter_map, List.length_map]
  have hn : (L.filter ((fun v : Vec => decide (v i = 1)) ∘ f)).Nodup := hL.filter _
  have hs : (L.filter ((fun v : Vec => decide (v i = 1)) ∘ f)) ⊆ [a] := by
    intro b hb
    rw [List.mem_filter] at hb
    by_contra hc
    have := h b hb.1 (by simpa using hc)
    simp [this] at hb
  simpa using (List.subperm_of_subset hn hs).length_le

/-- One gate: the control is the pivot of the row, and exactly one entry disappears. -/
theorem J.step {N n nx : ℕ} {p : ℕ → ℕ} {T : ℕ → Prop} {fs : List ℕ} {g z : ℕ → Vec} (h : J N n nx p T fs g z) {a : SG}
    (ha : sub N (rowsOf n fs g z) = some a) :
    Uni (circOp (circuit a)) ∧ (∀ v ∈ rowsOf n fs g z, (circOp (circuit a) * denP 0 (checkToPauli N v) : Oper ℂ) = denP 0 (checkToPauli N (act N a v)) * circOp (circuit a)) ∧
      ∃ g' z', J N n nx p T fs g' z' ∧ (rowsOf n fs g z).map (act N a) = rowsOf n fs g' z' ∧ ones N n g' + 1 = ones N n g := by
  unfold sub at ha
  rw [Option.map_eq_some_iff] at ha
  obtain ⟨⟨f, j⟩, h1, h2⟩ := ha
  obtain ⟨v, hv, h3⟩ := List.exists_of_findSome?_eq_some h1
  obtain ⟨hjf, hfN, hvf, hvj, hmin⟩ := firstPair_some h3
  have hjN : j < N := by omega
  -- the row is a main row
  obtain ⟨r, hr, rfl⟩ : ∃ r, r < n ∧ g r = v := by
    rcases List.mem_append.mp hv with h4 | h4
    · obtain ⟨r, hr, e⟩ := List.mem_map.mp h4
      exact ⟨r, List.mem_range.mp hr, e⟩
    · obtain ⟨f', hf', e⟩ := List.mem_map.mp h4
      subst e
      rw [h.zx f' hf' f hfN] at hvf
      exact absurd hvf (by decide)
  have hrx : r < nx := by
    by_contra hc
    rw [h.rest r hr (by omega) f hfN] at hvf
    exact absurd hvf (by decide)
  have hpj : p r ≤ j := by
    by_contra hc
    rw [h.left r hrx j (by omega)] at hvj
    exact absurd hvj (by decide)
  have hj : j = p r := by
    by_contra hc
    exact hmin (p r) (by omega) (h.one r hrx)
  subst hj
  have hfp : ∀ k < nx, f ≠ p k := by
    intro k hk e
    by_cases hkr : k = r
    · subst hkr; omega
    · rw [e, h.zero k hk r hr (Ne.symm hkr)] at hvf
      exact absurd hvf (by decide)
  have hf : f ∈ fs := h.all r hrx f hfN (hfp r hrx) hvf
  have hTf := h.tx r hr f hfN hvf
  have hTp := h.tx r hr _ hjN hvj
  have hpinj : ∀ k < nx, k ≠ r → p k ≠ p r := by
    intro k hk hkr e
    have := h.zero k hk r hr (Ne.symm hkr)
    rw [e, h.one r hrx] at this
    exact absurd this (by decide)
  -- the ranks
  have r1 : rank (rowsOf n fs g z) f ≤ 1 := by
    unfold rowsOf
    rw [rank_append, rank_zero (m := (List.range n).map g) (by
      intro v hv
      obtain ⟨k, hk, rfl⟩ := List.mem_map.mp hv
      exact h.tz k (List.mem_range.mp hk) f hfN hTf), zero_add]
    refine rank_le_one fs h.nodup z f f fun b hb hbf => ?_
    rw [h.zz b hb f hfN hfp, if_neg (Ne.symm hbf)]
  have r2 : 1 ≤ rank (rowsOf n fs g z) (p r) :=
    rank_pos (v := z f) (List.mem_append_right _ (List.mem_map_of_mem hf)) (by rw [h.zp f hf r hrx, hvf])
  have r3 : rank (rowsOf n fs g z) (p r + N) ≤ 1 := by
    unfold rowsOf
    rw [rank_append, rank_zero (m := fs.map z) (by
      intro v hv
      obtain ⟨k, hk, rfl⟩ := List.mem_map.mp hv
      exact h.zx k hk _ hjN), add_zero]
    exact rank_le_one _ List.nodup_range g r _ fun b hb hbr => h.zero r hrx b (List.mem_range.mp hb) hbr
  have r4 : 1 ≤ rank (rowsOf n fs g z) (f + N) := rank_pos hv hvf
  rw [if_neg (by simp only; omega)] at h2
  subst h2
  have hne : p r ≠ f := by omega
  refine ⟨uni_cx _ _ hne, ?_, ?_⟩
  · intro v hv
    refine conj_cx N (p r) f hjN hfN hne v ?_
    rcases List.mem_append.mp hv with h4 | h4
    · obtain ⟨k, hk, rfl⟩ := List.mem_map.mp h4
      exact Or.inl ⟨h.tz k (List.mem_range.mp hk) _ hjN hTp, h.tz k (List.mem_range.mp hk) _ hfN hTf⟩
    · obtain ⟨k, hk, rfl⟩ := List.mem_map.mp h4
      exact Or.inr ⟨h.zx k hk _ hjN, h.zx k hk _ hfN⟩
  · set g' : ℕ → Vec := Function.update g r (Function.update (g r) (f + N) 0) with hg'
    set z' : ℕ → Vec := Function.update z f (Function.update (z f) (p r) 0) with hz'
    have gne : ∀ k ≠ r, g' k = g k := fun k hk => Function.update_of_ne hk _ _
    have gr : g' r = Function.update (g r) (f + N) 0 := Function.update_self _ _ _
    have zne : ∀ k ≠ f, z' k = z k := fun k hk => Function.update_of_ne hk _ _
    have zf : z' f = Function.update (z f) (p r) 0 := Function.update_self _ _ _
    have gle : ∀ k i, g' k i = 0 ∨ g' k i = g k i := by
      intro k i
      by_cases hk : k = r
      · subst hk
        rw [gr]
        by_cases hi : i = f + N
        · subst hi; simp
        · right; simp [hi]
      · right; rw [gne k hk]
    have g0 : ∀ k i, g k i = 0 → g' k i = 0 := fun k i e => (gle k i).elim id fun e' => e'.trans e
    have g1 : ∀ k i, g' k i = 1 → g k i = 1 := by
      intro k i e
      rcases gle k i with e' | e'
      · rw [e'] at e; exact absurd e (by decide)
      · rw [← e']; exact e
    have z0 : ∀ k i, z k i = 0 → z' k i = 0 := by
      intro k i e
      by_cases hk : k = f
      · subst hk
        rw [zf]
        by_cases hi : i = p r
        · subst hi; simp
        · simp [hi, e]
      · rw [zne k hk, e]
    refine ⟨g', z', ⟨h.le, h.plt, ?_, ?_, ?_, ?_, ?_, ?_, h.flt, h.nodup, h.fp, ?_, ?_, ?_, ?_⟩, ?_, ?_⟩
    · intro k hk
      by_cases hkr : k = r
      · subst hkr
        rw [gr, Function.update_of_ne (by omega), h.one k hk]
      · rw [gne k hkr, h.one k hk]
    · exact fun k hk r' hr' hne => g0 _ _ (h.zero k hk r' hr' hne)
    · exact fun k hk j hj => g0 _ _ (h.left k hk j hj)
    · exact fun k hk hx j hj => g0 _ _ (h.rest k hk hx j hj)
    · exact fun k hk i hi ht => g0 _ _ (h.tz k hk i hi ht)
    · exact fun k hk i hi e => h.tx k hk i hi (g1 _ _ e)
    · exact fun f' hf' j hj => z0 _ _ (h.zx f' hf' j hj)
    · intro f' hf' k hk
      by_cases hff : f' = f
      · subst hff
        rw [zf]
        by_cases hkr : k = r
        · subst hkr
          rw [gr]; simp
        · rw [Function.update_of_ne (hpinj k hk hkr), gne k hkr, h.zp f' hf' k hk]
      · rw [zne f' hff, h.zp f' hf' k hk]
        by_cases hkr : k = r
        · subst hkr
          rw [gr, Function.update_of_ne (by omega)]
        · rw [gne k hkr]
    · intro f' hf' j hj hjp
      by_cases hff : f' = f
      · subst hff
        rw [zf, Function.update_of_ne (hjp r hrx), h.zz f' hf' j hj hjp]
      · rw [zne f' hff, h.zz f' hf' j hj hjp]
    · exact fun k hk f' hf' hne e => h.all k hk f' hf' hne (g1 _ _ e)
    · unfold rowsOf
      rw [List.map_append, List.map_map, List.map_map]
      congr 1
      · refine List.map_congr_left fun k hk => ?_
        have hkn := List.mem_range.mp hk
        simp only [Function.comp, act]
        rw [h.tz k hkn f hfN hTf, add_zero, Function.update_eq_self]
        by_cases hkr : k = r
        · subst hkr
          rw [gr, hvf, hvj]
          congr 1
        · rw [gne k hkr, h.zero r hrx k hkn hkr, add_zero, Function.update_eq_self]
      · refine List.map_congr_left fun f' hf' => ?_
        simp only [Function.comp, act]
        rw [h.zx f' hf' _ hjN, add_zero, h.zz f' hf' f hfN hfp]
        rw [Function.update_comm (by omega), Function.update_eq_self]
        by_cases hff : f' = f
        · subst hff
          rw [zf, if_pos rfl, h.zp f' hf' r hrx, hvf]
          congr 1
        · rw [zne f' hff, if_neg (Ne.symm hff), add_zero, Function.update_eq_self]
    · unfold ones
      rw [← Finset.add_sum_erase _ _ (Finset.mem_range.mpr hr), ← Finset.add_sum_erase (Finset.range n) _ (Finset.mem_range.mpr hr)]
      have e1 : ∑ k ∈ (Finset.range n).erase r, ((Finset.range N).filter fun j => g' k (j + N) = 1).card =
          ∑ k ∈ (Finset.range n).erase r, ((Finset.range N).filter fun j => g k (j + N) = 1).card :=
        Finset.sum_congr rfl fun k hk => by rw [gne k (Finset.ne_of_mem_erase hk)]
      have e2 : ((Finset.range N).filter fun j => g' r (j + N) = 1) = ((Finset.range N).filter fun j => g r (j + N) = 1).erase f := by
        ext j
        rw [Finset.mem_erase, Finset.mem_filter, Finset.mem_filter, gr]
        by_cases hj : j = f
        · subst hj; simp
        · simp [hj]
      have e3 : f ∈ (Finset.range N).filter fun j => g r (j + N) = 1 := by
        simp [hfN, hvf]
      have e4 := Finset.card_pos.mpr ⟨f, e3⟩
      rw [e1, e2, Finset.card_erase_of_mem e3]
      omega

/-- The loop ends within the number of `X` entries. -/
theorem J.loop {N n nx : ℕ} {p : ℕ → ℕ} {T : ℕ → Prop} {fs : List ℕ} (m0 : List Vec) (fuel : ℕ) (g z : ℕ → Vec) (h : J N n nx p T fs g z)
    (gs : List SG) (hf : ones N n g < fuel) (ht : Track N m0 (rowsOf n fs g z, gs)) :
    ∃ g' z' gs', J N n nx p T fs g' z' ∧ loop N fuel (rowsOf n fs g z, gs) = some (rowsOf n fs g' z', gs') ∧ gs <+: gs' ∧
      sub N (rowsOf n fs g' z') = none ∧ Track N m0 (rowsOf n fs g' z', gs') := by
  induction fuel generalizing g z gs with
  | zero => omega
  | succ k ih =>
    unfold StabCirc.loop
    cases hs : sub N (rowsOf n fs g z) with
    | none => exact ⟨g, z, gs, h, by simp only [hs], List.prefix_rfl, hs, ht⟩
    | some a =>
      obtain ⟨h0, h1, g', z', h2, h3, h4⟩ := h.step hs
      have ht' := ht.put a h0 h1
      simp only [StabCirc.put, h3] at ht'
      obtain ⟨g2, z2, gs2, a1, a2, a3, a4⟩ := ih g' z' h2 (gs ++ [a]) (by omega) ht'
      refine ⟨g2, z2, gs2, a1, ?_, (List.prefix_append _ _).trans a3, a4⟩
      simp only [hs, StabCirc.put, h3]
      exact a2

/-! ## Hadamard gates -/

/-- Turns `X` into `Z` on every qubit. -/
theorem hFold (N : ℕ) (m0 : List Vec) (st : List Vec × List SG) (h1 : ∀ j < N, (∃ v ∈ st.1, v (j + N) = 1) → ∀ v ∈ st.1, v j = 0)
    (ht : Track N m0 st) (i : ℕ) (hi : i ≤ N) :
    let st' := (List.range i).foldl (hStep N) st
    Track N m0 st' ∧ (∀ v ∈ st'.1, ∀ j < i, v (j + N) = 0) ∧ (∀ j < N, (∃ v ∈ st'.1, v (j + N) = 1) → ∀ v ∈ st'.1, v j = 0) ∧
      (∀ j < N, i ≤ j → (∃ v ∈ st.1, v (j + N) = 1) → ∃ v ∈ st'.1, v (j + N) = 1) ∧
      (∀ j < i, (∃ v ∈ st.1, v (j + N) = 1) → SG.h j ∈ st'.2) ∧ st.2 <+: st'.2 := by
  induction i with
  | zero => exact ⟨ht, by simp, h1, fun j _ _ h => h, by simp, List.prefix_rfl⟩
  | succ i ih =>
    obtain ⟨a1, a2, a3, a4, a5, a6⟩ := ih (by omega)
    rw [List.range_succ, List.foldl_append, List.foldl_cons, List.foldl_nil]
    generalize (List.range i).foldl (hStep N) st = s at *
    simp only
    unfold hStep
    by_cases hx : ∃ v ∈ s.1, v (i + N) = 1
    · have hz := a3 i (by omega) hx
      rw [if_pos (by
        rw [List.any_eq_true]
        obtain ⟨v, hv, e⟩ := hx
        exact ⟨v, hv, by simp [e, hz v hv]⟩)]
      have hact : ∀ v ∈ s.1, (act N (.h i) v) (i + N) = 0 ∧ ∀ j < N, j ≠ i → act N (.h i) v j = v j ∧ act N (.h i) v (j + N) = v (j + N) := by
        intro v hv
        simp only [act, hz v hv]
        rcases zcases (v (i + N)) with e | e
        · simp [e]
        · refine ⟨by simp [e], fun j hj hji => ?_⟩
          simp only [e, and_self, if_true]
          rw [Function.update_of_ne (by omega), Function.update_of_ne hji, Function.update_of_ne (by omega), Function.update_of_ne (by omega)]
          exact ⟨rfl, rfl⟩
      refine ⟨a1.put _ (uni_h i) fun v hv => conj_h N i (by omega) v (Or.inl (hz v hv)), ?_, ?_, ?_, ?_, ?_⟩
      · intro v hv j hj
        obtain ⟨u, hu, rfl⟩ := List.mem_map.mp hv
        by_cases hji : j = i
        · subst hji; exact (hact u hu).1
        · rw [((hact u hu).2 j (by omega) hji).2]
          exact a2 u hu j (by omega)
      · rintro j hj ⟨v, hv, e⟩ w hw
        obtain ⟨u, hu, rfl⟩ := List.mem_map.mp hv
        obtain ⟨u', hu', rfl⟩ := List.mem_map.mp hw
        by_cases hji : j = i
        · subst hji
          rw [(hact u hu).1] at e
          exact absurd e (by decide)
        · rw [((hact u hu).2 j hj hji).2] at e
          rw [((hact u' hu').2 j hj hji).1]
          exact a3 j hj ⟨u, hu, e⟩ u' hu'
      · intro j hj hij hv
        obtain ⟨u, hu, e⟩ := a4 j hj (by omega) hv
        exact ⟨_, List.mem_map_of_mem hu, by rw [((hact u hu).2 j hj (by omega)).2, e]⟩
      · intro j hj hv
        by_cases hji : j = i
        · subst hji; simp [StabCirc.put]
        · have := a5 j (by omega) hv
          simp [StabCirc.put, this]
      · exact a6.trans (List.prefix_append _ _)
    · have hx0 : ∀ v ∈ s.1, v (i + N) = 0 := fun v hv => z_ne_one.mp fun e => hx ⟨v, hv, e⟩
      rw [if_neg (by
        rw [List.any_eq_true]
        rintro ⟨v, hv, e⟩
        simp [hx0 v hv] at e)]
      refine ⟨a1, ?_, a3, fun j hj hij hv => a4 j hj (by omega) hv, ?_, a6⟩
      · intro v hv j hj
        by_cases hji : j = i
        · subst hji; exact hx0 v hv
        · exact a2 v hv j (by omega)
      · intro j hj hv
        by_cases hji : j = i
        · subst hji
          exact absurd (a4 j (by omega) le_rfl hv) hx
        · exact a5 j (by omega) hv

end StabCirc
end HQCA
