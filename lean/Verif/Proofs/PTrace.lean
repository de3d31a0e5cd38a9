import Verif.Model.PTrace
import Verif.Spec.PTrace
import Verif.Proofs.Circ
import Mathlib.Data.List.Nodup
import Mathlib.Data.List.Range

/-! # Partial trace: proofs -/

set_option linter.unusedSectionVars false

namespace HQCA
namespace PTrace
variable {K : Type} [Coef K]

/-! ### Positions in a filtered range -/

/-- Number of positions before `k` satisfying `p`. -/
def rank (p : ℕ → Bool) (k : ℕ) : ℕ := ((List.range k).filter p).length

theorem rank_succ (p : ℕ → Bool) (k : ℕ) : rank p (k + 1) = rank p k + if p k then 1 else 0 := by
  unfold rank
  rw [List.range_succ, List.filter_append, List.length_append]
  by_cases h : p k <;> simp [h]

theorem rank_mono (p : ℕ → Bool) (a b : ℕ) (h : a ≤ b) : rank p a ≤ rank p b := by
  induction b with
  | zero => have : a = 0 := by omega
            subst this; exact le_refl _
  | succ b ih =>
    rcases Nat.lt_or_ge b a with h1 | h1
    · have : a = b + 1 := by omega
      subst this; exact le_refl _
    · rw [rank_succ]; have := ih h1; omega

theorem rank_lt (p : ℕ → Bool) (k n : ℕ) (h : k < n) (hp : p k = true) : rank p k < rank p n := by
  have := rank_mono p (k + 1) n (by omega)
  rw [rank_succ, hp] at this
  simp only [if_true] at this
  omega

theorem get_rank (p : ℕ → Bool) (k n : ℕ) (h : k < n) (hp : p k = true) :
    ((List.range n).filter p).getD (rank p k) 0 = k := by
  induction n with
  | zero => omega
  | succ n ih =>
    rw [List.range_succ, List.filter_append, List.getD_eq_getElem?_getD]
    rcases Nat.lt_or_ge k n with h1 | h1
    · rw [List.getElem?_append_left (rank_lt p k n h1 hp), ← List.getD_eq_getElem?_getD, ih h1]
    · have : k = n := by omega
      subst this
      unfold rank
      rw [List.getElem?_append_right (le_refl _)]
      simp [hp]

theorem rank_get (p : ℕ → Bool) (n a : ℕ) (h : a < rank p n) :
    let k := ((List.range n).filter p).getD a 0
    k < n ∧ p k = true ∧ rank p k = a := by
  intro k
  have hk : k = ((List.range n).filter p)[a] := by
    simp only [k, List.getD_eq_getElem?_getD]
    rw [List.getElem?_eq_getElem h]; rfl
  have hm : k ∈ (List.range n).filter p := by rw [hk]; exact List.getElem_mem h
  obtain ⟨h1, h2⟩ := List.mem_filter.mp hm
  have h1 := List.mem_range.mp h1
  refine ⟨h1, h2, ?_⟩
  have hnd : ((List.range n).filter p).Nodup := List.Nodup.filter _ List.nodup_range
  have hr := get_rank p k n h1 h2
  rw [List.getD_eq_getElem?_getD, List.getElem?_eq_getElem (rank_lt p k n h1 h2)] at hr
  have e : ((List.range n).filter p)[rank p k]'(rank_lt p k n h1 h2) = ((List.range n).filter p)[a] := by
    rw [← hk]; exact hr
  exact (List.Nodup.getElem_inj_iff hnd).mp e

/-! ### Numbers and bits -/

theorem idx_bchar (n i : ℕ) (h : i < 2 ^ n) : idx n (Circ.bchar n i) = i := by
  have e := idx_setBits n i (fun _ => false) h
  conv_rhs => rw [← e]
  apply idx_congr
  intro k hk
  conv_lhs => rw [← e]
  exact Circ.bchar_idx n k _ hk

theorem fmt_length (n i : ℕ) : (fmt n i).length = max n 1 := by simp [fmt]

theorem fmt_get (n i k : ℕ) (h : k < n) : (fmt n i)[k]? = some (Circ.bchar n i k) := by
  unfold fmt
  rw [List.getElem?_map, List.getElem?_range (by omega)]
  rfl

theorem key_map (n : ℕ) (hn : 0 < n) (f : Cfg) : key n ((List.range n).map f) = some (idx n f) := by
  unfold key
  rw [List.find?_eq_some_iff_getElem]
  have hmax : max n 1 = n := by omega
  refine ⟨?_, idx n f, by simpa using idx_lt n f, by simp, ?_⟩
  · rw [beq_iff_eq]
    unfold fmt
    rw [hmax]
    apply List.map_congr_left
    intro k hk
    exact Circ.bchar_idx n k f (List.mem_range.mp hk)
  · intro j hj
    simp only [List.getElem_range, Bool.not_eq_true', beq_eq_false_iff_ne, ne_eq]
    intro e
    unfold fmt at e
    rw [hmax] at e
    have hlt := idx_lt n f
    have : idx n (Circ.bchar n j) = idx n f := by
      apply idx_congr
      intro k hk
      exact List.map_inj_left.mp e k (List.mem_range.mpr hk)
    rw [idx_bchar n j (by omega)] at this
    omega

/-! ### The loop over positions -/

/-- The merged configuration. -/
def mg (nd Nd : ℕ) (qb : List ℕ) (l b : ℕ) : Cfg := fun k =>
  if k ∈ qb then Circ.bchar Nd b (rank (fun r => decide (r ∈ qb)) k)
  else Circ.bchar nd l (rank (fun r => decide (r ∉ qb)) k)

theorem set_range (n r : ℕ) (h : r < n) (f : Cfg) :
    ((List.range r).map f ++ List.replicate (n - r) false).set r (f r) =
      (List.range (r + 1)).map f ++ List.replicate (n - (r + 1)) false := by
  rw [List.set_append_right _ _ (by simp)]
  have : n - r = (n - (r + 1)) + 1 := by omega
  simp only [List.length_map, List.length_range, Nat.sub_self, List.range_succ, List.map_append, List.map_cons,
    List.map_nil, List.append_assoc, List.singleton_append]
  rw [this, List.replicate_succ, List.set_cons_zero]

theorem loop_from (n : ℕ) (qb : List ℕ) (nd Nd l m b : ℕ)
    (hk : rank (fun r => decide (r ∉ qb)) n ≤ nd) (ht : rank (fun r => decide (r ∈ qb)) n ≤ Nd)
    (r : ℕ) (h : r ≤ n) :
    (List.range r).foldlM (step qb (fmt nd l) (fmt nd m) (fmt Nd b))
      (0, 0, List.replicate n false, List.replicate n false) =
    some (rank (fun r => decide (r ∈ qb)) r, rank (fun r => decide (r ∉ qb)) r,
      (List.range r).map (mg nd Nd qb l b) ++ List.replicate (n - r) false,
      (List.range r).map (mg nd Nd qb m b) ++ List.replicate (n - r) false) := by
  induction r with
  | zero => simp [rank]
  | succ r ih =>
    rw [List.range_succ, List.foldlM_append, ih (by omega)]
    simp only [List.foldlM_cons, List.foldlM_nil, Option.bind_eq_bind, Option.bind_some]
    unfold step
    by_cases hq : r ∈ qb
    · have hp : (fun r => decide (r ∈ qb)) r = true := by simpa using hq
      have h1 := rank_lt (fun r => decide (r ∈ qb)) r n (by omega) hp
      simp only [if_pos hq]
      rw [fmt_get Nd b _ (by omega)]
      have e1 : ∀ l, mg nd Nd qb l b r = Circ.bchar Nd b (rank (fun r => decide (r ∈ qb)) r) := by
        intro l; unfold mg; rw [if_pos hq]
      simp only []
      rw [← e1 l, set_range n r (by omega), e1 l, ← e1 m, set_range n r (by omega)]
      simp [rank_succ, hq, ← List.range_succ]
    · have hp : (fun r => decide (r ∉ qb)) r = true := by simpa using hq
      have h1 := rank_lt (fun r => decide (r ∉ qb)) r n (by omega) hp
      simp only [if_neg hq]
      rw [fmt_get nd l _ (by omega), fmt_get nd m _ (by omega)]
      have e1 : ∀ l, mg nd Nd qb l b r = Circ.bchar nd l (rank (fun r => decide (r ∉ qb)) r) := by
        intro l; unfold mg; rw [if_neg hq]
      simp only []
      rw [← e1 l, set_range n r (by omega), ← e1 m, set_range n r (by omega)]
      simp [rank_succ, hq, ← List.range_succ]

theorem rank_add (qb : List ℕ) (n : ℕ) :
    rank (fun r => decide (r ∈ qb)) n + rank (fun r => decide (r ∉ qb)) n = n := by
  induction n with
  | zero => rfl
  | succ n ih =>
    rw [rank_succ, rank_succ]
    by_cases h : n ∈ qb
    · rw [if_pos (by simpa using h), if_neg (by simpa using h)]; omega
    · rw [if_neg (by simpa using h), if_pos (by simpa using h)]; omega

theorem rank_qb (qb : List ℕ) (n : ℕ) (hd : qb.Nodup) (hq : ∀ q ∈ qb, q < n) :
    rank (fun r => decide (r ∈ qb)) n = qb.length := by
  unfold rank
  apply List.Perm.length_eq
  rw [List.perm_ext_iff_of_nodup (List.Nodup.filter _ List.nodup_range) hd]
  intro a
  simp only [List.mem_filter, List.mem_range, decide_eq_true_eq]
  exact ⟨fun h => h.2, fun h => ⟨hq a h, h⟩⟩

theorem pair_eq (n : ℕ) (hn : 0 < n) (qb : List ℕ) (hd : qb.Nodup) (hq : ∀ q ∈ qb, q < n) (l m b : ℕ) :
    pair n qb (fmt (n - qb.length) l) (fmt (n - qb.length) m) (fmt qb.length b) =
      some (idx n (mg (n - qb.length) qb.length qb l b), idx n (mg (n - qb.length) qb.length qb m b)) := by
  have h1 := rank_qb qb n hd hq
  have h2 := rank_add qb n
  unfold pair
  rw [loop_from n qb (n - qb.length) qb.length l m b (by omega) (by omega) n (le_refl n)]
  simp only [Nat.sub_self, List.replicate_zero, List.append_nil, key_map n hn]

theorem entryAt_eq (n : ℕ) (hn : 0 < n) (qb : List ℕ) (hd : qb.Nodup) (hq : ∀ q ∈ qb, q < n) (M : Mat K) (l m : ℕ) :
    entryAt n qb M l m = some (∑ b ∈ Finset.range (2 ^ qb.length),
      M (idx n (mg (n - qb.length) qb.length qb l b)) (idx n (mg (n - qb.length) qb.length qb m b))) := by
  unfold entryAt
  simp only [pair_eq n hn qb hd hq, Option.map_some]
  have : ∀ N : ℕ, ∀ f : ℕ → K, (List.range N).foldlM (fun acc b => some (acc + f b)) 0 =
      some (∑ b ∈ Finset.range N, f b) := by
    intro N f
    induction N with
    | zero => simp
    | succ N ih =>
      rw [List.range_succ, List.foldlM_append, ih, Finset.sum_range_succ]
      rfl
  exact this _ _

theorem sub_eq (n : ℕ) (p : ℕ → Bool) (f : Cfg) (g : Cfg)
    (h : ∀ k < n, p k = true → f k = g (rank p k)) :
    sub n ((List.range n).filter p) (idx n f) = idx (rank p n) g := by
  unfold sub
  apply idx_congr
  intro a ha
  obtain ⟨h1, h2, h3⟩ := rank_get p n a ha
  show Circ.bchar n (idx n f) _ = _
  rw [Circ.bchar_idx n _ f h1, h _ h1 h2, h3]

theorem bchar_sub (n : ℕ) (p : ℕ → Bool) (i k : ℕ) (h : k < n) (hp : p k = true) :
    Circ.bchar (rank p n) (sub n ((List.range n).filter p) i) (rank p k) = Circ.bchar n i k := by
  unfold sub
  rw [show ((List.range n).filter p).length = rank p n from rfl,
    Circ.bchar_idx _ _ _ (rank_lt p k n h hp), get_rank p k n h hp]
  rfl

theorem isPTrace (n : ℕ) (qb : List ℕ) (hd : qb.Nodup) (hq : ∀ q ∈ qb, q < n) (M : Mat K) :
    IsPTrace n qb M (fun l m => ∑ b ∈ Finset.range (2 ^ qb.length),
      M (idx n (mg (n - qb.length) qb.length qb l b)) (idx n (mg (n - qb.length) qb.length qb m b))) := by
  intro l hl m hm
  have hr := rank_qb qb n hd hq
  have hr2 := rank_add qb n
  have hr3 : n - qb.length = rank (fun r => decide (r ∉ qb)) n := by omega
  rw [← Finset.sum_product', ← Finset.sum_filter]
  symm
  refine Finset.sum_nbij' (i := fun x => sub n ((List.range n).filter (fun r => decide (r ∈ qb))) x.1)
    (j := fun b => (idx n (mg (n - qb.length) qb.length qb l b), idx n (mg (n - qb.length) qb.length qb m b)))
    ?_ ?_ ?_ ?_ ?_
  · intro x _
    rw [Finset.mem_range]
    have := idx_lt (rank (fun r => decide (r ∈ qb)) n) (fun a => qbit n x.1
      (((List.range n).filter (fun r => decide (r ∈ qb))).getD a 0))
    rw [hr] at this
    unfold sub
    rw [show ((List.range n).filter (fun r => decide (r ∈ qb))).length = qb.length from hr]
    exact this
  · intro b hb
    rw [Finset.mem_filter]
    refine ⟨by simp [idx_lt], ?_, ?_, ?_⟩
    · intro q hq'
      show Circ.bchar n _ q = Circ.bchar n _ q
      rw [Circ.bchar_idx n q _ (hq q hq'), Circ.bchar_idx n q _ (hq q hq')]
      unfold mg; rw [if_pos hq', if_pos hq']
    · show sub n (keptQ n qb) (idx n (mg (n - qb.length) qb.length qb l b)) = l
      unfold keptQ
      rw [sub_eq n (fun r => decide (r ∉ qb)) _ (Circ.bchar (n - qb.length) l), ← hr3]
      · exact idx_bchar _ l hl
      · intro k _ hp
        have : k ∉ qb := by simpa using hp
        unfold mg; rw [if_neg this]
    · show sub n (keptQ n qb) (idx n (mg (n - qb.length) qb.length qb m b)) = m
      unfold keptQ
      rw [sub_eq n (fun r => decide (r ∉ qb)) _ (Circ.bchar (n - qb.length) m), ← hr3]
      · exact idx_bchar _ m hm
      · intro k _ hp
        have : k ∉ qb := by simpa using hp
        unfold mg; rw [if_neg this]
  · intro x hx
    obtain ⟨hx1, hx2, hx3, hx4⟩ := Finset.mem_filter.mp hx
    rw [Finset.mem_product, Finset.mem_range, Finset.mem_range] at hx1
    have e : ∀ (i v : ℕ), i < 2 ^ n → sub n (keptQ n qb) i = v → (∀ q ∈ qb, qbit n x.1 q = qbit n i q) →
        idx n (mg (n - qb.length) qb.length qb v
          (sub n ((List.range n).filter (fun r => decide (r ∈ qb))) x.1)) = i := by
      intro i v hi hv hag
      conv_rhs => rw [← idx_bchar n i hi]
      apply idx_congr
      intro k hk
      unfold mg
      by_cases h : k ∈ qb
      · rw [if_pos h, ← hr, bchar_sub n _ x.1 k hk (by simpa using h)]
        exact hag k h
      · rw [if_neg h, ← hv, hr3]
        exact bchar_sub n _ i k hk (by simpa using h)
    exact Prod.ext (e x.1 l hx1.1 hx3 (fun _ _ => rfl)) (e x.2 m hx1.2 hx4 hx2)
  · intro b hb
    show sub n ((List.range n).filter (fun r => decide (r ∈ qb))) (idx n (mg (n - qb.length) qb.length qb l b)) = b
    rw [sub_eq n _ _ (Circ.bchar qb.length b), hr, idx_bchar _ b (Finset.mem_range.mp hb)]
    intro k _ hp
    have : k ∈ qb := by simpa using hp
    unfold mg; rw [if_pos this]
  · intro x hx
    obtain ⟨hx1, hx2, hx3, hx4⟩ := Finset.mem_filter.mp hx
    rw [Finset.mem_product, Finset.mem_range, Finset.mem_range] at hx1
    have e : ∀ (i v : ℕ), i < 2 ^ n → sub n (keptQ n qb) i = v → (∀ q ∈ qb, qbit n x.1 q = qbit n i q) →
        idx n (mg (n - qb.length) qb.length qb v
          (sub n ((List.range n).filter (fun r => decide (r ∈ qb))) x.1)) = i := by
      intro i v hi hv hag
      conv_rhs => rw [← idx_bchar n i hi]
      apply idx_congr
      intro k hk
      unfold mg
      by_cases h : k ∈ qb
      · rw [if_pos h, ← hr, bchar_sub n _ x.1 k hk (by simpa using h)]
        exact hag k h
      · rw [if_neg h, ← hv, hr3]
        exact bchar_sub n _ i k hk (by simpa using h)
    rw [e x.1 l hx1.1 hx3 (fun _ _ => rfl), e x.2 m hx1.2 hx4 hx2]

theorem matrix_spec (n : ℕ) (hn : 0 < n) (qb : List ℕ) (hd : qb.Nodup) (hq : ∀ q ∈ qb, q < n) (M : Mat K) :
    ∃ P, matrix n qb M = some P ∧ IsPTrace n qb M P := by
  have hlen : qb.length ≤ n := by
    have := rank_qb qb n hd hq; have := rank_add qb n; omega
  refine ⟨_, by
    unfold matrix
    rw [if_pos ⟨hlen, by simp [entryAt_eq n hn qb hd hq]⟩], ?_⟩
  have := isPTrace n qb hd hq M
  intro l hl m hm
  simp only [entryAt_eq n hn qb hd hq, Option.getD_some]
  exact this l hl m hm

end PTrace
end HQCA
