import Verif.Proofs.PTrace
import Verif.Proofs.Act
import Verif.Proofs.Operator

/-! # Partial trace of Pauli strings: proofs -/

set_option linter.unusedSectionVars false

namespace HQCA
namespace PTrace
variable {K : Type} [Coef K]

theorem pmat_eq (p : PL) (a b : Bool) :
    (pmat p a b : K) = ph p a * if xor a p.l = b then 1 else 0 := by
  cases p <;> cases a <;> cases b <;>
    simp [pmat, ph, PL.l, sg, mX, mY, mZ, Matrix.one_apply]

theorem prod_ite_all (n : ℕ) (P : ℕ → Prop) [DecidablePred P] :
    (∏ k ∈ Finset.range n, if P k then (1 : K) else 0) = if ∀ k < n, P k then 1 else 0 := by
  by_cases h : ∀ k < n, P k
  · rw [if_pos h]
    apply Finset.prod_eq_one
    intro k hk
    rw [if_pos (h k (Finset.mem_range.mp hk))]
  · rw [if_neg h]
    push Not at h
    obtain ⟨k, hk, hp⟩ := h
    exact Finset.prod_eq_zero (Finset.mem_range.mpr hk) (if_neg hp)

theorem setBits_qbit (n i k : ℕ) (hi : i < 2 ^ n) (hk : k < n) (b : Cfg) :
    setBits n i b k = qbit n i k := by
  have := Circ.bchar_idx n k (setBits n i b) hk
  rw [idx_setBits n i b hi] at this
  exact this.symm

theorem entry_denP (n : ℕ) (s : PStr) (hs : s.length = n) (i j : ℕ) (hi : i < 2 ^ n) (hj : j < 2 ^ n) :
    entry n (denP 0 s : Oper K) i j =
      ∏ k ∈ Finset.range n, pmat (s.getD k .I) (qbit n i k) (qbit n j k) := by
  unfold entry basisSt
  simp only [pmat_eq, Finset.prod_mul_distrib]
  rw [denP_apply, phase_zero, prod_ite_all, hs]
  congr 1
  · apply Finset.prod_congr rfl
    intro k hk
    rw [setBits_qbit n i k hi (Finset.mem_range.mp hk)]
  · have e : (idx n (fl 0 s (setBits n i fun _ => false)) = j) ↔
        (∀ k < n, xor (qbit n i k) (s.getD k .I).l = qbit n j k) := by
      constructor
      · intro h k hk
        rw [← h]
        rw [show qbit n (idx n (fl 0 s (setBits n i fun _ => false))) k = _ from Circ.bchar_idx n k _ hk]
        simp [fl, setBits_qbit n i k hi hk]
      · intro h
        rw [← idx_bchar n j hj]
        apply idx_congr
        intro k hk
        rw [show Circ.bchar n j k = qbit n j k from rfl, ← h k hk]
        simp [fl, setBits_qbit n i k hi hk]
    exact if_congr e rfl rfl

theorem prod_filter_rank (n : ℕ) (p : ℕ → Bool) (h : ℕ → K) :
    (∏ k ∈ Finset.range n, if p k then h k else 1) =
      ∏ a ∈ Finset.range (rank p n), h (((List.range n).filter p).getD a 0) := by
  induction n with
  | zero => simp [rank]
  | succ n ih =>
    rw [Finset.prod_range_succ, ih, rank_succ]
    have e : ∀ a < rank p n, ((List.range (n+1)).filter p).getD a 0 = ((List.range n).filter p).getD a 0 := by
      intro a ha
      rw [List.range_succ, List.filter_append, List.getD_eq_getElem?_getD, List.getElem?_append_left ha,
        ← List.getD_eq_getElem?_getD]
    by_cases hp : p n = true
    · rw [if_pos hp, if_pos hp, Finset.prod_range_succ, get_rank p n (n+1) (by omega) hp]
      congr 1
      apply Finset.prod_congr rfl
      intro a ha
      rw [e a (Finset.mem_range.mp ha)]
    · rw [if_neg hp, if_neg hp, mul_one]
      apply Finset.prod_congr rfl
      intro a ha
      rw [e a (Finset.mem_range.mp ha)]

theorem sum_bits (N : ℕ) (f : ℕ → Bool → K) :
    ∑ b ∈ Finset.range (2 ^ N), ∏ a ∈ Finset.range N, f a (Circ.bchar N b a) =
      ∏ a ∈ Finset.range N, (f a false + f a true) := by
  induction N with
  | zero => simp
  | succ N ih =>
    rw [pow_succ, mul_comm (2 ^ N) 2, sum_range_double, Finset.prod_range_succ, ← ih, Finset.sum_mul]
    apply Finset.sum_congr rfl
    intro b _
    rw [Finset.prod_range_succ, Finset.prod_range_succ, Circ.bchar_last, Circ.bchar_last]
    have e : ∀ c : ℕ, c / 2 = b → ∏ x ∈ Finset.range N, f x (Circ.bchar (N+1) c x) =
        ∏ x ∈ Finset.range N, f x (Circ.bchar N b x) := by
      intro c hc
      apply Finset.prod_congr rfl
      intro x hx
      rw [Circ.bchar_succ N c x (Finset.mem_range.mp hx), hc]
    rw [e _ (by omega), e _ (by omega), mul_add]
    congr 2
    · simp
    · congr 1; simp

theorem prod_mg (n : ℕ) (qb : List ℕ) (hd : qb.Nodup) (hq : ∀ q ∈ qb, q < n) (g : ℕ → M2 K) (l m : ℕ) :
    ∑ b ∈ Finset.range (2 ^ qb.length), ∏ k ∈ Finset.range n,
      g k (mg (n - qb.length) qb.length qb l b k) (mg (n - qb.length) qb.length qb m b k) =
    (∏ k ∈ Finset.range n, if k ∈ qb then (g k false false + g k true true) else 1) *
    ∏ a ∈ Finset.range (n - qb.length), g ((keptQ n qb).getD a 0) (qbit (n - qb.length) l a)
      (qbit (n - qb.length) m a) := by
  have hr := rank_qb qb n hd hq
  have hr2 := rank_add qb n
  have hr3 : n - qb.length = rank (fun r => decide (r ∉ qb)) n := by omega
  have split1 : ∀ b, ∏ k ∈ Finset.range n,
      g k (mg (n - qb.length) qb.length qb l b k) (mg (n - qb.length) qb.length qb m b k) =
    (∏ a ∈ Finset.range qb.length, g (((List.range n).filter (fun r => decide (r ∈ qb))).getD a 0)
      (Circ.bchar qb.length b a) (Circ.bchar qb.length b a)) *
    ∏ a ∈ Finset.range (n - qb.length), g ((keptQ n qb).getD a 0) (qbit (n - qb.length) l a)
      (qbit (n - qb.length) m a) := by
    intro b
    have e1 : ∀ k ∈ Finset.range n,
        g k (mg (n - qb.length) qb.length qb l b k) (mg (n - qb.length) qb.length qb m b k) =
        (if (fun r => decide (r ∈ qb)) k = true then
          g k (mg (n - qb.length) qb.length qb l b k) (mg (n - qb.length) qb.length qb m b k) else 1) *
        (if (fun r => decide (r ∉ qb)) k = true then
          g k (mg (n - qb.length) qb.length qb l b k) (mg (n - qb.length) qb.length qb m b k) else 1) := by
      intro k _
      by_cases h : k ∈ qb
      · rw [if_pos (by simpa using h), if_neg (by simpa using h), mul_one]
      · rw [if_neg (by simpa using h), if_pos (by simpa using h), one_mul]
    rw [Finset.prod_congr rfl e1, Finset.prod_mul_distrib, prod_filter_rank, prod_filter_rank, hr, ← hr3]
    congr 1
    · apply Finset.prod_congr rfl
      intro a ha
      obtain ⟨h1, h2, h3⟩ := rank_get (fun r => decide (r ∈ qb)) n a (by rw [hr]; exact Finset.mem_range.mp ha)
      have h2 : ((List.range n).filter (fun r => decide (r ∈ qb))).getD a 0 ∈ qb := by simpa using h2
      unfold mg
      rw [if_pos h2, if_pos h2, h3]
    · apply Finset.prod_congr rfl
      intro a ha
      obtain ⟨h1, h2, h3⟩ := rank_get (fun r => decide (r ∉ qb)) n a (by rw [← hr3]; exact Finset.mem_range.mp ha)
      have h2 : ((List.range n).filter (fun r => decide (r ∉ qb))).getD a 0 ∉ qb := by simpa using h2
      unfold mg
      rw [if_neg h2, if_neg h2, h3]
      rfl
  simp only [split1]
  rw [← Finset.sum_mul]
  congr 1
  rw [sum_bits qb.length (fun a b => g (((List.range n).filter (fun r => decide (r ∈ qb))).getD a 0) b b)]
  have := prod_filter_rank n (fun r => decide (r ∈ qb)) (fun k => g k false false + g k true true)
  rw [hr] at this
  rw [← this]
  apply Finset.prod_congr rfl
  intro k _
  by_cases h : k ∈ qb <;> simp [h]

/-! ### The Pauli string -/

theorem zipIdx_range (s : PStr) : s.zipIdx = (List.range s.length).map (fun k => (s.getD k .I, k)) := by
  apply List.ext_getElem
  · simp
  · intro k h1 h2
    simp at h1
    simp [List.getElem?_eq_getElem h1]

theorem partialTrace_fst (qb : List ℕ) (P : Term PStr K) :
    (Pauli.partialTrace qb P).1 = (keptQ P.1.length qb).map (fun k => P.1.getD k .I) := by
  unfold Pauli.partialTrace keptQ
  simp only []
  rw [zipIdx_range, List.filter_map, List.map_map]
  congr 1
  apply List.filter_congr
  intro x _
  simp

theorem foldl_mul_zero (qb : List ℕ) (L : List (PL × ℕ)) (c : K) :
    L.foldl (fun c x => if x.2 ∈ qb ∧ x.1 ≠ PL.I then c * 0 else c) c =
      if ∃ x ∈ L, x.2 ∈ qb ∧ x.1 ≠ PL.I then 0 else c := by
  induction L generalizing c with
  | nil => simp
  | cons x L ih =>
    rw [List.foldl_cons, ih]
    by_cases h : x.2 ∈ qb ∧ x.1 ≠ PL.I
    · rw [if_pos h, mul_zero, if_pos (⟨x, by simp, h⟩ : ∃ y ∈ x :: L, y.2 ∈ qb ∧ y.1 ≠ PL.I), ite_self]
    · rw [if_neg h]
      congr 1
      simp only [List.mem_cons, exists_eq_or_imp, h, false_or]

theorem partialTrace_snd (qb : List ℕ) (P : Term PStr K) (hq : ∀ q ∈ qb, q < P.1.length) :
    (Pauli.partialTrace qb P).2 = if ∃ q ∈ qb, P.1.getD q .I ≠ PL.I then 0 else P.2 := by
  unfold Pauli.partialTrace
  simp only []
  rw [foldl_mul_zero]
  refine if_congr ?_ rfl rfl
  rw [zipIdx_range]
  constructor
  · rintro ⟨x, hx, h1, h2⟩
    rw [List.mem_reverse] at hx
    obtain ⟨k, _, rfl⟩ := List.mem_map.mp hx
    exact ⟨k, h1, h2⟩
  · rintro ⟨q, h1, h2⟩
    refine ⟨(P.1.getD q .I, q), ?_, h1, h2⟩
    rw [List.mem_reverse]
    exact List.mem_map.mpr ⟨q, List.mem_range.mpr (hq q h1), rfl⟩

theorem tr_pmat (p : PL) : (pmat p false false + pmat p true true : K) = if p = .I then 2 else 0 := by
  cases p
  · simp [pmat]; norm_num
  · simp [pmat, mX]
  · simp [pmat, mY]
  · simp [pmat, mZ]

theorem partialTrace_isPTrace (n : ℕ) (qb : List ℕ) (hd : qb.Nodup) (hq : ∀ q ∈ qb, q < n) (P : Term PStr K)
    (hP : P.1.length = n) :
    (Pauli.partialTrace qb P).1.length = n - qb.length ∧
    IsPTrace n qb (entry n (P.2 • denP 0 P.1 : Oper K)) (fun l m => 2 ^ qb.length *
      entry (n - qb.length) ((Pauli.partialTrace qb P).2 • denP 0 (Pauli.partialTrace qb P).1 : Oper K) l m) := by
  have hr := rank_qb qb n hd hq
  have hr2 := rank_add qb n
  have hr3 : (keptQ n qb).length = n - qb.length := by
    have : (keptQ n qb).length = rank (fun r => decide (r ∉ qb)) n := rfl
    omega
  have hlen : (Pauli.partialTrace qb P).1.length = n - qb.length := by
    rw [partialTrace_fst, hP, List.length_map, hr3]
  refine ⟨hlen, ?_⟩
  have h := isPTrace n qb hd hq (entry n (P.2 • denP 0 P.1 : Oper K))
  intro l hl m hm
  rw [← h l hl m hm]
  simp only [entry_smul]
  rw [entry_denP (n - qb.length) _ hlen l m hl hm, ← Finset.mul_sum]
  have e1 : ∀ b, entry n (denP 0 P.1 : Oper K) (idx n (mg (n - qb.length) qb.length qb l b))
      (idx n (mg (n - qb.length) qb.length qb m b)) = ∏ k ∈ Finset.range n, pmat (P.1.getD k .I)
        (mg (n - qb.length) qb.length qb l b k) (mg (n - qb.length) qb.length qb m b k) := by
    intro b
    rw [entry_denP n P.1 hP _ _ (idx_lt _ _) (idx_lt _ _)]
    apply Finset.prod_congr rfl
    intro k hk
    rw [show ∀ f, qbit n (idx n f) k = f k from fun f => Circ.bchar_idx n k f (Finset.mem_range.mp hk),
      show ∀ f, qbit n (idx n f) k = f k from fun f => Circ.bchar_idx n k f (Finset.mem_range.mp hk)]
  simp only [e1]
  rw [prod_mg n qb hd hq (fun k => pmat (P.1.getD k .I)) l m, partialTrace_snd qb P (by rw [hP]; exact hq)]
  have e2 : ∏ a ∈ Finset.range (n - qb.length), (pmat ((Pauli.partialTrace qb P).1.getD a .I)
        (qbit (n - qb.length) l a) (qbit (n - qb.length) m a) : K) =
      ∏ a ∈ Finset.range (n - qb.length), pmat (P.1.getD ((keptQ n qb).getD a 0) .I)
        (qbit (n - qb.length) l a) (qbit (n - qb.length) m a) := by
    apply Finset.prod_congr rfl
    intro a ha
    rw [partialTrace_fst, hP]
    have ha' : a < (keptQ n qb).length := by rw [hr3]; exact Finset.mem_range.mp ha
    congr 1
    simp [List.getD_eq_getElem?_getD, List.getElem?_eq_getElem ha']
  rw [e2]
  have e3 : (∏ k ∈ Finset.range n, if k ∈ qb then
      ((fun k => pmat (P.1.getD k .I)) k false false + (fun k => pmat (P.1.getD k .I)) k true true : K) else 1) =
      if ∃ q ∈ qb, P.1.getD q .I ≠ PL.I then 0 else 2 ^ qb.length := by
    simp only [tr_pmat]
    by_cases hx : ∃ q ∈ qb, P.1.getD q .I ≠ PL.I
    · rw [if_pos hx]
      obtain ⟨q, h1, h2⟩ := hx
      apply Finset.prod_eq_zero (Finset.mem_range.mpr (hq q h1))
      rw [if_pos h1, if_neg h2]
    · rw [if_neg hx]
      push Not at hx
      have : ∀ k ∈ Finset.range n, (if k ∈ qb then (if P.1.getD k .I = PL.I then (2 : K) else 0) else 1) =
          if (fun r => decide (r ∈ qb)) k = true then 2 else 1 := by
        intro k _
        by_cases h : k ∈ qb
        · rw [if_pos h, if_pos (hx k h), if_pos (by simpa using h)]
        · rw [if_neg h, if_neg (by simpa using h)]
      rw [Finset.prod_congr rfl this, prod_filter_rank n _ (fun _ => 2), hr, Finset.prod_const, Finset.card_range]
  rw [e3]
  split <;> ring

end PTrace
end HQCA
