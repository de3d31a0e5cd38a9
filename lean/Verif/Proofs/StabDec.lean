import Verif.Proofs.Stabilizer

/-!
# The decomposition loop of `gaussian_elimination` terminates and is exact
-/

namespace HQCA
namespace Stab

theorem nonzeroRows_eq {l w : ℕ} {E : ℕ → Vec} {piv : List ℕ} (h : Inv l w E piv) :
    nonzeroRows l w E = piv.length := by
  unfold nonzeroRows
  have : (List.range l).filter (fun r => (List.range w).any (fun j => decide (E r j ≠ 0)))
      = (List.range l).filter (fun r => decide (r < piv.length)) := by
    refine List.filter_congr fun r hr => ?_
    have hrl := List.mem_range.mp hr
    rw [Bool.eq_iff_iff]
    simp only [List.any_eq_true, List.mem_range, decide_eq_true_eq]
    constructor
    · rintro ⟨j, hj, hne⟩
      by_contra hlt
      exact hne (h.below r (by omega) hrl j hj)
    · intro hk
      exact ⟨piv[r], h.lt _ (List.getElem_mem hk), by rw [h.one r hk]; decide⟩
  rw [this]
  have hp : ((List.range l).filter (fun r => decide (r < piv.length))).Perm (List.range piv.length) := by
    rw [List.perm_ext_iff_of_nodup (List.Nodup.filter _ List.nodup_range) List.nodup_range]
    intro a
    have := h.len
    simp only [List.mem_filter, List.mem_range, decide_eq_true_eq]
    omega
  rw [hp.length_eq, List.length_range]

/-- What the loop needs to know about the columns `g` of the reduced matrix: `q k` is the position of the
pivot of column `k` and `col` the order in which pivots were chosen. -/
structure Red (N n : ℕ) (g : ℕ → Vec) (q col : ℕ → ℕ) : Prop where
  one : ∀ k < n, g k (q k) = 1
  zero : ∀ k < n, ∀ r < n, r ≠ k → g r (q k) = 0
  left : ∀ r < n, ∀ u < 2 * N, g r u = 1 → col (q r) ≤ col u
  inj : ∀ k < n, ∀ u < 2 * N, col (q k) = col u → u = q k
  supp : ∀ k < n, ∀ u, 2 * N ≤ u → g k u = 0
  low : ∀ u < N, col u = u + N
  high : ∀ u < N, col (N + u) = u
  bound : ∀ k < n, col (q k) < 2 * N

/-- `t` is the combination of the columns given by its pivot entries. -/
def Comb (n : ℕ) (g : ℕ → Vec) (q : ℕ → ℕ) (t : Vec) : Prop :=
  t = ∑ k ∈ Finset.range n, t (q k) • g k

theorem Comb.at {n : ℕ} {g : ℕ → Vec} {q : ℕ → ℕ} {t : Vec} (h : Comb n g q t) (u : ℕ) :
    t u = ∑ k ∈ Finset.range n, t (q k) * g k u := by
  have := congrFun h u
  simpa [Finset.sum_apply] using this

section
variable {N n : ℕ} {g : ℕ → Vec} {q col : ℕ → ℕ}

theorem Comb.add (hr : Red N n g q col) {t : Vec} (h : Comb n g q t) {w : ℕ} (hw : w < n) :
    Comb n g q (t + g w) := by
  unfold Comb at h ⊢
  conv_lhs => rw [h]
  have hg : g w = ∑ k ∈ Finset.range n, g w (q k) • g k := by
    rw [Finset.sum_eq_single w]
    · rw [hr.one w hw, one_smul]
    · intro b hb hbw
      rw [hr.zero b (Finset.mem_range.mp hb) w hw (fun e => hbw e.symm), zero_smul]
    · intro h'; exact absurd (Finset.mem_range.mpr hw) h'
  conv_lhs => rw [hg]
  rw [← Finset.sum_add_distrib]
  exact Finset.sum_congr rfl fun k _ => by rw [← add_smul]; rfl

theorem exists_col {t : Vec} (h : Comb n g q t) {u : ℕ} (hu : t u ≠ 0) :
    ∃ k < n, t (q k) = 1 ∧ g k u = 1 := by
  by_contra hc
  apply hu
  rw [h.at u]
  refine Finset.sum_eq_zero fun k hk => ?_
  have hk' := Finset.mem_range.mp hk
  rcases zcases (t (q k)) with h1 | h1
  · rw [h1, zero_mul]
  · rcases zcases (g k u) with h2 | h2
    · rw [h2, mul_zero]
    · exact absurd ⟨k, hk', h1, h2⟩ hc

theorem decU_comb (hr : Red N n g q col) (st : Vec × List ℕ × Bool) (u : ℕ) (h : Comb n g q st.1) :
    Comb n g q (decU n g st u).1 := by
  unfold decU
  split_ifs
  · exact h
  · split
    · rename_i w hw
      exact h.add hr (List.mem_range.mp (List.mem_of_find?_eq_some hw))
    · exact h

/-- Pivot entries chosen before column `c` vanish. -/
def Zc (n : ℕ) (q col : ℕ → ℕ) (c : ℕ) (t : Vec) : Prop := ∀ k < n, col (q k) < c → t (q k) = 0

theorem decU_Zc (hr : Red N n g q col) (st : Vec × List ℕ × Bool) (u : ℕ) (hu : u < 2 * N)
    (h : Comb n g q st.1) (hz : Zc n q col (col u) st.1) : Zc n q col (col u + 1) (decU n g st u).1 := by
  unfold decU
  split_ifs with h0
  · intro k hk hc
    rcases Nat.lt_succ_iff_lt_or_eq.mp hc with h1 | h1
    · exact hz k hk h1
    · rw [← hr.inj k hk u hu h1]; exact h0
  · obtain ⟨k, hk, htk, hgk⟩ := exists_col h h0
    have hle := hr.left k hk u hu hgk
    have heq : u = q k := by
      rcases Nat.lt_or_eq_of_le hle with h1 | h1
      · have := hz k hk h1; rw [htk] at this; exact absurd this (by decide)
      · exact hr.inj k hk u hu h1
    split
    · rename_i w hw
      have hwn := List.mem_range.mp (List.mem_of_find?_eq_some hw)
      have hw1 : g w u = 1 := by simpa using List.find?_some hw
      have hwk : w = k := by
        by_contra hne
        rw [heq, hr.zero k hk w hwn hne] at hw1
        exact absurd hw1 (by decide)
      subst hwk
      intro j hj hc
      simp only [Pi.add_apply]
      by_cases hjw : j = w
      · subst hjw
        rw [htk, hr.one j hj]; decide
      · rw [hr.zero j hj w hwn (fun e => hjw e.symm), add_zero]
        rcases Nat.lt_succ_iff_lt_or_eq.mp hc with h1 | h1
        · exact hz j hj h1
        · exfalso
          have := hr.inj j hj u hu h1
          rw [heq] at this
          have h2 := hr.zero j hj w hwn (fun e => hjw e.symm)
          rw [← this, hr.one w hwn] at h2
          exact absurd h2 (by decide)
    · rename_i hn
      rw [List.find?_eq_none] at hn
      have := hn k (List.mem_range.mpr hk)
      simp [hgk] at this

theorem fold_comb (hr : Red N n g q col) (L : List ℕ) (st : Vec × List ℕ × Bool)
    (h : Comb n g q st.1) : Comb n g q (L.foldl (decU n g) st).1 := by
  induction L generalizing st with
  | nil => exact h
  | cons u L ih => exact ih _ (decU_comb hr st u h)

theorem fold_zero (L : List ℕ) (st : Vec × List ℕ × Bool) (h : st.1 = 0) :
    L.foldl (decU n g) st = st := by
  induction L with
  | nil => rfl
  | cons u L ih =>
    rw [List.foldl_cons]
    have : decU n g st u = st := by unfold decU; rw [if_pos (by rw [h]; rfl)]
    rw [this, ih]

theorem Comb.eq_zero (hr : Red N n g q col) {t : Vec} (h : Comb n g q t)
    (hz : Zc n q col (2 * N) t) : t = 0 := by
  rw [h]
  refine Finset.sum_eq_zero fun k hk => ?_
  rw [hz k (Finset.mem_range.mp hk) (hr.bound k (Finset.mem_range.mp hk)), zero_smul]

/-- After a pass the pivots of the second half of the positions are cleared. -/
theorem pass_first (hr : Red N n g q col) (st : Vec × List ℕ × Bool) (h : Comb n g q st.1) :
    Zc n q col N ((List.range (2 * N)).foldl (decU n g) st).1 := by
  have key : ∀ i ≤ N, Zc n q col i ((List.range (N + i)).foldl (decU n g) st).1 := by
    intro i
    induction i with
    | zero => intro _ k _ hc; omega
    | succ i ih =>
      intro hi
      rw [← Nat.add_assoc, List.range_succ, List.foldl_append, List.foldl_cons, List.foldl_nil]
      have := decU_Zc hr _ (N + i) (by omega) (fold_comb hr (List.range (N + i)) st h)
      rw [hr.high i (by omega)] at this
      exact this (ih (by omega))
  have := key N le_rfl
  rwa [← two_mul] at this

/-- A pass that starts with those pivots cleared ends at zero. -/
theorem pass_second (hr : Red N n g q col) (st : Vec × List ℕ × Bool) (h : Comb n g q st.1)
    (hz : Zc n q col N st.1) : ((List.range (2 * N)).foldl (decU n g) st).1 = 0 := by
  have key : ∀ i ≤ N, Zc n q col (N + i) ((List.range i).foldl (decU n g) st).1 := by
    intro i
    induction i with
    | zero => intro _; exact hz
    | succ i ih =>
      intro hi
      rw [List.range_succ, List.foldl_append, List.foldl_cons, List.foldl_nil]
      have := decU_Zc hr _ i (by omega) (fold_comb hr (List.range i) st h)
      rw [hr.low i (by omega), Nat.add_comm i N] at this
      exact this (ih (by omega))
  have h1 := (fold_comb hr (List.range N) st h).eq_zero hr (by have := key N le_rfl; rwa [← two_mul] at this)
  rw [two_mul, List.range_add, List.foldl_append, fold_zero _ _ h1, h1]

/-- A pass keeps the sum of what is left and what was collected. -/
theorem fold_sum (L : List ℕ) (st : Vec × List ℕ × Bool) :
    (L.foldl (decU n g) st).1 + ((L.foldl (decU n g) st).2.1.map g).sum = st.1 + (st.2.1.map g).sum := by
  induction L generalizing st with
  | nil => rfl
  | cons u L ih =>
    rw [List.foldl_cons, ih]
    unfold decU
    split_ifs
    · rfl
    · split
      · rename_i w _
        simp only [List.map_append, List.sum_append, List.map_cons, List.map_nil, List.sum_cons,
          List.sum_nil, add_zero]
        have := vec_add_self (g w)
        calc st.1 + g w + ((st.2.1.map g).sum + g w) = st.1 + (st.2.1.map g).sum + (g w + g w) := by abel
          _ = _ := by rw [this, add_zero]
      · rfl

theorem fold_mem (L : List ℕ) (st : Vec × List ℕ × Bool) (h : ∀ w ∈ st.2.1, w < n) :
    ∀ w ∈ (L.foldl (decU n g) st).2.1, w < n := by
  induction L generalizing st with
  | nil => exact h
  | cons u L ih =>
    rw [List.foldl_cons]
    refine ih _ ?_
    unfold decU
    split_ifs
    · exact h
    · split
      · rename_i w hw
        intro x hx
        rcases List.mem_append.mp hx with h1 | h1
        · exact h x h1
        · simp at h1; subst h1
          exact List.mem_range.mp (List.mem_of_find?_eq_some hw)
      · exact h

theorem fold_flag (L : List ℕ) (st : Vec × List ℕ × Bool) (h : st.2.2 = true) :
    (L.foldl (decU n g) st).2.2 = true := by
  induction L generalizing st with
  | nil => exact h
  | cons u L ih =>
    rw [List.foldl_cons]
    refine ih _ ?_
    unfold decU
    split_ifs
    · exact h
    · split
      · rfl
      · exact h

theorem fold_done (L : List ℕ) (st : Vec × List ℕ × Bool) (h : (L.foldl (decU n g) st).2.2 = false) :
    L.foldl (decU n g) st = st ∧
      ∀ u ∈ L, st.1 u ≠ 0 → (List.range n).find? (fun w => decide (g w u = 1)) = none := by
  induction L generalizing st with
  | nil => exact ⟨rfl, by simp⟩
  | cons u L ih =>
    rw [List.foldl_cons] at h ⊢
    have hst : decU n g st u = st ∧ (st.1 u ≠ 0 → (List.range n).find? (fun w => decide (g w u = 1)) = none) := by
      unfold decU
      by_cases h0 : st.1 u = 0
      · exact ⟨if_pos h0, fun h1 => absurd h0 h1⟩
      · rw [if_neg h0]
        cases hf : (List.range n).find? (fun w => decide (g w u = 1)) with
        | none => exact ⟨rfl, fun _ => rfl⟩
        | some w =>
          exfalso
          have : (decU n g st u).2.2 = true := by unfold decU; rw [if_neg h0]; simp only [hf]
          have := fold_flag (n := n) (g := g) L _ this
          rw [this] at h; exact absurd h (by decide)
    rw [hst.1] at h ⊢
    have := ih st h
    refine ⟨this.1, ?_⟩
    intro x hx
    rcases List.mem_cons.mp hx with h1 | h1
    · subst h1; exact hst.2
    · exact this.2 x h1

theorem done_zero (hr : Red N n g q col) (st : Vec × List ℕ × Bool) (h : Comb n g q st.1)
    (hd : ((List.range (2 * N)).foldl (decU n g) st).2.2 = false) : st.1 = 0 := by
  have hh := (fold_done _ st hd).2
  funext u
  by_contra hne
  obtain ⟨k, hk, _, hg⟩ := exists_col h hne
  by_cases hu : u < 2 * N
  · have := hh u (List.mem_range.mpr hu) hne
    rw [List.find?_eq_none] at this
    have := this k (List.mem_range.mpr hk)
    simp [hg] at this
  · rw [hr.supp k hk u (by omega)] at hg
    exact absurd hg (by decide)

/-- Whatever the loop returns is an exact decomposition. -/
theorem decLoop_exact (hr : Red N n g q col) (fuel : ℕ) (t : Vec) (soln out : List ℕ)
    (h : Comb n g q t) (hs : ∀ w ∈ soln, w < n) (ho : decLoop N n g fuel t soln = some out) :
    (∀ w ∈ out, w < n) ∧ (out.map g).sum = t + (soln.map g).sum := by
  induction fuel generalizing t soln with
  | zero => simp [decLoop] at ho
  | succ k ih =>
    unfold decLoop at ho
    simp only at ho
    have hsum := fold_sum (n := n) (g := g) (List.range (2 * N)) (t, soln, false)
    have hmem := fold_mem (n := n) (g := g) (List.range (2 * N)) (t, soln, false) hs
    split_ifs at ho with hf
    · have := ih _ _ (fold_comb hr (List.range (2 * N)) (t, soln, false) h) hmem ho
      refine ⟨this.1, this.2.trans hsum⟩
    · have hf' : ((List.range (2 * N)).foldl (decU n g) (t, soln, false)).2.2 = false := by
        simpa [decPass] using hf
      have hz := done_zero hr (t, soln, false) h hf'
      have he := (fold_done _ _ hf').1
      simp only [decPass, he, Option.some.injEq] at ho
      subst ho
      simp only at hz
      exact ⟨hs, by rw [hz, zero_add]⟩

/-- Three passes are always enough. -/
theorem decLoop_terminates (hr : Red N n g q col) (k : ℕ) (t : Vec) (soln : List ℕ)
    (h : Comb n g q t) : ∃ out, decLoop N n g (k + 3) t soln = some out := by
  set L := List.range (2 * N)
  set s1 := L.foldl (decU n g) (t, soln, false)
  have c1 : Comb n g q s1.1 := fold_comb hr L _ h
  have z1 : Zc n q col N s1.1 := pass_first hr _ h
  have z2 : (L.foldl (decU n g) (s1.1, s1.2.1, false)).1 = 0 := pass_second hr (s1.1, s1.2.1, false) c1 z1
  set s2 := L.foldl (decU n g) (s1.1, s1.2.1, false)
  have z3 : L.foldl (decU n g) (s2.1, s2.2.1, false) = (s2.1, s2.2.1, false) := fold_zero _ _ z2
  by_cases f1 : s1.2.2
  · by_cases f2 : s2.2.2
    · refine ⟨s2.2.1, ?_⟩
      have e1 : decPass N n g t soln = s1 := rfl
      have e2 : decPass N n g s1.1 s1.2.1 = s2 := rfl
      have e3 : decPass N n g s2.1 s2.2.1 = (s2.1, s2.2.1, false) := z3
      simp only [decLoop, e1, f1, e2, f2, e3, if_true, Bool.false_eq_true, if_false]
    · refine ⟨s2.2.1, ?_⟩
      have e1 : decPass N n g t soln = s1 := rfl
      have e2 : decPass N n g s1.1 s1.2.1 = s2 := rfl
      simp only [decLoop, e1, f1, e2, f2, if_true, Bool.false_eq_true, if_false]
  · refine ⟨s1.2.1, ?_⟩
    have e1 : decPass N n g t soln = s1 := rfl
    simp only [decLoop, e1, f1, Bool.false_eq_true, if_false]

end

/-- Exchange of the two halves of the positions. -/
def sw (N u : ℕ) : ℕ := if u < N then u + N else u - N

theorem sw_lt {N u : ℕ} (h : u < 2 * N) : sw N u < 2 * N := by unfold sw; split_ifs <;> omega
theorem sw_sw {N u : ℕ} (h : u < 2 * N) : sw N (sw N u) = u := by unfold sw; split_ifs <;> omega

theorem gm_sw {N : ℕ} (E : ℕ → Vec) (r u : ℕ) (hu : u < 2 * N) : gm N E r u = E r (sw N u) := by
  unfold gm sw
  split_ifs <;> rfl

/-- The reduced matrix provides what the loop needs. -/
theorem Inv.red {l N : ℕ} {E : ℕ → Vec} {piv : List ℕ} (h : Inv l (2 * N) E piv) :
    Red N piv.length (gm N E) (fun k => sw N (piv.getD k 0)) (sw N) := by
  have hp : ∀ k (hk : k < piv.length), piv.getD k 0 = piv[k] := fun k hk => by
    simp [List.getD, hk]
  have hlt : ∀ k (hk : k < piv.length), piv[k] < 2 * N := fun k hk => h.lt _ (List.getElem_mem hk)
  refine ⟨?_, ?_, ?_, ?_, ?_, ?_, ?_, ?_⟩
  · intro k hk
    rw [hp k hk, gm_sw _ _ _ (sw_lt (hlt k hk)), sw_sw (hlt k hk)]
    exact h.one k hk
  · intro k hk r hr hrk
    rw [hp k hk, gm_sw _ _ _ (sw_lt (hlt k hk)), sw_sw (hlt k hk)]
    exact h.zero k hk r (lt_of_lt_of_le hr h.len) hrk
  · intro r hr u hu h1
    rw [gm_sw _ _ _ hu] at h1
    rw [hp r hr, sw_sw (hlt r hr)]
    by_contra hc
    rw [h.left r hr _ (not_le.mp hc)] at h1
    exact absurd h1 (by decide)
  · intro k hk u hu he
    rw [hp k hk, sw_sw (hlt k hk)] at he
    rw [hp k hk, he, sw_sw hu]
  · intro k _ u hu
    unfold gm
    rw [if_neg (by omega), if_neg (by omega)]
  · intro u hu; simp [sw, hu]
  · intro u hu; simp [sw]
  · intro k hk
    rw [hp k hk, sw_sw (hlt k hk)]; exact hlt k hk

end Stab
end HQCA
