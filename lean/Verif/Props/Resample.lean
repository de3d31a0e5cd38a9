import Verif.Model.Resample
import Mathlib.Data.List.Nodup
import Mathlib.Data.List.Perm.Subperm

/-!
# C118: error estimate by resampling
-/

namespace HQCA
namespace Props

open Resample

variable {P K : Type} [DecidableEq K]

/-- The number of times an outcome is recorded. -/
def recorded (c : List (K × ℕ)) (k : K) : ℕ := (c.map fun kv => if kv.1 = k then kv.2 else 0).sum

/-- Number of shots recorded in a table. -/
def shots (c : List (K × ℕ)) : ℕ := (c.map (·.2)).sum

/-- Drawing without replacement: refused if there are too few outcomes, otherwise a part of them of the wanted size. -/
def Draws (pick : ℕ → P → List K → ℕ → Option (List K)) : Prop :=
  ∀ t p l n, (l.length < n → pick t p l n = none) ∧ (n ≤ l.length → ∃ r, pick t p l n = some r ∧ r.length = n ∧ List.Subperm r l)

/-- Two tables record the same numbers of outcomes for the same bases. -/
def SameCounts (a b : Tab P K) : Prop := List.Forall₂ (fun x y => x.1 = y.1 ∧ ∀ k, recorded x.2 k = recorded y.2 k) a b

theorem recorded_expand (c : List (K × ℕ)) (k : K) : (expand c).count k = recorded c k := by
  unfold expand recorded
  induction c with
  | nil => rfl
  | cons a c ih =>
    rw [List.flatMap_cons, List.count_append, ih, List.map_cons, List.sum_cons, List.count_replicate]
    simp [beq_iff_eq]

theorem shots_expand (c : List (K × ℕ)) : (expand c).length = shots c := by
  unfold expand shots
  induction c with
  | nil => rfl
  | cons a c ih => rw [List.flatMap_cons, List.length_append, ih, List.map_cons, List.sum_cons, List.length_replicate]

theorem recorded_incr (c : List (K × ℕ)) (j k : K) : recorded (incr c j) k = recorded c k + if j = k then 1 else 0 := by
  unfold recorded
  induction c with
  | nil => simp [incr]
  | cons a c ih =>
    obtain ⟨b, v⟩ := a
    rw [incr]
    split_ifs with h1 h2 h2
    · subst h1; subst h2; simp; omega
    · subst h1; simp [h2]
    · rw [List.map_cons, List.sum_cons, ih, if_pos h2, List.map_cons, List.sum_cons]; omega
    · rw [List.map_cons, List.sum_cons, ih, if_neg h2, List.map_cons, List.sum_cons]; omega

theorem shots_incr (c : List (K × ℕ)) (j : K) : shots (incr c j) = shots c + 1 := by
  unfold shots
  induction c with
  | nil => simp [incr]
  | cons a c ih =>
    obtain ⟨b, v⟩ := a
    rw [incr]
    split_ifs with h1
    · simp; omega
    · rw [List.map_cons, List.sum_cons, ih, List.map_cons, List.sum_cons]; omega

theorem tally_spec (l : List K) : (∀ k, recorded (tally l) k = l.count k) ∧ shots (tally l) = l.length := by
  unfold tally
  have : ∀ (c : List (K × ℕ)), (∀ k, recorded (l.foldl incr c) k = recorded c k + l.count k) ∧ shots (l.foldl incr c) = shots c + l.length := by
    induction l with
    | nil => intro c; simp
    | cons a l ih =>
      intro c
      obtain ⟨h1, h2⟩ := ih (incr c a)
      constructor
      · intro k
        rw [List.foldl_cons, h1, recorded_incr, List.count_cons]
        simp only [beq_iff_eq]
        omega
      · rw [List.foldl_cons, h2, shots_incr, List.length_cons]; omega
  obtain ⟨h1, h2⟩ := this []
  exact ⟨fun k => by rw [h1]; simp [recorded], by rw [h2]; simp [shots]⟩

/-- A sample of `n` shots of the recorded ones. -/
def Sample (n : ℕ) (counts tab : Tab P K) : Prop :=
  List.Forall₂ (fun c s => s.1 = c.1 ∧ shots s.2 = n ∧ ∀ k, recorded s.2 k ≤ recorded c.2 k) counts tab

theorem resample_spec (pick : ℕ → P → List K → ℕ → Option (List K)) (hp : Draws pick) (t n : ℕ) (counts : Tab P K)
    (h : ∀ c ∈ counts, n ≤ shots c.2) :
    ∃ tab, resample pick t n (counts.map fun pc => (pc.1, expand pc.2)) = some tab ∧ Sample n counts tab := by
  induction counts with
  | nil => exact ⟨[], rfl, List.Forall₂.nil⟩
  | cons a counts ih =>
    obtain ⟨tab, h1, h2⟩ := ih fun c hc => h c (by simp [hc])
    obtain ⟨r, r1, r2, r3⟩ := (hp t a.1 (expand a.2) n).2 (by rw [shots_expand]; exact h a (by simp))
    refine ⟨(a.1, tally r) :: tab, ?_, List.Forall₂.cons ⟨rfl, by rw [(tally_spec r).2, r2], fun k => ?_⟩ h2⟩
    · unfold resample at h1 ⊢
      rw [List.map_cons, List.mapM_cons, h1, r1]
      rfl
    · rw [(tally_spec r).1, ← recorded_expand]
      exact r3.count_le k

theorem samples_spec (pick : ℕ → P → List K → ℕ → Option (List K)) (hp : Draws pick) (n : ℕ) (counts : Tab P K)
    (h : ∀ c ∈ counts, n ≤ shots c.2) (ts : List ℕ) :
    ∃ tabs, (ts.mapM fun t => resample pick t n (counts.map fun pc => (pc.1, expand pc.2))) = some tabs ∧ tabs.length = ts.length ∧
      ∀ tab ∈ tabs, Sample n counts tab := by
  induction ts with
  | nil => exact ⟨[], rfl, rfl, fun t ht => absurd ht (by simp)⟩
  | cons t ts ih =>
    obtain ⟨tabs, h1, h2, h3⟩ := ih
    obtain ⟨tab, t1, t2⟩ := resample_spec pick hp t n counts h
    refine ⟨tab :: tabs, ?_, by rw [List.length_cons, List.length_cons, h2], ?_⟩
    · rw [List.mapM_cons, h1, t1]; rfl
    · intro x hx
      rcases List.mem_cons.mp hx with rfl | hx
      · exact t2
      · exact h3 x hx

/-- **C118, what is proved.** If every basis has enough shots, the estimate returns the standard deviation, times the scale factor, of the user's function
over samples of the recorded shots, each without repetition and of the size asked for.  **Violation:** the object is left with the last of these samples
instead of its counts. -/
theorem C118_samples_partial (pick : ℕ → P → List K → ℕ → Option (List K)) (hp : Draws pick) (g : Tab P K → Option ℝ) (tq : ℝ)
    (Ns samples size : ℕ) (counts : Tab P K) (h : ∀ c ∈ counts, sampleSize Ns size ≤ shots c.2) :
    ∃ tabs : List (Tab P K), tabs.length = samples ∧ (∀ tab ∈ tabs, Sample (sampleSize Ns size) counts tab) ∧
      evaluateError pick g tq Ns samples size counts =
        some ((std (tabs.filterMap g)).map (fun s => s * Real.sqrt (sampleSize Ns size / Ns) * tq), tabs.getLastD counts) := by
  obtain ⟨tabs, h1, h2, h3⟩ := samples_spec pick hp (sampleSize Ns size) counts h (List.range samples)
  refine ⟨tabs, by rw [h2, List.length_range], h3, ?_⟩
  unfold evaluateError
  dsimp only
  rw [h1]
  rfl

theorem getLastD_mem {α : Type} (l : List α) (a : α) (h : l ≠ []) : l.getLastD a ∈ l := by
  rw [List.getLastD_eq_getLast?, List.getLast?_eq_some_getLast h]
  exact List.getLast_mem h

/-- **C118 fails: the counts are lost.** After an estimate with samples smaller than the number of shots, every basis holds only the shots of one sample. -/
theorem C118_counts_lost (pick : ℕ → P → List K → ℕ → Option (List K)) (hp : Draws pick) (g : Tab P K → Option ℝ) (tq : ℝ)
    (Ns samples size : ℕ) (hs : 0 < samples) (counts : Tab P K) (h0 : counts ≠ []) (h : ∀ c ∈ counts, sampleSize Ns size < shots c.2) :
    ∃ ci tab, evaluateError pick g tq Ns samples size counts = some (ci, tab) ∧ (∀ s ∈ tab, shots s.2 = sampleSize Ns size) ∧ tab ≠ counts := by
  obtain ⟨tabs, h1, h2, h3⟩ := C118_samples_partial pick hp g tq Ns samples size counts fun c hc => (h c hc).le
  have hm := getLastD_mem tabs counts (by rintro rfl; simp at h1; omega)
  have hS := h2 _ hm
  have hsh : ∀ s ∈ tabs.getLastD counts, shots s.2 = sampleSize Ns size := by
    clear h3 hm h2 h1 h h0
    generalize tabs.getLastD counts = tab at hS
    intro s hs'
    induction hS with
    | nil => cases hs'
    | cons a b ih =>
      rcases List.mem_cons.mp hs' with rfl | hs'
      · exact a.2.1
      · exact ih hs'
  refine ⟨_, _, h3, hsh, fun e => ?_⟩
  obtain ⟨c, hc⟩ := List.exists_mem_of_ne_nil counts h0
  have := hsh c (by rw [e]; exact hc)
  have := h c hc
  omega

theorem std_const (l : List ℝ) (x : ℝ) (h0 : l ≠ []) (h : ∀ y ∈ l, y = x) : std l = some 0 := by
  unfold std
  rw [if_neg h0]
  have hl : l = List.replicate l.length x := List.eq_replicate_of_mem h
  have hn : (l.length : ℝ) ≠ 0 := by simpa using h0
  have hmu : l.sum / l.length = x := by
    rw [div_eq_iff hn]
    conv_lhs => rw [hl]
    rw [List.sum_replicate, nsmul_eq_mul, mul_comm]
  dsimp only
  rw [hmu]
  have : (l.map fun y => (y - x) ^ 2).sum = 0 := by
    refine List.sum_eq_zero fun z hz => ?_
    obtain ⟨y, hy, rfl⟩ := List.mem_map.mp hz
    rw [h y hy]; ring
  rw [this, zero_div, Real.sqrt_zero]

/-- **C118 fails: the estimate is zero for the default sizes.** If the sample size equals the number of shots (the defaults are 1024 and 1024), the
estimated error is exactly zero whatever was measured and whatever function is estimated. -/
theorem C118_zero_error (pick : ℕ → P → List K → ℕ → Option (List K)) (hp : Draws pick) (g : Tab P K → Option ℝ)
    (hg : ∀ a b, SameCounts a b → g a = g b) (hv : ∀ a, (g a).isSome) (tq : ℝ) (Ns samples : ℕ) (hN : 0 < Ns) (hs : 0 < samples)
    (counts : Tab P K) (h : ∀ c ∈ counts, shots c.2 = Ns) :
    ∃ tab, evaluateError pick g tq Ns samples Ns counts = some (some 0, tab) := by
  have hz : sampleSize Ns Ns = Ns := by unfold sampleSize; rw [if_neg (by omega)]
  obtain ⟨tabs, h1, h2, h3⟩ := C118_samples_partial pick hp g tq Ns samples Ns counts fun c hc => by rw [hz, h c hc]
  rw [hz] at h2
  have eqc : ∀ (a b : List (K × ℕ)), shots a = shots b → (∀ k, recorded b k ≤ recorded a k) → ∀ k, recorded b k = recorded a k := by
    intro a b e hle k
    have hsub : List.Subperm (expand b) (expand a) := by
      rw [List.subperm_ext_iff]
      intro x _
      rw [recorded_expand, recorded_expand]
      exact hle x
    have := (hsub.perm_of_length_le (by rw [shots_expand, shots_expand, e])).count_eq k
    rwa [recorded_expand, recorded_expand] at this
  have same : ∀ tab ∈ tabs, SameCounts tab counts := by
    intro tab ht
    have hS := h2 tab ht
    clear h3 h1 h2 ht
    unfold SameCounts
    unfold Sample at hS
    induction hS with
    | nil => exact List.Forall₂.nil
    | cons a b ih =>
      refine List.Forall₂.cons ⟨a.1, eqc _ _ ?_ a.2.2⟩ (ih fun c hc => h c (by simp [hc]))
      rw [a.2.1, h _ (by simp)]
  obtain ⟨x, hx⟩ := Option.isSome_iff_exists.mp (hv counts)
  have hgx : ∀ tab ∈ tabs, g tab = some x := fun tab ht => by rw [hg _ _ (same tab ht), hx]
  have hne : tabs ≠ [] := by rintro rfl; simp at h1; omega
  refine ⟨tabs.getLastD counts, ?_⟩
  rw [h3, std_const _ x]
  · simp
  · obtain ⟨t, ht⟩ := List.exists_mem_of_ne_nil tabs hne
    exact List.ne_nil_of_mem (List.mem_filterMap.mpr ⟨t, ht, hgx t ht⟩)
  · intro y hy
    obtain ⟨t, ht, e⟩ := List.mem_filterMap.mp hy
    rw [hgx t ht] at e
    exact (Option.some.inj e).symm

/-- **C118 fails: larger samples.** A sample size above the number of shots of a basis, but below eight times the nominal one, raises. -/
theorem C118_large_fails (pick : ℕ → P → List K → ℕ → Option (List K)) (hp : Draws pick) (g : Tab P K → Option ℝ) (tq : ℝ)
    (Ns samples size : ℕ) (hs : 0 < samples) (counts : Tab P K) (h8 : size < Ns * 8) (c : P × List (K × ℕ)) (hc : c ∈ counts)
    (h : shots c.2 < size) : evaluateError pick g tq Ns samples size counts = none := by
  have hz : sampleSize Ns size = size := by unfold sampleSize; rw [if_neg (by omega)]
  have hr : ∀ t, resample pick t size (counts.map fun pc => (pc.1, expand pc.2)) = none := by
    intro t
    unfold resample
    rcases e : (counts.map fun pc => (pc.1, expand pc.2)).mapM (fun pl => (pick t pl.1 pl.2 size).map fun r => (pl.1, tally r)) with _ | tab
    · exact e
    · exfalso
      have hnone := (hp t c.1 (expand c.2) size).1 (by rw [shots_expand]; exact h)
      induction counts generalizing tab with
      | nil => cases hc
      | cons a counts ih =>
        rw [List.map_cons, List.mapM_cons] at e
        rcases List.mem_cons.mp hc with rfl | hc
        · rw [hnone] at e; cases e
        · rcases e2 : (counts.map fun pc => (pc.1, expand pc.2)).mapM (fun pl => (pick t pl.1 pl.2 size).map fun r => (pl.1, tally r)) with _ | tab'
          · rw [e2] at e
            cases hx : (pick t a.1 (expand a.2) size).map fun r => (a.1, tally r) <;> rw [hx] at e <;> cases e
          · exact ih hc tab' e2
  unfold evaluateError
  dsimp only
  rw [hz]
  obtain ⟨n, rfl⟩ : ∃ n, samples = n + 1 := ⟨samples - 1, by omega⟩
  rw [List.range_succ_eq_map, List.mapM_cons, hr]
  rfl

/-- Taking the first entries is a way of drawing without replacement. -/
theorem draws_take : Draws (P := P) (K := K) fun _ _ l n => if n ≤ l.length then some (l.take n) else none := by
  intro t p l n
  constructor
  · intro h
    exact if_neg (by omega)
  · intro h
    exact ⟨l.take n, if_pos h, by rw [List.length_take]; omega, (List.take_sublist n l).subperm⟩

/-- Ten shots in one basis, seven of them `0`: the estimated error of the fraction of zeros with samples of size 10 is zero. -/
example : ∃ tab, evaluateError (fun _ (_ : Unit) (l : List Bool) n => if n ≤ l.length then some (l.take n) else none)
    (fun t => some ((t.map fun x => (recorded x.2 false : ℝ) / 10).sum)) 2 10 5 10 [((), [(false, 7), (true, 3)])] = some (some 0, tab) := by
  refine C118_zero_error _ draws_take _ ?_ (fun _ => rfl) 2 10 5 (by omega) (by omega) _ (by decide)
  intro a b hab
  congr 1
  induction hab with
  | nil => rfl
  | cons h _ ih => rw [List.map_cons, List.sum_cons, List.map_cons, List.sum_cons, ih, h.2]

end Props
end HQCA
