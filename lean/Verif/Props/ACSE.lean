import Mathlib.Tactic.Linarith
import Mathlib.Tactic.Ring
import Mathlib.Tactic.NormNum
import Mathlib.Algebra.Order.Field.Rat
import Mathlib.Data.List.Nodup
import Mathlib.Algebra.BigOperators.Ring.Finset
import Mathlib.Data.Fintype.BigOperators
import Mathlib.Analysis.Complex.Norm
import Verif.Model.ACSE

/-!
# The ACSE driver and the truncation of its search direction (C40, C41, C68, C69)
-/

namespace HQCA
namespace Props
open ACSE

variable {F : Type} [Field F] [LinearOrder F] [IsStrictOrderedRing F]

/-! ### C40: the driver loop -/

/-- Specification: the iteration counts as an increase when the newest energy is at least the mean of the last (at most)
three recorded energies, itself included.  `hist` is newest first. -/
def CountsAsIncrease (hist : List F) : Prop :=
  match hist with
  | [] => False
  | [a] => a ≤ a
  | [a, b] => (a + b) / 2 ≤ a
  | a :: b :: c :: _ => (a + b + c) / 3 ≤ a

instance (hist : List F) : Decidable (CountsAsIncrease hist) := by
  unfold CountsAsIncrease; split <;> infer_instance

/-- Number of counted increases of a history (newest first; the oldest entry is the initial energy). -/
def increases : List F → ℕ
  | [] => 0
  | [_] => 0
  | a :: b :: l => increases (b :: l) + if CountsAsIncrease (a :: b :: l) then 1 else 0

/-- What the loop maintains: the number of logged energies, the best, the counted increases, and, while it has not
stopped, that neither limit has been reached. -/
structure Good (P : Par F) (e : F) (n0 : ℕ) (os : List (Obs F)) (s : St F) : Prop where
  log : s.logE = (os.map Obs.en).reverse ++ [e]
  iter : s.iter = os.length
  ek : s.iter = 0 → s.ek = e
  best : s.best ∈ s.logE ∧ ∀ x ∈ s.logE, s.best ≤ x
  inc : s.inc = n0 + increases s.logE
  going : s.done = false → s.iter ≠ P.maxIter ∧ (os = [] ∨ s.inc < 3 ∨ ¬ CountsAsIncrease s.logE)

theorem Good.init (P : Par F) (hP : 0 < P.maxIter) (e : F) (n0 : ℕ) : Good P e n0 [] (build e n0) := by
  refine ⟨rfl, rfl, fun _ => rfl, ?_, rfl, fun _ => ⟨?_, Or.inl rfl⟩⟩
  · simp [build]
  · simp only [build]; omega

theorem avg_le_iff (a b : F) (l : List F) (k : ℕ) (hk : k = (b :: l).length) :
    avg k (a :: b :: l) ≤ a ↔ CountsAsIncrease (a :: b :: l) := by
  subst hk
  cases l with
  | nil => simp [avg, CountsAsIncrease]
  | cons c l =>
    have : min 3 ((b :: c :: l).length + 1) = 3 := by simp
    unfold avg
    simp only [this]
    simp only [CountsAsIncrease, List.take_succ_cons, List.take_zero, List.sum_cons, List.sum_nil,
      List.length_cons, List.length_nil]
    have h : a + (b + (c + 0)) = a + b + c := by ring
    rw [h]; norm_num

theorem Good.step {P : Par F} {e : F} {n0 : ℕ} {os : List (Obs F)} {s s' : St F} {o : Obs F}
    (h : Good P e n0 os s) (hd : s.done = false) (hc : check P s o = some s') : Good P e n0 (os ++ [o]) s' := by
  unfold check at hc
  simp only at hc
  split at hc
  · cases hc
  split at hc
  · cases hc
  rename_i c hcrit
  obtain rfl := Option.some.inj hc
  obtain ⟨hlog, hiter, hek, hbest, hinc, hrun⟩ := h
  have hne : s.logE ≠ [] := by rw [hlog]; simp
  have hlen : s.iter + 1 = s.logE.length := by rw [hlog, hiter]; simp
  have hup : (avg (s.iter + 1) (o.en :: s.logE) ≤ o.en) ↔ CountsAsIncrease (o.en :: s.logE) := by
    obtain ⟨b, l, hb⟩ := List.exists_cons_of_ne_nil hne
    rw [hb]; exact avg_le_iff _ _ _ _ (by rw [hlen, hb])
  have hb0 : (if s.iter = 0 then s.ek else s.best) = s.best := by
    split
    · rename_i h0
      have : os = [] := by rw [hiter] at h0; exact List.length_eq_zero_iff.mp h0
      subst this
      rw [hek h0]
      have := hbest.1
      rw [hlog] at this
      simp at this
      exact this.symm
    · rfl
  have hincs : increases (o.en :: s.logE)
      = increases s.logE + if CountsAsIncrease (o.en :: s.logE) then 1 else 0 := by
    obtain ⟨b, l, hb⟩ := List.exists_cons_of_ne_nil hne
    rw [hb]; rfl
  refine ⟨by simp [hlog], by simp [hiter], by simp, ?_, ?_, ?_⟩
  · simp only [hb0]
    constructor
    · split
      · simp
      · simp [hbest.1]
    · intro x hx
      rcases List.mem_cons.mp hx with rfl | hx
      · split
        · exact le_refl _
        · exact not_lt.mp (by assumption)
      · have := hbest.2 x hx
        split
        · linarith
        · exact this
  · simp only [hincs, decide_eq_true_eq]
    by_cases hC : CountsAsIncrease (o.en :: s.logE)
    · rw [if_pos (hup.mpr hC), if_pos hC, hinc]; ring
    · rw [if_neg (fun h => hC (hup.mp h)), if_neg hC, hinc]; ring
  · intro hdone
    simp only [hd, Bool.false_or, Bool.or_eq_false_iff, decide_eq_false_iff_not, Bool.and_eq_false_iff,
      decide_eq_true_eq] at hdone
    refine ⟨hdone.1.1, Or.inr ?_⟩
    rcases hdone.1.2 with h1 | h1
    · exact Or.inr (fun hC => h1 (hup.mpr hC))
    · left; simp only [decide_eq_true_eq]; omega

theorem Good.run {P : Par F} {e : F} {n0 : ℕ} : ∀ {os os' : List (Obs F)} {s s' : St F}, Good P e n0 os s →
    ACSE.run P os' s = some s' → ∃ k ≤ os'.length, Good P e n0 (os ++ os'.take k) s' ∧ (s'.done = false → k = os'.length)
  | os, [], s, s', h, hr => by
    simp only [ACSE.run, Option.some.injEq] at hr
    subst hr
    exact ⟨0, le_refl _, by simpa using h, fun _ => rfl⟩
  | os, o :: os', s, s', h, hr => by
    unfold ACSE.run at hr
    cases hd : s.done with
    | true =>
      rw [hd, if_pos rfl, Option.some.injEq] at hr
      subst hr
      exact ⟨0, Nat.zero_le _, by simpa using h, fun h' => by rw [hd] at h'; cases h'⟩
    | false =>
      rw [hd, if_neg (by simp)] at hr
      obtain ⟨s1, h1, h2⟩ := Option.bind_eq_some_iff.mp hr
      obtain ⟨k, hk, hg, hkd⟩ := Good.run (h.step hd h1) h2
      refine ⟨k + 1, by simpa using hk, by simpa using hg, fun h' => by simp [hkd h']⟩

/-- The driver makes at most `max_iter` iterations (for `max_iter > 0`), whatever the iterations observe, and if the
observations suffice for `max_iter` iterations it has stopped. -/
theorem C40_max_iter (P : Par F) (hP : 0 < P.maxIter) (e : F) (n0 : ℕ) (os : List (Obs F)) (s : St F)
    (h : ACSE.run P os (build e n0) = some s) :
    s.iter ≤ P.maxIter ∧ s.logE.length = s.iter + 1 ∧ (P.maxIter ≤ os.length → s.done = true) := by
  have key : ∀ (os : List (Obs F)) (t : St F), t.iter ≤ P.maxIter → (t.done = false → t.iter ≠ P.maxIter) →
      ACSE.run P os t = some s → s.iter ≤ P.maxIter := by
    intro os
    induction os with
    | nil => intro t h1 _ h3; simp only [ACSE.run, Option.some.injEq] at h3; rw [← h3]; exact h1
    | cons o os ih =>
      intro t h1 h2 h3
      unfold ACSE.run at h3
      cases hd : t.done with
      | true => rw [hd, if_pos rfl, Option.some.injEq] at h3; rw [← h3]; exact h1
      | false =>
        rw [hd, if_neg (by simp)] at h3
        obtain ⟨t1, h4, h5⟩ := Option.bind_eq_some_iff.mp h3
        have h6 := h2 hd
        unfold check at h4
        simp only at h4
        split at h4
        · cases h4
        split at h4
        · cases h4
        obtain rfl := Option.some.inj h4
        refine ih _ (by simp only; omega) ?_ h5
        intro h7
        simp only [Bool.or_eq_false_iff, decide_eq_false_iff_not] at h7
        exact h7.1.1.2
  obtain ⟨k, hk, hg, hkd⟩ := Good.run (Good.init P hP e n0) h
  have h1 := key os (build e n0) (Nat.zero_le _) (fun _ => by simp only [build]; omega) h
  refine ⟨h1, by rw [hg.log, hg.iter]; simp, fun hlen => ?_⟩
  by_contra hnd
  have hnd : s.done = false := by simpa using hnd
  have h2 := (hg.going hnd).1
  have h3 := hg.iter
  rw [hkd hnd] at h3
  simp at h3
  omega

/-- **C40, definedness.** With a known convergence criterion and an ansatz that stays below its maximal depth no iteration raises: the run with enough
observations ends. -/
theorem C40_completes (P : Par F) (hP : 0 < P.maxIter) (hc : P.conv ≠ .other) (e : F) (n0 : ℕ) (os : List (Obs F))
    (hd : ∀ o ∈ os, o.deep = false) : ∃ s, ACSE.run P os (build e n0) = some s ∧ (P.maxIter ≤ os.length → s.done = true) := by
  have key : ∀ (os : List (Obs F)) (s : St F), (∀ o ∈ os, o.deep = false) → ∃ s', ACSE.run P os s = some s' := by
    intro os
    induction os with
    | nil => intro s _; exact ⟨s, rfl⟩
    | cons o os ih =>
      intro s h
      simp only [ACSE.run]
      split
      · exact ⟨s, rfl⟩
      · have ho : o.deep = false := h o (by simp)
        have hcr : ∃ c, criteria P o = some c := by
          unfold criteria
          split
          · exact ⟨_, rfl⟩
          · exact ⟨_, rfl⟩
          · rename_i h'; exact absurd h' hc
        obtain ⟨c, hcr⟩ := hcr
        have : ∃ s1, check P s o = some s1 := by
          simp only [check, ho, hcr]
          simp
        obtain ⟨s1, h1⟩ := this
        rw [h1, Option.bind_some]
        exact ih s1 (fun o' ho' => h o' (by simp [ho']))
  obtain ⟨s, hs⟩ := key os (build e n0) hd
  exact ⟨s, hs, (C40_max_iter P hP e n0 os s hs).2.2⟩

/-- The recorded best energy is the minimum of the initial energy and of all energies recorded so far. -/
theorem C40_best (P : Par F) (hP : 0 < P.maxIter) (e : F) (n0 : ℕ) (os : List (Obs F)) (s : St F)
    (h : ACSE.run P os (build e n0) = some s) :
    ∃ k ≤ os.length, (s.done = false → k = os.length) ∧ s.logE.reverse = e :: (os.take k).map Obs.en ∧
      s.best ∈ e :: (os.take k).map Obs.en ∧ ∀ x ∈ e :: (os.take k).map Obs.en, s.best ≤ x := by
  obtain ⟨k, hk, hg, hkd⟩ := Good.run (Good.init P hP e n0) h
  have hlog : s.logE.reverse = e :: (os.take k).map Obs.en := by rw [hg.log]; simp
  refine ⟨k, hk, hkd, hlog, ?_, ?_⟩
  · rw [← hlog]; simpa using hg.best.1
  · rw [← hlog]; simpa using hg.best.2

/-- The driver stops at the third counted increase: it is still running only while at most two of the recorded energies
count as increases, where an energy counts when it is at least the mean of the last three recorded energies.  The claim
of the property, with "increase" meaning "higher than the previous energy", is false (`C40_increase_missed`). -/
theorem C40_third_increase_partial (P : Par F) (hP : 0 < P.maxIter) (e : F) (os : List (Obs F)) (s : St F)
    (h : ACSE.run P os (build e 0) = some s) : s.done = false → increases s.logE ≤ 2 := by
  have key : ∀ (os' : List (Obs F)) (pre : List (Obs F)) (t : St F), Good P e 0 pre t → (t.done = false → t.inc ≤ 2) →
      ACSE.run P os' t = some s → s.done = false → s.inc ≤ 2 := by
    intro os'
    induction os' with
    | nil =>
      intro pre t _ h2 h3
      simp only [ACSE.run, Option.some.injEq] at h3
      rw [← h3]; exact h2
    | cons o os' ih =>
      intro pre t hg h2 h3
      unfold ACSE.run at h3
      cases hd : t.done with
      | true =>
        rw [hd, if_pos rfl, Option.some.injEq] at h3
        rw [← h3, hd]; intro h; cases h
      | false =>
        rw [hd, if_neg (by simp)] at h3
        obtain ⟨t1, h4, h5⟩ := Option.bind_eq_some_iff.mp h3
        have hg1 := hg.step hd h4
        refine ih _ t1 hg1 ?_ h5
        intro hd1
        rcases (hg1.going hd1).2 with h6 | h6 | h6
        · simp at h6
        · omega
        · have h7 := hg1.inc
          have h8 := hg.inc
          have h9 := h2 hd
          have hl : t1.logE = o.en :: t.logE := by rw [hg1.log, hg.log]; simp
          have hne : t.logE ≠ [] := by rw [hg.log]; simp
          obtain ⟨b, l, hb⟩ := List.exists_cons_of_ne_nil hne
          rw [hl, hb, increases, ← hb, ← hl, if_neg h6] at h7
          omega
  intro hd
  obtain ⟨k, _, hg, _⟩ := Good.run (Good.init P hP e 0) h
  have := key os [] (build e 0) (Good.init P hP e 0) (fun _ => Nat.zero_le _) h hd
  have h2 := hg.inc
  omega

/-- A driver with a norm criterion that is never met. -/
def sampleP : Par ℚ := ⟨50, .norm, 0, 0, 0⟩
def sampleO (e : ℚ) : Obs ℚ := ⟨e, 1, 1, 1, false⟩

/-- Three times the energy is higher than the previous one (0→1, -100→-99, -200→-199) and the driver goes on: a rise after a
larger drop is below the mean of the last three energies and is not counted. -/
theorem C40_increase_missed :
    (ACSE.run sampleP ([0, 1, -100, -99, -200, -199].map sampleO) (build 100 0)).map
      (fun s => (s.done, s.iter, s.inc)) = some (false, 6, 0) := by decide +kernel

/-- The counted increases are kept by the object: after a reset of a run that stopped on the third one, the next counted
increase already stops the driver. -/
theorem C40_reset_keeps_count :
    (ACSE.run sampleP ([0, 1, 2, 3, 4].map sampleO) (build 0 0)).map (fun s => (s.done, s.iter, s.inc))
      = some (true, 3, 3) ∧
    (ACSE.run sampleP ([1, 0, -1].map sampleO) (build 0 3)).map (fun s => (s.done, s.iter, s.inc))
      = some (true, 1, 4) := by decide +kernel

/-- A concrete run with a stop on the third counted increase; hypotheses of the theorems above are met. -/
example : 0 < sampleP.maxIter ∧
    (ACSE.run sampleP ([-1, -3, -2, -1, 0, 5].map sampleO) (build 0 0)).map (fun s => (s.done, s.iter, s.best))
      = some (true, 5, -3) := by decide +kernel

/-! ### C69: limits that raise -/

/-- With any convergence type other than the three known ones (the default value of the keyword is one of them) the first
check raises, whatever the iteration did. -/
theorem C69_default_raises (P : Par F) (hP : P.conv = .other) (e : F) (n0 : ℕ) (o : Obs F) (os : List (Obs F)) :
    ACSE.run P (o :: os) (build e n0) = none := by
  have : check P (build e n0) o = none := by
    unfold check criteria
    simp only [hP]
    split <;> rfl
  rw [ACSE.run, if_neg (by simp [build]), this]
  rfl

/-- Reaching `max_depth` terms before `max_iter` iterations does not end the run but raises. -/
theorem C69_depth_raises (P : Par F) (s : St F) (o : Obs F) (hd : o.deep = true) (hi : s.iter + 1 ≠ P.maxIter) :
    check P s o = none := by
  unfold check
  simp [hd, hi]

/-- With a known convergence type and no depth limit reached the driver never raises. -/
theorem C69_completes_partial (P : Par F) (hP : P.conv ≠ .other) : ∀ (os : List (Obs F)) (s : St F),
    (∀ o ∈ os, o.deep = false) → (ACSE.run P os s).isSome
  | [], s, _ => rfl
  | o :: os, s, h => by
    unfold ACSE.run
    split
    · rfl
    · have ho := h o (by simp)
      have hc : ∃ s', check P s o = some s' := by
        unfold check criteria
        cases hq : P.conv with
        | other => exact absurd hq hP
        | trust => simp [ho]
        | norm => simp [ho]
      obtain ⟨s', hs'⟩ := hc
      rw [hs']
      exact C69_completes_partial P hP os s' (fun o' h' => h o' (by simp [h']))

/-- When a known criterion is met the driver stops at that iteration. -/
theorem C69_criterion_stops (P : Par F) (s s' : St F) (o : Obs F) (h : check P s o = some s')
    (hc : (P.conv = .norm ∧ o.norm < P.crit) ∨
      (P.conv = .trust ∧ (|o.taylor| ≤ max P.tsCrit P.crit ∨ |o.object| ≤ max P.objCrit P.crit))) : s'.done = true := by
  have hcr : criteria P o = some true := by
    unfold criteria
    rcases hc with ⟨h1, h2⟩ | ⟨h1, h2⟩
    · rw [h1]; simp [h2]
    · rw [h1]; simpa using h2
  unfold check at h
  simp only at h
  split at h
  · cases h
  rw [hcr] at h
  obtain rfl := Option.some.inj h
  simp

example : (check ⟨50, .norm, 1, 0, 0⟩ (build (0 : ℚ) 0) ⟨-1, 1/2, 1, 1, false⟩).map (·.done) = some true ∧
    (check ⟨50, .trust, 1, 0, 0⟩ (build (0 : ℚ) 0) ⟨-1, 5, 2, -1, false⟩).map (·.done) = some true := by decide +kernel

/-! ### C41: relative truncation of the generator -/

section GetA
variable {α K : Type} [DecidableEq α] [AddZeroClass K]

theorem foldl_max (mag : K → F) (A : OpD α K) : ∀ m : K,
    (∀ t ∈ A, mag t.2 ≤ mag (A.foldl (fun m t => if mag t.2 ≥ mag m then t.2 else m) m)) ∧
    mag m ≤ mag (A.foldl (fun m t => if mag t.2 ≥ mag m then t.2 else m) m) ∧
    (A.foldl (fun m t => if mag t.2 ≥ mag m then t.2 else m) m = m ∨
      ∃ t ∈ A, A.foldl (fun m t => if mag t.2 ≥ mag m then t.2 else m) m = t.2) := by
  induction A with
  | nil => intro m; simp
  | cons a A ih =>
    intro m
    simp only [List.foldl_cons]
    split
    · rename_i h
      obtain ⟨h1, h2, h3⟩ := ih a.2
      refine ⟨?_, le_trans h h2, ?_⟩
      · intro t ht
        rcases List.mem_cons.mp ht with rfl | ht
        · exact h2
        · exact h1 t ht
      · rcases h3 with h3 | ⟨t, ht, h3⟩
        · exact Or.inr ⟨a, by simp, h3⟩
        · exact Or.inr ⟨t, by simp [ht], h3⟩
    · rename_i h
      obtain ⟨h1, h2, h3⟩ := ih m
      refine ⟨?_, h2, ?_⟩
      · intro t ht
        rcases List.mem_cons.mp ht with rfl | ht
        · exact le_trans (le_of_lt (not_le.mp h)) h2
        · exact h1 t ht
      · rcases h3 with h3 | ⟨t, ht, h3⟩
        · exact Or.inl h3
        · exact Or.inr ⟨t, by simp [ht], h3⟩

theorem foldl_addStr_filter (p : Term α K → Prop) [DecidablePred p] (A : OpD α K) : ∀ B : OpD α K,
    (A.map Prod.fst).Nodup → (∀ t ∈ A, t.1 ∉ B.map Prod.fst) →
    A.foldl (fun new t => if p t then new.addStr t else new) B = B ++ A.filter p := by
  induction A with
  | nil => intro B _ _; simp
  | cons a A ih =>
    intro B hn hB
    rw [List.map_cons, List.nodup_cons] at hn
    rw [List.foldl_cons]
    by_cases hp : p a
    · rw [if_pos hp]
      have h1 : OpD.addStr B a = B ++ [a] := by
        unfold OpD.addStr OpD.hasKey
        rw [if_neg]
        have := hB a (by simp)
        simpa [List.any_eq_true] using this
      rw [h1, ih _ hn.2]
      · simp [hp]
      · intro t ht hm
        rw [List.map_append, List.mem_append] at hm
        rcases hm with hm | hm
        · exact hB t (by simp [ht]) hm
        · simp at hm
          exact hn.1 (hm ▸ List.mem_map_of_mem ht)
    · rw [if_neg hp, ih _ hn.2 (fun t ht => hB t (by simp [ht]))]
      simp [hp]

/-- The truncated generator consists of exactly the terms, in order and unchanged, whose modulus is at least the threshold
times the largest modulus of the generator. -/
theorem C41_exact (mag : K → F) (h0 : mag 0 = 0) (hpos : ∀ c, 0 ≤ mag c) (thr : F) (A : OpD α K)
    (hA : (A.map Prod.fst).Nodup) (M : F) (hM : ∀ t ∈ A, mag t.2 ≤ M) (hM' : A = [] ∨ ∃ t ∈ A, mag t.2 = M) :
    relTrunc mag thr A = A.filter (fun t => decide (|thr| * M ≤ mag t.2)) := by
  have hmax : A = [] ∨ mag (maxVal mag A) = M := by
    rcases hM' with h | ⟨t, ht, hM'⟩
    · exact Or.inl h
    · right
      obtain ⟨h1, _, h3⟩ := foldl_max mag A 0
      refine le_antisymm ?_ (by rw [← hM']; exact h1 t ht)
      rcases h3 with h3 | ⟨u, hu, h3⟩
      · unfold maxVal; rw [h3, h0, ← hM']; exact hpos _
      · unfold maxVal; rw [h3]; exact hM u hu
  rcases hmax with rfl | hmax
  · rfl
  · unfold relTrunc
    rw [hmax, foldl_addStr_filter (fun t => mag t.2 ≥ |thr| * M) A [] hA (by simp)]
    rfl

/-- For thresholds of modulus at most one every term of largest modulus is kept. -/
theorem C41_largest (mag : K → F) (h0 : mag 0 = 0) (hpos : ∀ c, 0 ≤ mag c) (thr : F) (hthr : |thr| ≤ 1) (A : OpD α K)
    (hA : (A.map Prod.fst).Nodup) (t : Term α K) (ht : t ∈ A) (hM : ∀ u ∈ A, mag u.2 ≤ mag t.2) :
    t ∈ relTrunc mag thr A := by
  rw [C41_exact mag h0 hpos thr A hA (mag t.2) hM (Or.inr ⟨t, ht, rfl⟩), List.mem_filter]
  refine ⟨ht, ?_⟩
  have := mul_le_mul_of_nonneg_right hthr (hpos t.2)
  simpa using this

end GetA

/-- The property for complex coefficients. -/
theorem C41_complex {α : Type} [DecidableEq α] (thr : ℝ) (A : OpD α ℂ) (hA : (A.map Prod.fst).Nodup) (M : ℝ)
    (hM : ∀ t ∈ A, ‖t.2‖ ≤ M) (hM' : A = [] ∨ ∃ t ∈ A, ‖t.2‖ = M) :
    relTrunc (fun c : ℂ => ‖c‖) thr A = A.filter (fun t => decide (|thr| * M ≤ ‖t.2‖)) :=
  C41_exact _ norm_zero norm_nonneg thr A hA M hM hM'

example : relTrunc (fun c : ℚ => |c|) (1/2) [("a", (1:ℚ)), ("b", -4), ("c", 2), ("d", 0)] = [("b", -4), ("c", 2)] := by
  decide +kernel

/-! ### C68: truncation of the search vector -/

section Trunc
variable {ι : Type} [DecidableEq ι] [Fintype ι]

/-- The index lists met by the loop: no repetition and closed under the pairing. -/
structure Closed (pair : ι → ι) (l : List ι) : Prop where
  nodup : l.Nodup
  closed : ∀ i ∈ l, pair i ∈ l

theorem Closed.tail {pair : ι → ι} (hp : ∀ i, pair (pair i) = i) {t : ι} {l : List ι} (h : Closed pair (t :: l)) :
    (t = pair t → Closed pair l) ∧ (t ≠ pair t → pair t ∈ l ∧ Closed pair (l.erase (pair t))) := by
  obtain ⟨h1, h2⟩ := h
  rw [List.nodup_cons] at h1
  constructor
  · intro ht
    refine ⟨h1.2, fun i hi => ?_⟩
    rcases List.mem_cons.mp (h2 i (by simp [hi])) with h3 | h3
    · exfalso; apply h1.1
      have : i = t := by rw [← hp i, h3]; exact ht.symm
      exact this ▸ hi
    · exact h3
  · intro ht
    have h3 : pair t ∈ l := by
      rcases List.mem_cons.mp (h2 t (by simp)) with h3 | h3
      · exact absurd h3.symm ht
      · exact h3
    refine ⟨h3, h1.2.erase _, fun i hi => ?_⟩
    rw [h1.2.mem_erase_iff] at hi
    rw [h1.2.mem_erase_iff]
    constructor
    · intro h4
      have : i = t := by rw [← hp i, h4, hp]
      exact h1.1 (this ▸ hi.2)
    · rcases List.mem_cons.mp (h2 i (by simp [hi.2])) with h4 | h4
      · exfalso; apply hi.1; rw [← h4, hp]
      · exact h4

/-- What the loop establishes, from a state in which the indices still to check are untouched. -/
theorem truncLoop_spec (P : TPar F ι) (pr : ι → ι) (hpr : ∀ i, P.pair i = some (pr i)) (hp : ∀ i, pr (pr i) = i)
    (hd : ∀ i, P.vector (pr i) * P.gradient (pr i) = P.vector i * P.gradient i) :
    ∀ (n : ℕ) (l : List ι) (temp : ι → F), l.length ≤ n → Closed pr l → (∀ i ∈ l, temp i = P.vector i) →
    ∃ r, truncLoop P l temp = some r ∧
      (∀ i, r i ≠ temp i → r i = 0 ∧ r (pr i) = 0 ∧ pr i ≠ i ∧ i ∈ l ∧
        ((below P i = true ∧ i ∉ P.added) ∨ (below P (pr i) = true ∧ pr i ∉ P.added))) ∧
      (∑ k, temp k * P.gradient k < 0 → ∑ k, r k * P.gradient k < 0) := by
  intro n
  induction n with
  | zero =>
    intro l temp hl _ _
    obtain rfl : l = [] := List.length_eq_zero_iff.mp (by omega)
    exact ⟨temp, by rw [truncLoop], fun i h => absurd rfl h, id⟩
  | succ n ih =>
    intro l temp hl hc ht
    cases l with
    | nil => exact ⟨temp, by rw [truncLoop], fun i h => absurd rfl h, id⟩
    | cons t rest =>
      have hl' : rest.length ≤ n := by simpa using hl
      have hle : (rest.erase (pr t)).length ≤ n := le_trans List.length_erase_le hl'
      by_cases htp : t = pr t
      · obtain ⟨r, h1, h2, h3⟩ := ih rest temp hl' ((hc.tail hp).1 htp) (fun i hi => ht i (by simp [hi]))
        refine ⟨r, by rw [truncLoop, hpr t]; dsimp only; rw [if_pos htp]; exact h1, fun i hi => ?_, h3⟩
        obtain ⟨a, b, c, d, e⟩ := h2 i hi
        exact ⟨a, b, c, by simp [d], e⟩
      · obtain ⟨hmem, hcl⟩ := (hc.tail hp).2 htp
        have hsub : ∀ i ∈ rest.erase (pr t), i ∈ rest := fun i hi => List.mem_of_mem_erase hi
        have hkeep : ∀ r, truncLoop P (rest.erase (pr t)) temp = some r →
            (∀ i, r i ≠ temp i → r i = 0 ∧ r (pr i) = 0 ∧ pr i ≠ i ∧ i ∈ rest.erase (pr t) ∧
              ((below P i = true ∧ i ∉ P.added) ∨ (below P (pr i) = true ∧ pr i ∉ P.added))) →
            ∀ i, r i ≠ temp i → r i = 0 ∧ r (pr i) = 0 ∧ pr i ≠ i ∧ i ∈ t :: rest ∧
              ((below P i = true ∧ i ∉ P.added) ∨ (below P (pr i) = true ∧ pr i ∉ P.added)) := by
          intro r _ h2 i hi
          obtain ⟨a, b, c, d, e⟩ := h2 i hi
          exact ⟨a, b, c, by simp [hsub i d], e⟩
        by_cases hadd : t ∈ P.added
        · obtain ⟨r, h1, h2, h3⟩ := ih _ temp hle hcl (fun i hi => ht i (by simp [hsub i hi]))
          exact ⟨r, by rw [truncLoop, hpr t]; dsimp only; rw [if_neg htp, if_pos hmem, if_pos hadd]; exact h1, hkeep r h1 h2, h3⟩
        · by_cases hrm : below P t = true ∧ ¬ 0 ≤ descent P temp t
          · set temp' := Function.update (Function.update temp t 0) (pr t) 0 with htemp'
            have hnd := (List.nodup_cons.mp hc.nodup)
            have hout : ∀ i ∈ rest.erase (pr t), i ≠ t ∧ i ≠ pr t := by
              intro i hi
              rw [hnd.2.mem_erase_iff] at hi
              exact ⟨fun h => hnd.1 (h ▸ hi.2), hi.1⟩
            have hsame : ∀ i, i ≠ t → i ≠ pr t → temp' i = temp i := by
              intro i h1 h2
              rw [htemp', Function.update_of_ne h2, Function.update_of_ne h1]
            have h0t : temp' t = 0 := by rw [htemp', Function.update_of_ne htp, Function.update_self]
            have h0p : temp' (pr t) = 0 := by rw [htemp', Function.update_self]
            obtain ⟨r, h1, h2, h3⟩ := ih _ temp' hle hcl
              (fun i hi => by rw [hsame i (hout i hi).1 (hout i hi).2]; exact ht i (by simp [hsub i hi]))
            have hrt : r t = 0 := by
              by_cases h : r t = temp' t
              · rw [h, h0t]
              · exact (h2 t h).1
            have hrp : r (pr t) = 0 := by
              by_cases h : r (pr t) = temp' (pr t)
              · rw [h, h0p]
              · exact (h2 _ h).1
            refine ⟨r, by rw [truncLoop, hpr t]; dsimp only; rw [if_neg htp, if_pos hmem, if_neg hadd, if_pos hrm]; exact h1, ?_, ?_⟩
            · intro i hi
              by_cases hit : i = t
              · subst hit
                exact ⟨hrt, hrp, fun h => htp h.symm, by simp, Or.inl ⟨hrm.1, hadd⟩⟩
              by_cases hip : i = pr t
              · subst hip
                rw [hp]
                exact ⟨hrp, hrt, htp, by simp [hmem], Or.inr ⟨hrm.1, hadd⟩⟩
              rw [← hsame i hit hip] at hi
              obtain ⟨a, b, c, d, e⟩ := h2 i hi
              exact ⟨a, b, c, by simp [hsub i d], e⟩
            · intro _
              apply h3
              have hsum : ∑ k, temp' k * P.gradient k = descent P temp t := by
                have htt : temp t = P.vector t := ht t (by simp)
                have htpp : temp (pr t) = P.vector (pr t) := ht _ (by simp [hmem])
                have e1 : ∀ k, temp' k * P.gradient k = temp k * P.gradient k
                    - ((if k = t then P.vector t * P.gradient t else 0)
                      + (if k = pr t then P.vector (pr t) * P.gradient (pr t) else 0)) := by
                  intro k
                  by_cases hk : k = t
                  · subst hk
                    rw [if_pos rfl, if_neg htp, h0t, htt]; ring
                  · by_cases hk2 : k = pr t
                    · rw [if_neg hk, if_pos hk2, hk2, h0p, htpp]; ring
                    · rw [if_neg hk, if_neg hk2, hsame k hk hk2]; ring
                rw [Finset.sum_congr rfl (fun k _ => e1 k), Finset.sum_sub_distrib, Finset.sum_add_distrib,
                  Finset.sum_ite_eq' Finset.univ t, Finset.sum_ite_eq' Finset.univ (pr t)]
                simp only [Finset.mem_univ, if_true]
                unfold descent deltas
                rw [hd t]
              rw [hsum]
              exact not_le.mp hrm.2
          · obtain ⟨r, h1, h2, h3⟩ := ih _ temp hle hcl (fun i hi => ht i (by simp [hsub i hi]))
            exact ⟨r, by rw [truncLoop, hpr t]; dsimp only; rw [if_neg htp, if_pos hmem, if_neg hadd, if_neg hrm]; exact h1,
              hkeep r h1 h2, h3⟩

/-- Truncating a search vector whose paired entries make the same contribution to the slope (as for the anti-Hermitian
vectors of the ACSE) does not raise; every entry is kept or set to zero, together with its partner, and only if it or its
partner is below the threshold and not excluded; and a descent direction stays one. -/
theorem C68_truncation_partial (P : TPar F ι) (pr : ι → ι) (hpr : ∀ i, P.pair i = some (pr i)) (hp : ∀ i, pr (pr i) = i)
    (hd : ∀ i, P.vector (pr i) * P.gradient (pr i) = P.vector i * P.gradient i) (crit : List ι)
    (hn : crit.Nodup) (hall : ∀ i, i ∈ crit) :
    ∃ r, truncation P crit = some r ∧
      (∀ i, r i = P.vector i ∨ (r i = 0 ∧ r (pr i) = 0 ∧
        ((below P i = true ∧ i ∉ P.added) ∨ (below P (pr i) = true ∧ pr i ∉ P.added)))) ∧
      (∑ k, P.vector k * P.gradient k < 0 → ∑ k, r k * P.gradient k < 0) := by
  obtain ⟨r, h1, h2, h3⟩ := truncLoop_spec P pr hpr hp hd crit.length crit P.vector (le_refl _) ⟨hn, fun i _ => hall _⟩
    (fun _ _ => rfl)
  refine ⟨r, h1, fun i => ?_, h3⟩
  by_cases h : r i = P.vector i
  · exact Or.inl h
  · obtain ⟨a, b, _, _, e⟩ := h2 i h
    exact Or.inr ⟨a, b, e⟩

/-- With the 'abs' method, an anti-Hermitian search vector and gradient keep every entry that reaches the threshold. -/
theorem C68_abs_keeps_partial (P : TPar F ι) (pr : ι → ι) (hpr : ∀ i, P.pair i = some (pr i)) (hp : ∀ i, pr (pr i) = i) (hv : ∀ i, P.vector (pr i) = -P.vector i)
    (hg : ∀ i, P.gradient (pr i) = -P.gradient i) (habs : P.abs = true) (crit : List ι) (hn : crit.Nodup)
    (hall : ∀ i, i ∈ crit) :
    ∃ r, truncation P crit = some r ∧ (∀ i, r (pr i) = -r i) ∧
      (∀ i, P.thresh * (99999 / 100000) ≤ |P.vector i| → r i = P.vector i) ∧
      (∑ k, P.vector k * P.gradient k < 0 → ∑ k, r k * P.gradient k < 0) := by
  obtain ⟨r, h1, h2, h3⟩ := C68_truncation_partial P pr hpr hp (fun i => by rw [hv, hg]; ring) crit hn hall
  refine ⟨r, h1, fun i => ?_, fun i hi => ?_, h3⟩
  · rcases h2 i with h | ⟨a, b, _⟩
    · rcases h2 (pr i) with h' | ⟨a', b', _⟩
      · rw [h, h', hv]
      · rw [hp] at b'; rw [a', b']; simp
    · rw [a, b]; simp
  · rcases h2 i with h | ⟨_, _, e⟩
    · exact h
    · exfalso
      rcases e with ⟨e, _⟩ | ⟨e, _⟩
      · simp only [below, habs, if_true, decide_eq_true_eq] at e; linarith
      · simp only [below, habs, if_true, decide_eq_true_eq, hv, abs_neg] at e; linarith

end Trunc

/-- Four entries in two pairs, the first pair below the threshold: the hypotheses hold and the pair is removed. -/
def sampleT : TPar ℚ (Fin 4) := ⟨![1/10, 1, -1/10, -1], ![-1, -1, 1, 1], ![some 2, some 3, some 0, some 1], true, 1/2, []⟩

def samplePair : Fin 4 → Fin 4 := ![2, 3, 0, 1]

example : (∀ i, sampleT.pair i = some (samplePair i)) ∧ (∀ i, samplePair (samplePair i) = i) ∧
    (∀ i, sampleT.vector (samplePair i) = -sampleT.vector i) ∧ (∀ i, sampleT.gradient (samplePair i) = -sampleT.gradient i) ∧
    ∑ k, sampleT.vector k * sampleT.gradient k < 0 := by decide +kernel

example : truncation sampleT [0, 1, 2, 3] = some ![0, 1, 0, -1] := by
  have h1 : below sampleT 0 = true := by decide +kernel
  have h2 : ¬ 0 ≤ descent sampleT sampleT.vector 0 := by decide +kernel
  have h3 : below sampleT 1 = false := by decide +kernel
  have p0 : sampleT.pair 0 = some 2 := rfl
  have p1 : sampleT.pair 1 = some 3 := rfl
  have ha : sampleT.added = [] := rfl
  unfold truncation
  rw [truncLoop, p0]; dsimp only; rw [if_neg (by decide), if_pos (by decide), ha, if_neg (by simp), if_pos ⟨h1, h2⟩]
  rw [show ([1, 2, 3] : List (Fin 4)).erase 2 = [1, 3] from by decide]
  rw [truncLoop, p1]; dsimp only; rw [if_neg (by decide), if_pos (by decide), ha, if_neg (by simp), if_neg (by simp [h3])]
  rw [show ([3] : List (Fin 4)).erase 3 = [] from by decide, truncLoop]
  congr 1
  funext i
  fin_cases i <;> decide +kernel

end Props
end HQCA
