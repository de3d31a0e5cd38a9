import Verif.Model.MeasFilter
import Mathlib.Algebra.BigOperators.Group.Finset.Basic
import Mathlib.Data.Finset.Card
import Mathlib.Order.Interval.Finset.Nat
import Mathlib.Tactic

/-!
# C137: which calibration corrects the circuits of a run
-/

namespace HQCA.Props
open HQCA HQCA.MeasFilter
variable {F D : Type}

/-- The state after `k` readings. -/
theorem correct_state_pos (cal : ℕ → F) (ap : F → D → D) (f : ℕ) (hf : 0 < f) (d : ℕ) (js : List D) (q r : ℕ) (hr : r < f) :
    correct cal ap ⟨f, f - 1 - r, cal (d + q), d + q + 1⟩ js =
      ((List.range js.length).zipWith (fun k j => ap (cal (d + (q * f + r + k + 1) / f)) j) js,
        ⟨f, f - 1 - ((q * f + r + js.length) % f : ℕ), cal (d + (q * f + r + js.length) / f), d + (q * f + r + js.length) / f + 1⟩) := by
  induction js generalizing q r with
  | nil =>
    have h1 : (q * f + r) / f = q := by
      rw [Nat.mul_comm, Nat.mul_add_div hf, Nat.div_eq_of_lt hr]; rfl
    have h2 : (q * f + r) % f = r := by
      rw [Nat.mul_comm, Nat.mul_add_mod, Nat.mod_eq_of_lt hr]
    simp [correct, h1, h2]
  | cons j js ih =>
    have step : ∃ q' r', r' < f ∧ q' * f + r' = q * f + r + 1 ∧
        refresh cal (⟨f, f - 1 - r, cal (d + q), d + q + 1⟩ : St F) = ⟨f, f - 1 - r', cal (d + q'), d + q' + 1⟩ := by
      by_cases h : r + 1 = f
      · refine ⟨q + 1, 0, hf, by rw [Nat.succ_mul]; omega, ?_⟩
        unfold refresh calibrate
        rw [if_pos (by show (f : ℤ) - 1 - r = 0; omega)]
        simp [Nat.add_assoc]
      · refine ⟨q, r + 1, by omega, by omega, ?_⟩
        unfold refresh
        rw [if_neg (by show ¬ (f : ℤ) - 1 - r = 0; omega)]
        simp only [St.mk.injEq, true_and, and_true]
        push_cast; ring
    obtain ⟨q', r', hr', he, hs⟩ := step
    have hq : (q * f + r + 1) / f = q' := by
      rw [← he, Nat.mul_comm, Nat.mul_add_div hf, Nat.div_eq_of_lt hr']; rfl
    have := ih q' r' hr'
    unfold correct
    simp only [MeasFilter.read, hs, this, List.length_cons]
    rw [he]
    refine Prod.ext ?_ ?_
    · simp only
      rw [List.range_succ_eq_map, List.zipWith_cons_cons, List.zipWith_map_left]
      congr 1
      · rw [Nat.add_zero, hq]
      · congr 1
        funext k j
        congr 4
        omega
    · simp only
      have : q * f + r + 1 + js.length = q * f + r + (js.length + 1) := by omega
      rw [this]

/-- **C137, the schedule.**  With frequency `f ≥ 1` the circuits are counted from the call that switches the mitigation on; circuit number `k` (from zero) is corrected
with the calibration number `⌊(k+1)/f⌋`, and so many calibrations, with the initial one, have been executed. -/
theorem C137_schedule (cal : ℕ → F) (ap : F → D → D) (f : ℕ) (hf : 0 < f) (d : ℕ) (js : List D) :
    (correct cal ap (init cal f d) js).1 = (List.range js.length).zipWith (fun k j => ap (cal (d + (k + 1) / f)) j) js ∧
      (correct cal ap (init cal f d) js).2.done = d + js.length / f + 1 := by
  have := correct_state_pos cal ap f hf d js 0 0 hf
  have hi : init cal (f : ℤ) d = ⟨f, f - 1 - (0 : ℕ), cal (d + 0), d + 0 + 1⟩ := by simp [init, calibrate]
  rw [hi, this]
  simp

/-- Successive runs continue the count: correcting two lists after each other is correcting the joined list. -/
theorem C137_runs (cal : ℕ → F) (ap : F → D → D) (s : St F) (js ks : List D) :
    (correct cal ap s (js ++ ks)).1 = (correct cal ap s js).1 ++ (correct cal ap (correct cal ap s js).2 ks).1 ∧
      (correct cal ap s (js ++ ks)).2 = (correct cal ap (correct cal ap s js).2 ks).2 := by
  induction js generalizing s with
  | nil => exact ⟨rfl, rfl⟩
  | cons j js ih =>
    have := ih (MeasFilter.read cal s).2
    constructor
    · show _ :: _ = _ :: _ ++ _
      rw [List.cons_append]; exact congrArg _ this.1
    · exact this.2

/-- The numbers of the calibrations used for `M` circuits, in order. -/
def usedFor (f : ℤ) (M : ℕ) : List ℕ := (correct id (fun c (_ : ℕ) => c) (init id f 0) (List.replicate M 0)).1

theorem usedFor_eq (f : ℕ) (hf : 0 < f) (M : ℕ) : usedFor f M = (List.range M).map fun k => (k + 1) / f := by
  unfold usedFor
  rw [(C137_schedule id (fun c (_ : ℕ) => c) f hf 0 (List.replicate M 0)).1, List.length_replicate]
  apply List.ext_getElem
  · simp
  · intro i h1 h2
    simp

theorem usedFor_count (f : ℕ) (hf : 0 < f) (M c : ℕ) : (usedFor f M).count c = ((Finset.range M).filter fun k => (k + 1) / f = c).card := by
  rw [usedFor_eq f hf, List.count, List.countP_map, List.countP_eq_length_filter]
  rw [← List.toFinset_card_of_nodup (List.Nodup.filter _ List.nodup_range)]
  congr 1
  ext k
  simp

/-- **C137, the frequency.**  Every calibration after the initial one corrects exactly `f` circuits, once enough circuits have been run. -/
theorem C137_frequency_partial (f : ℕ) (hf : 0 < f) (c : ℕ) (hc : 0 < c) (M : ℕ) (hM : (c + 1) * f ≤ M + 1) : (usedFor f M).count c = f := by
  have h1 : 1 ≤ c * f := Nat.mul_pos hc hf
  have h2 : (c + 1) * f = c * f + f := Nat.succ_mul c f
  have : ((Finset.range M).filter fun k => (k + 1) / f = c) = Finset.Ico (c * f - 1) ((c + 1) * f - 1) := by
    ext k
    rw [Finset.mem_filter, Finset.mem_range, Finset.mem_Ico]
    have h3 : (k + 1) / f = c ↔ c * f ≤ k + 1 ∧ k + 1 < (c + 1) * f := by
      rw [← Nat.le_div_iff_mul_le hf, ← Nat.div_lt_iff_lt_mul hf]
      omega
    rw [h3]
    omega
  rw [usedFor_count f hf, this, Nat.card_Ico]
  omega

/-- **C137 fails** for the initial calibration: it corrects one circuit less than asked for. -/
theorem C137_initial_fails (f : ℕ) (hf : 0 < f) (M : ℕ) (hM : f ≤ M + 1) : (usedFor f M).count 0 = f - 1 := by
  have : ((Finset.range M).filter fun k => (k + 1) / f = 0) = Finset.range (f - 1) := by
    ext k
    rw [Finset.mem_filter, Finset.mem_range, Finset.mem_range, Nat.div_eq_zero_iff]
    omega
  rw [usedFor_count f hf, this, Finset.card_range]

/-- **C137, one calibration for a run.**  A run of `M` circuits after `m` others is corrected with a single calibration exactly when no renewal falls due after its first
circuit. -/
theorem C137_single_partial (f : ℕ) (hf : 0 < f) (m M : ℕ) (hM : 0 < M) :
    (∃ c, ∀ k (h : m + k < (usedFor f (m + M)).length), k < M → (usedFor f (m + M))[m + k] = c) ↔ (m + 1) % f + (M - 1) < f := by
  have hlen : (usedFor (f : ℤ) (m + M)).length = m + M := by rw [usedFor_eq f hf]; simp
  have hget : ∀ k (h : m + k < (usedFor (f : ℤ) (m + M)).length), (usedFor (f : ℤ) (m + M))[m + k] = (m + k + 1) / f := by
    intro k h
    simp [usedFor_eq f hf]
  constructor
  · rintro ⟨c, hc⟩
    have h0 := hc 0 (by rw [hlen]; omega) hM
    have h1 := hc (M - 1) (by rw [hlen]; omega) (by omega)
    rw [hget] at h0 h1
    have e0 := Nat.div_add_mod (m + 0 + 1) f
    have e1 := Nat.div_add_mod (m + (M - 1) + 1) f
    have l1 := Nat.mod_lt (m + (M - 1) + 1) hf
    rw [h0] at e0
    rw [h1] at e1
    have : m + 0 + 1 = m + 1 := rfl
    rw [this] at e0
    omega
  · intro h
    refine ⟨(m + 1) / f, fun k hk hkM => ?_⟩
    rw [hget]
    have e0 := Nat.div_add_mod (m + 1) f
    have : m + k + 1 = f * ((m + 1) / f) + ((m + 1) % f + k) := by omega
    have h5 : ((m + 1) % f + k) / f = 0 := Nat.div_eq_of_lt (by omega)
    rw [this, Nat.mul_add_div hf, h5]
    rfl

/-- **C137 fails** for a run with more circuits than the frequency: whatever was run before, its circuits are corrected with different calibrations. -/
theorem C137_mixed_fails (f : ℕ) (hf : 0 < f) (m M : ℕ) (hM : f < M) :
    ¬ ∃ c, ∀ k (h : m + k < (usedFor f (m + M)).length), k < M → (usedFor f (m + M))[m + k] = c := by
  rw [C137_single_partial f hf m M (by omega)]
  omega

/-- **C137 fails** for a frequency that is not positive: the calibration is never repeated. -/
theorem C137_never (cal : ℕ → F) (ap : F → D → D) (f : ℤ) (hf : f ≤ 0) (d : ℕ) (js : List D) :
    (correct cal ap (init cal f d) js).1 = js.map (ap (cal d)) := by
  have : ∀ (s : St F), s.n < 0 → (correct cal ap s js).1 = js.map (ap s.filt) := by
    induction js with
    | nil => intro s _; rfl
    | cons j js ih =>
      intro s hs
      have e : refresh cal s = { s with n := s.n - 1 } := by unfold refresh; rw [if_neg (by omega)]
      unfold correct
      simp only [MeasFilter.read, e, List.map_cons]
      rw [ih { s with n := s.n - 1 } (by show s.n - 1 < 0; omega)]
  exact this _ (by show f - 1 < 0; omega)

/-- **C137 fails** for a filter assigned by the user when it is time to calibrate, for frequency one always: it corrects no circuit. -/
theorem C137_assigned_fails (cal : ℕ → F) (ap : F → D → D) (s : St F) (h : s.n = 0) (b : F) (js : List D) :
    correct cal ap (assign s b) js = (match js with | [] => ([], assign s b) | _ => correct cal ap s js) := by
  cases js with
  | nil => rfl
  | cons j js =>
    have : refresh cal (assign s b) = refresh cal s := by
      unfold refresh assign
      rw [if_pos h, if_pos h]
    unfold correct
    simp only [MeasFilter.read, this]

/-- **C137, assigned filters.**  A filter assigned with `n` readings left before the renewal corrects the next `n` circuits; after them a calibration is used. -/
theorem C137_assigned_partial (cal : ℕ → F) (ap : F → D → D) (s : St F) (b : F) (n : ℕ) (h : s.n = n) (js : List D) (hj : js.length = n) (j : D) (ks : List D) :
    (correct cal ap (assign s b) (js ++ j :: ks)).1 = js.map (ap b) ++ ap (cal s.done) j :: (correct cal ap (calibrate cal s.freq s.done) ks).1 := by
  have key : ∀ (js : List D) (t : St F), t.n = (js.length : ℤ) → t.filt = b → t.done = s.done → t.freq = s.freq →
      (correct cal ap t (js ++ j :: ks)).1 = js.map (ap b) ++ ap (cal s.done) j :: (correct cal ap (calibrate cal s.freq s.done) ks).1 := by
    intro js
    induction js with
    | nil =>
      intro t h1 _ h3 h4
      have e : refresh cal t = calibrate cal s.freq s.done := by unfold refresh; rw [if_pos (by simpa using h1), h3, h4]
      show ap (refresh cal t).filt j :: (correct cal ap (refresh cal t) ks).1 = _
      rw [e]; rfl
    | cons i js ih =>
      intro t h1 h2 h3 h4
      rw [List.length_cons] at h1
      have e : refresh cal t = { t with n := t.n - 1 } := by unfold refresh; rw [if_neg (by omega)]
      show ap (refresh cal t).filt i :: (correct cal ap (refresh cal t) (js ++ j :: ks)).1 = _
      rw [e, ih { t with n := t.n - 1 } (by show t.n - 1 = _; omega) h2 h3 h4]
      show ap t.filt i :: _ = _
      rw [h2]; rfl
  exact key js (assign s b) (by rw [hj]; exact h) rfl rfl rfl

/-- With frequency one it is always time to calibrate. -/
theorem C137_one (cal : ℕ → F) (ap : F → D → D) (d : ℕ) (js : List D) : (correct cal ap (init cal 1 d) js).2.n = 0 := by
  have := correct_state_pos cal ap 1 Nat.one_pos d js 0 0 Nat.one_pos
  have hi : init cal (1 : ℤ) d = ⟨(1 : ℕ), (1 : ℕ) - 1 - (0 : ℕ), cal (d + 0), d + 0 + 1⟩ := by simp [init, calibrate]
  rw [hi, this]
  simp [Nat.mod_one]

/-- Seven circuits with the default frequency three: the calibrations used. -/
example : (correct (fun j => j) (fun c _ => c) (init (fun j => j) 3 0) (List.replicate 7 0)).1 = [0, 0, 1, 1, 1, 2, 2] := by decide

end HQCA.Props
