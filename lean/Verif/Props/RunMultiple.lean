import Verif.Model.RunMultiple
import Mathlib.Tactic.IntervalCases
import Mathlib.Data.List.Nodup

/-!
# C117: several tomographies in one job
-/

namespace HQCA
namespace Props

open RunMultiple

variable {C R : Type}

theorem hasName_iff (s : List Char) (c : List Char × C) : hasName s c = true ↔ c.1 = s := by simp [hasName]

theorem digit_toNat (n : ℕ) : (digit n).toNat - 48 = n % 10 := by
  unfold digit
  have h : n % 10 < 10 := Nat.mod_lt _ (by norm_num)
  generalize n % 10 = k at h
  interval_cases k <;> decide

theorem fmt2_eq (n : ℕ) : ∃ pre, fmt2 n = pre ++ [digit (n / 10), digit n] ∧ (n < 100 → pre = []) := by
  unfold fmt2
  split_ifs with h
  · exact ⟨[], rfl, fun _ => rfl⟩
  · refine ⟨((Nat.digits 10 (n / 10 / 10)).reverse).map digit, ?_, fun h' => absurd h' h⟩
    rw [Nat.digits_def' (by norm_num) (by omega), Nat.digits_def' (by norm_num) (by omega)]
    have e1 : digit (n % 10) = digit n := by unfold digit; rw [Nat.mod_mod]
    have e2 : digit (n / 10 % 10) = digit (n / 10) := by unfold digit; rw [Nat.mod_mod]
    simp [e1, e2]

theorem index_base (s : List Char) (n : ℕ) : index (s ++ fmt2 n) = n % 100 ∧ (n < 100 → base (s ++ fmt2 n) = s) := by
  obtain ⟨pre, h1, h2⟩ := fmt2_eq n
  constructor
  · unfold index
    rw [h1, ← List.append_assoc]
    have : (s ++ pre ++ [digit (n / 10), digit n]).length - 2 = (s ++ pre).length := by simp; omega
    rw [this, List.drop_left]
    simp only [List.map_cons, List.map_nil, List.foldl_cons, List.foldl_nil, digit_toNat]
    omega
  · intro h
    unfold base
    rw [h1, h2 h, List.nil_append]
    have : (s ++ [digit (n / 10), digit n]).length - 2 = s.length := by simp
    rw [this, List.take_left]

theorem mem_renamed (ts : List (List (List Char × C))) (c : List Char × C) :
    c ∈ renamed ts ↔ ∃ n t, ts[n]? = some t ∧ ∃ d ∈ t, c = (d.1 ++ fmt2 n, d.2) := by
  unfold renamed
  rw [List.mem_flatMap]
  constructor
  · rintro ⟨⟨t, n⟩, h1, h2⟩
    rw [List.mem_zipIdx_iff_getElem?] at h1
    obtain ⟨d, h3, h4⟩ := List.mem_map.mp h2
    exact ⟨n, t, h1, d, h3, h4.symm⟩
  · rintro ⟨n, t, h1, d, h3, h4⟩
    exact ⟨(t, n), by rw [List.mem_zipIdx_iff_getElem?]; exact h1, List.mem_map.mpr ⟨d, h3, h4.symm⟩⟩

theorem store_fold (len : ℕ) (run : C → R) (job : List (List Char × C)) (L : List (List Char × C)) (T0 : Tables R)
    (hf : ∀ c ∈ L, ∃ r, fetch run job c.1 = some r) (hi : ∀ c ∈ L, index c.1 < len) :
    ∃ T, L.foldlM (fun T c => (fetch run job c.1).bind fun r => store len T c.1 r) T0 = some T ∧
      (∀ n s, (∀ c ∈ L, ¬ (index c.1 = n ∧ base c.1 = s)) → T n s = T0 n s) ∧
      ∀ c ∈ L, (∀ c' ∈ L, index c'.1 = index c.1 → base c'.1 = base c.1 → c'.1 = c.1) → T (index c.1) (base c.1) = fetch run job c.1 := by
  induction L generalizing T0 with
  | nil => exact ⟨T0, rfl, fun _ _ _ => rfl, fun c hc => absurd hc (by simp)⟩
  | cons a L ih =>
    obtain ⟨r, hr⟩ := hf a (by simp)
    obtain ⟨T, h1, h2, h3⟩ := ih (fun n s => if n = index a.1 ∧ s = base a.1 then some r else T0 n s)
      (fun c hc => hf c (by simp [hc])) fun c hc => hi c (by simp [hc])
    refine ⟨T, ?_, fun n s h => ?_, fun c hc hu => ?_⟩
    · rw [List.foldlM_cons, hr]
      unfold store
      simp only [Option.bind_some, if_pos (hi a (by simp))]
      exact h1
    · rw [h2 n s fun c hc => h c (by simp [hc])]
      rw [if_neg]
      rintro ⟨e1, e2⟩
      exact h a (by simp) ⟨e1.symm, e2.symm⟩
    · by_cases hc' : ∃ d ∈ L, index d.1 = index c.1 ∧ base d.1 = base c.1
      · obtain ⟨d, hd, e1, e2⟩ := hc'
        have := h3 d hd fun c' hc' a1 a2 =>
          (hu c' (by simp [hc']) (a1.trans e1) (a2.trans e2)).trans (hu d (by simp [hd]) e1 e2).symm
        rw [e1, e2] at this
        rw [this, hu d (by simp [hd]) e1 e2]
      · have hca : c = a := by
          rcases List.mem_cons.mp hc with h | h
          · exact h
          · exact absurd ⟨c, h, rfl, rfl⟩ hc'
        subst hca
        rw [h2 _ _ fun d hd e => hc' ⟨d, hd, e⟩, if_pos ⟨rfl, rfl⟩, hr]

theorem fetch_mem (run : C → R) (job : List (List Char × C)) (c : List Char × C) (hc : c ∈ job) : ∃ r, fetch run job c.1 = some r := by
  unfold fetch
  rcases h : job.find? (hasName c.1) with _ | d
  · rw [List.find?_eq_none] at h
    exact absurd (h c hc) (by simp [hasName])
  · exact ⟨run d.2, rfl⟩

theorem runMultiple_spec (run : C → R) (ts : List (List (List Char × C))) :
    ∃ T, runMultiple false run ts = some T ∧
      (∀ n s, (∀ c ∈ renamed ts, ¬ (index c.1 = n ∧ base c.1 = s)) → T n s = none) ∧
      ∀ c ∈ renamed ts, (∀ c' ∈ renamed ts, index c'.1 = index c.1 → base c'.1 = base c.1 → c'.1 = c.1) →
        T (index c.1) (base c.1) = fetch run (renamed ts) c.1 := by
  obtain ⟨T, h1, h2, h3⟩ := store_fold ts.length run (renamed ts) (renamed ts) (fun _ _ => none)
    (fun c hc => fetch_mem run _ c hc) (by
      intro c hc
      obtain ⟨n, t, ht, d, hd, rfl⟩ := (mem_renamed ts c).mp hc
      have hn : n < ts.length := by
        by_contra hn
        rw [List.getElem?_eq_none (by omega)] at ht
        cases ht
      rw [(index_base d.1 n).1]
      exact lt_of_le_of_lt (Nat.mod_le _ _) hn)
  exact ⟨T, by rw [runMultiple]; exact h1, h2, h3⟩

/-- **C117.** With at most a hundred tomographies, whose circuits have different names inside each of them, every tomography gets under the name of each of
its circuits the result of that circuit, and nothing else. -/
theorem C117_dispatch_partial (run : C → R) (ts : List (List (List Char × C))) (hl : ts.length ≤ 100)
    (hd : ∀ t ∈ ts, (t.map (·.1)).Nodup) :
    ∃ T, runMultiple false run ts = some T ∧
      ∀ n s, T n s = ((ts[n]?).bind fun t => t.find? (hasName s)).map fun c => run c.2 := by
  obtain ⟨T, h1, h2, h3⟩ := runMultiple_spec run ts
  refine ⟨T, h1, fun n s => ?_⟩
  have hn : ∀ n t, ts[n]? = some t → n < 100 := by
    intro n t ht
    by_contra hc
    rw [List.getElem?_eq_none (by omega)] at ht
    cases ht
  have uniq : ∀ t ∈ ts, ∀ c ∈ t, ∀ c' ∈ t, c.1 = c'.1 → c = c' := by
    intro t ht c hc c' hc' e
    exact List.inj_on_of_nodup_map (hd t ht) hc hc' e
  rcases ht : ts[n]? with _ | t
  · rw [Option.bind_none, Option.map_none]
    refine h2 n s ?_
    rintro c hc ⟨e1, _⟩
    obtain ⟨m, t, hm, d, hdt, rfl⟩ := (mem_renamed ts c).mp hc
    rw [(index_base d.1 m).1, Nat.mod_eq_of_lt (hn m t hm)] at e1
    subst e1
    rw [hm] at ht
    cases ht
  · rw [Option.bind_some]
    have htm : t ∈ ts := List.mem_of_getElem? ht
    rcases hf : t.find? (hasName s) with _ | c
    · rw [Option.map_none]
      refine h2 n s ?_
      rintro c hc ⟨e1, e2⟩
      obtain ⟨m, t', hm, d, hdt, rfl⟩ := (mem_renamed ts c).mp hc
      rw [(index_base d.1 m).1, Nat.mod_eq_of_lt (hn m t' hm)] at e1
      subst e1
      rw [hm] at ht
      cases ht
      rw [(index_base d.1 m).2 (hn m _ hm)] at e2
      rw [List.find?_eq_none] at hf
      exact hf d hdt ((hasName_iff _ _).mpr e2)
    · have hcm : c ∈ t := List.mem_of_find?_eq_some hf
      have hcs : c.1 = s := (hasName_iff _ _).mp (List.find?_some hf)
      have hmem : (c.1 ++ fmt2 n, c.2) ∈ renamed ts := (mem_renamed ts _).mpr ⟨n, t, ht, c, hcm, rfl⟩
      have hi := index_base c.1 n
      have same : ∀ c' ∈ renamed ts, index c'.1 = n → base c'.1 = s → c' = (c.1 ++ fmt2 n, c.2) := by
        intro c' hc' e1 e2
        obtain ⟨m, t', hm, d, hdt, rfl⟩ := (mem_renamed ts c').mp hc'
        rw [(index_base d.1 m).1, Nat.mod_eq_of_lt (hn m t' hm)] at e1
        subst e1
        rw [hm] at ht
        cases ht
        rw [(index_base d.1 m).2 (hn m _ hm)] at e2
        rw [uniq t htm d hdt c hcm (e2.trans hcs.symm)]
      have e := h3 _ hmem (fun c' hc' a1 a2 => by
        rw [same c' hc' (by rw [a1, hi.1, Nat.mod_eq_of_lt (hn n t ht)]) (by rw [a2, hi.2 (hn n t ht), hcs])])
      rw [hi.1, hi.2 (hn n t ht), Nat.mod_eq_of_lt (hn n t ht), hcs] at e
      rw [e]
      unfold fetch
      rcases hg : (renamed ts).find? (hasName (c.1 ++ fmt2 n)) with _ | d
      · rw [List.find?_eq_none] at hg
        exact absurd (hg _ hmem) (by simp [hasName])
      · have hdm := List.mem_of_find?_eq_some hg
        have hds : d.1 = c.1 ++ fmt2 n := (hasName_iff _ _).mp (List.find?_some hg)
        have := same d hdm (by rw [hds, hi.1, Nat.mod_eq_of_lt (hn n t ht)]) (by rw [hds, hi.2 (hn n t ht), hcs])
        dsimp only
        rw [← hcs, hg, this]
        rfl

/-- **C117 fails** beyond a hundred tomographies: the job runs, but the tomographies from number 100 on get no result at all. -/
theorem C117_hundred_fails (run : C → R) (ts : List (List (List Char × C))) :
    ∃ T, runMultiple false run ts = some T ∧ ∀ n, 100 ≤ n → ∀ s, T n s = none := by
  obtain ⟨T, h1, h2, _⟩ := runMultiple_spec run ts
  refine ⟨T, h1, fun n hn s => h2 n s ?_⟩
  rintro c hc ⟨e1, _⟩
  obtain ⟨m, t, hm, d, hdt, rfl⟩ := (mem_renamed ts c).mp hc
  rw [(index_base d.1 m).1] at e1
  omega

/-- **C117 fails** when the same tomographies are run again: the circuits keep the names of the first job, so the results are filed under names the
tomographies do not ask for. -/
theorem C117_again_fails (run : C → R) (ts : List (List (List Char × C))) (hl : ts.length ≤ 100) (hd : ∀ t ∈ ts, (t.map (·.1)).Nodup)
    (q : ℕ) (hq : ∀ t ∈ ts, ∀ c ∈ t, c.1.length = q) :
    ∃ T, runMultiple false run (after ts) = some T ∧ ∀ n s, s.length = q → T n s = none := by
  have hmem : ∀ n t', (after ts)[n]? = some t' → ∃ t : List (List Char × C), ts[n]? = some t ∧
      t' = t.map (fun c => (c.1 ++ fmt2 n, c.2)) := by
    intro n t' h
    unfold after at h
    rw [List.getElem?_map, List.getElem?_zipIdx] at h
    rcases ht : ts[n]? with _ | t
    · rw [ht] at h; cases h
    · rw [ht] at h
      simp only [Option.map_some, zero_add, Option.some.injEq] at h
      exact ⟨t, rfl, h.symm⟩
  obtain ⟨T, h1, h2⟩ := C117_dispatch_partial run (after ts) (by unfold after; simpa using hl) (by
    intro t' ht'
    obtain ⟨n, hn⟩ := List.mem_iff_getElem?.mp ht'
    obtain ⟨t, ht, rfl⟩ := hmem n t' hn
    rw [List.map_map]
    have := hd t (List.mem_of_getElem? ht)
    have e : ((fun c : List Char × C => c.1) ∘ fun c : List Char × C => (c.1 ++ fmt2 n, c.2)) = (fun s => s ++ fmt2 n) ∘ fun c => c.1 := rfl
    rw [e, ← List.map_map]
    exact List.Nodup.map (fun a b h => List.append_cancel_right h) this)
  refine ⟨T, h1, fun n s hs => ?_⟩
  rw [h2]
  rcases ht : (after ts)[n]? with _ | t'
  · rfl
  · obtain ⟨t, ht', rfl⟩ := hmem n t' ht
    rw [Option.bind_some, List.find?_eq_none.mpr, Option.map_none]
    intro c hc
    obtain ⟨d, hdm, rfl⟩ := List.mem_map.mp hc
    have hl := hq t (List.mem_of_getElem? ht') d hdm
    obtain ⟨pre, h5, _⟩ := fmt2_eq n
    rw [hasName_iff]
    intro e
    have := congrArg List.length e
    rw [h5] at this
    simp at this
    omega

/-- **C117 fails** with the measurement filter: as soon as there is a circuit the call raises. -/
theorem C117_filter_fails (run : C → R) (ts : List (List (List Char × C))) (t : List (List Char × C)) (ht : t ∈ ts) (h : t ≠ []) :
    runMultiple true run ts = none := by
  unfold runMultiple
  rw [if_pos rfl, if_neg]
  intro e
  obtain ⟨c, hc⟩ := List.exists_mem_of_ne_nil t h
  obtain ⟨n, hn⟩ := List.mem_iff_getElem?.mp ht
  have : (c.1 ++ fmt2 n, c.2) ∈ renamed ts := (mem_renamed ts _).mpr ⟨n, t, hn, c, hc, rfl⟩
  rw [e] at this
  cases this

/-- Two tomographies sharing a basis name. -/
example : ∃ T, runMultiple false (fun c : ℕ => 10 * c) [[("ZZ".toList, 1), ("XX".toList, 2)], [("ZZ".toList, 3)]] = some T ∧
    T 0 "ZZ".toList = some 10 ∧ T 0 "XX".toList = some 20 ∧ T 1 "ZZ".toList = some 30 ∧ T 1 "XX".toList = none := by
  obtain ⟨T, h1, h2⟩ := C117_dispatch_partial (fun c : ℕ => 10 * c) [[("ZZ".toList, 1), ("XX".toList, 2)], [("ZZ".toList, 3)]] (by simp) (by decide)
  exact ⟨T, h1, by rw [h2]; decide, by rw [h2]; decide, by rw [h2]; decide, by rw [h2]; decide⟩

end Props
end HQCA
