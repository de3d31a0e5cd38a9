import Verif.Props.StabProcess

/-!
# Property theorems: post-selection by the encoded symmetries (C130)
-/

namespace HQCA.Props
open HQCA HQCA.StabProcess HQCA.Prim HQCA.Prepare

/-- The native string of a symmetry. -/
def native (tm : List (PStr × PStr)) (z m : PStr) : Prop := (tm.find? fun t => decide (t.1 = z)).map (·.2) = some m

/-- Values of the native strings in a record. -/
def symVals (ms : List PStr) (k : List Bool) : List ℤ := ms.map fun m => outcome 0 m (record k)

theorem outcome_pm (n : ℕ) (s : PStr) (b : Cfg) : outcome n s b = 1 ∨ outcome n s b = -1 := by
  induction s generalizing n with
  | nil => left; rfl
  | cons p s ih =>
    rcases ih (n + 1) with h | h <;> cases p <;> cases hb : b n <;> simp [outcome, h, hb]

theorem counts_one {Nq : ℕ} {m : PStr} (hm : m.length ≤ Nq) (kv : List Bool × ℂ) (hk : kv.1.length = Nq) (h0 : kv.2 ≠ 0) :
    Process.counts Nq m [kv] = some ((outcome 0 m (record kv.1) : ℤ) : ℂ) := by
  rw [C26_mean Nq m hm [kv] (by simpa using hk) (by simpa using h0)]
  simp [h0]

theorem mapM_vals {Nq : ℕ} {tm : List (PStr × PStr)} {zz ms : List PStr} (hz : List.Forall₂ (native tm) zz ms)
    (hm : ∀ m ∈ ms, m.length ≤ Nq) (kv : List Bool × ℂ) (hk : kv.1.length = Nq) (h0 : kv.2 ≠ 0) :
    (zz.mapM fun z => do
      let m ← (tm.find? fun t => decide (t.1 = z)).map (·.2)
      Process.counts Nq m [kv]) = some ((symVals ms kv.1).map fun x => (x : ℂ)) := by
  induction hz with
  | nil => rfl
  | @cons z m zz ms h _ ih =>
    rw [List.mapM_cons, ih (fun m hm' => hm m (by simp [hm']))]
    unfold native at h
    rw [h]
    simp only [Option.bind_eq_bind, Option.bind_some]
    rw [counts_one (hm m (by simp)) kv hk h0]
    simp [symVals]

/-- The test of the code on the signs themselves. -/
def keepZ (g : List ℤ) : Bool := match g with
  | [a] => decide (a = -1)
  | [a, b] => decide (a = b)
  | [a, b, c] => decide (a * b * c = 1) && decide (¬ (a = 1 ∧ b = 1 ∧ c = 1))
  | _ => false

theorem keep_eq (g : List ℤ) (hg : ∀ x ∈ g, x = 1 ∨ x = -1) (h0 : g ≠ []) (h3 : g.length ≤ 3) :
    keep (g.map fun x => (x : ℂ)) = some (keepZ g) := by
  match g, h0, h3 with
  | [a], _, _ =>
    rcases hg a (by simp) with rfl | rfl <;> simp [keep, wanted, keepZ] <;> norm_num
  | [a, b], _, _ =>
    rcases hg a (by simp) with rfl | rfl <;> rcases hg b (by simp) with rfl | rfl <;>
      simp [keep, wanted, keepZ] <;> norm_num
  | [a, b, c], _, _ =>
    rcases hg a (by simp) with rfl | rfl <;> rcases hg b (by simp) with rfl | rfl <;> rcases hg c (by simp) with rfl | rfl <;>
      simp [keep, wanted, keepZ] <;> norm_num

variable {T : Term FStr ℂ → Option (POp ℂ)} {Nq no ne na nb : ℕ} {tm : List (PStr × PStr)} {zz ms : List PStr} {original : PStr}

theorem filterEncoded_eq (ho : original ≠ List.replicate Nq .Z) (hz : List.Forall₂ (native tm) zz ms) (hm : ∀ m ∈ ms, m.length ≤ Nq)
    (h0 : zz ≠ []) (h3 : zz.length ≤ 3) (c : List (List Bool × ℂ)) (hc : ∀ kv ∈ c, kv.1.length = Nq ∧ kv.2 ≠ 0) :
    filterEncoded T Nq no ne na nb zz tm original c = some (c.filter fun kv => keepZ (symVals ms kv.1)) := by
  unfold filterEncoded
  rw [if_neg ho, if_neg h0]
  refine filterM_some _ _ c fun kv hkv => ?_
  rw [mapM_vals hz hm kv (hc kv hkv).1 (hc kv hkv).2]
  simp only [Option.bind_eq_bind, Option.bind_some]
  have hl := hz.length_eq
  refine keep_eq _ ?_ ?_ ?_
  · intro x hx
    obtain ⟨m, -, rfl⟩ := List.mem_map.mp hx
    exact outcome_pm _ _ _
  · intro h
    rw [symVals, List.map_eq_nil_iff] at h
    subst h
    exact h0 (List.length_eq_zero_iff.mp hl)
  · rw [symVals, List.length_map, ← hl]; exact h3

/-- **C130, no or one symmetry.**  Without symmetries every record is kept, with one symmetry exactly the records in which it
is `-1`. -/
theorem C130_one_partial (ho : original ≠ List.replicate Nq .Z) (c : List (List Bool × ℂ)) :
    filterEncoded T Nq no ne na nb [] tm original c = some c ∧
    ∀ z m, native tm z m → m.length ≤ Nq → (∀ kv ∈ c, kv.1.length = Nq ∧ kv.2 ≠ 0) →
      filterEncoded T Nq no ne na nb [z] tm original c = some (c.filter fun kv => decide (outcome 0 m (record kv.1) = -1)) := by
  constructor
  · simp [filterEncoded, ho]
  · intro z m hz hm hc
    rw [filterEncoded_eq ho (ms := [m]) (by simpa using hz) (by simpa using hm) (by simp) (by simp) c hc]
    rfl

/-- **C130, two and three symmetries.**  With two symmetries the records in which they have equal values are kept; with three
the records in which exactly one of them is `+1`. -/
theorem C130_more_partial (ho : original ≠ List.replicate Nq .Z) (c : List (List Bool × ℂ)) (hc : ∀ kv ∈ c, kv.1.length = Nq ∧ kv.2 ≠ 0)
    (hz : List.Forall₂ (native tm) zz ms) (hm : ∀ m ∈ ms, m.length ≤ Nq) :
    (zz.length = 2 → filterEncoded T Nq no ne na nb zz tm original c =
      some (c.filter fun kv => decide (symVals ms kv.1 = [1, 1] ∨ symVals ms kv.1 = [-1, -1]))) ∧
    (zz.length = 3 → filterEncoded T Nq no ne na nb zz tm original c =
      some (c.filter fun kv => decide ((symVals ms kv.1).count 1 = 1))) := by
  have hl := hz.length_eq
  have pm : ∀ k, ∀ x ∈ symVals ms k, x = 1 ∨ x = -1 := by
    intro k x hx
    obtain ⟨m, -, rfl⟩ := List.mem_map.mp hx
    exact outcome_pm _ _ _
  have ll : ∀ k, (symVals ms k).length = zz.length := by intro k; rw [symVals, List.length_map, hl]
  constructor <;> intro h
  · rw [filterEncoded_eq ho hz hm (by rintro rfl; simp at h) (by omega) c hc]
    congr 1
    refine List.filter_congr fun kv _ => ?_
    have h2 := ll kv.1
    have h3 := pm kv.1
    rw [h] at h2
    obtain ⟨a, b, e⟩ := List.length_eq_two.mp h2
    rw [e] at h3 ⊢
    rcases h3 a (by simp) with rfl | rfl <;> rcases h3 b (by simp) with rfl | rfl <;> decide
  · rw [filterEncoded_eq ho hz hm (by rintro rfl; simp at h) (by omega) c hc]
    congr 1
    refine List.filter_congr fun kv _ => ?_
    have h2 := ll kv.1
    have h3 := pm kv.1
    rw [h] at h2
    obtain ⟨a, b, d, e⟩ := List.length_eq_three.mp h2
    rw [e] at h3 ⊢
    rcases h3 a (by simp) with rfl | rfl <;> rcases h3 b (by simp) with rfl | rfl <;> rcases h3 d (by simp) with rfl | rfl <;> decide

/-- Four and more symmetries: the first record raises (`UnboundLocalError`). -/
theorem C130_four_raises (ho : original ≠ List.replicate Nq .Z) (kv : List Bool × ℂ) (c : List (List Bool × ℂ))
    (h4 : 4 ≤ zz.length) : filterEncoded T Nq no ne na nb zz tm original (kv :: c) = none := by
  unfold filterEncoded
  rw [if_neg ho, if_neg (by rintro rfl; simp at h4)]
  simp only [List.filterM, List.filterAuxM]
  set f : PStr → Option ℂ := fun z => do
    let m ← (tm.find? fun t => decide (t.1 = z)).map (·.2)
    Process.counts Nq m [kv]
  have hl : ∀ (zz : List PStr) g, zz.mapM f = some g → g.length = zz.length := by
    intro zz
    induction zz with
    | nil => intro g hg; simp at hg; subst hg; rfl
    | cons z zz ih =>
      intro g hg
      rw [List.mapM_cons] at hg
      cases h1 : f z with
      | none => simp [h1] at hg
      | some a =>
        cases h2 : zz.mapM f with
        | none => simp [h1, h2] at hg
        | some b =>
          simp [h1, h2] at hg
          subst hg
          simp [ih b h2]
  cases h : zz.mapM f with
  | none => simp [h]
  | some g =>
    have := hl zz g h
    have hw : wanted g.length = none := by
      rw [this]
      match zz.length, h4 with
      | n + 4, _ => rfl
    simp [h, keep, hw]

/-- **C130 fails in general.**  Let `e` be the values which the symmetries ought to have and suppose that every combination of
values occurs in some record.  The filter keeps exactly the records with the values `e` if and only if there is no symmetry, or one
symmetry with the value `-1`. -/
theorem C130_fails (ho : original ≠ List.replicate Nq .Z) (hz : List.Forall₂ (native tm) zz ms) (hm : ∀ m ∈ ms, m.length ≤ Nq)
    (all : ∀ e : List ℤ, e.length = ms.length → (∀ x ∈ e, x = 1 ∨ x = -1) → ∃ k : List Bool, k.length = Nq ∧ symVals ms k = e)
    (e : List ℤ) (he : e.length = ms.length) (hpm : ∀ x ∈ e, x = 1 ∨ x = -1) :
    (∀ c : List (List Bool × ℂ), (∀ kv ∈ c, kv.1.length = Nq ∧ kv.2 ≠ 0) →
      filterEncoded T Nq no ne na nb zz tm original c = some (c.filter fun kv => decide (symVals ms kv.1 = e)))
    ↔ e = [] ∨ e = [-1] := by
  have hl := hz.length_eq
  constructor
  · intro h
    rcases Nat.lt_or_ge 3 e.length with h4 | h3
    · exfalso
      obtain ⟨k, hk, -⟩ := all e he hpm
      have := h [(k, 1)] (by simpa using hk)
      rw [C130_four_raises ho _ _ (by omega)] at this
      exact absurd this (by simp)
    by_cases h0 : e = []
    · exact Or.inl h0
    have hzz : zz ≠ [] := by
      rintro rfl
      simp at hl
      rw [← hl] at he
      exact h0 (List.length_eq_zero_iff.mp he)
    have key : ∀ g : List ℤ, g.length = ms.length → (∀ x ∈ g, x = 1 ∨ x = -1) → (keepZ g = true ↔ g = e) := by
      intro g hg hgp
      obtain ⟨k, hk, hs⟩ := all g hg hgp
      have h1 := h [(k, 1)] (by simpa using hk)
      rw [filterEncoded_eq ho hz hm hzz (by omega) _ (by simpa using hk), Option.some_inj] at h1
      simp only [List.filter_cons, List.filter_nil, hs] at h1
      by_cases a : keepZ g <;> by_cases b : g = e <;> simp_all
    match e, h0, h3 with
    | [a], _, _ =>
      rcases hpm a (by simp) with rfl | rfl
      · exact absurd ((key [1] (by simpa using he) (by simp)).mpr rfl) (by decide)
      · exact Or.inr rfl
    | [a, b], _, _ =>
      exfalso
      have h1 := (key [1, 1] (by simpa using he) (by simp)).mp (by decide)
      have h2 := (key [-1, -1] (by simpa using he) (by simp)).mp (by decide)
      rw [← h1] at h2
      exact absurd h2 (by decide)
    | [a, b, d], _, _ =>
      exfalso
      have h1 := (key [1, -1, -1] (by simpa using he) (by simp)).mp (by decide)
      have h2 := (key [-1, 1, -1] (by simpa using he) (by simp)).mp (by decide)
      rw [← h1] at h2
      exact absurd h2 (by decide)
  · rintro (rfl | rfl) c hc
    · have : ms = [] := List.length_eq_zero_iff.mp he.symm
      subst this
      cases hz
      rw [(C130_one_partial ho c).1]
      simp [symVals]
    · obtain ⟨m, rfl⟩ := List.length_eq_one_iff.mp he.symm
      obtain ⟨z, rfl⟩ := List.length_eq_one_iff.mp (hl.trans (by simp))
      have hn : native tm z m := by simpa using hz
      rw [(C130_one_partial ho c).2 z m hn (hm m (by simp)) hc]
      simp [symVals]

/-- **C130, the whole evaluation fails.**  With encoded symmetries no value is ever returned: the string to be measured is looked up
with the number `0` in a dictionary whose keys are strings. -/
theorem C130_measure_raises (T : Term FStr ℂ → Option (POp ℂ)) (Nq no ne na nb : ℕ) (zz : List PStr) (tm : List (PStr × PStr))
    (paulis : List (PStr × List PStr × ℂ)) (original s : PStr) (c : List (List Bool × ℂ)) :
    processEncoded T Nq no ne na nb zz tm paulis original s c = none := by
  have hi : ∀ A, item A (.inl 0) = none := by intro A; simp [item]
  have hm : ∀ c', measureEncoded Nq tm paulis s c' = none := by
    intro c'
    simp [measureEncoded, hi]
  unfold processEncoded
  rcases filterEncoded T Nq no ne na nb zz tm original c with _ | c'
  · rfl
  · exact hm c'

/-- The group of `XXXX` on four qubits, whose `Z` symmetries are `ZZII`, `ZIZI`, `ZIIZ`, with one electron of each spin (orbitals 0, 1 alpha
and 2, 3 beta).  Native strings `IZII`, `IIZI`, `IIIZ`: all combinations of values occur, so that `C130_fails` applies. -/
example : ∀ e : List ℤ, e.length = 3 → (∀ x ∈ e, x = 1 ∨ x = -1) → ∃ k : List Bool, k.length = 4 ∧
    symVals [[.I, .Z, .I, .I], [.I, .I, .Z, .I], [.I, .I, .I, .Z]] k = e := by
  intro e he hp
  obtain ⟨a, b, d, rfl⟩ := List.length_eq_three.mp he
  rcases hp a (by simp) with rfl | rfl <;> rcases hp b (by simp) with rfl | rfl <;> rcases hp d (by simp) with rfl | rfl
  · exact ⟨[false, false, false, false], by decide⟩
  · exact ⟨[true, false, false, false], by decide⟩
  · exact ⟨[false, true, false, false], by decide⟩
  · exact ⟨[true, true, false, false], by decide⟩
  · exact ⟨[false, false, true, false], by decide⟩
  · exact ⟨[true, false, true, false], by decide⟩
  · exact ⟨[false, true, true, false], by decide⟩
  · exact ⟨[true, true, true, false], by decide⟩

/-- In this group a record with the values of two alpha electrons is kept along with the right ones. -/
example : keepZ (symVals [[.I, .Z, .I, .I], [.I, .I, .Z, .I], [.I, .I, .I, .Z]] [true, true, false, false]) = true := by decide

end HQCA.Props
