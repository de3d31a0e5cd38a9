import Mathlib.Tactic.Linarith
import Verif.Model.Ansatz
import Verif.Proofs.Operator

/-!
# C39: accumulation of generators in an ansatz
-/

set_option linter.unusedSectionVars false

namespace HQCA
namespace Props
open Ansatz
variable {α K : Type} [DecidableEq α] [Coef K]

/-- Total coefficient of the term `s` over all layers. -/
def total (L : List (OpD α K)) (s : α) : K := (L.map (fun A => coef A s)).sum

theorem total_append (L M : List (OpD α K)) (s : α) : total (L ++ M) s = total L s + total M s := by
  simp [total]

theorem addStr_ne_nil (A : OpD α K) (t : Term α K) : OpD.addStr A t ≠ [] := by
  unfold OpD.addStr
  split_ifs with h
  · intro hc
    have hA : A = [] := by simpa using hc
    subst hA
    simp [OpD.hasKey] at h
  · simp

theorem total_modify (L : List (OpD α K)) (hL : ∀ A ∈ L, UniqueKeys A) (i : ℕ) (hi : i < L.length)
    (t : Term α K) (s : α) :
    total (L.modify i (fun A => OpD.addStr A t)) s = total L s + (if t.1 = s then t.2 else 0) := by
  induction L generalizing i with
  | nil => simp at hi
  | cons A L ih =>
    cases i with
    | zero =>
      rw [List.modify_zero_cons]
      simp only [total, List.map_cons, List.sum_cons]
      have := OpD.coef_foldl_addStr [t] A (hL A List.mem_cons_self) s
      simp only [List.foldl_cons, List.foldl_nil] at this
      rw [this, OpD.coef_eq_sum [t]]
      simp only [List.map_cons, List.map_nil, List.sum_cons, List.sum_nil, add_zero]
      ring
    | succ i =>
      rw [List.modify_succ_cons]
      have := ih (fun B hB => hL B (List.mem_cons_of_mem _ hB)) i (by simpa using hi)
      simp only [total, List.map_cons, List.sum_cons] at this ⊢
      rw [this]; ring

theorem findLayer_some {L : List (OpD α K)} {s : α} {m n i : ℕ} (h : findLayer L s m n = some i) :
    i < n ∧ n ≤ i + m ∧ (L.getD i []).hasKey s = true := by
  induction m generalizing n with
  | zero => simp [findLayer] at h
  | succ m ih =>
    cases n with
    | zero => simp [findLayer] at h
    | succ n =>
      rw [findLayer] at h
      split_ifs at h with hk
      · have : n = i := by simpa using h
        subst this
        exact ⟨by omega, by omega, hk⟩
      · have := ih h
        exact ⟨by omega, by omega, this.2.2⟩

theorem unique_modify (L : List (OpD α K)) (hL : ∀ A ∈ L, UniqueKeys A) (i : ℕ) (t : Term α K) :
    ∀ A ∈ L.modify i (fun A => OpD.addStr A t), UniqueKeys A := by
  intro A hA
  rw [List.mem_iff_getElem?] at hA
  obtain ⟨j, hj⟩ := hA
  rw [List.getElem?_modify] at hj
  cases hLj : L[j]? with
  | none => rw [hLj] at hj; simp at hj
  | some B =>
    rw [hLj] at hj
    have hB := hL B (List.mem_of_getElem? hLj)
    split_ifs at hj
    · simp at hj; rw [← hj]; exact OpD.addStr_unique B t hB
    · simp at hj; rw [← hj]; exact hB

/-- What the loop over the terms of `O` guarantees. -/
theorem fold_spec (m : ℕ) (L : List (OpD α K)) (O : OpD α K) (st : List (OpD α K) × OpD α K)
    (hlen : st.1.length = L.length) (h1 : ∀ A ∈ st.1, UniqueKeys A) (h2 : UniqueKeys st.2) :
    let r := O.foldl (addTerm m L) st
    r.1.length = L.length ∧ (∀ A ∈ r.1, UniqueKeys A) ∧ UniqueKeys r.2 ∧
      (∀ s, total r.1 s + coef r.2 s = total st.1 s + coef st.2 s + coef O s) ∧
      (∀ i, i + m < L.length → r.1[i]? = st.1[i]?) := by
  induction O generalizing st with
  | nil => exact ⟨hlen, h1, h2, fun s => by simp [coef], fun _ _ => rfl⟩
  | cons t O ih =>
    simp only [List.foldl_cons]
    cases hf : findLayer L t.1 m L.length with
    | some i =>
      have hfi := findLayer_some hf
      have e : addTerm m L st t = (st.1.modify i (fun A => OpD.addStr A t), st.2) := by
        simp only [addTerm, hf]
      rw [e]
      have := ih (st.1.modify i (fun A => OpD.addStr A t), st.2) (by simp [hlen])
        (unique_modify _ h1 i t) h2
      refine ⟨this.1, this.2.1, this.2.2.1, ?_, ?_⟩
      · intro s
        rw [this.2.2.2.1 s]
        simp only
        rw [total_modify _ h1 i (by omega), OpD.coef_eq_sum (t :: O), OpD.coef_eq_sum O]
        simp only [List.map_cons, List.sum_cons]
        ring
      · intro j hj
        rw [this.2.2.2.2 j hj]
        simp only
        rw [List.getElem?_modify]
        have hne : ¬ i = j := by omega
        simp [hne]
    | none =>
      have e : addTerm m L st t = (st.1, OpD.addStr st.2 t) := by simp only [addTerm, hf]
      rw [e]
      have := ih (st.1, OpD.addStr st.2 t) hlen h1 (OpD.addStr_unique _ t h2)
      refine ⟨this.1, this.2.1, this.2.2.1, ?_, this.2.2.2.2⟩
      intro s
      rw [this.2.2.2.1 s]
      have hc := OpD.coef_foldl_addStr [t] st.2 h2 s
      simp only [List.foldl_cons, List.foldl_nil] at hc
      simp only
      rw [hc, OpD.coef_eq_sum [t], OpD.coef_eq_sum (t :: O), OpD.coef_eq_sum O]
      simp only [List.map_cons, List.map_nil, List.sum_cons, List.sum_nil, add_zero]
      ring

/-- Layers that an ansatz with this setting may change, counted from the last. -/
def allowed (closed : ℤ) (n : ℕ) : ℕ :=
  if closed = 1 then 0 else if closed = 0 then n else min n (-closed).toNat

theorem layers_spec (closed : ℤ) (hc : closed ≤ 1) (L : List (OpD α K)) (O : OpD α K)
    (hL : ∀ A ∈ L, UniqueKeys A) (hO : UniqueKeys O) :
    let P := layers closed L O
    (∀ A ∈ P, UniqueKeys A) ∧ P.length ≤ L.length + 1 ∧
      (∀ s, total P s = total L s + coef O s) ∧
      (∀ i, i + allowed closed L.length < L.length → P[i]? = L[i]?) := by
  unfold layers
  by_cases h0 : L = []
  · subst h0
    simp [total, hO]
  · rw [if_neg h0]
    by_cases h1 : closed = 1
    · rw [if_pos h1]
      refine ⟨?_, by simp, ?_, ?_⟩
      · intro A hA
        rcases List.mem_append.mp hA with h | h
        · exact hL A h
        · simp at h; subst h; exact hO
      · intro s; rw [total_append]; simp [total]
      · intro i hi
        rw [List.getElem?_append_left (by omega)]
    · rw [if_neg h1]
      have hm : reach closed L.length = allowed closed L.length := by
        unfold reach allowed
        rw [if_neg h1]
        split_ifs <;> omega
      rw [hm]
      have := fold_spec (allowed closed L.length) L O (L, []) rfl hL OpD.uniqueKeys_nil
      simp only at this ⊢
      obtain ⟨a1, a2, a3, a4, a5⟩ := this
      split_ifs with hr
      · refine ⟨a2, by omega, ?_, a5⟩
        intro s
        have := a4 s
        rw [hr] at this
        simpa [coef] using this
      · refine ⟨?_, by simp [a1], ?_, ?_⟩
        · intro A hA
          rcases List.mem_append.mp hA with h | h
          · exact a2 A h
          · simp at h; subst h; exact a3
        · intro s
          rw [total_append]
          have := a4 s
          simp only [total, List.map_cons, List.map_nil, List.sum_cons, List.sum_nil, add_zero] at this ⊢
          rw [this]; simp [coef]
        · intro i hi
          rw [List.getElem?_append_left (by omega), a5 i hi]

/-- **C39.** Adding an operator to an ansatz: there are layers `P`, one more than before at most, whose
total coefficients are exactly the old ones plus those of the operator, and which agree with the old layers
outside the allowed depth; the result is `P` with the small coefficients and then the empty layers removed
(the very first operator is kept as it is).  -/
theorem C39_add (closed : ℤ) (hc : closed ≤ 1) (L : List (OpD α K)) (O : OpD α K)
    (hL : ∀ A ∈ L, UniqueKeys A) (hO : UniqueKeys O) :
    ∃ P : List (OpD α K), (∀ A ∈ P, UniqueKeys A) ∧ P.length ≤ L.length + 1 ∧
      (∀ s, total P s = total L s + coef O s) ∧
      (∀ i, i + allowed closed L.length < L.length → P[i]? = L[i]?) ∧
      (L = [] → Ansatz.add closed L O = P) ∧
      (L ≠ [] → Ansatz.add closed L O =
        (P.map (fun A => A.filter (fun t => !small t.2))).filter (fun A => !A.isEmpty)) := by
  have h := layers_spec closed hc L O hL hO
  refine ⟨layers closed L O, h.1, h.2.1, h.2.2.1, h.2.2.2, ?_, ?_⟩
  · intro h0
    unfold Ansatz.add layers
    rw [if_pos h0, if_pos h0]
  · intro h0
    unfold Ansatz.add
    rw [if_neg h0]
    rfl

/-- **C39.** Terms keep distinct keys within every layer, so the statement applies again after each step. -/
theorem C39_unique (closed : ℤ) (hc : closed ≤ 1) (L : List (OpD α K)) (O : OpD α K)
    (hL : ∀ A ∈ L, UniqueKeys A) (hO : UniqueKeys O) :
    ∀ A ∈ Ansatz.add closed L O, UniqueKeys A := by
  obtain ⟨P, h1, _, _, _, h5, h6⟩ := C39_add closed hc L O hL hO
  by_cases h0 : L = []
  · rw [h5 h0]; exact h1
  · rw [h6 h0]
    intro A hA
    have hA' := (List.mem_filter.mp hA).1
    obtain ⟨B, hB, rfl⟩ := List.mem_map.mp hA'
    exact OpD.clean_unique B (h1 B hB)

theorem clean_bound (P : List (OpD α ℂ)) (hP : ∀ A ∈ P, UniqueKeys A) (s : α) :
    ‖total ((P.map (fun A => A.filter (fun t => !small t.2))).filter (fun A => !A.isEmpty)) s - total P s‖
      ≤ P.length * 1e-12 := by
  induction P with
  | nil => simp [total]
  | cons A P ih =>
    have ih' := ih (fun B hB => hP B (List.mem_cons_of_mem _ hB))
    have hA : ‖coef (OpD.clean A) s - coef A s‖ ≤ 1e-12 := by
      rw [OpD.coef_clean A (hP A List.mem_cons_self) s]
      split
      · rename_i h
        have h' : ‖coef A s‖ ≤ (1e-12 : ℝ) := by simpa [small] using h
        rwa [zero_sub, norm_neg]
      · simp; norm_num
    have htot : total (((A :: P).map (fun A => A.filter (fun t => !small t.2))).filter
          (fun A => !A.isEmpty)) s = coef (OpD.clean A) s +
        total ((P.map (fun A => A.filter (fun t => !small t.2))).filter (fun A => !A.isEmpty)) s := by
      rw [List.map_cons, List.filter_cons]
      split_ifs with h
      · rfl
      · have : A.filter (fun t => !small t.2) = [] := by simpa using h
        have h2 : coef (OpD.clean A) s = 0 := by
          unfold OpD.clean; rw [this]; rfl
        rw [h2, zero_add]
    rw [htot]
    have h3 : total (A :: P) s = coef A s + total P s := by simp [total]
    rw [h3]
    have e : ∀ a b c d : ℂ, a + b - (c + d) = (a - c) + (b - d) := by intros; ring
    rw [e]
    refine (norm_add_le _ _).trans ?_
    rw [List.length_cons]
    push_cast
    linarith

/-- **C39** over the complex numbers: after one addition each total is within `1e-12` per layer of the
exact one. -/
theorem C39_add_complex (closed : ℤ) (hc : closed ≤ 1) (L : List (OpD α ℂ)) (O : OpD α ℂ)
    (hL : ∀ A ∈ L, UniqueKeys A) (hO : UniqueKeys O) (s : α) :
    ‖total (Ansatz.add closed L O) s - (total L s + coef O s)‖ ≤ (L.length + 1) * 1e-12 := by
  obtain ⟨P, h1, h2, h3, _, h5, h6⟩ := C39_add closed hc L O hL hO
  have hlen : (P.length : ℝ) ≤ L.length + 1 := by exact_mod_cast h2
  rw [← h3 s]
  by_cases h0 : L = []
  · rw [h5 h0, sub_self, norm_zero]; positivity
  · rw [h6 h0]
    refine (clean_bound P h1 s).trans ?_
    have : (0 : ℝ) ≤ 1e-12 := by norm_num
    nlinarith

theorem add_length (closed : ℤ) (hc : closed ≤ 1) (L : List (OpD α K)) (O : OpD α K)
    (hL : ∀ A ∈ L, UniqueKeys A) (hO : UniqueKeys O) :
    (Ansatz.add closed L O).length ≤ L.length + 1 := by
  obtain ⟨P, _, h2, _, _, h5, h6⟩ := C39_add closed hc L O hL hO
  by_cases h0 : L = []
  · rw [h5 h0]; exact h2
  · rw [h6 h0]
    refine (List.length_filter_le _ _).trans ?_
    rw [List.length_map]; exact h2

/-- **C39** for whole histories: after adding `k` operators to an ansatz of `n` layers every total is within
`k (n + k) 1e-12` of the sum of everything added. -/
theorem C39_history (closed : ℤ) (hc : closed ≤ 1) (L : List (OpD α ℂ)) (Os : List (OpD α ℂ))
    (hL : ∀ A ∈ L, UniqueKeys A) (hO : ∀ A ∈ Os, UniqueKeys A) (s : α) :
    ‖total (Ansatz.run closed L Os) s - (total L s + total Os s)‖ ≤
      Os.length * (L.length + Os.length) * 1e-12 := by
  induction Os generalizing L with
  | nil => simp [Ansatz.run, total]
  | cons O Os ih =>
    have hO1 := hO O List.mem_cons_self
    have h1 := C39_add_complex closed hc L O hL hO1 s
    have h2 := ih (Ansatz.add closed L O) (C39_unique closed hc L O hL hO1)
      (fun A hA => hO A (List.mem_cons_of_mem _ hA))
    have hlen : ((Ansatz.add closed L O).length : ℝ) ≤ L.length + 1 := by
      exact_mod_cast add_length closed hc L O hL hO1
    have e : Ansatz.run closed L (O :: Os) = Ansatz.run closed (Ansatz.add closed L O) Os := rfl
    have et : total (O :: Os) s = coef O s + total Os s := by simp [total]
    rw [e, et]
    have e2 : total (Ansatz.run closed (Ansatz.add closed L O) Os) s - (total L s + (coef O s + total Os s))
        = (total (Ansatz.run closed (Ansatz.add closed L O) Os) s -
            (total (Ansatz.add closed L O) s + total Os s)) +
          (total (Ansatz.add closed L O) s - (total L s + coef O s)) := by ring
    rw [e2]
    refine (norm_add_le _ _).trans ?_
    rw [List.length_cons]
    push_cast
    have p1 : (0 : ℝ) ≤ Os.length := by positivity
    have p2 : (0 : ℝ) ≤ L.length := by positivity
    have h3 : (Os.length : ℝ) * ((Ansatz.add closed L O).length + Os.length) * 1e-12 ≤
        Os.length * (L.length + 1 + Os.length) * 1e-12 := by
      have : (Os.length : ℝ) * ((Ansatz.add closed L O).length + Os.length) ≤
        Os.length * (L.length + 1 + Os.length) := mul_le_mul_of_nonneg_left (by linarith) p1
      exact mul_le_mul_of_nonneg_right this (by norm_num)
    nlinarith

theorem coef_neg (O : OpD α K) (hO : UniqueKeys O) :
    UniqueKeys ((O.map (fun t => (t.1, t.2 * (-1)))).foldl OpD.addStr []) ∧
      ∀ s, coef ((O.map (fun t => (t.1, t.2 * (-1)))).foldl OpD.addStr []) s = - coef O s := by
  refine ⟨OpD.foldl_addStr_unique _ _ OpD.uniqueKeys_nil, fun s => ?_⟩
  rw [OpD.coef_foldl_addStr _ _ OpD.uniqueKeys_nil]
  have h0 : coef ([] : OpD α K) s = 0 := rfl
  rw [h0, zero_add]
  clear hO
  induction O with
  | nil => simp [coef]
  | cons t O ih =>
    rw [OpD.coef_eq_sum] at ih ⊢
    rw [OpD.coef_eq_sum] at ih ⊢
    simp only [List.map_cons, List.sum_cons]
    rw [ih]
    split_ifs <;> ring

/-- **C39.** Subtracting an operator is adding it with all coefficients negated. -/
theorem C39_sub (closed : ℤ) (L : List (OpD α K)) (O : OpD α K) (hO : UniqueKeys O) :
    ∃ O', UniqueKeys O' ∧ (∀ s, coef O' s = - coef O s) ∧ Ansatz.sub closed L O = Ansatz.add closed L O' :=
  ⟨_, (coef_neg O hO).1, (coef_neg O hO).2, rfl⟩

/-- Two layers, the last one open: one term of the operator joins the last layer, one starts a new layer, and
a term cancelling leaves the layer. -/
example : Ansatz.add (K := GQ) (-1) [[("a", 1)], [("b", 2), ("c", 1)]] [("a", 5), ("b", 3), ("c", -1)] =
    [[("a", 1)], [("b", 5)], [("a", 5)]] ∧
    Ansatz.add (K := GQ) 0 [[("a", 1)], [("b", 2), ("c", 1)]] [("a", 5), ("b", 3), ("d", -1)] =
    [[("a", 6)], [("b", 5), ("c", 1)], [("d", -1)]] := by
  decide +kernel

/-- **C65 fails.** A closed ansatz works on the caller's operator itself: tiny terms disappear from it. -/
theorem C65_argument_changed :
    ∃ (L : List (OpD String GQ)) (O : OpD String GQ), (∀ A ∈ L, UniqueKeys A) ∧ UniqueKeys O ∧
      argAfter 1 L O ≠ O :=
  ⟨[[("a", 1)]], [("a", 1), ("b", ⟨1 / 10 ^ 13, 0⟩)], by decide +kernel, by decide +kernel, by decide +kernel⟩

/-- **C65**, the part that holds: nothing happens to the operator if the ansatz is not closed, and otherwise
only its coefficients of size at most `1e-12` are lost. -/
theorem C65_argument_partial (closed : ℤ) (L : List (OpD α K)) (O : OpD α K) :
    (closed ≠ 1 → argAfter closed L O = O) ∧
      ∀ t ∈ O, small t.2 = false → t ∈ argAfter closed L O := by
  unfold argAfter
  constructor
  · intro h; simp [h]
  · intro t ht hs
    split_ifs
    · exact ht
    · exact List.mem_filter.mpr ⟨ht, by simp [hs]⟩
    · exact ht

end Props
end HQCA
