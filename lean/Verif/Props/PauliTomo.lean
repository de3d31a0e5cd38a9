import Verif.Model.PauliTomo
import Verif.Props.StateTomo

/-!
# C139: measuring a list of Pauli strings
-/

namespace HQCA.Props
open HQCA HQCA.StateTomo HQCA.PauliTomo HQCA.OpD
noncomputable section

/-- The plan: every string can be read off a measured basis, and all bases have one letter per qubit. -/
theorem pauli_plan (simp : Bool) (Nq : ℕ) (col : List PStr → ℕ → ℕ) (hcol : ColouringOK col) (paulis : List PStr) (hne : paulis ≠ [])
    (hlen : ∀ s ∈ paulis, s.length = Nq) :
    ∃ ops mp, plan simp col paulis = some (ops, mp) ∧ (∀ s ∈ paulis, ∃ b, dget mp s = some b ∧ b ∈ ops ∧ Recoverable s b) ∧
      (∀ b ∈ ops, b.length = Nq) ∧ ops ≠ [] := by
  obtain ⟨s0, h0⟩ := List.exists_mem_of_ne_nil _ hne
  cases simp with
  | false =>
    refine ⟨paulis, _, rfl, fun s hs => ?_, hlen, hne⟩
    obtain ⟨b, hb⟩ := dget_isSome (paulis.map fun p => (p, p)) s (by simpa using hs)
    obtain ⟨p, hp, e⟩ := List.mem_map.mp (dget_mem _ _ _ hb)
    obtain ⟨rfl, rfl⟩ := Prod.mk.inj e
    refine ⟨p, hb, hp, rfl, fun q hq => Or.inr ?_⟩
    clear hb hp hs e h0 hlen hne
    induction p with
    | nil => cases hq
    | cons x p ih =>
      rw [List.zip_cons_cons, List.mem_cons] at hq
      rcases hq with rfl | hq
      · rfl
      · exact ih hq
  | true =>
    obtain ⟨E, hE, hcomp⟩ := C25_complete_qwc (col paulis) paulis Nq hlen
    obtain ⟨ops, d, hs⟩ := hcomp (hcol paulis E hE)
    obtain ⟨snd1, snd2⟩ := C25_sound .qwc (col paulis) paulis Nq hlen ops d hs
    refine ⟨ops, d, hs, fun s hs' => ?_, simplify_ops_length .qwc (col paulis) paulis Nq hlen ops d hs, ?_⟩
    · obtain ⟨b, hb, _⟩ := snd1 s hs'
      obtain ⟨b', hb'⟩ := dget_isSome d s (List.mem_map_of_mem (f := (·.1)) hb)
      obtain ⟨_, h2, h3⟩ := snd2 s b' (dget_mem _ _ _ hb')
      exact ⟨b', hb', h2, h3⟩
    · obtain ⟨b, hb, _⟩ := snd1 s0 h0
      exact List.ne_nil_of_mem (snd2 s0 b hb).2.1

/-- The number wanted for a string: its expectation value, times the imaginary unit if asked for. -/
def wanted (imag : Bool) (Nq : ℕ) (prep : Cfg → ℂ) (s : PStr) : ℂ :=
  (if imag then Complex.I else 1) * innerQ Nq prep ((denP 0 s : Oper ℂ) prep)

theorem pauli_entries (simp imag : Bool) (Nq : ℕ) (col : List PStr → ℕ → ℕ) (hcol : ColouringOK col) (paulis : List PStr) (hne : paulis ≠ [])
    (hlen : ∀ s ∈ paulis, s.length = Nq) (prep : Cfg → ℂ) :
    ∃ m, measured simp Nq col paulis prep = some m ∧ ∃ g : PStr → ℂ, ∀ s ∈ paulis, PauliTomo.entry imag Nq m.1 m.2 s = some (g s) ∧
      ‖g s - wanted imag Nq prep s‖ ≤ 2 ^ Nq * 1e-28 := by
  obtain ⟨ops, mp, hp, h1, h2, h3⟩ := pauli_plan simp Nq col hcol paulis hne hlen
  obtain ⟨⟨cnt, psi⟩, hsim⟩ := (C94_amplitudes Nq ops prep).1.mpr ⟨h3, fun b hb => (h2 b hb).le⟩
  refine ⟨(mp, cnt), by unfold measured; rw [hp, Option.bind_some, hsim]; rfl, ?_⟩
  have key : ∀ s ∈ paulis, ∃ v, PauliTomo.entry imag Nq mp cnt s = some v ∧ ‖v - wanted imag Nq prep s‖ ≤ 2 ^ Nq * 1e-28 := by
    intro s hs
    obtain ⟨b, hb, hbo, hr⟩ := h1 s hs
    obtain ⟨v, hv, hd⟩ := C94_values Nq ops prep cnt psi hsim b hbo s hr
    refine ⟨_, by unfold PauliTomo.entry; rw [hb, Option.bind_some, hv, Option.map_some], ?_⟩
    unfold wanted
    rw [← mul_sub, norm_mul]
    have : ‖(if imag = true then Complex.I else 1 : ℂ)‖ = 1 := by cases imag <;> simp
    rw [this, one_mul]
    exact hd
  exact ⟨fun s => (PauliTomo.entry imag Nq mp cnt s).getD 0, fun s hs => by
    obtain ⟨v, hv, hd⟩ := key s hs
    simp only [hv, Option.getD_some]; exact ⟨trivial, hd⟩⟩

theorem mapM_of_forall {α β : Type} (f : α → Option β) (g : α → β) (l : List α) (h : ∀ a ∈ l, f a = some (g a)) : l.mapM f = some (l.map g) := by
  induction l with
  | nil => rfl
  | cons a l ih =>
    rw [List.mapM_cons, h a List.mem_cons_self, ih fun b hb => h b (List.mem_cons_of_mem _ hb)]
    rfl

/-- **C139, vector.**  For every non-empty list of strings on the register, with or without grouping and for every proper colouring, the vector returned holds at every
position the expectation value of the string listed there (times `i` with `imag`), up to the amplitudes skipped. -/
theorem C139_vector (simp imag : Bool) (Nq : ℕ) (col : List PStr → ℕ → ℕ) (hcol : ColouringOK col) (paulis : List PStr) (hne : paulis ≠ [])
    (hlen : ∀ s ∈ paulis, s.length = Nq) (prep : Cfg → ℂ) :
    ∃ v, runVector simp imag Nq col paulis prep = some v ∧ v.length = paulis.length ∧
      ∀ k (h : k < paulis.length) (h' : k < v.length), ‖v[k] - wanted imag Nq prep paulis[k]‖ ≤ 2 ^ Nq * 1e-28 := by
  obtain ⟨m, hm, g, hg⟩ := pauli_entries simp imag Nq col hcol paulis hne hlen prep
  refine ⟨paulis.map g, ?_, by simp, fun k h h' => ?_⟩
  · unfold runVector vector
    rw [hm, Option.bind_some, mapM_of_forall _ g paulis fun s hs => (hg s hs).1]
  · rw [List.getElem_map]
    exact (hg _ (List.getElem_mem h)).2

theorem coef_map_count (g : PStr → ℂ) (l : List PStr) (s : PStr) : coef (l.map fun p => (p, g p) : POp ℂ) s = l.count s * g s := by
  rw [coef_eq_sum]
  induction l with
  | nil => simp
  | cons a l ih =>
    rw [List.map_cons, List.map_cons, List.sum_cons, ih, List.count_cons]
    by_cases h : a = s
    · subst h; simp; ring
    · simp [h]

/-- **C139, operator.**  The coefficient of a string in the operator returned is its expectation value (times `i` with `imag`), as often as the string is listed; the
operator has the strings listed and no others. -/
theorem C139_operator (simp imag : Bool) (Nq : ℕ) (col : List PStr → ℕ → ℕ) (hcol : ColouringOK col) (paulis : List PStr) (hne : paulis ≠ [])
    (hlen : ∀ s ∈ paulis, s.length = Nq) (prep : Cfg → ℂ) :
    ∃ A, runOperator simp imag Nq col paulis prep = some A ∧ UniqueKeys A ∧ (∀ s, s ∈ A.map (·.1) ↔ s ∈ paulis) ∧
      ∀ s, ‖coef A s - paulis.count s * wanted imag Nq prep s‖ ≤ paulis.count s * (2 ^ Nq * 1e-28) := by
  obtain ⟨m, hm, g, hg⟩ := pauli_entries simp imag Nq col hcol paulis hne hlen prep
  have hA : runOperator simp imag Nq col paulis prep = some ((paulis.map fun p => (p, g p)).foldl OpD.addStr []) := by
    unfold runOperator operator
    rw [hm, Option.bind_some, mapM_of_forall _ (fun p => (p, g p)) paulis fun s hs => by rw [(hg s hs).1]; rfl]
    rfl
  refine ⟨_, hA, foldl_addStr_unique _ _ (by simp [UniqueKeys]), fun s => ?_, fun s => ?_⟩
  · rw [mem_keys_foldl_addStr]; simp
  · rw [coef_foldl_addStr _ _ (by simp [UniqueKeys]), coef_map_count]
    have : coef ([] : POp ℂ) s = 0 := rfl
    rw [this, zero_add, ← mul_sub, norm_mul]
    by_cases hs : s ∈ paulis
    · rw [Complex.norm_natCast]
      exact mul_le_mul_of_nonneg_left (hg s hs).2 (Nat.cast_nonneg _)
    · rw [List.count_eq_zero_of_not_mem hs]; simp

/-- **C139, distinct strings.**  If no string is listed twice the coefficients are the expectation values. -/
theorem C139_distinct_partial (simp imag : Bool) (Nq : ℕ) (col : List PStr → ℕ → ℕ) (hcol : ColouringOK col) (paulis : List PStr) (hne : paulis ≠ [])
    (hlen : ∀ s ∈ paulis, s.length = Nq) (hnd : paulis.Nodup) (prep : Cfg → ℂ) :
    ∃ A, runOperator simp imag Nq col paulis prep = some A ∧ ∀ s ∈ paulis, ‖coef A s - wanted imag Nq prep s‖ ≤ 2 ^ Nq * 1e-28 := by
  obtain ⟨A, hA, _, _, h⟩ := C139_operator simp imag Nq col hcol paulis hne hlen prep
  refine ⟨A, hA, fun s hs => ?_⟩
  have := h s
  rw [List.count_eq_one_of_mem hnd hs] at this
  simpa using this

/-- **C139 fails** for a string listed twice: for the identity on one qubit in the state `|0⟩` the coefficient returned is two, or nearly so. -/
theorem C139_repeated_fails (col : List PStr → ℕ → ℕ) (hcol : ColouringOK col) (simp : Bool) : let prep : Cfg → ℂ := fun b => if b 0 then 0 else 1
    ∃ A, runOperator simp false 1 col [[.I], [.I]] prep = some A ∧ wanted false 1 prep [.I] = 1 ∧ ‖coef A [.I] - 2‖ ≤ 1 := by
  intro prep
  obtain ⟨A, hA, _, _, h⟩ := C139_operator simp false 1 col hcol [[.I], [.I]] (by simp) (by simp) prep
  have hw : wanted false 1 prep [.I] = 1 := by
    unfold wanted innerQ
    have h1 : (denP 0 [PL.I] : Oper ℂ) = 1 := Transform.denP_replicate_I 0 1
    rw [h1]
    simp [prep, Finset.sum_range_succ, cfgOf]
  refine ⟨A, hA, hw, ?_⟩
  have := h [.I]
  rw [hw] at this
  norm_num at this ⊢
  linarith

/-- Three strings on two qubits, measured in two or three bases. -/
example (simp : Bool) (prep : Cfg → ℂ) : ∃ v, runVector simp true 2 (fun _ i => i) [[.X, .Y], [.Z, .Z], [.I, .Y]] prep = some v :=
  let ⟨v, h, _⟩ := C139_vector simp true 2 _ colouring_id [[.X, .Y], [.Z, .Z], [.I, .Y]] (by simp) (by simp) prep
  ⟨v, h⟩

end
end HQCA.Props
