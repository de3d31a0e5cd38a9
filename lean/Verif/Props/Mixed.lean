import Verif.Model.Mixed
import Verif.Proofs.TransformErr

/-!
# C141: operators with fermionic, qubit and Pauli strings
-/

namespace HQCA.Props
open HQCA HQCA.Transform HQCA.Mixed
variable {K : Type} [Coef K]

/-- Spec: the operator a string stands for. -/
def denMixed : MStr → Oper K
  | .fermi s => denF 0 s
  | .qubit s => denQ 0 s
  | .pauli s => denP 0 s

/-- Spec: number of qubits of a string. -/
def mixedLength : MStr → ℕ
  | .fermi s => s.length
  | .qubit s => s.length
  | .pauli s => s.length

/-- Spec: no word of letters is used both as a fermionic and as a qubit string. -/
def NoClash {K : Type} (l : List (MStr × K)) : Prop := ∀ s c c', (MStr.fermi s, c) ∈ l → (MStr.qubit s, c') ∈ l → False

theorem key_inj_of_noClash {l : List (MStr × K)} (h : NoClash l) {u t : MStr × K} (hu : u ∈ l) (ht : t ∈ l) :
    key u.1 = key t.1 ↔ u.1 = t.1 := by
  obtain ⟨u, c⟩ := u
  obtain ⟨t, c'⟩ := t
  cases u with
  | fermi s => cases t with
    | fermi r => simp [key]
    | qubit r =>
      constructor
      · intro e
        simp only [key, Sum.inl.injEq] at e
        subst e
        exact (h _ _ _ hu ht).elim
      · intro e; cases e
    | pauli r => simp [key]
  | qubit s => cases t with
    | fermi r =>
      constructor
      · intro e
        simp only [key, Sum.inl.injEq] at e
        subst e
        exact (h _ _ _ ht hu).elim
      · intro e; cases e
    | qubit r => simp [key]
    | pauli r => simp [key]
  | pauli s => cases t <;> simp [key]

theorem noClash_of_keys {l A : List (MStr × K)} (h : NoClash l) (hA : ∀ u ∈ A, ∃ c, (u.1, c) ∈ l) : NoClash A := by
  intro s c c' h1 h2
  obtain ⟨d, hd⟩ := hA _ h1
  obtain ⟨d', hd'⟩ := hA _ h2
  exact h s d d' hd hd'

theorem mixed_addStr_eq (A : List (MStr × K)) (t : MStr × K) (h : NoClash (t :: A)) : Mixed.addStr A t = OpD.addStr A t := by
  have e : ∀ u ∈ A, (key u.1 = key t.1 ↔ u.1 = t.1) := fun u hu => key_inj_of_noClash h (List.mem_cons_of_mem _ hu) List.mem_cons_self
  unfold Mixed.addStr OpD.addStr OpD.hasKey
  have e1 : A.any (fun u => decide (key u.1 = key t.1)) = A.any (fun u => decide (u.1 = t.1)) := by
    rw [Bool.eq_iff_iff, List.any_eq_true, List.any_eq_true]
    constructor
    · rintro ⟨u, hu, h2⟩; exact ⟨u, hu, by simpa [e u hu] using h2⟩
    · rintro ⟨u, hu, h2⟩; exact ⟨u, hu, by simpa [e u hu] using h2⟩
  have e2 : A.map (fun u => if key u.1 = key t.1 then (u.1, u.2 + t.2) else u) = A.map (fun u => if u.1 = t.1 then (u.1, u.2 + t.2) else u) := by
    refine List.map_congr_left fun u hu => ?_
    by_cases h2 : u.1 = t.1
    · rw [if_pos ((e u hu).2 h2), if_pos h2]
    · rw [if_neg fun h3 => h2 ((e u hu).1 h3), if_neg h2]
  rw [e1, e2]

theorem addStr_keys (A : OpD MStr K) (t : MStr × K) (u : MStr × K) (hu : u ∈ OpD.addStr A t) : (∃ c, (u.1, c) ∈ A) ∨ u.1 = t.1 := by
  unfold OpD.addStr at hu
  split at hu
  · obtain ⟨v, hv, rfl⟩ := List.mem_map.1 hu
    left
    refine ⟨v.2, ?_⟩
    by_cases h : v.1 = t.1
    · simpa [h] using (show (v.1, v.2) ∈ A from hv)
    · simpa [h] using hv
  · rcases List.mem_append.1 hu with h | h
    · exact Or.inl ⟨u.2, h⟩
    · exact Or.inr (by rw [List.mem_singleton.1 h])

theorem mixed_build_eq (l : List (MStr × K)) (h : NoClash l) : Mixed.build l = l.foldl OpD.addStr [] := by
  unfold Mixed.build
  have gen : ∀ (m : List (MStr × K)) (A : List (MStr × K)), (∀ u ∈ m, u ∈ l) → (∀ u ∈ A, ∃ c, (u.1, c) ∈ l) →
      m.foldl Mixed.addStr A = m.foldl OpD.addStr A ∧ ∀ u ∈ m.foldl OpD.addStr A, ∃ c, (u.1, c) ∈ l := by
    intro m
    induction m with
    | nil => intro A _ h2; exact ⟨rfl, h2⟩
    | cons t m ih =>
      intro A h1 h2
      rw [List.foldl_cons, List.foldl_cons, mixed_addStr_eq A t]
      · refine ih _ (fun u hu => h1 u (List.mem_cons_of_mem _ hu)) fun u hu => ?_
        rcases addStr_keys A t u hu with ⟨c, hc⟩ | hc
        · obtain ⟨d, hd⟩ := h2 _ hc
          exact ⟨d, hd⟩
        · exact ⟨t.2, by rw [hc]; exact h1 t List.mem_cons_self⟩
      · refine noClash_of_keys h fun u hu => ?_
        rcases List.mem_cons.1 hu with rfl | hu
        · exact ⟨u.2, h1 u List.mem_cons_self⟩
        · exact h2 u hu
  exact (gen l [] (fun u hu => hu) (by simp)).1

theorem mixed_exact (t : MStr × ℂ) :
    ∃ r E : POp ℂ, mixed jordanWigner Transform.qubit (fun t => some [t]) t = some r ∧ UniqueKeys r ∧
      denPO E = t.2 • denMixed t.1 ∧ (∀ u ∈ E, u.1.length = mixedLength t.1) ∧ (r = E ∨ (r = [] ∧ ∀ s, ‖coef E s‖ ≤ (1e-12 : ℝ))) := by
  obtain ⟨m, c⟩ := t
  cases m with
  | fermi s =>
    obtain ⟨r, E, h1, h2, _, h4, h5, h6⟩ := Spec.exact jordanWigner (denF 0) jw_spec (s, c)
    exact ⟨r, E, h1, h2, h4, h5, h6⟩
  | qubit s =>
    obtain ⟨r, E, h1, h2, _, h4, h5, h6⟩ := Spec.exact Transform.qubit (denQ 0) qu_spec (s, c)
    exact ⟨r, E, h1, h2, h4, h5, h6⟩
  | pauli s =>
    refine ⟨[(s, c)], [(s, c)], rfl, by simp [UniqueKeys], ?_, ?_, Or.inl rfl⟩
    · simp [denPO, denD, denMixed]
    · intro u hu
      rw [List.mem_singleton.1 hu]
      rfl

theorem mixed_transform_error (A : OpD MStr ℂ) (N : ℕ) (hN : ∀ t ∈ A, mixedLength t.1 = N) :
    ∃ (C E : POp ℂ), Mixed.transform A = some C ∧ denPO E = denD denMixed A ∧ (∀ u ∈ E, u.1.length = N) ∧
      ∀ s, ‖coef C s - coef E s‖ ≤ A.length * (1e-12 : ℝ) := by
  have main : ∃ rs Es : List (POp ℂ), A.mapM (mixed jordanWigner Transform.qubit (fun t => some [t])) = some rs ∧ rs.length = A.length ∧
      List.Forall₂ (fun r E => UniqueKeys r ∧ (r = E ∨ (r = [] ∧ ∀ s, ‖coef E s‖ ≤ (1e-12 : ℝ)))) rs Es ∧
      denPO Es.flatten = denD denMixed A ∧ (∀ u ∈ Es.flatten, u.1.length = N) := by
    induction A with
    | nil => exact ⟨[], [], by simp, rfl, .nil, rfl, by simp⟩
    | cons t A ih =>
      obtain ⟨rs, Es, h1, h2, h3, h4, h5⟩ := ih (fun u hu => hN u (List.mem_cons_of_mem _ hu))
      obtain ⟨r, E, e1, e2, e4, e5, e6⟩ := mixed_exact t
      refine ⟨r :: rs, E :: Es, by rw [List.mapM_cons, e1, h1]; rfl, by simp [h2], .cons ⟨e2, e6⟩ h3, ?_, ?_⟩
      · rw [List.flatten_cons, denPO, OpD.denD_append, ← denPO, ← denPO, e4, h4, OpD.denD_cons]
      · intro u hu
        rw [List.flatten_cons, List.mem_append] at hu
        rcases hu with hu | hu
        · rw [e5 u hu]; exact hN t List.mem_cons_self
        · exact h5 u hu
  obtain ⟨rs, Es, h1, h2, h3, h4, h5⟩ := main
  have hf := fun s => foldl_add_error rs Es h3 [] OpD.uniqueKeys_nil (by intro t ht; cases ht) s
  refine ⟨rs.foldl OpD.add [], Es.flatten, ?_, h4, h5, ?_⟩
  · unfold Mixed.transform OpD.transform; rw [h1]; rfl
  · intro s
    have := (hf s).2.2
    rwa [coef_nil, zero_add, h2] at this

theorem length_foldl_addStr (l : List (MStr × K)) (A : OpD MStr K) : (l.foldl OpD.addStr A).length ≤ A.length + l.length := by
  induction l generalizing A with
  | nil => simp
  | cons t l ih =>
    rw [List.foldl_cons]
    refine (ih _).trans ?_
    have : (OpD.addStr A t).length ≤ A.length + 1 := by
      unfold OpD.addStr
      split <;> simp
    simp only [List.length_cons]
    omega

/-- **C141.**  For every list of fermionic, qubit and Pauli strings in which no word of letters is used for two kinds, the mixed transform of their sum is the sum of the
operators the strings stand for, up to `1e-12` in each coefficient for each string. -/
theorem C141_mixed_partial (N : ℕ) (l : List (MStr × ℂ)) (h : NoClash l) (hN : ∀ t ∈ l, mixedLength t.1 = N) :
    ∃ (C E : POp ℂ), Mixed.transform (Mixed.build l) = some C ∧ denPO E = (l.map fun t => t.2 • denMixed t.1).sum ∧
      (∀ u ∈ E, u.1.length = N) ∧ ∀ s, ‖coef C s - coef E s‖ ≤ l.length * (1e-12 : ℝ) := by
  rw [mixed_build_eq l h]
  have hk : ∀ (m : List (MStr × ℂ)) (A : OpD MStr ℂ), (∀ u ∈ m, mixedLength u.1 = N) → (∀ u ∈ A, mixedLength u.1 = N) →
      ∀ u ∈ m.foldl OpD.addStr A, mixedLength u.1 = N := by
    intro m
    induction m with
    | nil => intro A _ h2; exact h2
    | cons t m ih =>
      intro A h1 h2
      refine ih _ (fun u hu => h1 u (List.mem_cons_of_mem _ hu)) fun u hu => ?_
      rcases addStr_keys A t u hu with ⟨c, hc⟩ | hc
      · exact h2 (u.1, c) hc
      · rw [hc]; exact h1 t List.mem_cons_self
  obtain ⟨C, E, h1, h2, h3, h4⟩ := mixed_transform_error (l.foldl OpD.addStr []) N (hk l [] hN (by simp))
  refine ⟨C, E, h1, ?_, h3, fun s => (h4 s).trans ?_⟩
  · rw [h2]
    have := OpD.denD_foldl_addStr (denMixed (K := ℂ)) l [] OpD.uniqueKeys_nil
    simpa [denD] using this
  · have := length_foldl_addStr l []
    have h5 : ((l.foldl OpD.addStr []).length : ℝ) ≤ l.length := by exact_mod_cast (by simpa using this)
    exact mul_le_mul_of_nonneg_right h5 (by norm_num)

/-- The hypotheses: a fermionic, a qubit and a Pauli string. -/
example : NoClash [(MStr.fermi [.i, .cr], (1 : ℂ)), (.qubit [.cr, .i], 1), (.pauli [.Z, .X], 2)] := by
  intro s c c' h1 h2
  simp only [List.mem_cons, Prod.mk.injEq, MStr.fermi.injEq, MStr.qubit.injEq, reduceCtorEq, false_and, List.not_mem_nil, or_false, false_or] at h1 h2
  rw [h1.1] at h2
  simp at h2

/-- **C141 fails**: the sum of a fermionic string and of the qubit string with the same letters is twice the one that came first. -/
theorem C141_clash_fails :
    Mixed.transform (K := GQ) (Mixed.build [(.fermi [.i, .cr], 1), (.qubit [.i, .cr], 1)]) = jordanWigner (K := GQ) ([.i, .cr], 2) ∧
    Mixed.transform (K := GQ) (Mixed.build [(.qubit [.i, .cr], 1), (.fermi [.i, .cr], 1)]) = Transform.qubit (K := GQ) ([.i, .cr], 2) ∧
    (∃ a b, jordanWigner (K := GQ) ([.i, .cr], 1) = some a ∧ Transform.qubit (K := GQ) ([.i, .cr], 1) = some b ∧
      coef (OpD.add a b) [.I, .X] = ⟨1 / 2, 0⟩ ∧ coef (OpD.add a b) [.Z, .X] = ⟨1 / 2, 0⟩) ∧
    (∀ C, Mixed.transform (K := GQ) (Mixed.build [(.fermi [.i, .cr], 1), (.qubit [.i, .cr], 1)]) = some C → coef C [.I, .X] = 0 ∧ coef C [.Z, .X] = 1) := by
  refine ⟨by decide +kernel, by decide +kernel, ⟨[([.Z, .X], ⟨1/2, 0⟩), ([.Z, .Y], ⟨0, -1/2⟩)], [([.I, .X], ⟨1/2, 0⟩), ([.I, .Y], ⟨0, -1/2⟩)],
    by decide +kernel, by decide +kernel, by decide +kernel, by decide +kernel⟩, ?_⟩
  have : Mixed.transform (K := GQ) (Mixed.build [(.fermi [.i, .cr], 1), (.qubit [.i, .cr], 1)]) = some [([.Z, .X], 1), ([.Z, .Y], ⟨0, -1⟩)] := by decide +kernel
  intro C hC
  rw [this] at hC
  rw [← Option.some.inj hC]
  exact ⟨by decide +kernel, by decide +kernel⟩

example : Mixed.transform (K := GQ) (Mixed.build [(.fermi [.i, .cr], 2), (.qubit [.i, .p], 2), (.pauli [.Z, .X], 3)]) =
    some [([.Z, .X], 4), ([.Z, .Y], ⟨0, -1⟩), ([.I, .I], 1), ([.I, .Z], -1)] := by decide +kernel

end HQCA.Props
