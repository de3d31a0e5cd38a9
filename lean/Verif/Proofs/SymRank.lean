import Verif.Proofs.SymMain
import Mathlib.LinearAlgebra.LinearIndependent.Lemmas
import Mathlib.LinearAlgebra.Dual.Lemmas
import Mathlib.LinearAlgebra.FiniteDimensional.Basic
import Mathlib.LinearAlgebra.Dimension.Constructions

/-!
# The column search of the symmetry projection succeeds
-/

namespace HQCA.SymProj
open Transform

/-! ### The rows are orthogonal -/

theorem cf_orth (o o' : FL) (h : o ≠ .i) (h' : o' ≠ .i) (hc : FLodd o = FLodd o') :
    cf o false * (starRingEnd ℂ) (cf o' false) + cf o true * (starRingEnd ℂ) (cf o' true) =
      if o = o' then 1 / 2 else 0 := by
  have hI : Coef.I = Complex.I := rfl
  have hI2 : Complex.I * Complex.I = -1 := Complex.I_mul_I
  cases o <;> cases o' <;> simp [FLodd] at h h' hc <;>
    simp only [cf, c2, if_true, if_false, Bool.false_eq_true, map_mul, map_sub, map_one, map_zero,
        map_div₀, map_ofNat, hI, Complex.conj_I, reduceCtorEq] <;>
    first | (ring1; done) | linear_combination (1/4 : ℂ) * hI2 | linear_combination (-1/4 : ℂ) * hI2

section
variable {N : ℕ} {rev : Bool} {S : ℕ → Bool → PStr × PStr}

theorem amp_orth (l : List (ℕ × FL)) (hl : ∀ a ∈ l, a.2 ≠ .i) : ∀ r ∈ vars l, ∀ r' ∈ vars l,
    ((bools l.length).map (fun w => amp N rev S r w * (starRingEnd ℂ) (amp N rev S r' w))).sum =
      if r = r' then (1 / 2) ^ l.length else 0 := by
  induction l with
  | nil =>
    intro r hr r' hr'
    simp only [vars, List.mem_singleton] at hr hr'
    subst hr; subst hr'
    simp [bools, amp]
  | cons a l ih =>
    have ha := hl a (by simp)
    have ih' := ih (fun x hx => hl x (by simp [hx]))
    have dec : ∀ r ∈ vars (a :: l), ∃ c : Bool, ∃ u ∈ vars l, r = (a.1, alt c a.2) :: u := by
      intro r hr
      rw [vars, List.mem_append] at hr
      rcases hr with hr | hr
      · obtain ⟨u, hu, rfl⟩ := List.mem_map.mp hr; exact ⟨false, u, hu, rfl⟩
      · obtain ⟨u, hu, rfl⟩ := List.mem_map.mp hr; exact ⟨true, u, hu, rfl⟩
    intro r hr r' hr'
    obtain ⟨c, u, hu, rfl⟩ := dec r hr
    obtain ⟨c', u', hu', rfl⟩ := dec r' hr'
    have step : ∀ b w, amp N rev S ((a.1, alt c a.2) :: u) (b :: w) *
        (starRingEnd ℂ) (amp N rev S ((a.1, alt c' a.2) :: u') (b :: w)) =
        (cf (alt c a.2) b * (starRingEnd ℂ) (cf (alt c' a.2) b)) *
          (amp N rev S u w * (starRingEnd ℂ) (amp N rev S u' w)) := by
      intro b w
      have k1 := key_vars (N := N) (rev := rev) (S := S) l w u hu
      have k2 := key_vars (N := N) (rev := rev) (S := S) l w u' hu'
      have ep : ∀ c, pick2 S (a.1, alt c a.2) b = pick2 S a b := fun c => by unfold pick2; rw [alt_class]
      rw [amp_cons, amp_cons, k1, k2, ep, ep]
      simp only [map_mul]
      cases rev
      · simp only [Bool.false_eq_true, if_false]
        have := ph_unit (key N false S l w) (pick2 S a b)
        linear_combination (amp N false S u w * cf (alt c a.2) b * (starRingEnd ℂ) (amp N false S u' w) *
          (starRingEnd ℂ) (cf (alt c' a.2) b)) * this
      · simp only [if_true]
        have := ph_unit (pick2 S a b) (key N true S l w)
        linear_combination (amp N true S u w * cf (alt c a.2) b * (starRingEnd ℂ) (amp N true S u' w) *
          (starRingEnd ℂ) (cf (alt c' a.2) b)) * this
    rw [List.length_cons, bools, List.map_append, List.sum_append, List.map_map, List.map_map]
    simp only [Function.comp_def, step]
    rw [sum_mul_left', sum_mul_left', ← add_mul, ih' u hu u' hu',
      cf_orth _ _ (alt_ne c _ ha) (alt_ne c' _ ha) (by rw [alt_class, alt_class])]
    by_cases h1 : alt c a.2 = alt c' a.2
    · by_cases h2 : u = u'
      · rw [if_pos h1, if_pos h2, if_pos (by rw [h1, h2]), pow_succ]; ring
      · rw [if_neg h2, mul_zero, if_neg (fun e => h2 (List.cons.inj e).2)]
    · rw [if_neg h1, zero_mul, if_neg (fun e => h1 (Prod.mk.inj (List.cons.inj e).1).2)]

end

/-! ### Greedy search -/

/-- A list as a vector. -/
noncomputable def vec (m : ℕ) (c : List ℂ) : Fin m → ℂ := fun i => c.getD i 0

/-- Linear independence of a list of columns with `m` entries. -/
def Indep (m : ℕ) (cols : List (List ℂ)) : Prop := LinearIndependent ℂ (fun j : Fin cols.length => vec m (cols.get j))

/-- Span of a list of columns. -/
noncomputable def spn (m : ℕ) (cols : List (List ℂ)) : Submodule ℂ (Fin m → ℂ) :=
  Submodule.span ℂ (Set.range (fun j : Fin cols.length => vec m (cols.get j)))

theorem spn_eq (m : ℕ) (cols : List (List ℂ)) : spn m cols = Submodule.span ℂ {v | ∃ c ∈ cols, v = vec m c} := by
  unfold spn
  congr 1
  ext v
  constructor
  · rintro ⟨j, rfl⟩; exact ⟨_, List.get_mem cols j, rfl⟩
  · rintro ⟨c, hc, rfl⟩
    obtain ⟨j, rfl⟩ := List.get_of_mem hc
    exact ⟨j, rfl⟩

theorem vec_mem_spn (m : ℕ) (cols : List (List ℂ)) (c : List ℂ) (h : c ∈ cols) : vec m c ∈ spn m cols := by
  rw [spn_eq]; exact Submodule.subset_span ⟨c, h, rfl⟩

theorem spn_mono (m : ℕ) (A B : List (List ℂ)) (h : ∀ c ∈ A, vec m c ∈ spn m B) : spn m A ≤ spn m B := by
  rw [spn_eq m A, Submodule.span_le]
  rintro v ⟨c, hc, rfl⟩
  exact h c hc

theorem indep_append (m : ℕ) (A : List (List ℂ)) (c : List ℂ) (hA : Indep m A) :
    Indep m (A ++ [c]) ↔ vec m c ∉ spn m A := by
  have hl : (A ++ [c]).length = A.length + 1 := by simp
  have e : (fun j : Fin (A.length + 1) => vec m ((A ++ [c]).get (Fin.cast hl.symm j))) =
      Fin.snoc (α := fun _ => Fin m → ℂ) (fun j : Fin A.length => vec m (A.get j)) (vec m c) := by
    funext j
    refine Fin.lastCases ?_ (fun i => ?_) j
    · simp
    · simp [Fin.snoc_castSucc]
  have h1 : Indep m (A ++ [c]) ↔ LinearIndependent ℂ (fun j : Fin (A.length + 1) =>
      vec m ((A ++ [c]).get (Fin.cast hl.symm j))) := by
    unfold Indep
    exact (linearIndependent_equiv (finCongr hl.symm)).symm
  rw [h1, e, linearIndependent_finSnoc]
  exact ⟨fun h => h.2, fun h => ⟨hA, h⟩⟩

theorem indep_nil (m : ℕ) : Indep m [] := by
  haveI : IsEmpty (Fin ([] : List (List ℂ)).length) := inferInstanceAs (IsEmpty (Fin 0))
  exact linearIndependent_empty_type

theorem indep_spn_top (m : ℕ) (A : List (List ℂ)) (h : Indep m A) (hl : A.length = m) : spn m A = ⊤ := by
  apply LinearIndependent.span_eq_top_of_card_eq_finrank' h
  simp [hl]

theorem indep_length (m : ℕ) (A : List (List ℂ)) (h : Indep m A) (hlt : spn m A ≠ ⊤) : A.length < m := by
  have h1 := LinearIndependent.fintype_card_le_finrank h
  simp only [Fintype.card_fin, Module.finrank_fin_fun] at h1
  rcases Nat.lt_or_ge A.length m with h2 | h2
  · exact h2
  · exact absurd (indep_spn_top m A h (by omega)) hlt

/-- `rank` finds full column rank exactly. -/
def RankOK (rank : List (List ℂ) → ℕ) : Prop :=
  ∀ (m : ℕ) (A : List (List ℂ)), (∀ c ∈ A, c.length = m) → (rank A = A.length ↔ Indep m A)

theorem pick_total (rank : List (List ℂ) → ℕ) (hr : RankOK rank) (m : ℕ) (cols : List (List ℂ))
    (hc : ∀ c ∈ cols, c.length = m) (hs : spn m cols = ⊤) (n : ℕ) (added : List ℕ) (hn : m < n + added.length)
    (hne : added ≠ []) (hin : ∀ i ∈ added, i < cols.length)
    (hind : Indep m (added.map (fun k => cols.getD k [])))
    (hlast : ∀ a, added.getLast? = some a → ∀ i ≤ a, i < cols.length →
      vec m (cols.getD i []) ∈ spn m (added.map (fun k => cols.getD k []))) :
    ∃ res, pick rank cols m n added = some (some res) ∧ Indep m (res.map (fun k => cols.getD k [])) := by
  have hget : ∀ i < cols.length, cols.getD i [] ∈ cols := by
    intro i hi
    rw [List.getD_eq_getElem?_getD, List.getElem?_eq_getElem hi]
    exact List.getElem_mem hi
  induction n generalizing added with
  | zero =>
    exfalso
    have h1 := LinearIndependent.fintype_card_le_finrank hind
    simp only [Fintype.card_fin, Module.finrank_fin_fun, List.length_map] at h1
    omega
  | succ n ih =>
    rw [pick]
    by_cases hm : added.length = m
    · rw [if_pos hm]; exact ⟨added, rfl, hind⟩
    · rw [if_neg hm]
      cases hl : added.getLast? with
      | none => exact absurd (List.getLast?_eq_none_iff.mp hl) hne
      | some a =>
        simp only
        -- a column outside the span
        have hle := LinearIndependent.fintype_card_le_finrank hind
        simp only [Fintype.card_fin, Module.finrank_fin_fun, List.length_map] at hle
        have hex : ∃ i < cols.length, vec m (cols.getD i []) ∉ spn m (added.map (fun k => cols.getD k [])) := by
          by_contra hno
          push Not at hno
          have : spn m cols ≤ spn m (added.map (fun k => cols.getD k [])) := by
            apply spn_mono
            intro c hcm
            obtain ⟨i, hi, rfl⟩ := List.getElem_of_mem hcm
            have := hno i hi
            rwa [List.getD_eq_getElem?_getD, List.getElem?_eq_getElem hi] at this
          rw [hs, top_le_iff] at this
          have h1 := finrank_span_le_card (R := ℂ)
            (Set.range (fun j : Fin (added.map (fun k => cols.getD k [])).length =>
              vec m ((added.map (fun k => cols.getD k [])).get j)))
          have h2 : Module.finrank ℂ (spn m (added.map (fun k => cols.getD k []))) = m := by
            rw [this, finrank_top, Module.finrank_fin_fun]
          have h3 : (Set.range (fun j : Fin (added.map (fun k => cols.getD k [])).length =>
              vec m ((added.map (fun k => cols.getD k [])).get j))).toFinset.card ≤ added.length := by
            rw [Set.toFinset_range]
            refine Finset.card_image_le.trans ?_
            simp
          unfold spn at h2
          omega
        obtain ⟨i0, hi0, hi0s⟩ := hex
        have hi0a : a < i0 := by
          by_contra hcon
          exact hi0s (hlast a hl i0 (by omega) hi0)
        have hi0n : i0 ∉ added := fun h => hi0s (vec_mem_spn _ _ _ (List.mem_map.mpr ⟨i0, h, rfl⟩))
        have htest : ∀ i < cols.length,
            decide (rank (added.map (fun k => cols.getD k []) ++ [cols.getD i []]) = added.length + 1) = true ↔
              vec m (cols.getD i []) ∉ spn m (added.map (fun k => cols.getD k [])) := by
          intro i hi
          rw [decide_eq_true_eq, ← indep_append m _ _ hind, ← hr m]
          · simp
          · intro c hcm
            rcases List.mem_append.mp hcm with hcm | hcm
            · obtain ⟨k, hk, rfl⟩ := List.mem_map.mp hcm
              exact hc _ (hget k (hin k hk))
            · rw [List.mem_singleton.mp hcm]; exact hc _ (hget i hi)
        have hmem : i0 ∈ (List.range' a (cols.length - a)).filter (fun i => i ∉ added) := by
          rw [List.mem_filter, List.mem_range'_1]
          exact ⟨⟨by omega, by omega⟩, by simpa using hi0n⟩
        rw [if_neg (List.ne_nil_of_mem hmem)]
        cases hf : ((List.range' a (cols.length - a)).filter (fun i => i ∉ added)).find? (fun i =>
              decide (rank (added.map (fun k => cols.getD k []) ++ [cols.getD i []]) = added.length + 1)) with
        | none =>
          exfalso
          have := List.find?_eq_none.mp hf i0 hmem
          exact this ((htest i0 hi0).mpr hi0s)
        | some i =>
          have hm1 := List.mem_of_find?_eq_some hf
          rw [List.mem_filter, List.mem_range'_1] at hm1
          have hi : i < cols.length := by omega
          have hia : i ∉ added := by simpa using hm1.2
          have hp0 := List.find?_eq_some_iff_append.mp hf
          have his := (htest i hi).mp hp0.1
          have hmap : (added ++ [i]).map (fun k => cols.getD k []) =
              added.map (fun k => cols.getD k []) ++ [cols.getD i []] := by simp
          refine ih (added ++ [i]) (by rw [List.length_append, List.length_singleton]; omega) (by simp) ?_ ?_ ?_
          · intro j hj
            rcases List.mem_append.mp hj with hj | hj
            · exact hin j hj
            · rw [List.mem_singleton.mp hj]; exact hi
          · rw [hmap]; exact (indep_append m _ _ hind).mpr his
          · intro b hb j hj hjl
            rw [List.getLast?_append, List.getLast?_singleton, Option.some_or] at hb
            have hb' : i = b := Option.some.inj hb
            subst hb'
            rw [hmap]
            have hsub : spn m (added.map (fun k => cols.getD k [])) ≤
                spn m (added.map (fun k => cols.getD k []) ++ [cols.getD i []]) :=
              spn_mono _ _ _ (fun c hcm => vec_mem_spn _ _ _ (List.mem_append_left _ hcm))
            by_cases hji : j = i
            · subst hji
              exact vec_mem_spn _ _ _ (List.mem_append_right _ (by simp))
            · by_cases hja : j ≤ a
              · exact hsub (hlast a hl j hja hjl)
              · by_cases hjad : j ∈ added
                · exact vec_mem_spn _ _ _ (List.mem_append_left _ (List.mem_map.mpr ⟨j, hjad, rfl⟩))
                · by_contra hcon
                  have hjs : vec m (cols.getD j []) ∉ spn m (added.map (fun k => cols.getD k [])) :=
                    fun h => hcon (hsub h)
                  -- `j` comes before `i` in the search
                  obtain ⟨hp, l1, l2, hl12, hnone⟩ := List.find?_eq_some_iff_append.mp hf
                  have hjm : j ∈ (List.range' a (cols.length - a)).filter (fun i => i ∉ added) := by
                    rw [List.mem_filter, List.mem_range'_1]
                    exact ⟨⟨by omega, by omega⟩, by simpa using hjad⟩
                  have hsorted : ((List.range' a (cols.length - a)).filter (fun i => i ∉ added)).Pairwise (· < ·) :=
                    (List.pairwise_lt_range' (s := a) (n := cols.length - a)).filter _
                  rw [hl12] at hjm hsorted
                  rcases List.mem_append.mp hjm with h1 | h1
                  · have := hnone j h1
                    rw [(htest j hjl).mpr hjs] at this
                    simp at this
                  · rcases List.mem_cons.mp h1 with h1 | h1
                    · exact hji h1
                    · have h2 := (List.pairwise_append.mp hsorted).2.1
                      have := (List.pairwise_cons.mp h2).1 j h1
                      omega

end HQCA.SymProj
