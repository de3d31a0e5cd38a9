import Verif.Proofs.SymTotal
import Verif.Proofs.Tables

/-!
# The symmetry projection: value and totality for a general transform
-/

namespace HQCA.SymProj
open HQCA.Transform

theorem same_of_pairs (s s' : FStr) (hl : s.length = s'.length) (h0 : Fermi.pairs s ≠ [])
    (h : Fermi.pairs s = Fermi.pairs s') : s = s' := by
  have h1 := gen_pairs true 1 one_ne_zero s h0
  have h2 := gen_pairs true 1 one_ne_zero s' (h ▸ h0)
  rw [h, hl, h2] at h1
  have := Option.some.inj h1
  exact (Prod.mk.inj this).1.symm

theorem transform_len (T : Term FStr ℂ → Option (POp ℂ)) (F : FStr → Oper ℂ) (hT : ∀ t, Spec T t (F t.1))
    (A : OpD FStr ℂ) (N : ℕ) (hA : ∀ t ∈ A, t.1.length = N) (C : POp ℂ) (h : OpD.transform T A = some C) :
    ∀ u ∈ C, u.1.length = N := by
  have key : ∀ (A : OpD FStr ℂ), (∀ t ∈ A, t.1.length = N) → ∀ rs, A.mapM T = some rs → ∀ r ∈ rs, ∀ u ∈ r, u.1.length = N := by
    intro A
    induction A with
    | nil =>
      intro _ rs hrs
      rw [List.mapM_nil] at hrs
      cases hrs
      simp
    | cons t A ih =>
      intro hA rs hrs
      obtain ⟨r, E, e1, _, e3, _⟩ := Spec.exact T F hT t
      rw [List.mapM_cons, e1] at hrs
      rcases hm : A.mapM T with _ | rs'
      · rw [hm] at hrs; cases hrs
      · rw [hm] at hrs
        cases hrs
        intro r' hr'
        rcases List.mem_cons.mp hr' with rfl | hr'
        · intro u hu
          rw [e3 u hu]
          exact hA t (by simp)
        · exact ih (fun x hx => hA x (by simp [hx])) rs' hm r' hr'
  have add : ∀ (rs : List (POp ℂ)) (A : POp ℂ), (∀ t ∈ A, t.1.length = N) → (∀ r ∈ rs, ∀ u ∈ r, u.1.length = N) →
      ∀ t ∈ rs.foldl OpD.add A, t.1.length = N := by
    intro rs
    induction rs with
    | nil => intro A hA _; exact hA
    | cons r rs ih =>
      intro A hA h
      refine ih _ ?_ (fun x hx => h x (by simp [hx]))
      intro t ht
      have h1 : t ∈ r.foldl OpD.addStr A := List.mem_of_mem_filter ht
      have h2 := List.mem_map_of_mem (f := (·.1)) h1
      rw [OpD.mem_keys_foldl_addStr] at h2
      rcases h2 with h2 | h2
      · obtain ⟨u, hu, e⟩ := List.mem_map.mp h2
        rw [← e]; exact hA u hu
      · obtain ⟨u, hu, e⟩ := List.mem_map.mp h2
        rw [← e]; exact h r (by simp) u hu
  unfold OpD.transform at h
  rcases hm : A.mapM T with _ | rs
  · rw [hm] at h; cases h
  · rw [hm] at h
    cases h
    exact add rs [] (by simp) (key A hA rs hm)

theorem final_len (num : Num ℂ) (basis : List PStr) (N : ℕ) (hb : ∀ P ∈ basis, P.length = N) (added : List ℕ)
    (ha : ∀ k ∈ added, k < basis.length) (x : List ℂ) : ∀ u ∈ final num basis added x, u.1.length = N := by
  have h : ∀ (l : List (ℕ × ℂ)), (∀ a ∈ l, a.1 < basis.length) → ∀ (A : POp ℂ), (∀ u ∈ A, u.1.length = N) →
      ∀ u ∈ l.foldl (fun A a => if num.keep a.2 then OpD.addStr A (basis.getD a.1 [], a.2) else A) A, u.1.length = N := by
    intro l
    induction l with
    | nil => intro _ A hA; exact hA
    | cons a l ih =>
      intro hl A hA
      rw [List.foldl_cons]
      refine ih (fun b hb => hl b (by simp [hb])) _ ?_
      split
      · intro u hu
        have h2 := List.mem_map_of_mem (f := (·.1)) hu
        rw [show OpD.addStr A (basis.getD a.1 [], a.2) = [(basis.getD a.1 [], a.2)].foldl OpD.addStr A from rfl,
          OpD.mem_keys_foldl_addStr] at h2
        rcases h2 with h2 | h2
        · obtain ⟨v, hv, e⟩ := List.mem_map.mp h2
          rw [← e]; exact hA v hv
        · have h3 : u.1 = basis.getD a.1 [] := by simpa using h2
          have hk := hl a (by simp)
          rw [h3, List.getD_eq_getElem?_getD, List.getElem?_eq_getElem hk]
          exact hb _ (List.getElem_mem hk)
      · exact hA
  exact h _ (fun a ha' => ha a.1 (List.of_mem_zip ha').1) [] (by simp)

section
variable {N : ℕ} {rev : Bool} {D : ℕ → FL → Oper ℂ} {S : ℕ → Bool → PStr × PStr}
  {T : Term FStr ℂ → Option (POp ℂ)} {F : FStr → Oper ℂ}

/-- The main branch. -/
theorem main_branch (C : Ctx N rev D S T F) (num : Num ℂ) (hn : NumOK num) (first : Term FStr ℂ) (rest : OpD FStr ℂ)
    (hlen : ∀ t ∈ first :: rest, t.1.length = N) (hu : UniqueKeys (first :: rest))
    (hind : ∀ t ∈ first :: rest, t.2 ≠ 0 → (Fermi.pairs t.1).map (·.1) = (Fermi.pairs first.1).map (·.1))
    (h0 : Fermi.pairs first.1 ≠ []) (tops : List (List FL)) (hnd : tops.Nodup)
    (ht : ∀ t ∈ tops, SamePat (first.1.filter (fun x => x ≠ .i)) t)
    (basis : List PStr) (hb : basis.Perm (keysL N rev S first.1)) (hbn : basis.Nodup) (added : List ℕ)
    (ha1 : added.Nodup) (ha2 : ∀ i ∈ added, i < basis.length) (v x : List ℂ) (hv : target tops (first :: rest) = some v)
    (hx : num.solve (added.map (fun k => column (tops.map (fun t => (t, im T first.1 t))) (basis.getD k []))) v = some x) :
    ∃ E : POp ℂ, (∀ u ∈ E, u.1.length = N) ∧
      (∀ ψ : Cfg →₀ ℂ, (∀ r ∈ vars (Fermi.pairs first.1), r.map (·.2) ∉ tops → ev ψ (prodO rev D r) = 0) →
        ev ψ (denPO E) = ev ψ (denD F (first :: rest))) ∧
      ∀ s, ‖coef (final num basis added x) s - coef E s‖ ≤ (1e-10 : ℝ) := by
  have hs := hlen first (by simp)
  have hpne : ∀ t ∈ first :: rest, t.2 ≠ 0 → Fermi.pairs t.1 ≠ [] := by
    intro t htm ht0 e
    have := hind t htm ht0
    rw [e] at this
    exact h0 (List.map_eq_nil_iff.mp this.symm)
  have hzip : ∀ t ∈ first :: rest, t.2 ≠ 0 →
      Fermi.pairs t.1 = ((Fermi.pairs first.1).map (·.1)).zip (t.1.filter (fun x => x ≠ .i)) := by
    intro t htm ht0
    rw [← hind t htm ht0, ← pairs_letters, zip_map_self]
  have hd : (first :: rest).Pairwise (fun t u => t.2 ≠ 0 → u.2 ≠ 0 →
      t.1.filter (fun x => x ≠ .i) ≠ u.1.filter (fun x => x ≠ .i)) := by
    have h1 : (first :: rest).Pairwise (fun t u => t.1 ≠ u.1) := List.pairwise_map.mp hu
    refine List.Pairwise.imp_of_mem ?_ h1
    intro t u htm hum hne ht0 hu0 he
    apply hne
    apply same_of_pairs _ _ ((hlen t htm).trans (hlen u hum).symm) (hpne t htm ht0)
    rw [hzip t htm ht0, hzip u hum hu0, he]
  obtain ⟨hx1, hx2⟩ := hn.solve _ _ _ hx
  rw [List.length_map] at hx1
  have hfin := final_spec num hn basis hbn added ha1 ha2 x hx1
  refine ⟨(added.zip x).map (fun a => (basis.getD a.1 [], a.2)), ?_, ?_, ?_⟩
  rotate_left 2
  · intro s
    have h1 := hfin s
    exact h1
  · intro u hum
    obtain ⟨a, ham, rfl⟩ := List.mem_map.mp hum
    have hi := ha2 a.1 (List.of_mem_zip ham).1
    have hm : basis.getD a.1 [] ∈ keysL N rev S first.1 := by
      rw [← hb.mem_iff, List.getD_eq_getElem?_getD, List.getElem?_eq_getElem hi]
      exact List.getElem_mem hi
    obtain ⟨w, _, hw⟩ := List.mem_map.mp hm
    show (basis.getD a.1 []).length = N
    rw [← hw]
    exact key_len C.tab _ (hs ▸ good_pairs first.1) w
  · intro ψ hz
    set g : List FL → ℂ := fun t => ev ψ (prodO rev D (((Fermi.pairs first.1).map (·.1)).zip t)) with hg
    obtain ⟨v1, v2, _⟩ := target_spec g tops (first :: rest) v hd hv
    -- the right-hand side
    have hR : ev ψ (denD F (first :: rest)) = dot g v tops := by
      rw [v2, denD_eq_sum, ev_sum]
      congr 1
      apply List.map_congr_left
      intro t htm
      rw [ev_smul]
      by_cases ht0 : t.2 = 0
      · rw [ht0, zero_mul, zero_mul]
      · rw [C.den t.1 (hlen t htm), hzip t htm ht0]
    -- the left-hand side
    have hL : ev ψ (denPO ((added.zip x).map (fun a => ((basis.getD a.1 [], a.2) : Term PStr ℂ)))) =
        ((added.zip x).map (fun a => ∑ i ∈ Finset.range tops.length,
          a.2 * entryOf (im T first.1 (tops.getD i [])) (basis.getD a.1 []) * g (tops.getD i []))).sum := by
      unfold denPO
      rw [denD_eq_sum, List.map_map, ev_sum]
      congr 1
      apply List.map_congr_left
      intro a ham
      have hi := ha2 a.1 (List.of_mem_zip ham).1
      have hm : basis.getD a.1 [] ∈ keysL N rev S first.1 := by
        rw [← hb.mem_iff, List.getD_eq_getElem?_getD, List.getElem?_eq_getElem hi]
        exact List.getElem_mem hi
      simp only [Function.comp]
      rw [ev_smul, pauli_ev C first.1 hs h0 tops hnd ht ψ hz _ hm, sum_getD tops [], Finset.mul_sum]
      apply Finset.sum_congr rfl
      intro i _
      rw [mul_assoc]
    rw [hL, hR, list_sum_comm, dot_getD g v tops v1]
    apply Finset.sum_congr rfl
    intro i hi
    have hi' : i < tops.length := Finset.mem_range.mp hi
    rw [sum_mul_right', ← hx2 i (by omega)]
    congr 2
    rw [List.zip_map_left, List.map_map]
    apply List.map_congr_left
    intro a _
    simp only [Function.comp, Prod.map]
    congr 1
    unfold column
    simp [List.getD_eq_getElem?_getD, List.getElem?_eq_getElem hi']

theorem tops_length_le (s : FStr) (tops : List (List FL)) (hnd : tops.Nodup)
    (ht : ∀ t ∈ tops, SamePat (s.filter (fun x => x ≠ .i)) t) : tops.length ≤ 2 ^ (Fermi.pairs s).length := by
  have h1 : ((vars (Fermi.pairs s)).map (fun r => r.map (·.2))).length = 2 ^ (Fermi.pairs s).length := by
    rw [List.length_map, length_vars]
  rw [← h1]
  apply (List.subperm_of_subset hnd ?_).length_le
  intro t h
  obtain ⟨_, h2, h3⟩ := refill_spec s t (ht t h)
  refine List.mem_map.mpr ⟨_, h3, ?_⟩
  have := (ht t h).length_eq
  rw [List.map_snd_zip]
  rw [List.length_map, ← this, ← pairs_letters, List.length_map]

/-- Every result of the projection is, up to the thresholds, an operator with the same expectation values. -/
theorem project_spec (C : Ctx N rev D S T F) (hD : Shifts D) (num : Num ℂ) (hn : NumOK num) (loc : Bool)
    (alp : List ℕ) (skip : Bool) (first : Term FStr ℂ) (rest : OpD FStr ℂ)
    (hlen : ∀ t ∈ first :: rest, t.1.length = N) (hu : UniqueKeys (first :: rest))
    (hind : ∀ t ∈ first :: rest, t.2 ≠ 0 → (Fermi.pairs t.1).map (·.1) = (Fermi.pairs first.1).map (·.1))
    (hbal : first.1.count .cr = first.1.count .an) (Q : POp ℂ) (h : project num loc T alp skip (first :: rest) = some Q) :
    (∀ u ∈ Q, u.1.length = N) ∧ ∃ E : POp ℂ, (∀ u ∈ E, u.1.length = N) ∧
      (∀ ψ : Cfg →₀ ℂ, (∃ n, HasOcc (Finset.range N) n ψ) → (skip = false → ∃ n, HasOcc alp.toFinset n ψ) →
        ev ψ (denPO E) = ev ψ (denD F (first :: rest))) ∧
      ∀ s, ‖coef Q s - coef E s‖ ≤ max (1e-10 : ℝ) ((first :: rest).length * 1e-12) := by
  have hs := hlen first (by simp)
  obtain ⟨Cx, E0, e1, _, _, e4, e5, e6⟩ := transform_error T F C.spec (first :: rest) N hlen
  have hfull : ∀ Q, OpD.transform T (first :: rest) = some Q → (∀ u ∈ Q, u.1.length = N) ∧ ∃ E : POp ℂ, (∀ u ∈ E, u.1.length = N) ∧
      (∀ ψ : Cfg →₀ ℂ, (∃ n, HasOcc (Finset.range N) n ψ) → (skip = false → ∃ n, HasOcc alp.toFinset n ψ) →
        ev ψ (denPO E) = ev ψ (denD F (first :: rest))) ∧
      ∀ s, ‖coef Q s - coef E s‖ ≤ max (1e-10 : ℝ) ((first :: rest).length * 1e-12) := by
    intro Q hQ
    refine ⟨transform_len T F C.spec _ N hlen Q hQ, ?_⟩
    rw [e1] at hQ
    cases hQ
    exact ⟨E0, e5, fun ψ _ _ => by rw [e4], fun s => (e6 s).trans (le_max_right _ _)⟩
  set s := first.1 with hsd
  unfold project at h
  simp only [← hsd] at h
  rw [e1] at h
  simp only at h
  split at h
  · simp at h
  split at h
  · exact hfull Q (by rw [e1]; exact h)
  rename_i hE
  split at h
  · simp at h
  split at h
  · exact hfull Q (by rw [e1]; exact h)
  split at h
  · simp at h
  rename_i tops htops
  -- the strings of the loop
  have hl : ∀ x ∈ s.filter (fun x => x ≠ .i), x ≠ FL.i := fun x hx => by simpa using (List.mem_filter.mp hx).2
  have hEo : ∀ x ∈ (s.filter (fun x => x ≠ .i)).filter FLodd, FLodd x = true := fun x hx => (List.mem_filter.mp hx).2
  have tsp := fun a b c => tops_spec _ a _ b c tops htops
  obtain ⟨t1, t2, t3⟩ := tsp (nodup_perms _ _ _ _) hl (by
    intro p hp
    have := ((mem_perms _ _ _ _ _).mp hp).1
    exact ⟨fun x hx => hEo x (this.subset hx), this.length_eq⟩)
  have tp : ∀ t ∈ tops, SamePat (s.filter (fun x => x ≠ .i)) t := fun t htm => ((t2 t).mp htm).1
  have h0 : Fermi.pairs s ≠ [] := by
    intro e
    apply hE
    have : (s.filter (fun x => x ≠ .i)) = [] := by rw [← pairs_letters, e]; rfl
    rw [this]; rfl
  have hdim := tops_length_le s tops t1 tp
  rw [t3] at hdim
  obtain ⟨r', r1, r2, _, r4⟩ := rowLoop_spec C num hn loc s hs h0 _ hdim tops tp ⟨none, []⟩ (Or.inl rfl)
  simp only [List.nil_append] at r2
  rw [hs] at h
  rw [r1] at h
  simp only at h
  split at h
  · simp at h
  rename_i basis hbasis
  split at h
  · simp at h
  · exact hfull Q (by rw [e1]; exact h)
  rename_i added hadd
  split at h
  · simp at h
  rename_i v hv
  split at h
  · simp at h
  rename_i x hx
  cases h
  have htne : tops ≠ [] := by
    intro e
    subst e
    rw [rowLoop] at r1
    cases r1
    simp at hbasis
  obtain ⟨b, hb1, hb2⟩ := r4 htne
  rw [hbasis] at hb1
  cases hb1
  have hkn : (keysL N rev S s).Nodup := by
    obtain ⟨t, htm⟩ := List.exists_mem_of_ne_nil tops htne
    exact (im_keys C s hs h0 t (tp t htm)).nodup_iff.mp (im_spec C false s hs h0 t (tp t htm)).2.2.unique
  obtain ⟨a1, a2, _⟩ := pick_spec _ _ _ _ [] added List.nodup_nil (by simp) hadd
  rw [List.length_map] at a2
  have hrows : r'.rows.map (fun x => x.1) = tops := by rw [r2, List.map_map]; exact List.map_id tops
  rw [hrows] at hv
  rw [r2] at hx
  have mb := main_branch C num hn first rest hlen hu hind h0 tops t1 tp basis hb2
    (hb2.nodup_iff.mpr hkn) added a1 a2 v x hv hx
  refine ⟨final_len num basis N ?_ added a2 x, ?_⟩
  · intro P hP
    have hP' := hb2.mem_iff.mp hP
    unfold keysL at hP'
    obtain ⟨w, _, rfl⟩ := List.mem_map.mp hP'
    exact key_len C.tab _ (hs ▸ good_pairs s) w
  refine Exists.elim mb ?_
  intro E hm
  have m1 := hm.1
  have m2 := hm.2.1
  have m3 := hm.2.2
  refine ⟨E, m1, ?_, fun u => (m3 u).trans (le_max_left _ _)⟩
  intro ψ hN hA
  apply m2
  intro r hr hrt
  refine left_out hD s hs alp skip hbal ψ hN hA r hr ?_
  intro hp
  apply hrt
  have hv := (mem_vars (Fermi.pairs s) r (fun a ha => (good_pairs s a ha).2)).mp hr
  rw [pairs_letters] at hv
  exact (t2 _).mpr ⟨hv.2, hp⟩


theorem addStr_len (A : POp ℂ) (t : Term PStr ℂ) : (OpD.addStr A t).length ≤ A.length + 1 := by
  unfold OpD.addStr
  split <;> simp

theorem final_length (num : Num ℂ) (basis : List PStr) (added : List ℕ) (x : List ℂ) :
    (final num basis added x).length ≤ added.length := by
  unfold final
  have h : ∀ (l : List (ℕ × ℂ)) (A : POp ℂ), (l.foldl (fun A a => if num.keep a.2 then
      OpD.addStr A (basis.getD a.1 [], a.2) else A) A).length ≤ A.length + l.length := by
    intro l
    induction l with
    | nil => simp
    | cons a l ih =>
      intro A
      rw [List.foldl_cons, List.length_cons]
      refine (ih _).trans ?_
      split
      · have := addStr_len A (basis.getD a.1 [], a.2); omega
      · omega
  refine (h (added.zip x) []).trans ?_
  rw [List.length_zip, List.length_nil]
  omega

/-- `solve` returns for independent columns. -/
def SolveOK (num : Num ℂ) : Prop :=
  ∀ m cols v, (∀ c ∈ cols, c.length = m) → cols.length = m → v.length = m → Indep m cols → (num.solve cols v).isSome

/-- With an exact rank and solver the projection returns, with at most one Pauli string for each string of the family. -/
theorem project_total (C : Ctx N rev D S T F) (num : Num ℂ) (hn : NumOK num) (hr : RankOK num.rank) (hsv : SolveOK num)
    (loc : Bool) (alp : List ℕ) (skip : Bool) (first : Term FStr ℂ) (rest : OpD FStr ℂ) (hN : 0 < N)
    (hlen : ∀ t ∈ first :: rest, t.1.length = N) (hu : UniqueKeys (first :: rest))
    (hcr0 : dlt (Finset.range N) (Fermi.pairs first.1) = 0) (hal0 : dlt alp.toFinset (Fermi.pairs first.1) = 0)
    (hind : ∀ t ∈ rest, t.2 ≠ 0 → (Fermi.pairs t.1).map (·.1) = (Fermi.pairs first.1).map (·.1))
    (hpat : ∀ t ∈ rest, t.2 ≠ 0 → SamePat (first.1.filter (fun x => x ≠ .i)) (t.1.filter (fun x => x ≠ .i)))
    (hcr : ∀ t ∈ rest, t.2 ≠ 0 → dlt (Finset.range N) (Fermi.pairs t.1) = 0)
    (hal : ∀ t ∈ rest, t.2 ≠ 0 → dlt alp.toFinset (Fermi.pairs t.1) = 0) :
    ∃ Q, project num loc T alp skip (first :: rest) = some Q ∧
      (first.1.filter FLodd ≠ [] → (∃ new, OpD.transform T (first :: rest) = some new ∧ OpD.null num.tiny new = false) →
        ∃ tops : List (List FL), tops.Nodup ∧ Q.length ≤ tops.length ∧
          ∀ t ∈ tops, SamePat (first.1.filter (fun x => x ≠ .i)) t ∧
            t.filter FLodd ∈ perms alp skip (((Fermi.pairs first.1).filter (fun x => FLodd x.2)).map (fun x => x.1))
              ((first.1.filter (fun x => x ≠ .i)).filter FLodd)) := by
  have hs := hlen first (by simp)
  have hpat0 : SamePat (first.1.filter (fun x => x ≠ .i)) (first.1.filter (fun x => x ≠ .i)) := by
    unfold SamePat
    rw [List.forall₂_same]
    intro x hx
    exact ⟨by simpa using (List.mem_filter.mp hx).2, rfl⟩
  have hind' : ∀ t ∈ first :: rest, (t = first ∨ t.2 ≠ 0) → (Fermi.pairs t.1).map (·.1) = (Fermi.pairs first.1).map (·.1) := by
    intro t ht h
    rcases List.mem_cons.mp ht with rfl | ht
    · rfl
    · rcases h with rfl | h
      · rfl
      · exact hind t ht h
  have hpat' : ∀ t ∈ first :: rest, (t = first ∨ t.2 ≠ 0) →
      SamePat (first.1.filter (fun x => x ≠ .i)) (t.1.filter (fun x => x ≠ .i)) := by
    intro t ht h
    rcases List.mem_cons.mp ht with rfl | ht
    · exact hpat0
    · rcases h with rfl | h
      · exact hpat0
      · exact hpat t ht h
  have hcr' : ∀ t ∈ first :: rest, (t = first ∨ t.2 ≠ 0) → dlt (Finset.range N) (Fermi.pairs t.1) = 0 := by
    intro t ht h
    rcases List.mem_cons.mp ht with rfl | ht
    · exact hcr0
    · rcases h with rfl | h
      · exact hcr0
      · exact hcr t ht h
  have hal' : ∀ t ∈ first :: rest, (t = first ∨ t.2 ≠ 0) → dlt alp.toFinset (Fermi.pairs t.1) = 0 := by
    intro t ht h
    rcases List.mem_cons.mp ht with rfl | ht
    · exact hal0
    · rcases h with rfl | h
      · exact hal0
      · exact hal t ht h
  clear hind hpat hcr hal
  obtain ⟨Cx, E0, e1, _⟩ := transform_error T F C.spec (first :: rest) N hlen
  set s := first.1 with hsd
  have hg := good_pairs s
  have hl : ∀ x ∈ s.filter (fun x => x ≠ .i), x ≠ FL.i := fun x hx => by simpa using (List.mem_filter.mp hx).2
  have hEo : ∀ x ∈ (s.filter (fun x => x ≠ .i)).filter FLodd, FLodd x = true := fun x hx => (List.mem_filter.mp hx).2
  unfold project
  simp only [← hsd]
  rw [e1]
  simp only
  rw [if_neg (by intro e; rw [e] at hs; simp at hs; omega)]
  by_cases hE : (s.filter (fun x => x ≠ .i)).filter FLodd = []
  · rw [if_pos hE]
    refine ⟨_, rfl, fun hE' => absurd ?_ hE'⟩
    rw [List.filter_filter] at hE
    rw [← hE]
    apply List.filter_congr
    intro x _
    cases x <;> rfl
  rw [if_neg hE]
  rw [if_neg (by
    obtain ⟨a, ha⟩ := parity_in alp (Fermi.pairs s)
    obtain ⟨b, hb⟩ := parity_out (Finset.range N) alp (Fermi.pairs s)
      (fun x hx => Finset.mem_range.mpr (hs ▸ (hg x hx).1))
    rw [hcr0, hal0] at hb
    rw [hal0] at ha
    omega)]
  by_cases hnull : OpD.null num.tiny (Cx) = true
  · rw [if_pos hnull]
    refine ⟨_, rfl, ?_⟩
    rintro _ ⟨new, h1, h2⟩
    rw [Option.some.inj h1] at hnull
    rw [hnull] at h2
    exact absurd h2 (by simp)
  rw [if_neg hnull]
  have hPs : ∀ p ∈ perms alp skip (((Fermi.pairs s).filter (fun x => FLodd x.2)).map (fun x => x.1))
      ((s.filter (fun x => x ≠ .i)).filter FLodd), (∀ x ∈ p, FLodd x = true) ∧
        p.length = ((s.filter (fun x => x ≠ .i)).filter FLodd).length := by
    intro p hp
    have := ((mem_perms _ _ _ _ _).mp hp).1
    exact ⟨fun x hx => hEo x (this.subset hx), this.length_eq⟩
  obtain ⟨tops, htops⟩ := Option.isSome_iff_exists.mp (tops_isSome _ (s.filter (fun x => x ≠ .i)) hl (fun p hp => (hPs p hp).2))
  rw [htops]
  simp only
  have tsp := fun a b c => tops_spec _ a _ b c tops htops
  obtain ⟨t1, t2, t3⟩ := tsp (nodup_perms _ _ _ _) hl hPs
  have tp : ∀ t ∈ tops, SamePat (s.filter (fun x => x ≠ .i)) t := fun t htm => ((t2 t).mp htm).1
  have h0 : Fermi.pairs s ≠ [] := by
    intro e
    apply hE
    have : (s.filter (fun x => x ≠ .i)) = [] := by rw [← pairs_letters, e]; rfl
    rw [this]; rfl
  have hdim := tops_length_le s tops t1 tp
  rw [t3] at hdim
  obtain ⟨r', r1, r2, _, r4⟩ := rowLoop_spec C num hn loc s hs h0 _ hdim tops tp ⟨none, []⟩ (Or.inl rfl)
  simp only [List.nil_append] at r2
  rw [hs, r1]
  simp only
  -- every term of the operator belongs to the family
  have hmem : ∀ t ∈ first :: rest, (t = first ∨ t.2 ≠ 0) → t.1.filter (fun x => x ≠ .i) ∈ tops := by
    intro t htm hz
    refine (t2 _).mpr ⟨hpat' t htm hz, (mem_perms _ _ _ _ _).mpr ⟨?_, fun _ => ?_⟩⟩
    · have hto : ∀ x ∈ (t.1.filter (fun x => x ≠ .i)).filter FLodd, FLodd x = true := fun x hx => (List.mem_filter.mp hx).2
      have hlen' := (samePat_filter _ _ hl (hpat' t htm hz)).1
      have c1 := hcr' t htm hz
      have hgt := good_pairs t.1
      rw [dlt_all _ _ (fun a ha => Finset.mem_range.mpr ((hlen t htm) ▸ (hgt a ha).1)), pairs_letters,
        (wt_sum _ hto).1] at c1
      have c2 := hcr0
      rw [dlt_all _ _ (fun a ha => Finset.mem_range.mpr (hs ▸ (hg a ha).1)), pairs_letters,
        (wt_sum _ hEo).1] at c2
      apply perm_of_count _ _ hto hEo hlen'
      omega
    · have := imbal_dlt alp (Fermi.pairs s) (Fermi.pairs t.1) (hind' t htm hz)
        (by rw [pairs_letters, pairs_letters]; exact hpat' t htm hz)
      rw [hal' t htm hz, pairs_letters] at this
      unfold szBad
      have : imbal (fun q => decide (q ∈ alp)) (((Fermi.pairs s).filter (fun x => FLodd x.2)).map (fun x => x.1))
          ((t.1.filter (fun x => x ≠ .i)).filter FLodd) = 0 := by omega
      rw [this]
      rfl
  have htne : tops ≠ [] := List.ne_nil_of_mem (hmem first (by simp) (Or.inl rfl))
  obtain ⟨basis, hb1, hb2⟩ := r4 htne
  rw [hb1]
  simp only
  rw [r2, List.length_map]
  obtain ⟨added, ha1, ha2⟩ := pick_some C s hs h0 tops t1 htne tp basis hb2 num.rank hr
  rw [ha1]
  simp only
  obtain ⟨a1, a2, a3⟩ := pick_spec _ _ _ _ [] added List.nodup_nil (by simp) ha1
  have hmid : (tops.map (fun t => (t, im T s t))).map (fun x => x.1) = tops := by rw [List.map_map]; exact List.map_id tops
  rw [hmid]
  obtain ⟨v, hv⟩ := Option.isSome_iff_exists.mp (target_isSome tops (first :: rest) (fun t htm hz => hmem t htm (Or.inr hz)))
  have hvl : v.length = tops.length := by
    refine (target_spec (fun _ => 0) tops (first :: rest) v ?_ hv).1
    have h1 : (first :: rest).Pairwise (fun t u => t.1 ≠ u.1) := List.pairwise_map.mp hu
    refine List.Pairwise.imp_of_mem ?_ h1
    intro t u htm hum hne hz hz' he
    apply hne
    apply same_of_pairs _ _ ((hlen t htm).trans (hlen u hum).symm)
    · intro e
      have := hind' t htm (Or.inr hz)
      rw [e] at this
      exact h0 (List.map_eq_nil_iff.mp this.symm)
    · rw [← zip_map_self (Fermi.pairs t.1), ← zip_map_self (Fermi.pairs u.1), hind' t htm (Or.inr hz), hind' u hum (Or.inr hz'), pairs_letters,
        pairs_letters, he]
  rw [hv]
  simp only
  have hcols : added.map (fun k => (basis.map (column (tops.map (fun t => (t, im T s t))))).getD k []) =
      added.map (fun k => column (tops.map (fun t => (t, im T s t))) (basis.getD k [])) := by
    apply List.map_congr_left
    intro k hk
    have := a2 k hk
    rw [List.length_map] at this
    simp [List.getD_eq_getElem?_getD, List.getElem?_eq_getElem this]
  rw [hcols] at ha2
  obtain ⟨x, hx⟩ := Option.isSome_iff_exists.mp (hsv tops.length _ v (by
    intro c hc
    obtain ⟨k, _, rfl⟩ := List.mem_map.mp hc
    simp [column]) (by rw [List.length_map]; exact a3) hvl ha2)
  rw [hx]
  refine ⟨_, rfl, fun _ _ => ⟨tops, t1, ?_, fun t htm => (t2 t).mp htm⟩⟩
  rw [← a3]
  exact final_length num basis added x

end
end HQCA.SymProj
