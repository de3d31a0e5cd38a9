import Verif.Proofs.SymRank

/-!
# The symmetry projection returns
-/

namespace HQCA.SymProj
open Transform

section
variable {N : ℕ} {rev : Bool} {D : ℕ → FL → Oper ℂ} {S : ℕ → Bool → PStr × PStr}
  {T : Term FStr ℂ → Option (POp ℂ)} {F : FStr → Oper ℂ}

theorem entry_amp (C : Ctx N rev D S T F) (s : FStr) (hs : s.length = N) (h0 : Fermi.pairs s ≠ [])
    (t : List FL) (h : SamePat (s.filter (fun x => x ≠ .i)) t) (w : List Bool) (hw : w.length = (Fermi.pairs s).length) :
    entryOf (im T s t) (key N rev S (Fermi.pairs s) w) =
      2 ^ (Fermi.pairs s).length * (starRingEnd ℂ) (amp N rev S (((Fermi.pairs s).map (·.1)).zip t) w) := by
  obtain ⟨_, h2, h3⟩ := refill_spec s t h
  have h1 := (im_spec C false s hs h0 t h).2.2
  have hk := key_vars (N := N) (rev := rev) (S := S) _ w _ h3
  have hc := h1.coef w (by rw [h2]; exact hw)
  rw [hk, h2] at hc
  rw [entryOf_coef _ h1.unique, hc, map_mul, map_pow]
  congr 2
  exact Complex.conj_ofNat 2

theorem entry_ne (C : Ctx N rev D S T F) (s : FStr) (hs : s.length = N) (h0 : Fermi.pairs s ≠ [])
    (t : List FL) (h : SamePat (s.filter (fun x => x ≠ .i)) t) (P : PStr) (hP : P ∈ keysL N rev S s) :
    entryOf (im T s t) P ≠ 0 := by
  have h1 := (im_spec C false s hs h0 t h).2.2
  have hm := (im_keys C s hs h0 t h).mem_iff.mpr hP
  obtain ⟨u, hu, rfl⟩ := List.mem_map.mp hm
  rw [entryOf_coef _ h1.unique, OpD.coef_of_mem _ h1.unique _ hu]
  intro e
  have := h1.unit u hu
  rw [map_eq_zero] at e
  rw [e, norm_zero] at this
  exact zero_ne_one this

theorem vec_sum (m : ℕ) (f : (Fin m → ℂ) →ₗ[ℂ] ℂ) (v : Fin m → ℂ) : f v = ∑ i, v i * f (Pi.single i 1) := by
  conv_lhs => rw [← Finset.univ_sum_single v]
  rw [map_sum]
  apply Finset.sum_congr rfl
  intro i _
  have : (Pi.single i (v i) : Fin m → ℂ) = v i • Pi.single i 1 := by
    rw [← Pi.single_smul, smul_eq_mul, mul_one]
  rw [this, map_smul, smul_eq_mul]

/-- The columns span the whole space: the rows are independent. -/
theorem cols_span (C : Ctx N rev D S T F) (s : FStr) (hs : s.length = N) (h0 : Fermi.pairs s ≠ [])
    (tops : List (List FL)) (hn : tops.Nodup) (ht : ∀ t ∈ tops, SamePat (s.filter (fun x => x ≠ .i)) t)
    (basis : List PStr) (hb : basis.Perm (keysL N rev S s)) :
    spn tops.length (basis.map (column (tops.map (fun t => (t, im T s t))))) = ⊤ := by
  by_contra hne
  obtain ⟨f, hf, hle⟩ := Submodule.exists_le_ker_of_lt_top _ (lt_top_iff_ne_top.mpr hne)
  apply hf
  set k := (Fermi.pairs s).length with hk
  set R : ℕ → List (ℕ × FL) := fun i => ((Fermi.pairs s).map (·.1)).zip (tops.getD i []) with hR
  have hget : ∀ i : Fin tops.length, tops.getD i [] ∈ tops := by
    intro i
    rw [List.getD_eq_getElem?_getD, List.getElem?_eq_getElem i.2]
    exact List.getElem_mem i.2
  have hsum : ∀ w ∈ bools k, ∑ i : Fin tops.length,
      (2 ^ k * (starRingEnd ℂ) (amp N rev S (R i) w)) * f (Pi.single i 1) = 0 := by
    intro w hw
    have hwl := (mem_bools _ _).mp hw
    have hm : vec tops.length (column (tops.map (fun t => (t, im T s t))) (key N rev S (Fermi.pairs s) w)) ∈
        spn tops.length (basis.map (column (tops.map (fun t => (t, im T s t))))) := by
      apply vec_mem_spn
      refine List.mem_map.mpr ⟨_, ?_, rfl⟩
      rw [hb.mem_iff]
      exact List.mem_map.mpr ⟨w, hw, rfl⟩
    have := LinearMap.mem_ker.mp (hle hm)
    rw [vec_sum] at this
    rw [← this]
    apply Finset.sum_congr rfl
    intro i _
    congr 1
    rw [hR, ← entry_amp C s hs h0 _ (ht _ (hget i)) w hwl]
    unfold vec column
    simp [List.getD_eq_getElem?_getD]
  have hy : ∀ j : Fin tops.length, f (Pi.single j 1) = 0 := by
    intro j
    have h1 : ((bools k).map (fun w => amp N rev S (R j) w * ∑ i : Fin tops.length,
        (2 ^ k * (starRingEnd ℂ) (amp N rev S (R i) w)) * f (Pi.single i 1))).sum = 0 := by
      apply List.sum_eq_zero
      intro x hx
      obtain ⟨w, hw, rfl⟩ := List.mem_map.mp hx
      rw [hsum w hw, mul_zero]
    have h2 : ((bools k).map (fun w => amp N rev S (R j) w * ∑ i : Fin tops.length,
        (2 ^ k * (starRingEnd ℂ) (amp N rev S (R i) w)) * f (Pi.single i 1))).sum =
        ∑ i : Fin tops.length, (2 ^ k * f (Pi.single i 1)) *
          ((bools k).map (fun w => amp N rev S (R j) w * (starRingEnd ℂ) (amp N rev S (R i) w))).sum := by
      generalize bools k = B
      induction B with
      | nil => simp
      | cons w B ih =>
        rw [List.map_cons, List.sum_cons, ih, Finset.mul_sum, ← Finset.sum_add_distrib]
        apply Finset.sum_congr rfl
        intro i _
        rw [List.map_cons, List.sum_cons]
        ring
    rw [h2] at h1
    have hmem : ∀ i : Fin tops.length, R i ∈ vars (Fermi.pairs s) := fun i => (refill_spec s _ (ht _ (hget i))).2.2
    have h3 : ∀ i : Fin tops.length, i ≠ j → R j ≠ R i := by
      intro i hij he
      apply hij
      have e : tops.getD j [] = tops.getD i [] := by
        have := congrArg (List.map (·.2)) he
        rw [hR] at this
        simp only at this
        rw [List.map_snd_zip, List.map_snd_zip] at this
        · exact this
        · have := (ht _ (hget i)).length_eq
          rw [List.length_map, ← this, ← pairs_letters, List.length_map]
        · have := (ht _ (hget j)).length_eq
          rw [List.length_map, ← this, ← pairs_letters, List.length_map]
      rw [List.getD_eq_getElem?_getD, List.getD_eq_getElem?_getD, List.getElem?_eq_getElem i.2,
        List.getElem?_eq_getElem j.2] at e
      simp only [Option.getD_some] at e
      exact (Fin.ext ((List.Nodup.getElem_inj_iff hn).mp e)).symm
    rw [Finset.sum_eq_single j] at h1
    · rw [amp_orth (Fermi.pairs s) (fun a ha => (good_pairs s a ha).2) _ (hmem j) _ (hmem j), if_pos rfl] at h1
      have h2k : (2 : ℂ) ^ k * (1 / 2) ^ k = 1 := by rw [← mul_pow]; norm_num
      linear_combination h1 - f (Pi.single j 1) * h2k
    · intro i _ hij
      rw [amp_orth (Fermi.pairs s) (fun a ha => (good_pairs s a ha).2) _ (hmem j) _ (hmem i), if_neg (h3 i hij), mul_zero]
    · intro h; exact absurd (Finset.mem_univ _) h
  ext i
  simpa using hy i

/-- The column search finds as many independent columns as there are rows. -/
theorem pick_some (C : Ctx N rev D S T F) (s : FStr) (hs : s.length = N) (h0 : Fermi.pairs s ≠ [])
    (tops : List (List FL)) (hn : tops.Nodup) (hne : tops ≠ [])
    (ht : ∀ t ∈ tops, SamePat (s.filter (fun x => x ≠ .i)) t)
    (basis : List PStr) (hb : basis.Perm (keysL N rev S s)) (rank : List (List ℂ) → ℕ) (hr : RankOK rank) :
    ∃ added, pick rank (basis.map (column (tops.map (fun t => (t, im T s t))))) tops.length (tops.length + 1) [] =
        some (some added) ∧
      Indep tops.length (added.map (fun k => (basis.map (column (tops.map (fun t => (t, im T s t))))).getD k [])) := by
  have hsp := cols_span C s hs h0 tops hn ht basis hb
  have hcl : ∀ c ∈ basis.map (column (tops.map (fun t => (t, im T s t)))), c.length = tops.length := by
    intro c hc
    obtain ⟨P, _, rfl⟩ := List.mem_map.mp hc
    simp [column]
  have hbl : basis.length = 2 ^ (Fermi.pairs s).length := by rw [hb.length_eq, keysL_length]
  obtain ⟨P, bs, rfl⟩ : ∃ P bs, basis = P :: bs := by
    cases basis with
    | nil => exact absurd hbl (by have := Nat.two_pow_pos (Fermi.pairs s).length; simp only [List.length_nil]; omega)
    | cons P bs => exact ⟨P, bs, rfl⟩
  have hP : P ∈ keysL N rev S s := hb.mem_iff.mp (by simp)
  set cols := (P :: bs).map (column (tops.map (fun t => (t, im T s t)))) with hcols
  have hpos : 0 < tops.length := List.length_pos_of_ne_nil hne
  rw [pick, if_neg (by rw [List.length_nil]; omega)]
  simp only [List.getLast?_nil]
  rw [if_neg (by rw [hcols]; simp)]
  refine pick_total rank hr tops.length cols hcl hsp tops.length [0] (by simp) (by simp) ?_ ?_ ?_
  · intro i hi
    rw [List.mem_singleton.mp hi, hcols]; simp
  · have := (indep_append tops.length [] (cols.getD 0 []) (indep_nil _)).mpr ?_
    · exact this
    · intro hm
      rw [spn_eq] at hm
      simp only [List.not_mem_nil, false_and, exists_false, Set.setOf_false, Submodule.span_empty,
        Submodule.mem_bot] at hm
      have h1 := congrFun hm ⟨0, hpos⟩
      obtain ⟨t, ts, rfl⟩ := List.exists_cons_of_ne_nil hne
      have h2 : entryOf (im T s t) P = 0 := by
        rw [hcols] at h1
        simpa [vec, column] using h1
      exact entry_ne C s hs h0 t (ht t (by simp)) P hP h2
  · intro a ha i hia _
    have ha' : (0 : ℕ) = a := Option.some.inj ha
    have : i = 0 := by omega
    subst this
    exact vec_mem_spn _ _ _ (by simp)

end

theorem target_isSome (tops : List (List FL)) (op : OpD FStr ℂ)
    (h : ∀ t ∈ op, t.2 ≠ 0 → t.1.filter (fun x => x ≠ .i) ∈ tops) : (target tops op).isSome := by
  unfold target
  generalize List.replicate tops.length (0 : ℂ) = v
  induction op generalizing v with
  | nil => rfl
  | cons t op ih =>
    rw [List.foldlM_cons]
    have ih' := fun v => ih (fun u hu => h u (by simp [hu])) v
    by_cases h0 : isZero t.2 = true
    · rw [if_pos h0]; exact ih' v
    · rw [if_neg h0]
      have : t.1.filter (fun x => x ≠ .i) ∈ tops := h t (by simp) (fun e => h0 ((Coef.isZero_iff _).mpr e))
      simp only [this, if_true]
      exact ih' _

/-! ### Parity of the numbers of sites -/

theorem parity_in (alp : List ℕ) (l : List (ℕ × FL)) : ∃ a : ℤ, dlt alp.toFinset l =
    2 * a - ((((l.filter (fun x => FLodd x.2)).map (fun x => x.1)).filter (fun q => q ∈ alp)).length : ℤ) := by
  induction l with
  | nil => exact ⟨0, by simp [dlt]⟩
  | cons x l ih =>
    obtain ⟨a, ha⟩ := ih
    have e : dlt alp.toFinset (x :: l) = (if x.1 ∈ alp then wt x.2 else 0) + dlt alp.toFinset l := by simp [dlt]
    rw [e, ha, List.filter_cons]
    obtain ⟨q, o⟩ := x
    by_cases hq : q ∈ alp
    · cases o <;> simp [FLodd, wt, hq]
      · exact ⟨a + 1, by ring⟩
      · exact ⟨a, by ring⟩
    · cases o <;> simp [FLodd, wt, hq]

theorem parity_out (A : Finset ℕ) (alp : List ℕ) (l : List (ℕ × FL)) (hl : ∀ a ∈ l, a.1 ∈ A) :
    ∃ a : ℤ, dlt A l - dlt alp.toFinset l =
      2 * a - ((((l.filter (fun x => FLodd x.2)).map (fun x => x.1)).filter (fun q => q ∉ alp)).length : ℤ) := by
  induction l with
  | nil => exact ⟨0, by simp [dlt]⟩
  | cons x l ih =>
    obtain ⟨a, ha⟩ := ih (fun y hy => hl y (by simp [hy]))
    have e : dlt alp.toFinset (x :: l) = (if x.1 ∈ alp then wt x.2 else 0) + dlt alp.toFinset l := by simp [dlt]
    have e2 : dlt A (x :: l) = wt x.2 + dlt A l := by simp [dlt, hl x (by simp)]
    rw [e, e2, List.filter_cons]
    have e3 : ∀ u v : ℤ, (u + dlt A l) - (v + dlt alp.toFinset l) = (u - v) + (dlt A l - dlt alp.toFinset l) := by
      intro u v; ring
    rw [e3, ha]
    obtain ⟨q, o⟩ := x
    by_cases hq : q ∈ alp
    · cases o <;> simp [FLodd, wt, hq]
    · cases o <;> simp [FLodd, wt, hq]
      · exact ⟨a + 1, by ring⟩
      · exact ⟨a, by ring⟩

end HQCA.SymProj
