import Verif.Proofs.SymCount
import Verif.Proofs.TransformErr

/-!
# The symmetry projection keeps expectation values
-/

namespace HQCA.SymProj
open Transform

/-- What is assumed of the numerical routines. -/
structure NumOK (num : Num ℂ) : Prop where
  tiny : ∀ c, num.tiny c = true ↔ ‖c‖ < (1e-10 : ℝ)
  keep : ∀ c, num.keep c = true ↔ (1e-10 : ℝ) < ‖c‖
  solve : ∀ cols v x, num.solve cols v = some x → x.length = cols.length ∧
    ∀ i < v.length, ((cols.zip x).map (fun y => y.2 * y.1.getD i 0)).sum = v.getD i 0

section
variable {N : ℕ} {rev : Bool} {D : ℕ → FL → Oper ℂ} {S : ℕ → Bool → PStr × PStr}
  {T : Term FStr ℂ → Option (POp ℂ)} {F : FStr → Oper ℂ}

/-- The letters of a string with their sites are known from its sites and letters. -/
theorem pairs_letters (s : FStr) : (Fermi.pairs s).map (·.2) = s.filter (fun x => x ≠ .i) := pairsFrom_snd 0 s

theorem zip_map_self (l : List (ℕ × FL)) : (l.map (·.1)).zip (l.map (·.2)) = l := by
  induction l with
  | nil => rfl
  | cons a l ih => simp [ih]

/-- The image of the string with letters `t`. -/
noncomputable def im (T : Term FStr ℂ → Option (POp ℂ)) (s : FStr) (t : List FL) : POp ℂ :=
  (image T (refill s t, 2 ^ (Fermi.pairs s).length)).getD []

theorem samePat_ne (l t : List FL) (h : SamePat l t) : ∀ x ∈ t, x ≠ .i := by
  induction h with
  | nil => simp
  | cons hxy h ih =>
    intro z hz
    rcases List.mem_cons.mp hz with rfl | hz
    · exact hxy.1
    · exact ih z hz

theorem refill_spec (s : FStr) (t : List FL) (h : SamePat (s.filter (fun x => x ≠ .i)) t) :
    Fermi.pairs (refill s t) = ((Fermi.pairs s).map (·.1)).zip t ∧
      (((Fermi.pairs s).map (·.1)).zip t).length = (Fermi.pairs s).length ∧
      ((Fermi.pairs s).map (·.1)).zip t ∈ vars (Fermi.pairs s) := by
  have hl : t.length = (s.filter (fun x => x ≠ .i)).length := h.length_eq.symm
  have hp : (Fermi.pairs s).length = t.length := by
    rw [hl, ← pairs_letters, List.length_map]
  refine ⟨refill_pairs 0 s t (samePat_ne _ _ h) hl, by simp [hp], ?_⟩
  rw [mem_vars _ _ (fun a ha => (good_pairs s a ha).2), pairs_letters]
  rw [List.map_fst_zip (by simp [hp]), List.map_snd_zip (by simp [hp])]
  exact ⟨rfl, h⟩

theorem im_spec (C : Ctx N rev D S T F) (loc : Bool) (s : FStr) (hs : s.length = N) (h0 : Fermi.pairs s ≠ [])
    (t : List FL) (h : SamePat (s.filter (fun x => x ≠ .i)) t) :
    gen loc ((2 : ℂ) ^ (Fermi.pairs s).length) (((Fermi.pairs s).map (·.1)).zip t) N =
        some (refill s t, 2 ^ (Fermi.pairs s).length) ∧
      image T (refill s t, 2 ^ (Fermi.pairs s).length) = some (im T s t) ∧
      Img N rev S (((Fermi.pairs s).map (·.1)).zip t) (im T s t) := by
  obtain ⟨h1, h2, _⟩ := refill_spec s t h
  have hN : (refill s t).length = N := by rw [refill_length, hs]
  have h3 : Fermi.pairs (refill s t) ≠ [] := by
    rw [h1]
    intro e
    rw [e] at h2
    exact h0 (List.length_eq_zero_iff.mp h2.symm)
  have g := gen_pairs loc ((2 : ℂ) ^ (Fermi.pairs s).length) (pow_ne_zero _ two_ne_zero) (refill s t) h3
  obtain ⟨r, r1, r2⟩ := image_spec C (refill s t) hN h3
  rw [h1, h2] at r1
  rw [h1] at r2 g
  rw [hN] at g
  refine ⟨g, ?_, ?_⟩
  · unfold im; rw [r1]; rfl
  · unfold im; rw [r1]; exact r2

/-- The Pauli strings of the pattern of `s`. -/
def keysL (N : ℕ) (rev : Bool) (S : ℕ → Bool → PStr × PStr) (s : FStr) : List PStr :=
  (bools (Fermi.pairs s).length).map (key N rev S (Fermi.pairs s))

theorem im_keys (C : Ctx N rev D S T F) (s : FStr) (hs : s.length = N) (h0 : Fermi.pairs s ≠ [])
    (t : List FL) (h : SamePat (s.filter (fun x => x ≠ .i)) t) :
    ((im T s t).map (·.1)).Perm (keysL N rev S s) := by
  have h1 := (im_spec C false s hs h0 t h).2.2.keys
  obtain ⟨_, h2, h3⟩ := refill_spec s t h
  rw [h2] at h1
  have e : (bools (Fermi.pairs s).length).map (key N rev S (((Fermi.pairs s).map (·.1)).zip t)) = keysL N rev S s := by
    unfold keysL
    apply List.map_congr_left
    intro w _
    exact key_vars (N := N) (rev := rev) (S := S) (Fermi.pairs s) w _ h3
  rw [← e]; exact h1

/-- State of the loop over the rows. -/
def RInv (B : List PStr) (r : Rows ℂ) : Prop := r.basis = none ∨ ∃ b, r.basis = some b ∧ b.Perm B

theorem keysL_length (N : ℕ) (rev : Bool) (S : ℕ → Bool → PStr × PStr) (s : FStr) :
    (keysL N rev S s).length = 2 ^ (Fermi.pairs s).length := by
  simp [keysL, length_bools]

theorem null_unit (num : Num ℂ) (hn : NumOK num) (r : POp ℂ) (h0 : r ≠ []) (h : ∀ u ∈ r, ‖u.2‖ = 1) :
    OpD.null num.tiny r = false := by
  cases r with
  | nil => exact absurd rfl h0
  | cons u r =>
    have : num.tiny u.2 = false := by
      rw [← Bool.not_eq_true, hn.tiny, h u (by simp)]; norm_num
    simp [OpD.null, this]

theorem rowStep_spec (C : Ctx N rev D S T F) (num : Num ℂ) (hn : NumOK num) (loc : Bool) (s : FStr) (hs : s.length = N)
    (h0 : Fermi.pairs s ≠ []) (dim : ℕ) (hd : dim ≤ 2 ^ (Fermi.pairs s).length) (r : Rows ℂ)
    (hr : RInv (keysL N rev S s) r) (t : List FL) (h : SamePat (s.filter (fun x => x ≠ .i)) t) :
    ∃ b, b.Perm (keysL N rev S s) ∧
      rowStep num loc T ((Fermi.pairs s).map (·.1)) N dim r t = some (.ok ⟨some b, r.rows ++ [(t, im T s t)]⟩) := by
  obtain ⟨g1, g2, g3⟩ := im_spec C loc s hs h0 t h
  have g4 := im_keys C s hs h0 t h
  have hlen : (im T s t).length = 2 ^ (Fermi.pairs s).length := by
    rw [← List.length_map (f := (·.1)), g4.length_eq, keysL_length]
  have hne : im T s t ≠ [] := by
    intro e
    rw [e] at hlen
    have : 0 < 2 ^ (Fermi.pairs s).length := by positivity
    rw [← hlen] at this
    simp at this
  have hnull := null_unit num hn (im T s t) hne g3.unit
  -- the coefficient
  have hc : rowCoef loc T ((Fermi.pairs s).map (·.1)) N r.basis t = some ((2 : ℂ) ^ (Fermi.pairs s).length) := by
    unfold rowCoef
    rcases hr with hb | ⟨b, hb, hp⟩
    · rw [hb]
      simp only [List.length_map]
      rw [g1, Option.bind_some, g2, Option.map_some, hlen]
      push_cast; rfl
    · rw [hb]
      simp only
      rw [hp.length_eq, keysL_length]
      push_cast; rfl
  have hb : (r.basis.getD (sortKeys ((im T s t).map (fun t => t.1)))).Perm (keysL N rev S s) := by
    rcases hr with hb | ⟨b, hb, hp⟩
    · rw [hb, Option.getD_none]
      exact (List.mergeSort_perm _ _).trans g4
    · rw [hb, Option.getD_some]; exact hp
  refine ⟨_, hb, ?_⟩
  unfold rowStep
  simp only [hc, g1, Option.bind_some, g2, hlen]
  rw [if_neg (by omega), hnull]
  simp only [Bool.false_eq_true, if_false]
  rw [if_pos]
  rw [List.all_eq_true]
  intro u hu
  rw [decide_eq_true_eq]
  exact hb.mem_iff.mpr (g4.mem_iff.mp (List.mem_map.mpr ⟨u, hu, rfl⟩))

theorem rowLoop_spec (C : Ctx N rev D S T F) (num : Num ℂ) (hn : NumOK num) (loc : Bool) (s : FStr) (hs : s.length = N)
    (h0 : Fermi.pairs s ≠ []) (dim : ℕ) (hd : dim ≤ 2 ^ (Fermi.pairs s).length) (tops : List (List FL))
    (h : ∀ t ∈ tops, SamePat (s.filter (fun x => x ≠ .i)) t) (r : Rows ℂ) (hr : RInv (keysL N rev S s) r) :
    ∃ r', rowLoop num loc T ((Fermi.pairs s).map (·.1)) N dim r tops = some (.ok r') ∧
      r'.rows = r.rows ++ tops.map (fun t => (t, im T s t)) ∧ RInv (keysL N rev S s) r' ∧
      (tops ≠ [] → ∃ b, r'.basis = some b ∧ b.Perm (keysL N rev S s)) := by
  induction tops generalizing r with
  | nil => exact ⟨r, rfl, by simp, hr, fun h => absurd rfl h⟩
  | cons t tops ih =>
    obtain ⟨b, hb, e⟩ := rowStep_spec C num hn loc s hs h0 dim hd r hr t (h t (by simp))
    obtain ⟨r', e1, e2, e3, e4⟩ := ih (fun x hx => h x (by simp [hx])) ⟨some b, r.rows ++ [(t, im T s t)]⟩
      (Or.inr ⟨b, rfl, hb⟩)
    refine ⟨r', by rw [rowLoop, e]; exact e1, by rw [e2]; simp, e3, fun _ => ?_⟩
    by_cases ht : tops = []
    · subst ht
      rw [rowLoop] at e1
      have : r' = ⟨some b, r.rows ++ [(t, im T s t)]⟩ := by cases e1; rfl
      exact ⟨b, by rw [this], hb⟩
    · exact e4 ht

theorem pick_spec (rank : List (List ℂ) → ℕ) (cols : List (List ℂ)) (dim n : ℕ) (added res : List ℕ)
    (h1 : added.Nodup) (h2 : ∀ i ∈ added, i < cols.length) (h : pick rank cols dim n added = some (some res)) :
    res.Nodup ∧ (∀ i ∈ res, i < cols.length) ∧ res.length = dim := by
  induction n generalizing added with
  | zero => simp [pick] at h
  | succ n ih =>
    rw [pick] at h
    split at h
    · rename_i hd
      cases h
      exact ⟨h1, h2, hd⟩
    · cases ha : added.getLast? with
      | none =>
        rw [ha] at h
        simp only at h
        split at h
        · simp at h
        · rename_i hc
          refine ih [0] (by simp) ?_ h
          intro i hi
          rw [List.mem_singleton.mp hi]
          exact List.length_pos_iff.mpr hc
      | some a =>
        rw [ha] at h
        simp only at h
        split at h
        · simp at h
        · split at h
          · rename_i i hf
            have hm := List.mem_of_find?_eq_some hf
            rw [List.mem_filter] at hm
            have hi1 : i < cols.length := by
              have := hm.1
              rw [List.mem_range'_1] at this
              omega
            have hi2 : i ∉ added := by simpa using hm.2
            refine ih (added ++ [i]) ?_ ?_ h
            · rw [List.nodup_append]
              refine ⟨h1, by simp, ?_⟩
              intro x hx y hy
              rw [List.mem_singleton.mp hy]
              rintro rfl
              exact hi2 hx
            · intro j hj
              rcases List.mem_append.mp hj with hj | hj
              · exact h2 j hj
              · rw [List.mem_singleton.mp hj]; exact hi1
          · simp at h

/-! ### The vector of the original operator -/

/-- `Σ_i v_i g(tops_i)`. -/
def dot (g : List FL → ℂ) (v : List ℂ) (tops : List (List FL)) : ℂ := ((v.zip tops).map (fun x => x.1 * g x.2)).sum

theorem dot_set (g : List FL → ℂ) (v : List ℂ) (tops : List (List FL)) (c : ℂ) (o : List FL) (ho : o ∈ tops)
    (hl : v.length = tops.length) (hz : v.getD (tops.idxOf o) 0 = 0) :
    dot g (v.set (tops.idxOf o) c) tops = dot g v tops + c * g o := by
  induction tops generalizing v with
  | nil => simp at ho
  | cons t tops ih =>
    cases v with
    | nil => simp at hl
    | cons a v =>
      by_cases hto : t = o
      · subst hto
        rw [List.idxOf_cons_self] at hz ⊢
        simp only [List.getD_cons_zero] at hz
        subst hz
        simp [dot]; ring
      · have ho' : o ∈ tops := by
          rcases List.mem_cons.mp ho with h | h
          · exact absurd h.symm hto
          · exact h
        rw [List.idxOf_cons_ne _ hto] at hz ⊢
        have := ih v ho' (by simpa using hl) (by simpa using hz)
        simp only [dot, List.set_cons_succ, List.zip_cons_cons, List.map_cons, List.sum_cons] at this ⊢
        rw [this]; ring

theorem target_aux (g : List FL → ℂ) (tops : List (List FL)) (op : OpD FStr ℂ) (v0 v : List ℂ)
    (hl : v0.length = tops.length)
    (hz : ∀ t ∈ op, t.2 ≠ 0 → t.1.filter (fun x => x ≠ .i) ∈ tops →
      v0.getD (tops.idxOf (t.1.filter (fun x => x ≠ .i))) 0 = 0)
    (hd : op.Pairwise (fun t u => t.2 ≠ 0 → u.2 ≠ 0 →
      t.1.filter (fun x => x ≠ .i) ≠ u.1.filter (fun x => x ≠ .i)))
    (h : op.foldlM (fun v t =>
      if isZero t.2 then some v
      else
        let o := t.1.filter (fun x => x ≠ .i)
        if o ∈ tops then some (v.set (tops.idxOf o) t.2) else none) v0 = some v) :
    v.length = tops.length ∧
      dot g v tops = dot g v0 tops + (op.map (fun t => t.2 * g (t.1.filter (fun x => x ≠ .i)))).sum ∧
      ∀ t ∈ op, t.2 ≠ 0 → t.1.filter (fun x => x ≠ .i) ∈ tops := by
  induction op generalizing v0 with
  | nil =>
    simp only [List.foldlM_nil] at h
    cases h
    exact ⟨hl, by simp, by simp⟩
  | cons t op ih =>
    have hd' := List.pairwise_cons.mp hd
    rw [List.foldlM_cons] at h
    by_cases ht : t.2 = 0
    · have hzt : isZero t.2 = true := (Coef.isZero_iff _).mpr ht
      rw [if_pos hzt] at h
      obtain ⟨i1, i2, i3⟩ := ih v0 hl (fun u hu => hz u (by simp [hu])) hd'.2 h
      refine ⟨i1, by rw [i2]; simp [ht], ?_⟩
      intro u hu hu0
      rcases List.mem_cons.mp hu with rfl | hu
      · exact absurd ht hu0
      · exact i3 u hu hu0
    · have hzt : ¬ isZero t.2 = true := fun e => ht ((Coef.isZero_iff _).mp e)
      rw [if_neg hzt] at h
      simp only at h
      by_cases hm : t.1.filter (fun x => x ≠ .i) ∈ tops
      · rw [if_pos hm] at h
        have hset := dot_set g v0 tops t.2 _ hm hl (hz t (by simp) ht hm)
        obtain ⟨i1, i2, i3⟩ := ih (v0.set (tops.idxOf (t.1.filter (fun x => x ≠ FL.i))) t.2) (by simpa using hl) (by
          intro u hu hu0 hum
          have hne := hd'.1 u hu ht hu0
          have hidx : tops.idxOf (t.1.filter (fun x => x ≠ .i)) ≠ tops.idxOf (u.1.filter (fun x => x ≠ .i)) := by
            intro e
            exact hne ((List.idxOf_inj hm).mp e)
          have := hz u (by simp [hu]) hu0 hum
          simp only [List.getD_eq_getElem?_getD] at this ⊢
          rw [List.getElem?_set_ne hidx]
          exact this) hd'.2 h
        refine ⟨i1, ?_, ?_⟩
        · rw [i2, hset, List.map_cons, List.sum_cons, add_assoc]
        · intro u hu hu0
          rcases List.mem_cons.mp hu with rfl | hu
          · exact hm
          · exact i3 u hu hu0
      · rw [if_neg hm] at h
        simp at h

theorem target_spec (g : List FL → ℂ) (tops : List (List FL)) (op : OpD FStr ℂ) (v : List ℂ)
    (hd : op.Pairwise (fun t u => t.2 ≠ 0 → u.2 ≠ 0 →
      t.1.filter (fun x => x ≠ .i) ≠ u.1.filter (fun x => x ≠ .i)))
    (h : target tops op = some v) :
    v.length = tops.length ∧ dot g v tops = (op.map (fun t => t.2 * g (t.1.filter (fun x => x ≠ .i)))).sum ∧
      ∀ t ∈ op, t.2 ≠ 0 → t.1.filter (fun x => x ≠ .i) ∈ tops := by
  obtain ⟨h1, h2, h3⟩ := target_aux g tops op (List.replicate tops.length 0) v (by simp) (by
    intro t _ _ hm
    have := List.idxOf_lt_length_iff.mpr hm
    simp only [List.getD_eq_getElem?_getD, List.getElem?_replicate]
    split <;> rfl) hd h
  refine ⟨h1, ?_, h3⟩
  rw [h2]
  have : dot g (List.replicate tops.length 0) tops = 0 := by
    unfold dot
    clear h h1 h2 h3
    induction tops with
    | nil => rfl
    | cons t tops ih => simpa [List.replicate_succ] using ih
  rw [this, zero_add]

/-! ### The final operator -/

theorem final_eq (num : Num ℂ) (basis : List PStr) (l : List (ℕ × ℂ)) (A : POp ℂ) :
    l.foldl (fun A a => if num.keep a.2 then OpD.addStr A (basis.getD a.1 [], a.2) else A) A =
      ((l.map (fun a => ((basis.getD a.1 [], a.2) : Term PStr ℂ))).filter (fun t => num.keep t.2)).foldl OpD.addStr A := by
  induction l generalizing A with
  | nil => rfl
  | cons a l ih =>
    rw [List.foldl_cons, List.map_cons, ih]
    by_cases hk : num.keep a.2 = true
    · simp [hk]
    · simp [hk]

theorem final_spec (num : Num ℂ) (hn : NumOK num) (basis : List PStr) (hb : basis.Nodup) (added : List ℕ)
    (ha : added.Nodup) (hr : ∀ i ∈ added, i < basis.length) (x : List ℂ) (hx : x.length = added.length) (s : PStr) :
    ‖coef (final num basis added x) s -
      coef ((added.zip x).map (fun a => ((basis.getD a.1 [], a.2) : Term PStr ℂ))) s‖ ≤ (1e-10 : ℝ) := by
  set E : POp ℂ := (added.zip x).map (fun a => ((basis.getD a.1 [], a.2) : Term PStr ℂ)) with hE
  have hu : UniqueKeys E := by
    unfold UniqueKeys
    rw [hE, List.map_map]
    have e : (added.zip x).map ((fun t : Term PStr ℂ => t.1) ∘ fun a => ((basis.getD a.1 [], a.2) : Term PStr ℂ)) =
        added.map (fun i => basis.getD i []) := by
      conv_rhs => rw [← List.map_fst_zip (l₁ := added) (l₂ := x) (by omega)]
      rw [List.map_map]; rfl
    rw [e]
    refine List.Nodup.map_on ?_ ha
    intro i hi j hj hij
    have h1 := hr i hi
    have h2 := hr j hj
    simp only [List.getD_eq_getElem?_getD, List.getElem?_eq_getElem h1, List.getElem?_eq_getElem h2,
      Option.getD_some] at hij
    exact (List.Nodup.getElem_inj_iff hb).mp hij
  have hf : final num basis added x = (E.filter (fun t => num.keep t.2)).foldl OpD.addStr [] := final_eq num basis _ []
  rw [hf, OpD.coef_foldl_addStr _ _ OpD.uniqueKeys_nil]
  have h0 : coef ([] : POp ℂ) s = 0 := rfl
  rw [h0, zero_add]
  by_cases hs : s ∈ E.map (·.1)
  · obtain ⟨u, hu1, rfl⟩ := List.mem_map.mp hs
    rw [OpD.coef_of_mem E hu u hu1]
    by_cases hk : num.keep u.2 = true
    · have hfu : UniqueKeys (E.filter (fun t => num.keep t.2)) :=
        List.Nodup.sublist (List.Sublist.map _ List.filter_sublist) hu
      rw [OpD.coef_of_mem _ hfu u (List.mem_filter.mpr ⟨hu1, hk⟩), sub_self, norm_zero]
      norm_num
    · rw [OpD.coef_of_not_mem]
      · rw [zero_sub, norm_neg]
        rw [hn.keep] at hk
        exact not_lt.mp hk
      · intro hm
        obtain ⟨v, hv, he⟩ := List.mem_map.mp hm
        obtain ⟨hv1, hv2⟩ := List.mem_filter.mp hv
        have : v = u := List.inj_on_of_nodup_map hu hv1 hu1 he
        rw [this] at hv2
        exact hk hv2
  · rw [OpD.coef_of_not_mem _ _ hs, OpD.coef_of_not_mem, sub_zero, norm_zero]
    · norm_num
    · intro hm
      obtain ⟨v, hv, he⟩ := List.mem_map.mp hm
      exact hs (List.mem_map.mpr ⟨v, (List.mem_filter.mp hv).1, he⟩)

/-! ### Expectation values -/

theorem sum_getD {M : Type} [AddCommMonoid M] {α : Type} (l : List α) (d : α) (f : α → M) :
    (l.map f).sum = ∑ i ∈ Finset.range l.length, f (l.getD i d) := by
  induction l with
  | nil => simp
  | cons a l ih =>
    rw [List.map_cons, List.sum_cons, ih, List.length_cons, Finset.sum_range_succ', add_comm]
    simp

theorem dot_getD (g : List FL → ℂ) (v : List ℂ) (tops : List (List FL)) (h : v.length = tops.length) :
    dot g v tops = ∑ i ∈ Finset.range tops.length, v.getD i 0 * g (tops.getD i []) := by
  unfold dot
  induction tops generalizing v with
  | nil => simp
  | cons t tops ih =>
    cases v with
    | nil => simp at h
    | cons a v =>
      rw [List.zip_cons_cons, List.map_cons, List.sum_cons, ih v (by simpa using h), List.length_cons,
        Finset.sum_range_succ', add_comm]
      simp

theorem list_sum_comm {α : Type} (l : List α) (n : ℕ) (f : α → ℕ → ℂ) :
    (l.map (fun a => ∑ i ∈ Finset.range n, f a i)).sum = ∑ i ∈ Finset.range n, (l.map (fun a => f a i)).sum := by
  induction l with
  | nil => simp
  | cons a l ih => simp only [List.map_cons, List.sum_cons]; rw [ih, Finset.sum_add_distrib]

theorem sum_mul_right' {α : Type} (l : List α) (f : α → ℂ) (c : ℂ) :
    (l.map (fun a => f a * c)).sum = (l.map f).sum * c := by
  induction l with
  | nil => simp
  | cons a l ih => simp only [List.map_cons, List.sum_cons]; rw [ih, add_mul]

theorem sum_mul_left' {α : Type} (l : List α) (f : α → ℂ) (c : ℂ) :
    (l.map (fun a => c * f a)).sum = c * (l.map f).sum := by
  induction l with
  | nil => simp
  | cons a l ih => simp only [List.map_cons, List.sum_cons]; rw [ih, mul_add]

theorem sum_vars (l : List (ℕ × FL)) (hl : ∀ a ∈ l, a.2 ≠ .i) (tops : List (List FL)) (hn : tops.Nodup)
    (ht : ∀ t ∈ tops, SamePat (l.map (·.2)) t) (f : List (ℕ × FL) → ℂ)
    (hz : ∀ r ∈ vars l, r.map (·.2) ∉ tops → f r = 0) :
    ((vars l).map f).sum = (tops.map (fun t => f ((l.map (·.1)).zip t))).sum := by
  have h1 : ((vars l).map f).sum = (((vars l).filter (fun r => r.map (·.2) ∈ tops)).map f).sum := by
    generalize hV : vars l = V at hz
    clear hV
    induction V with
    | nil => rfl
    | cons r V ih =>
      have ih' := ih (fun x hx => hz x (by simp [hx]))
      by_cases h : r.map (·.2) ∈ tops
      · simp only [List.map_cons, List.sum_cons, List.filter_cons, h, decide_true, if_true]
        rw [ih']
      · simp only [List.map_cons, List.sum_cons, List.filter_cons, h, decide_false, Bool.false_eq_true, if_false]
        rw [hz r (by simp) h, zero_add, ih']
  have hlen : ∀ t ∈ tops, l.length = t.length := fun t h => by
    have := (ht t h).length_eq
    simpa using this
  have h2 : ((vars l).filter (fun r => r.map (·.2) ∈ tops)).Perm (tops.map (fun t => (l.map (·.1)).zip t)) := by
    rw [List.perm_ext_iff_of_nodup ((nodup_vars l hl).filter _)]
    · intro r
      rw [List.mem_filter, decide_eq_true_eq, List.mem_map, mem_vars l r hl]
      constructor
      · rintro ⟨⟨h1, h2⟩, h3⟩
        exact ⟨_, h3, by rw [← h1]; exact zip_map_self r⟩
      · rintro ⟨t, h3, rfl⟩
        have hl' := hlen t h3
        rw [List.map_fst_zip (by simp [hl']), List.map_snd_zip (by simp [hl'])]
        exact ⟨⟨rfl, ht t h3⟩, h3⟩
    · refine List.Nodup.map_on ?_ hn
      intro t h3 t' h3' he
      have e := congrArg (List.map (·.2)) he
      rw [List.map_snd_zip (by simp [hlen t h3]), List.map_snd_zip (by simp [hlen t' h3'])] at e
      exact e
  rw [h1, (h2.map f).sum_eq, List.map_map]
  rfl

/-! ### Unbalanced strings -/

theorem dlt_all (A : Finset ℕ) (r : List (ℕ × FL)) (h : ∀ a ∈ r, a.1 ∈ A) :
    dlt A r = (((r.map (·.2)).filter FLodd).map wt).sum := by
  induction r with
  | nil => rfl
  | cons a r ih =>
    have ih' := ih (fun x hx => h x (by simp [hx]))
    have e : dlt A (a :: r) = wt a.2 + dlt A r := by simp [dlt, h a (by simp)]
    rw [e, ih', List.map_cons, List.filter_cons]
    by_cases ho : FLodd a.2 = true
    · simp [ho]
    · have : wt a.2 = 0 := by revert ho; cases a.2 <;> simp [FLodd, wt]
      simp [ho, this]

theorem wt_sum (p : List FL) (hp : ∀ x ∈ p, FLodd x = true) :
    (p.map wt).sum = 2 * (p.count .cr : ℤ) - p.length ∧ (p.count .cr + p.count .an = p.length) := by
  induction p with
  | nil => simp
  | cons x p ih =>
    obtain ⟨i1, i2⟩ := ih (fun y hy => hp y (by simp [hy]))
    have hx := hp x (by simp)
    cases x <;> simp [FLodd] at hx
    · rw [List.map_cons, List.sum_cons, i1]
      simp [wt]
      constructor
      · ring
      · omega
    · rw [List.map_cons, List.sum_cons, i1]
      simp [wt]
      constructor
      · ring
      · omega

theorem perm_of_count (p E : List FL) (hp : ∀ x ∈ p, FLodd x = true) (hE : ∀ x ∈ E, FLodd x = true)
    (hl : p.length = E.length) (hc : p.count .cr = E.count .cr) : p.Perm E := by
  rw [List.perm_iff_count]
  intro x
  have h1 := (wt_sum p hp).2
  have h2 := (wt_sum E hE).2
  have h3 : ∀ (q : List FL), (∀ x ∈ q, FLodd x = true) → ∀ y, FLodd y = false → q.count y = 0 := by
    intro q hq y hy
    rw [List.count_eq_zero]
    intro hm
    rw [hq y hm] at hy
    cases hy
  cases x
  · rw [h3 p hp _ rfl, h3 E hE _ rfl]
  · exact hc
  · omega
  · rw [h3 p hp _ rfl, h3 E hE _ rfl]
  · rw [h3 p hp _ rfl, h3 E hE _ rfl]

theorem imbal_dlt (alp : List ℕ) (l r : List (ℕ × FL)) (h1 : r.map (·.1) = l.map (·.1))
    (h2 : SamePat (l.map (·.2)) (r.map (·.2))) :
    dlt alp.toFinset r = - imbal (fun q => q ∈ alp) ((l.filter (fun x => FLodd x.2)).map (fun x => x.1))
      ((r.map (·.2)).filter FLodd) := by
  induction l generalizing r with
  | nil =>
    have : r = [] := by simpa using h1
    subst this; rfl
  | cons a l ih =>
    cases r with
    | nil => simp at h1
    | cons b r =>
      simp only [List.map_cons, List.cons.injEq] at h1
      cases h2 with
      | cons h3 h4 =>
        have ih' := ih r h1.2 h4
        have e : dlt alp.toFinset (b :: r) = (if b.1 ∈ alp then wt b.2 else 0) + dlt alp.toFinset r := by simp [dlt]
        rw [e, ih', List.map_cons, List.filter_cons, List.filter_cons]
        by_cases ho : FLodd a.2 = true
        · have hb : FLodd b.2 = true := h3.2.trans ho
          rw [if_pos ho, if_pos hb, List.map_cons]
          unfold imbal
          rw [List.zip_cons_cons, List.map_cons, List.sum_cons, h1.1]
          have hw : wt b.2 = - (if b.2 = .cr then -1 else 1) := by
            revert hb; cases b.2 <;> simp [FLodd, wt]
          by_cases hm : a.1 ∈ alp
          · simp only [hm, decide_true, if_true, hw]; ring
          · simp [hm]
        · have hb : ¬ FLodd b.2 = true := by rw [h3.2]; exact ho
          have hw : wt b.2 = 0 := by revert hb; cases b.2 <;> simp [FLodd, wt]
          rw [if_neg ho, if_neg hb, hw]
          simp

/-- Strings left out of the basis have no expectation value on states of fixed particle number and spin. -/
theorem left_out (hD : Shifts D) (s : FStr) (hs : s.length = N) (alp : List ℕ) (skip : Bool)
    (hbal : s.count .cr = s.count .an) (ψ : Cfg →₀ ℂ) (hN : ∃ n, HasOcc (Finset.range N) n ψ)
    (hA : skip = false → ∃ n, HasOcc alp.toFinset n ψ) (r : List (ℕ × FL)) (hr : r ∈ vars (Fermi.pairs s))
    (hp : (r.map (·.2)).filter FLodd ∉ perms alp skip (((Fermi.pairs s).filter (fun x => FLodd x.2)).map (fun x => x.1))
      ((s.filter (fun x => x ≠ .i)).filter FLodd)) :
    ev ψ (prodO rev D r) = 0 := by
  have hg := good_pairs s
  have hv := (mem_vars (Fermi.pairs s) r (fun a ha => (hg a ha).2)).mp hr
  rw [pairs_letters] at hv
  have hgr := vars_good (N := N) (Fermi.pairs s) (hs ▸ hg) r hr
  have hEo : ∀ x ∈ (s.filter (fun x => x ≠ .i)).filter FLodd, FLodd x = true := fun x hx => (List.mem_filter.mp hx).2
  have hpo : ∀ x ∈ (r.map (·.2)).filter FLodd, FLodd x = true := fun x hx => (List.mem_filter.mp hx).2
  have hlen : ((r.map (·.2)).filter FLodd).length = ((s.filter (fun x => x ≠ .i)).filter FLodd).length :=
    (samePat_filter _ _ (fun x hx => by simpa using (List.mem_filter.mp hx).2) hv.2).1
  rw [mem_perms] at hp
  by_cases hperm : ((r.map (·.2)).filter FLodd).Perm ((s.filter (fun x => x ≠ .i)).filter FLodd)
  · have hp' : ¬ (skip = false → szBad alp (((Fermi.pairs s).filter (fun x => FLodd x.2)).map (fun x => x.1))
        ((r.map (·.2)).filter FLodd) = false) := fun h => hp ⟨hperm, h⟩
    rw [Classical.not_imp] at hp'
    obtain ⟨hsk, hsz⟩ := hp'
    obtain ⟨n, hn⟩ := hA hsk
    refine ev_unbalanced hD rev _ n ψ hn r ?_
    rw [imbal_dlt alp (Fermi.pairs s) r hv.1 (by rw [pairs_letters]; exact hv.2)]
    unfold szBad at hsz
    intro h0
    apply hsz
    have : imbal (fun q => decide (q ∈ alp)) (((Fermi.pairs s).filter (fun x => FLodd x.2)).map (fun x => x.1))
        ((r.map (·.2)).filter FLodd) = 0 := by omega
    simp [this]
  · obtain ⟨n, hn⟩ := hN
    refine ev_unbalanced hD rev _ n ψ hn r ?_
    rw [dlt_all _ _ (fun a ha => Finset.mem_range.mpr (hgr a ha).1), (wt_sum _ hpo).1]
    intro h0
    apply hperm
    apply perm_of_count _ _ hpo hEo hlen
    have hc : ∀ y, FLodd y = true → ((s.filter (fun x => x ≠ .i)).filter FLodd).count y = s.count y := by
      intro y hy
      rw [List.count_filter hy, List.count_filter]
      simpa using odd_ne y hy
    have h2 := (wt_sum _ hEo).2
    rw [hc _ rfl, hc _ rfl] at h2
    rw [hc _ rfl]
    omega

/-- Expectation value of a Pauli string of the pattern in terms of the basis strings. -/
theorem pauli_ev (C : Ctx N rev D S T F) (s : FStr) (hs : s.length = N) (h0 : Fermi.pairs s ≠ [])
    (tops : List (List FL)) (hn : tops.Nodup) (ht : ∀ t ∈ tops, SamePat (s.filter (fun x => x ≠ .i)) t)
    (ψ : Cfg →₀ ℂ) (hz : ∀ r ∈ vars (Fermi.pairs s), r.map (·.2) ∉ tops → ev ψ (prodO rev D r) = 0)
    (P : PStr) (hP : P ∈ keysL N rev S s) :
    ev ψ (denP 0 P) = (tops.map (fun t => entryOf (im T s t) P *
      ev ψ (prodO rev D (((Fermi.pairs s).map (·.1)).zip t)))).sum := by
  obtain ⟨w, hw, rfl⟩ := List.mem_map.mp hP
  have hw' := (mem_bools _ _).mp hw
  have hg : Good N (Fermi.pairs s) := hs ▸ good_pairs s
  rw [invert (rev := rev) C.tab (Fermi.pairs s) hg w hw', ev_sum,
    sum_vars (Fermi.pairs s) (fun a ha => (hg a ha).2) tops hn (by rw [pairs_letters]; exact ht)]
  · congr 1
    apply List.map_congr_left
    intro t h
    obtain ⟨_, _, i3⟩ := im_spec C false s hs h0 t (ht t h)
    obtain ⟨_, r2, r3⟩ := refill_spec s t (ht t h)
    have hk := key_vars (N := N) (rev := rev) (S := S) (Fermi.pairs s) w _ r3
    have hc := i3.coef w (by rw [r2]; exact hw')
    rw [hk, r2] at hc
    rw [entryOf_coef _ i3.unique, hc, ev_smul, map_mul, map_pow, map_ofNat]
  · intro r hr hrt
    rw [ev_smul, hz r hr hrt, mul_zero]

end
end HQCA.SymProj
