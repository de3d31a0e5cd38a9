import Verif.Props.ACSEEnergy

/-!
# C115: layers that the theorem on the ACSE energy covers

A layer whose terms with the same set of ladder letters are adjacent is never split, whatever its coefficients.
-/

namespace HQCA
namespace Props
open Instr Prim Prepare ACSEEn Ham UCC
noncomputable section

/-- The orbitals with a ladder letter. -/
def ladder (s : FStr) : List Bool := s.map fun o => o = .cr ∨ o = .an

theorem ladder_getD (s : FStr) (k : ℕ) : (ladder s).getD k false = isOdd (s.getD k .i) := by
  unfold ladder
  rw [List.getD_eq_getElem?_getD, List.getElem?_map, List.getD_eq_getElem?_getD]
  cases s[k]? with
  | none => rfl
  | some p => rfl

theorem flips_getD' (s : PStr) (k : ℕ) : (flipMask s).getD k false = (s.getD k .I).l := by
  unfold flipMask
  rw [List.getD_eq_getElem?_getD, List.getElem?_map, List.getD_eq_getElem?_getD]
  cases s[k]? with
  | none => rfl
  | some p => cases p <;> rfl

theorem ext_getD (a b : List Bool) (h : a.length = b.length) (h2 : ∀ k, a.getD k false = b.getD k false) : a = b := by
  refine List.ext_getElem h fun i h3 h4 => ?_
  have := h2 i
  rwa [List.getD_eq_getElem _ _ h3, List.getD_eq_getElem _ _ h4] at this

/-- The Pauli strings of a fermionic string flip the orbitals of its ladder letters. -/
theorem jw_flips (t : Term FStr ℂ) (h0 : t.2 ≠ 0 ∨ Transform.nLetters t.1 ≠ 0) (r : POp ℂ) (h : Transform.jordanWigner t = some r) : ∀ u ∈ r, flipMask u.1 = ladder t.1 := by
  have hs := Transform.jw_spec (K := ℂ) t
  by_cases hb : Transform.nLetters t.1 = 0 ∨ small (t.2 / 2 ^ Transform.nLetters t.1) = false
  · obtain ⟨r', e1, e2, e3, _, e5, e6⟩ := hs.above hb
    rw [h] at e1
    cases e1
    intro u hu
    have h0 : t.2 ≠ 0 := by
      rcases h0 with h0 | h0
      · exact h0
      · rintro hz
        have := hb.resolve_left h0
        rw [hz, zero_div] at this
        have h2 : small (0 : ℂ) = true := by rw [small_complex]; norm_num
        rw [h2] at this
        exact Bool.noConfusion this
    refine ext_getD _ _ (by unfold flipMask ladder; rw [List.length_map, List.length_map, e3 u hu]) fun k => ?_
    rw [flips_getD', ladder_getD]
    have hz : (site k mZ * denPO r : Oper ℂ) = ((-1 : ℂ) ^ (if isOdd (t.1.getD k .i) = true then 1 else 0)) • (denPO r * site k mZ) := by
      rw [e6, mul_smul_comm, zcomm_denF, smul_mul_assoc, smul_comm]
      simp only [Nat.zero_le, true_and, Nat.sub_zero]
      congr 1
      split <;> simp
    have := same_flips t.1.length r e2 e3 (fun v hv => by
      obtain ⟨e, he⟩ := e5 v hv
      rw [he]
      refine mul_ne_zero (div_ne_zero h0 (by norm_num)) (zpow_ne_zero _ ?_)
      exact Complex.I_ne_zero) k _ hz u hu
    rw [this]
    cases isOdd (t.1.getD k .i) <;> rfl
  · rw [not_or] at hb
    have := hs.below hb.1 (by simpa using hb.2)
    rw [h] at this
    cases this
    simp

theorem foldl_addStr_disjoint (I J r : POp ℂ) (h : ∀ u ∈ r, u.1 ∉ I.map (·.1)) : r.foldl OpD.addStr (I ++ J) = I ++ r.foldl OpD.addStr J := by
  induction r generalizing J with
  | nil => rfl
  | cons u r ih =>
    rw [List.foldl_cons, List.foldl_cons, ← ih _ fun v hv => h v (by simp [hv])]
    congr 1
    have hu := h u (by simp)
    have hI : I.map (fun v => if v.1 = u.1 then (v.1, v.2 + u.2) else v) = I := by
      conv_rhs => rw [← List.map_id I]
      refine List.map_congr_left fun v hv => ?_
      rw [if_neg]
      · rfl
      · rintro e
        exact hu (e ▸ List.mem_map_of_mem hv)
    have hk : OpD.hasKey (I ++ J) u.1 = OpD.hasKey J u.1 := by
      unfold OpD.hasKey
      rw [List.any_append]
      have : I.any (fun v => decide (v.1 = u.1)) = false := by
        rw [List.any_eq_false]
        intro v hv e
        exact hu ((of_decide_eq_true e) ▸ List.mem_map_of_mem hv)
      rw [this, Bool.false_or]
    unfold OpD.addStr
    rw [hk]
    split
    · rw [List.map_append, hI]
    · rw [List.append_assoc]

theorem foldl_add_disjoint (I : POp ℂ) (hI : ∀ u ∈ I, small u.2 = false) (rs : List (POp ℂ)) (h : ∀ r ∈ rs, ∀ u ∈ r, u.1 ∉ I.map (·.1)) :
    ∀ J, rs.foldl OpD.add (I ++ J) = I ++ rs.foldl OpD.add J := by
  induction rs with
  | nil => exact fun J => rfl
  | cons r rs ih =>
    intro J
    rw [List.foldl_cons, List.foldl_cons, ← ih fun q hq => h q (by simp [hq])]
    congr 1
    unfold OpD.add OpD.clean
    rw [foldl_addStr_disjoint I J r (h r (by simp)), List.filter_append]
    congr 1
    rw [List.filter_eq_self]
    intro u hu
    simp [hI u hu]

theorem mem_add (A r : POp ℂ) (u : Term PStr ℂ) (hu : u ∈ OpD.add A r) : u.1 ∈ A.map (·.1) ∨ u.1 ∈ r.map (·.1) := by
  unfold OpD.add OpD.clean at hu
  have := (OpD.mem_keys_foldl_addStr r A u.1).mp (List.mem_map_of_mem (List.mem_filter.mp hu).1)
  exact this

theorem mem_foldl_add (rs : List (POp ℂ)) (A : POp ℂ) (u : Term PStr ℂ) (hu : u ∈ rs.foldl OpD.add A) :
    u.1 ∈ A.map (·.1) ∨ ∃ r ∈ rs, u.1 ∈ r.map (·.1) := by
  induction rs generalizing A with
  | nil => exact Or.inl (List.mem_map_of_mem hu)
  | cons r rs ih =>
    rcases ih _ hu with h | ⟨q, hq, h⟩
    · obtain ⟨v, hv, e⟩ := List.mem_map.mp h
      rcases mem_add A r v hv with h | h
      · exact Or.inl (e ▸ h)
      · exact Or.inr ⟨r, by simp, e ▸ h⟩
    · exact Or.inr ⟨q, by simp [hq], h⟩

theorem mapM_mem_of {α β : Type} (f : α → Option β) (l : List α) (rs : List β) (h : l.mapM f = some rs) : ∀ r ∈ rs, ∃ a ∈ l, f a = some r := by
  induction l generalizing rs with
  | nil => simp at h; simp [h]
  | cons a l ih =>
    simp only [List.mapM_cons, Option.bind_eq_bind, Option.bind_eq_some_iff] at h
    obtain ⟨b, hb, rs', hrs, e⟩ := h
    simp at e
    subst e
    intro r hr
    rcases List.mem_cons.mp hr with rfl | hr
    · exact ⟨a, by simp, hb⟩
    · obtain ⟨c, hc, h⟩ := ih rs' hrs r hr
      exact ⟨c, by simp [hc], h⟩

theorem mem_transform (A : OpD FStr ℂ) (h0 : ∀ t ∈ A, t.2 ≠ 0 ∨ Transform.nLetters t.1 ≠ 0) (C : POp ℂ) (h : OpD.transform Transform.jordanWigner A = some C) :
    ∀ u ∈ C, ∃ t ∈ A, flipMask u.1 = ladder t.1 := by
  unfold OpD.transform at h
  obtain ⟨rs, h1, rfl⟩ := Option.map_eq_some_iff.mp h
  intro u hu
  rcases mem_foldl_add rs [] u hu with h | ⟨r, hr, h⟩
  · simp at h
  · obtain ⟨t, ht, htr⟩ := mapM_mem_of _ _ _ h1 r hr
    obtain ⟨v, hv, e⟩ := List.mem_map.mp h
    exact ⟨t, ht, by rw [← e]; exact jw_flips t (h0 t ht) r htr v hv⟩

theorem transform_append (A B : OpD FStr ℂ) (hA : ∀ t ∈ A, t.2 ≠ 0 ∨ Transform.nLetters t.1 ≠ 0) (hB : ∀ t ∈ B, t.2 ≠ 0 ∨ Transform.nLetters t.1 ≠ 0) (hd : ∀ t ∈ A, ∀ u ∈ B, ladder t.1 ≠ ladder u.1)
    (C D : POp ℂ) (hC : OpD.transform Transform.jordanWigner A = some C) (hD : OpD.transform Transform.jordanWigner B = some D) :
    OpD.transform Transform.jordanWigner (A ++ B) = some (C ++ D) := by
  have hsm := transform_not_small _ _ _ hC
  have hfl := mem_transform A hA C hC
  unfold OpD.transform at *
  obtain ⟨rs, h1, rfl⟩ := Option.map_eq_some_iff.mp hC
  obtain ⟨qs, h2, rfl⟩ := Option.map_eq_some_iff.mp hD
  rw [List.mapM_append, h1]
  simp only [Option.bind_eq_bind, Option.bind_some, h2, Option.pure_def, Option.map_some, List.foldl_append]
  have := foldl_add_disjoint (rs.foldl OpD.add []) hsm qs (by
    intro q hq u hu hk
    obtain ⟨v, hv, e⟩ := List.mem_map.mp hk
    obtain ⟨t, ht, h3⟩ := hfl v hv
    obtain ⟨w, hw, hwq⟩ := mapM_mem_of _ _ _ h2 q hq
    have h4 := jw_flips w (hB w hw) q hwq u hu
    exact hd t ht w hw (by rw [← h3, ← h4, e])) []
  rw [List.append_nil] at this
  rw [this]

/-- Consecutive groups of terms with the same ladder letters, different ones in different groups. -/
def Grouped (As : List (OpD FStr ℂ)) : Prop :=
  (∀ A ∈ As, ∀ s ∈ A, ∀ t ∈ A, ladder s.1 = ladder t.1) ∧ As.Pairwise fun A B => ∀ s ∈ A, ∀ t ∈ B, ladder s.1 ≠ ladder t.1

theorem grouped_transform (As : List (OpD FStr ℂ)) (hg : Grouped As) (h0 : ∀ A ∈ As, ∀ t ∈ A, t.2 ≠ 0 ∨ Transform.nLetters t.1 ≠ 0) (Cs : List (POp ℂ))
    (hC : List.Forall₂ (fun A C => OpD.transform Transform.jordanWigner A = some C) As Cs) :
    OpD.transform Transform.jordanWigner As.flatten = some Cs.flatten ∧ Unsplit Cs.flatten := by
  have key : OpD.transform Transform.jordanWigner As.flatten = some Cs.flatten ∧
      (∀ C ∈ Cs, ∀ s ∈ C, ∀ t ∈ C, flipMask s.1 = flipMask t.1) ∧ Cs.Pairwise (fun C D => ∀ s ∈ C, ∀ t ∈ D, flipMask s.1 ≠ flipMask t.1) ∧
      ∀ C ∈ Cs, ∀ u ∈ C, ∃ A ∈ As, ∃ t ∈ A, flipMask u.1 = ladder t.1 := by
    induction hC with
    | nil => exact ⟨rfl, by simp, .nil, by simp⟩
    | @cons A C As Cs a _ ih =>
      obtain ⟨hg1, hg2⟩ := hg
      rw [List.pairwise_cons] at hg2
      obtain ⟨i1, i2, i3, i4⟩ := ih ⟨fun B hB => hg1 B (by simp [hB]), hg2.2⟩ fun B hB => h0 B (by simp [hB])
      have hm := mem_transform A (h0 A (by simp)) C a
      refine ⟨?_, ?_, ?_, ?_⟩
      · rw [List.flatten_cons, List.flatten_cons]
        refine transform_append A As.flatten (h0 A (by simp)) ?_ ?_ C _ a i1
        · intro t ht
          obtain ⟨B, hB, ht⟩ := List.mem_flatten.mp ht
          exact h0 B (by simp [hB]) t ht
        · intro t ht u hu
          obtain ⟨B, hB, hu⟩ := List.mem_flatten.mp hu
          exact hg2.1 B hB t ht u hu
      · intro D hD s hs t ht
        rcases List.mem_cons.mp hD with rfl | hD
        · obtain ⟨s', hs', e1⟩ := hm s hs
          obtain ⟨t', ht', e2⟩ := hm t ht
          rw [e1, e2]
          exact hg1 A (by simp) s' hs' t' ht'
        · exact i2 D hD s hs t ht
      · refine List.Pairwise.cons ?_ i3
        intro D hD s hs t ht
        obtain ⟨s', hs', e1⟩ := hm s hs
        obtain ⟨B, hB, t', ht', e2⟩ := i4 D hD t ht
        rw [e1, e2]
        exact hg2.1 B hB s' hs' t' ht'
      · intro D hD u hu
        rcases List.mem_cons.mp hD with rfl | hD
        · obtain ⟨t, ht, e⟩ := hm u hu
          exact ⟨A, by simp, t, ht, e⟩
        · obtain ⟨B, hB, t, ht, e⟩ := i4 D hD u hu
          exact ⟨B, by simp [hB], t, ht, e⟩
  refine ⟨key.1, Cs, rfl, key.2.1, key.2.2.1.imp fun h s hs t ht e => h s hs t ht ?_⟩
  have hff : ∀ s : PStr, flipMask s = flipMask (family s) := by
    intro s
    unfold flipMask family
    rw [List.map_map]
    refine List.map_congr_left fun p _ => ?_
    cases p <;> rfl
  rw [hff, e, ← hff]

/-! ### Excitations -/

theorem ann_prod_ne (l : List ℕ) (hl : l.Nodup) (b : Cfg) (hb : ∀ i ∈ l, b i = false) :
    ((l.map fun i => (ann i : Oper ℂ)).prod (fun _ => 1)) b ≠ 0 := by
  induction l generalizing b with
  | nil => simp
  | cons x l ih =>
    rw [List.map_cons, List.prod_cons]
    show (if b x then (0 : ℂ) else fsign b x * ((l.map fun i => (ann i : Oper ℂ)).prod (fun _ => 1)) (Function.update b x true)) ≠ 0
    rw [if_neg (by simp [hb x (by simp)])]
    have hx := (List.nodup_cons.mp hl).1
    refine mul_ne_zero (by unfold fsign; exact pow_ne_zero _ (by norm_num)) (ih (List.nodup_cons.mp hl).2 _ fun i hi => ?_)
    rw [Function.update_of_ne (by rintro rfl; exact hx hi)]
    exact hb i (by simp [hi])

theorem cre_prod_ne (l : List ℕ) (hl : l.Nodup) (φ : Cfg → ℂ) (b : Cfg) (hb : ∀ i ∈ l, b i = true)
    (hφ : ∀ b' : Cfg, (∀ i, i ∉ l → b' i = b i) → φ b' ≠ 0) : ((l.map fun i => (cre i : Oper ℂ)).prod φ) b ≠ 0 := by
  induction l generalizing b with
  | nil => exact hφ b fun _ _ => rfl
  | cons x l ih =>
    rw [List.map_cons, List.prod_cons]
    show (if b x then fsign b x * ((l.map fun i => (cre i : Oper ℂ)).prod φ) (Function.update b x false) else (0 : ℂ)) ≠ 0
    rw [if_pos (hb x (by simp))]
    have hx := (List.nodup_cons.mp hl).1
    refine mul_ne_zero (by unfold fsign; exact pow_ne_zero _ (by norm_num)) (ih (List.nodup_cons.mp hl).2 _ (fun i hi => ?_) fun b' hb' => ?_)
    · rw [Function.update_of_ne (by rintro rfl; exact hx hi)]
      exact hb i (by simp [hi])
    · refine hφ b' fun i hi => ?_
      rw [hb' i (fun h => hi (by simp [h])), Function.update_of_ne (fun e => hi (by simp [e]))]

theorem excOp_ne (t : List ℕ) (ht : t.Nodup) : (excOp t : Oper ℂ) ≠ 0 := by
  intro h0
  have hs := List.take_append_drop (t.length / 2) t
  rw [← hs, List.nodup_append] at ht
  obtain ⟨n1, n2, n3⟩ := ht
  have := congrFun (LinearMap.congr_fun h0 (fun _ => 1)) (fun i => decide (i ∈ t.take (t.length / 2)))
  unfold excOp at this
  rw [Module.End.mul_apply] at this
  refine cre_prod_ne _ n1 _ _ (by simp) (fun b' hb' => ann_prod_ne _ n2 b' fun i hi => ?_) this
  have hi' : i ∉ t.take (t.length / 2) := fun h => n3 i h i hi rfl
  rw [hb' i hi']
  simpa using hi'

/-- The orbitals that an excitation fills or empties, each counted modulo two. -/
def orbs (N : ℕ) (t : List ℕ) : List Bool := (List.range N).map fun k => t.count k % 2 = 1

theorem ladder_of (N : ℕ) (t : List ℕ) (ht : t.Nodup) (s : FStr) (hs : s.length = N) (x y : ℂ) (hy : y ≠ 0)
    (h : x • (denF 0 s : Oper ℂ) = y • excOp t) : ladder s = orbs N t := by
  have hx : x ≠ 0 := by
    rintro rfl
    rw [zero_smul] at h
    exact excOp_ne t ht ((smul_eq_zero.mp h.symm).resolve_left hy)
  have hd : (denF 0 s : Oper ℂ) = (x⁻¹ * y) • excOp t := by rw [mul_smul, ← h, smul_smul, inv_mul_cancel₀ hx, one_smul]
  have hzz : ∀ k, (site k mZ * site k mZ : Oper ℂ) = 1 := by
    intro k
    rw [← site_mul, show (mZ * mZ : M2 ℂ) = 1 from ?_, site_one]
    rw [mZ_eq, mat2_mul, one_eq]; simp
  refine List.ext_getElem (by simp [ladder, orbs, hs]) fun k h1 h2 => ?_
  have hk : (if isOdd (s.getD k .i) = true then (-1 : ℂ) else 1) = (-1 : ℂ) ^ t.count k := by
    have h1 := zcomm_denF k 0 s
    have h2 : (site k mZ * denF 0 s : Oper ℂ) = ((-1 : ℂ) ^ t.count k) • (denF 0 s * site k mZ) := by
      rw [hd, mul_smul_comm, zcomm_exc, smul_mul_assoc, smul_comm]
    rw [h2] at h1
    simp only [Nat.zero_le, true_and, Nat.sub_zero] at h1
    have h3 : (denF 0 s * site k mZ : Oper ℂ) ≠ 0 := by
      intro h0
      have := congrArg (· * (site k mZ : Oper ℂ)) h0
      simp only [mul_assoc, hzz, mul_one, zero_mul] at this
      exact denF_ne_zero 0 s this
    exact (smul_left_injective ℂ h3 h1).symm
  have e1 : (ladder s)[k] = isOdd (s.getD k .i) := by
    rw [← ladder_getD, List.getD_eq_getElem _ _ h1]
  have e2 : (orbs N t)[k] = decide (t.count k % 2 = 1) := by
    simp [orbs]
  rw [e1, e2]
  have hc := List.nodup_iff_count_le_one.mp ht k
  generalize isOdd (s.getD k .i) = o at hk
  interval_cases hcc : t.count k <;> cases o <;> first | rfl | (norm_num at hk)

theorem ladder_letters (s : FStr) (k : ℕ) (h : (ladder s).getD k false = true) : Transform.nLetters s ≠ 0 := by
  rw [ladder_getD] at h
  induction s generalizing k with
  | nil => simp [isOdd] at h
  | cons o s ih =>
    cases k with
    | zero =>
      rw [List.getD_cons_zero] at h
      cases o <;> simp [isOdd] at h <;> simp [Transform.nLetters]
    | succ k =>
      rw [List.getD_cons_succ] at h
      have := ih k h
      intro h0
      refine this ?_
      rw [List.length_eq_zero_iff] at h0 ⊢
      rw [List.filter_eq_nil_iff] at h0 ⊢
      exact fun a ha => h0 a (by simp [ha])

theorem number_cre (r j : ℕ) : (numberOp r * cre j : Oper ℂ) = cre j * numberOp r + (if j < r then (1 : ℂ) else 0) • cre j := by
  refine LinearMap.ext fun ψ => funext fun b => ?_
  rw [Module.End.mul_apply, numberOp_apply]
  show (occAlpha r b : ℂ) * (if b j then fsign b j * ψ (Function.update b j false) else 0) =
    (if b j then fsign b j * (numberOp r : Oper ℂ) ψ (Function.update b j false) else 0) +
      (if j < r then (1 : ℂ) else 0) * (if b j then fsign b j * ψ (Function.update b j false) else 0)
  rw [numberOp_apply]
  have e := congrArg (fun z : ℤ => (z : ℂ)) (occAlpha_update r j b false)
  push_cast at e
  cases hb : b j
  · simp
  · rw [hb] at e
    simp only [if_true]
    rw [e]
    by_cases hj : j < r <;> simp [hj] <;> ring

theorem number_ann (r j : ℕ) : (numberOp r * ann j : Oper ℂ) = ann j * numberOp r + (if j < r then (-1 : ℂ) else 0) • ann j := by
  refine LinearMap.ext fun ψ => funext fun b => ?_
  rw [Module.End.mul_apply, numberOp_apply]
  show (occAlpha r b : ℂ) * (if b j then 0 else fsign b j * ψ (Function.update b j true)) =
    (if b j then 0 else fsign b j * (numberOp r : Oper ℂ) ψ (Function.update b j true)) +
      (if j < r then (-1 : ℂ) else 0) * (if b j then 0 else fsign b j * ψ (Function.update b j true))
  rw [numberOp_apply]
  have e := congrArg (fun z : ℤ => (z : ℂ)) (occAlpha_update r j b true)
  push_cast at e
  cases hb : b j
  · rw [hb] at e
    simp only [Bool.false_eq_true, if_false]
    rw [e]
    by_cases hj : j < r <;> simp [hj] <;> ring
  · simp

theorem number_prod (r : ℕ) (f : ℕ → Oper ℂ) (c : ℂ) (hf : ∀ j, (numberOp r * f j : Oper ℂ) = f j * numberOp r + (if j < r then c else 0) • f j)
    (l : List ℕ) : (numberOp r * (l.map f).prod : Oper ℂ) = (l.map f).prod * numberOp r + ((nAlpha r l : ℂ) * c) • (l.map f).prod := by
  induction l with
  | nil => simp [nAlpha]
  | cons x l ih =>
    rw [List.map_cons, List.prod_cons, ← mul_assoc, hf, add_mul, mul_assoc, ih, mul_add, smul_mul_assoc, mul_smul_comm, mul_assoc]
    have : (nAlpha r (x :: l) : ℂ) * c = nAlpha r l * c + if x < r then c else 0 := by
      unfold nAlpha
      rw [List.countP_cons]
      by_cases hx : x < r <;> simp [hx] <;> ring
    rw [this]
    module

theorem conserves_exc (r : ℕ) (t : List ℕ) (h : nAlpha r (t.take (t.length / 2)) = nAlpha r (t.drop (t.length / 2))) : Conserves r (excOp t) := by
  unfold Conserves excOp
  rw [← mul_assoc, number_prod r _ 1 (number_cre r), add_mul, mul_assoc, number_prod r _ (-1) (number_ann r), mul_add, smul_mul_assoc,
    mul_smul_comm, h, mul_assoc]
  module

theorem Conserves.gen {r : ℕ} {X Y : Oper ℂ} (hX : Conserves r X) (hY : Conserves r Y) (p : ℂ) : Conserves r (p • (X - Y)) := by
  unfold Conserves at *
  rw [mul_smul_comm, mul_sub, hX, hY, smul_mul_assoc, sub_mul]

theorem Conserves.add {r : ℕ} {X Y : Oper ℂ} (hX : Conserves r X) (hY : Conserves r Y) : Conserves r (X + Y) := by
  unfold Conserves at *
  rw [mul_add, hX, hY, add_mul]

theorem Conserves.zero {r : ℕ} : Conserves r (0 : Oper ℂ) := by
  unfold Conserves; rw [mul_zero, zero_mul]

/-- An excitation of the register that conserves the numbers of alpha and beta electrons, with a real parameter that is not negligible. -/
structure GoodExc (no : ℕ) (x : List ℕ × ℂ) : Prop where
  bal : Bal no (2 * no) x.1
  short : x.1.length ≤ 4
  pos : x.1 ≠ []
  nodup : x.1.Nodup
  real : conj x.2 = x.2
  large : tinyC x.2 = false

/-- Imaginary commuting terms. -/
def PauliExc (C : POp ℂ) : Prop :=
  (∀ u ∈ C, u.2.re = 0) ∧ ∀ a ∈ C, ∀ b ∈ C, (denP 0 a.1 * denP 0 b.1 : Oper ℂ) = denP 0 b.1 * denP 0 a.1

theorem GoodExc.gen {no : ℕ} {x : List ℕ × ℂ} (h : GoodExc no x) :
    ∃ A C, UCC.gen x.2 x.1 (2 * no) = some A ∧ OpD.transform Transform.jordanWigner A = some C ∧
      (denPO C = x.2 • (excOp x.1 - excOp x.1.reverse : Oper ℂ) ∧ PauliExc C) ∧
      ∀ u ∈ A, u.1.length = 2 * no ∧ ladder u.1 = orbs (2 * no) x.1 ∧ Transform.nLetters u.1 ≠ 0 := by
  obtain ⟨t, p⟩ := x
  have hb := h.bal
  have hN : ∀ i ∈ t, i < 2 * no := hb.2.1
  have he : t.length % 2 = 0 := hb.2.2
  have hr : t.reverse.length % 2 = 0 := by simpa using he
  obtain ⟨C, c1, c2, c3, c4⟩ := block p h.large t he h.short (2 * no) hN h.real
  obtain ⟨A, g1, g2⟩ := Option.bind_eq_some_iff.mp c1
  obtain ⟨a, a1, a2, a3⟩ := C09_fermi_generate p (word t) (2 * no) (word_ok t he)
  obtain ⟨b, b1, b2, b3⟩ := C09_fermi_generate p (word t.reverse) (2 * no) (word_ok _ hr)
  rw [word_op _ he] at a2
  rw [word_op _ hr] at b2
  have hA : A = OpD.addStr (OpD.addStr [] a) (b.1, b.2 * (-1)) := by
    simp only [UCC.gen, a1, b1, bind, Option.bind, pure, Option.some.injEq] at g1
    exact g1.symm
  have hp : p ≠ 0 := by
    rintro rfl
    have := h.large
    simp [tinyC] at this
    norm_num at this
  have la := a3 (word_lt t he _ hN)
  have lb := b3 (word_lt _ hr _ (by simpa using hN))
  have ma := ladder_of (2 * no) t h.nodup a.1 la _ _ hp a2
  have mb := ladder_of (2 * no) t.reverse (by simpa using h.nodup) b.1 lb _ _ hp b2
  have hrev : orbs (2 * no) t.reverse = orbs (2 * no) t := by
    unfold orbs
    refine List.map_congr_left fun k _ => ?_
    rw [List.count_reverse]
  rw [hrev] at mb
  refine ⟨A, C, g1, g2, ⟨c2, fun u hu => (c3 u hu).1, c4⟩, ?_⟩
  have hk : ∀ u ∈ A, u.1 = a.1 ∨ u.1 = b.1 := by
    intro u hu
    have hm : u.1 ∈ A.map (·.1) := List.mem_map_of_mem hu
    have := OpD.mem_keys_foldl_addStr [a, (b.1, b.2 * (-1))] ([] : OpD FStr ℂ) u.1
    simp only [List.foldl_cons, List.foldl_nil] at this
    rw [hA] at hm
    simpa using this.mp hm
  obtain ⟨k, hkt⟩ := List.exists_mem_of_ne_nil t h.pos
  have hodd : (orbs (2 * no) t).getD k false = true := by
    have hc : t.count k = 1 := List.count_eq_one_of_mem h.nodup hkt
    have hl : k < (orbs (2 * no) t).length := by simpa [orbs] using hN k hkt
    rw [List.getD_eq_getElem _ _ hl]
    simp [orbs, hc]
  intro u hu
  rcases hk u hu with e | e <;> rw [e]
  · exact ⟨la, ma, ladder_letters _ k (by rw [ma]; exact hodd)⟩
  · exact ⟨lb, mb, ladder_letters _ k (by rw [mb]; exact hodd)⟩

/-- The dictionary of a layer made of the excitations `xs`, in this order. -/
def excLayer (no : ℕ) (xs : List (List ℕ × ℂ)) : Option (OpD FStr ℂ) :=
  (xs.mapM fun x => UCC.gen x.2 x.1 (2 * no)).map List.flatten

/-- A layer of excitations that fill or empty different orbitals is covered. -/
theorem excLayer_ok (no : ℕ) (xs : List (List ℕ × ℂ)) (h : ∀ x ∈ xs, GoodExc no x)
    (hd : xs.Pairwise fun x y => orbs (2 * no) x.1 ≠ orbs (2 * no) y.1) :
    ∃ A Cs, excLayer no xs = some A ∧ LayerOK no A ∧ OpD.transform Transform.jordanWigner A = some Cs.flatten ∧
      List.Forall₂ (fun (x : List ℕ × ℂ) C => denPO C = x.2 • (excOp x.1 - excOp x.1.reverse : Oper ℂ) ∧ PauliExc C) xs Cs := by
  have key : ∃ As Cs, xs.mapM (fun x => UCC.gen x.2 x.1 (2 * no)) = some As ∧
      List.Forall₂ (fun A C => OpD.transform Transform.jordanWigner A = some C) As Cs ∧
      List.Forall₂ (fun (x : List ℕ × ℂ) (A : OpD FStr ℂ) => ∀ u ∈ A, u.1.length = 2 * no ∧ ladder u.1 = orbs (2 * no) x.1 ∧ Transform.nLetters u.1 ≠ 0) xs As ∧
      IsReal (denPO Cs.flatten) ∧ IsAdj (-denPO Cs.flatten) (denPO Cs.flatten) ∧ Conserves no (denPO Cs.flatten) ∧
      Conserves (2 * no) (denPO Cs.flatten) ∧
      List.Forall₂ (fun (x : List ℕ × ℂ) C => denPO C = x.2 • (excOp x.1 - excOp x.1.reverse : Oper ℂ) ∧ PauliExc C) xs Cs := by
    clear hd
    induction xs with
    | nil =>
      refine ⟨[], [], rfl, .nil, .nil, ?_, ?_, ?_, ?_, .nil⟩ <;> rw [List.flatten_nil, denPO_nil']
      · intro ψ b; simp
      · intro φ
        exact ⟨0, by simp, fun ψ => by simp [pair]⟩
      · exact Conserves.zero
      · exact Conserves.zero
    | cons x xs ih =>
      obtain ⟨As, Cs, i1, i2, i3, i4, i5, i6, i7, i8⟩ := ih fun y hy => h y (by simp [hy])
      have hx := h x (by simp)
      obtain ⟨A, C, g1, g2, g3, g4⟩ := hx.gen
      refine ⟨A :: As, C :: Cs, by simp [i1, g1], .cons g2 i2, .cons g4 i3, ?_, ?_, ?_, ?_, .cons g3 i8⟩ <;> rw [List.flatten_cons, denPO_append', g3.1]
      · have hr : IsReal (x.2 • (excOp x.1 - excOp x.1.reverse : Oper ℂ)) := ((isReal_exc _).sub (isReal_exc _)).smul _ hx.real
        intro ψ b
        show (x.2 • (excOp x.1 - excOp x.1.reverse : Oper ℂ)) _ b + (denPO Cs.flatten : Oper ℂ) _ b =
          (starRingEnd ℂ) ((x.2 • (excOp x.1 - excOp x.1.reverse : Oper ℂ)) ψ b + (denPO Cs.flatten : Oper ℂ) ψ b)
        rw [hr, i4, map_add]
      · have h2 := isAdj_excOp (K := ℂ) x.1.reverse (by simpa using hx.bal.2.2)
        rw [List.reverse_reverse] at h2
        have h3 := isAdj_anti h2 (isAdj_excOp x.1 hx.bal.2.2) x.2 hx.real
        have e : (x.2 • (excOp x.1.reverse - excOp x.1) : Oper ℂ) = -(x.2 • (excOp x.1 - excOp x.1.reverse)) := by module
        rw [e, neg_neg] at h3
        rw [neg_add]
        exact h3.add i5
      · exact Conserves.add (Conserves.gen (conserves_exc _ _ hx.bal.1) (conserves_exc _ _ hx.bal.reverse.1) _) i6
      · have hall : ∀ l : List ℕ, l ⊆ x.1 → nAlpha (2 * no) l = l.length := fun l hl => nAlpha_all _ _ fun i hi => hx.bal.2.1 i (hl hi)
        have hbal : ∀ t : List ℕ, t ⊆ x.1 → t.length % 2 = 0 → Conserves (2 * no) (excOp t) := by
          intro t ht he
          refine conserves_exc _ _ ?_
          rw [hall _ (List.Subset.trans (List.take_subset _ _) ht), hall _ (List.Subset.trans (List.drop_subset _ _) ht), List.length_take, List.length_drop]
          omega
        exact Conserves.add (Conserves.gen (hbal _ (List.Subset.refl _) hx.bal.2.2) (hbal _ (by intro i; simp) (by simpa using hx.bal.2.2)) _) i7
  obtain ⟨As, Cs, k1, k2, k3, k4, k5, k6, k7, k8⟩ := key
  have hmem : ∀ A ∈ As, ∃ x ∈ xs, ∀ u ∈ A, u.1.length = 2 * no ∧ ladder u.1 = orbs (2 * no) x.1 ∧ Transform.nLetters u.1 ≠ 0 := by
    intro A hA
    clear k1 k2 hd h k8
    induction k3 with
    | nil => simp at hA
    | cons a _ ih =>
      rcases List.mem_cons.mp hA with rfl | hA
      · exact ⟨_, by simp, a⟩
      · obtain ⟨x, hx, h⟩ := ih hA
        exact ⟨x, by simp [hx], h⟩
  have hgr : Grouped As := by
    refine ⟨?_, ?_⟩
    · intro A hA s hs t ht
      obtain ⟨x, _, h⟩ := hmem A hA
      rw [(h s hs).2.1, (h t ht).2.1]
    · clear k1 k2 h hmem k8
      induction k3 with
      | nil => exact .nil
      | @cons x A xs As a b ih =>
        rw [List.pairwise_cons] at hd
        refine List.Pairwise.cons ?_ (ih hd.2)
        · intro B hB s hs t ht
          have : ∃ y ∈ xs, ∀ u ∈ B, ladder u.1 = orbs (2 * no) y.1 := by
            clear ih hd
            induction b with
            | nil => simp at hB
            | cons c _ ih =>
              rcases List.mem_cons.mp hB with rfl | hB
              · exact ⟨_, by simp, fun u hu => (c u hu).2.1⟩
              · obtain ⟨y, hy, h⟩ := ih hB
                exact ⟨y, by simp [hy], h⟩
          obtain ⟨y, hy, h⟩ := this
          rw [(a s hs).2.1, h t ht]
          exact hd.1 y hy
  obtain ⟨t1, t2⟩ := grouped_transform As hgr (fun A hA t ht => by
    obtain ⟨x, _, h⟩ := hmem A hA
    exact Or.inr (h t ht).2.2) Cs k2
  have hlen : ∀ t ∈ As.flatten, t.1.length = 2 * no := by
    intro t ht
    obtain ⟨A, hA, ht⟩ := List.mem_flatten.mp ht
    obtain ⟨x, _, h⟩ := hmem A hA
    exact (h t ht).1
  refine ⟨As.flatten, Cs, by rw [excLayer, k1]; rfl, ⟨hlen, ?_⟩, t1, k8⟩
  · intro C hC
    rw [t1] at hC
    cases hC
    exact ⟨k4, k5, t2.blocky (by omega) (SymProj.transform_len _ _ Transform.jw_spec As.flatten _ hlen _ t1) k6 k7⟩

/-- **C115, partial.** Layers of excitations that fill or empty different sets of orbitals: the energy is that of `Π exp(p(X − X†)) |HF⟩`, the
excitations of the first layer acting first and in their order. -/
theorem C115_excitations_partial (no na nb : ℕ) (hno : 0 < no) (ha : na ≤ no) (hb : nb ≤ no) (hne : na + nb ≠ 1)
    (col : List PStr → ℕ → ℕ) (hcol : ColouringOK col) (h1 : Fin (2 * no) → Fin (2 * no) → ℂ)
    (V : Fin (2 * no) → Fin (2 * no) → Fin (2 * no) → Fin (2 * no) → ℂ) (hh : ∀ a b, h1 a b = h1 b a)
    (hV : ∀ a b c d, V a b c d = V c d a b) (enc : ℝ) (xss : List (List (List ℕ × ℂ)))
    (hx : ∀ xs ∈ xss, (∀ x ∈ xs, GoodExc no x) ∧ xs.Pairwise fun x y => orbs (2 * no) x.1 ≠ orbs (2 * no) y.1) :
    ∃ (L : List (OpD FStr ℂ)) (Us : List (Oper ℂ)) (Ψ : Cfg →₀ ℂ) (E : ℝ),
      xss.mapM (excLayer no) = some L ∧
      List.Forall₂ (fun x U => IsExp (x.2 • (excOp x.1 - excOp x.1.reverse : Oper ℂ)) U) xss.flatten Us ∧
      (Ψ : Cfg → ℂ) = Us.reverse.prod (ket (hfCfg no na nb)) ∧ pair Ψ Ψ = 1 ∧ InS (InSec no (2 * no) na (na + nb)) Ψ ∧
      ACSEEn.energy no na nb col h1 V enc L = some E ∧
      |E - ((pair Ψ (secondQ h1 V Ψ)).re + enc)|
        ≤ 2 ^ (2 * no) * 1e-28 * ∑ a, ∑ b, ∑ c, ∑ e, ‖k2 h1 V ((na + nb : ℕ) : ℂ) a b c e‖ := by
  have key : ∃ L Cs, xss.mapM (excLayer no) = some L ∧ (∀ A ∈ L, LayerOK no A) ∧ strings L = some Cs.flatten ∧
      List.Forall₂ (fun (x : List ℕ × ℂ) C => denPO C = x.2 • (excOp x.1 - excOp x.1.reverse : Oper ℂ) ∧ PauliExc C) xss.flatten Cs := by
    induction xss with
    | nil => exact ⟨[], [], rfl, by simp, rfl, .nil⟩
    | cons xs xss ih =>
      obtain ⟨L, Cs, i1, i2, i3, i4⟩ := ih fun ys hys => hx ys (by simp [hys])
      obtain ⟨A, Ds, a1, a2, a3, a4⟩ := excLayer_ok no xs (hx xs (by simp)).1 (hx xs (by simp)).2
      refine ⟨A :: L, Ds ++ Cs, by simp [i1, a1], ?_, ?_, ?_⟩
      · intro B hB
        rcases List.mem_cons.mp hB with rfl | hB
        · exact a2
        · exact i2 B hB
      · unfold strings at i3 ⊢
        obtain ⟨M, m1, m2⟩ := Option.map_eq_some_iff.mp i3
        simp [a3, m1, m2]
      · rw [List.flatten_cons]
        exact List.rel_append a4 i4
  obtain ⟨L, Cs, k1, k2, k3, k4⟩ := key
  obtain ⟨psi, Us, Ψ, E, s1, s2, s3, s4, s5, s6, s7⟩ := C115_energy_partial no na nb hno ha hb hne col hcol h1 V hh hV enc L k2
  rw [k3] at s1
  cases s1
  have hUs : Us = Cs.flatten.map fun t => eul t.2.im t.1 := by
    have him : ∀ t ∈ Cs.flatten, t.2.re = 0 := by
      intro t ht0
      obtain ⟨C, hC, ht⟩ := List.mem_flatten.mp ht0
      clear s2 k3 ht0
      generalize xss.flatten = xs at k4
      induction k4 with
      | nil => simp at hC
      | cons a _ ih =>
        rcases List.mem_cons.mp hC with rfl | hC
        · exact a.2.1 t ht
        · exact ih hC
    generalize Cs.flatten = ts at s2 him
    clear s3 k3
    induction s2 with
    | nil => rfl
    | @cons t U ts Us a _ ih =>
      rw [List.map_cons, ← ih fun u hu => him u (by simp [hu])]
      congr 1
      have hz : t.2 = Complex.I * (t.2.im : ℝ) := by apply Complex.ext <;> simp [him t (by simp)]
      have := isExp_comm_sum [(t.2.im, t.1)] (by simp)
      simp only [List.map_cons, List.map_nil, List.sum_cons, List.sum_nil, add_zero, List.reverse_singleton, List.prod_singleton] at this
      rw [← hz] at this
      exact isExp_unique a this
  refine ⟨L, Cs.map fun C => (C.map fun t => eul t.2.im t.1).reverse.prod, Ψ, E, k1, ?_, ?_, s4, s5, s6, s7⟩
  · rw [List.forall₂_map_right_iff]
    refine k4.imp fun x C h => ?_
    have := block_exp 1 C _ _ h.1 h.2.1 h.2.2
    simpa using this
  · rw [s3, hUs]
    congr 1
    clear k3 s2 hUs k4
    induction Cs with
    | nil => rfl
    | cons C Cs ih =>
      rw [List.flatten_cons, List.map_append, List.reverse_append, List.prod_append, ih, List.map_cons, List.reverse_cons,
        List.prod_append, List.prod_singleton]

theorem goodExc_double (p : ℂ) (h1 : conj p = p) (h2 : tinyC p = false) : GoodExc 2 ([1, 3, 2, 0], p) :=
  ⟨⟨by dsimp only; decide, by dsimp only; decide, by dsimp only; decide⟩, by dsimp only; decide, by dsimp only; decide, by dsimp only; decide, h1, h2⟩

theorem goodExc_single (p : ℂ) (h1 : conj p = p) (h2 : tinyC p = false) : GoodExc 2 ([1, 0], p) :=
  ⟨⟨by dsimp only; decide, by dsimp only; decide, by dsimp only; decide⟩, by dsimp only; decide, by dsimp only; decide, by dsimp only; decide, h1, h2⟩

/-- Two electrons in two spatial orbitals, an ansatz of two layers: a double and a single excitation, then the double excitation again. -/
example : ∃ L E, ([[([1, 3, 2, 0], 1), ([1, 0], 1)], [([1, 3, 2, 0], (1 : ℂ))]].mapM (excLayer 2)) = some L ∧
    ACSEEn.energy 2 1 1 (fun _ i => i) (fun a b => if a.val % 2 = b.val % 2 then 0 else -1)
      (fun a b c e => if a = c ∧ b = e then 1 else 0) (1 / 2) L = some E := by
  have hr : conj (1 : ℂ) = 1 := map_one _
  have hl : tinyC (1 : ℂ) = false := by simp [tinyC]; norm_num
  obtain ⟨L, _, _, E, h1, _, _, _, _, h2, _⟩ := C115_excitations_partial 2 1 1 (by norm_num) (by norm_num) (by norm_num) (by norm_num)
    (fun _ i => i) colouring_id (fun a b => if a.val % 2 = b.val % 2 then 0 else -1)
    (fun a b c e => if a = c ∧ b = e then 1 else 0) (fun a b => by simp only [eq_comm]) (fun a b c e => by simp only [eq_comm]) (1 / 2)
    [[([1, 3, 2, 0], 1), ([1, 0], 1)], [([1, 3, 2, 0], (1 : ℂ))]] (by
      intro xs hxs
      simp only [List.mem_cons, List.not_mem_nil, or_false] at hxs
      rcases hxs with rfl | rfl
      · refine ⟨?_, ?_⟩
        · intro x hx
          simp only [List.mem_cons, List.not_mem_nil, or_false] at hx
          rcases hx with rfl | rfl
          · exact goodExc_double 1 hr hl
          · exact goodExc_single 1 hr hl
        · rw [List.pairwise_pair]
          decide
      · exact ⟨fun x hx => by
          rw [List.mem_singleton] at hx
          rw [hx]
          exact goodExc_double 1 hr hl, List.pairwise_singleton _ _⟩)
  exact ⟨L, E, h1, h2⟩

end
end Props
end HQCA
