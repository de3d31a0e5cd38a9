import Verif.Props.ACSELayers

/-!
# C115: layers of the classical and quantum solvers

A layer each of whose terms moves at most one alpha and at most one beta electron is made of number-conserving groups, whatever its coefficients, the order of
its terms and the strings that cancel on the way.
-/

namespace HQCA
namespace Props
open Instr Prim Prepare ACSEEn Ham UCC
noncomputable section

/-! ### Exchanging `X` and `Y` on a qubit -/

theorem zs_getD (N k : ℕ) (hk : k < N) (s : PStr) (h : s.length = N) (i : ℕ) : (zs N k s).getD i .I = posLetter (if i = k then .Z else .I) (s.getD i .I) := by
  by_cases hi : i < N
  · have h1 : i < (zs N k s).length := by rw [zs_length N k hk s h]; exact hi
    rw [List.getD_eq_getElem _ _ h1, List.getD_eq_getElem _ _ (by omega)]
    have hz : (zStr N k)[i]'(by rw [zStr_length N k hk]; omega) = if i = k then .Z else .I := by
      rw [← zStr_getD N k i, List.getD_eq_getElem]
    simp only [zs, List.getElem_zipWith, hz]
  · rw [List.getD_eq_default _ _ (by rw [zs_length N k hk s h]; omega), List.getD_eq_default _ _ (by omega), if_neg (by omega)]
    rfl

theorem pstr_ext (N : ℕ) (s t : PStr) (hs : s.length = N) (ht : t.length = N) (h : ∀ i, s.getD i .I = t.getD i .I) : s = t := by
  refine List.ext_getElem (by rw [hs, ht]) fun i h3 h4 => ?_
  have := h i
  rwa [List.getD_eq_getElem _ _ h3, List.getD_eq_getElem _ _ h4] at this

theorem zs_zs (N k : ℕ) (hk : k < N) (s : PStr) (h : s.length = N) : zs N k (zs N k s) = s := by
  have h1 := zs_length N k hk s h
  refine pstr_ext N _ _ (zs_length N k hk _ h1) h fun i => ?_
  rw [zs_getD N k hk _ h1, zs_getD N k hk s h]
  split <;> cases s.getD i .I <;> rfl

theorem zs_comm (N a b : ℕ) (ha : a < N) (hb : b < N) (s : PStr) (h : s.length = N) : zs N a (zs N b s) = zs N b (zs N a s) := by
  have h1 := zs_length N a ha s h
  have h2 := zs_length N b hb s h
  refine pstr_ext N _ _ (zs_length N a ha _ h2) (zs_length N b hb _ h1) fun i => ?_
  rw [zs_getD N a ha _ h2, zs_getD N b hb s h, zs_getD N b hb _ h1, zs_getD N a ha s h]
  split <;> split <;> cases s.getD i .I <;> rfl

theorem zs_l (N k : ℕ) (hk : k < N) (s : PStr) (h : s.length = N) (i : ℕ) : ((zs N k s).getD i .I).l = (s.getD i .I).l := by
  rw [zs_getD N k hk s h]
  split <;> cases s.getD i .I <;> rfl

theorem zs_mask (N k : ℕ) (hk : k < N) (s : PStr) (h : s.length = N) : flipMask (zs N k s) = flipMask s := by
  refine ext_getD _ _ (by unfold flipMask; rw [List.length_map, List.length_map, zs_length N k hk s h, h]) fun i => ?_
  rw [flips_getD', flips_getD', zs_l N k hk s h]

theorem ySign_zs (N k : ℕ) (hk : k < N) (s : PStr) (h : s.length = N) (hf : (s.getD k .I).l = true) : ySign (zs N k s) = -ySign s := by
  unfold ySign
  rw [zs_length N k hk s h, h]
  have e : ∀ i ∈ Finset.range N, (if ((zs N k s).getD i .I).l ∧ ((zs N k s).getD i .I).r then (-1 : ℂ) else 1) =
      (if i = k then -1 else 1) * (if (s.getD i .I).l ∧ (s.getD i .I).r then (-1 : ℂ) else 1) := by
    intro i _
    rw [zs_getD N k hk s h]
    by_cases hik : i = k
    · subst hik
      rw [if_pos rfl, if_pos rfl]
      revert hf
      cases s.getD i .I <;> simp [PL.l, PL.r, posLetter, PL.ofBits]
    · rw [if_neg hik, if_neg hik]
      cases s.getD i .I <;> simp [PL.l, PL.r, posLetter, PL.ofBits]
  rw [Finset.prod_congr rfl e, Finset.prod_mul_distrib, Finset.prod_ite_eq' (Finset.range N) k, if_pos (Finset.mem_range.mpr hk)]
  ring

/-! ### Electrons on a list of orbitals -/

/-- The number of electrons on the orbitals `K`. -/
def nOn (K : List ℕ) : Oper ℂ := (K.map fun k => cre k * ann k).sum

/-- Conserves the number of electrons on the orbitals `K`. -/
def Com (K : List ℕ) (X : Oper ℂ) : Prop := nOn K * X = X * nOn K

/-- The flipped qubits among `K`. -/
def pos (K : List ℕ) (s : PStr) : List ℕ := K.filter fun k => (s.getD k .I).l

theorem pos_zs (K : List ℕ) (N k : ℕ) (hk : k < N) (s : PStr) (h : s.length = N) : pos K (zs N k s) = pos K s := by
  unfold pos
  refine List.filter_congr fun i _ => ?_
  rw [zs_l N k hk s h]

theorem comm_one (N k : ℕ) (hk : k < N) (s : PStr) (h : s.length = N) :
    ((cre k * ann k) * denP 0 s - denP 0 s * (cre k * ann k) : Oper ℂ) = (if (s.getD k .I).l then -SymProj.ph (zStr N k) s else 0) • denP 0 (zs N k s) := by
  have hc := comm_z (site k mZ : Oper ℂ) (denP 0 s) _ (zcomm k s) (by split <;> simp)
  rw [← number_z] at hc
  have hm := SymProj.denP_mul_ph (zStr N k) s (by rw [zStr_length N k hk, h])
  rw [denP_zStr] at hm
  rw [hc]
  by_cases hf : (s.getD k .I).l = true
  · rw [if_pos hf, if_pos hf, if_neg (by norm_num), hm]
    have : ∀ (c : ℂ) (X : Oper ℂ), -(c • X) = (-c) • X := by intros; module
    exact this _ _
  · rw [if_neg hf, if_neg hf, if_pos rfl, zero_smul]

/-- The commutator of an operator with the number of electrons on the orbitals `K`. -/
def adK (N : ℕ) (K : List ℕ) (C : POp ℂ) : POp ℂ :=
  K.flatMap fun k => C.map fun t => (zs N k t.1, (if (t.1.getD k .I).l then -SymProj.ph (zStr N k) t.1 else 0) * t.2)

theorem comm_adK (N : ℕ) (K : List ℕ) (hK : ∀ k ∈ K, k < N) (C : POp ℂ) (hl : ∀ t ∈ C, t.1.length = N) :
    (nOn K * denPO C - denPO C * nOn K : Oper ℂ) = denPO (adK N K C) := by
  induction K with
  | nil => simp [nOn, adK, denPO_nil']
  | cons k K ih =>
    have e := ih fun i hi => hK i (by simp [hi])
    have hk := hK k (by simp)
    have e1 : ((cre k * ann k) * denPO C - denPO C * (cre k * ann k) : Oper ℂ) =
        denPO (C.map fun t => (zs N k t.1, (if (t.1.getD k .I).l then -SymProj.ph (zStr N k) t.1 else 0) * t.2)) := by
      clear e ih
      induction C with
      | nil => simp [denPO_nil']
      | cons t C ih =>
        have e := ih fun u hu => hl u (by simp [hu])
        rw [List.map_cons, denPO_cons', denPO_cons', ← e, mul_comm _ t.2, mul_smul, ← comm_one N k hk t.1 (hl t (by simp)), mul_add, add_mul,
          mul_smul_comm, smul_mul_assoc]
        have : ∀ (c : ℂ) (a b x y : Oper ℂ), c • a + x - (c • b + y) = c • (a - b) + (x - y) := by intros; module
        exact this _ _ _ _ _
    unfold adK at e ⊢
    rw [List.flatMap_cons, denPO_append', ← e, ← e1]
    unfold nOn
    rw [List.map_cons, List.sum_cons]
    noncomm_ring

theorem coef_map_zs (N k : ℕ) (hk : k < N) (f : PStr → ℂ) (C : POp ℂ) (hl : ∀ t ∈ C, t.1.length = N) (u : PStr) (hu : u.length = N) :
    coef (C.map fun t => (zs N k t.1, f t.1 * t.2)) u = f (zs N k u) * coef C (zs N k u) := by
  induction C with
  | nil => simp [coef_nil]
  | cons t C ih =>
    rw [List.map_cons, coef_cons, coef_cons, ih fun v hv => hl v (by simp [hv]), mul_add]
    congr 1
    have ht := hl t (by simp)
    by_cases h : zs N k t.1 = u
    · have h' : t.1 = zs N k u := by rw [← h, zs_zs N k hk t.1 ht]
      rw [if_pos h, if_pos h', ← h']
    · have h' : t.1 ≠ zs N k u := fun e => h (by rw [e, zs_zs N k hk u hu])
      rw [if_neg h, if_neg h', mul_zero]

theorem coef_adK (N : ℕ) (K : List ℕ) (hK : ∀ k ∈ K, k < N) (C : POp ℂ) (hl : ∀ t ∈ C, t.1.length = N) (u : PStr) (hu : u.length = N) :
    coef (adK N K C) u = ((pos K u).map fun k => -SymProj.ph (zStr N k) (zs N k u) * coef C (zs N k u)).sum := by
  induction K with
  | nil => simp [adK, coef_nil, pos]
  | cons k K ih =>
    have e := ih fun i hi => hK i (by simp [hi])
    have hk := hK k (by simp)
    unfold adK at e ⊢
    rw [List.flatMap_cons, coef_append, e,
      coef_map_zs N k hk (fun s => if (s.getD k .I).l then -SymProj.ph (zStr N k) s else 0) C hl u hu, zs_l N k hk u hu]
    unfold pos
    by_cases hf : (u.getD k .I).l = true
    · rw [List.filter_cons_of_pos (p := fun k => (u.getD k .I).l) hf, if_pos hf, List.map_cons, List.sum_cons]
    · rw [List.filter_cons_of_neg (p := fun k => (u.getD k .I).l) hf, if_neg hf, zero_mul, zero_add]

theorem adK_len (N : ℕ) (K : List ℕ) (hK : ∀ k ∈ K, k < N) (C : POp ℂ) (hl : ∀ t ∈ C, t.1.length = N) : ∀ u ∈ adK N K C, u.1.length = N := by
  intro u hu
  obtain ⟨k, hk, hu⟩ := List.mem_flatMap.mp hu
  obtain ⟨t, ht, rfl⟩ := List.mem_map.mp hu
  exact zs_length N k (hK k hk) t.1 (hl t ht)

/-- Conservation as a condition on the coefficients. -/
theorem com_iff (N : ℕ) (K : List ℕ) (hK : ∀ k ∈ K, k < N) (C : POp ℂ) (hl : ∀ t ∈ C, t.1.length = N) :
    Com K (denPO C) ↔ ∀ u : PStr, u.length = N → ((pos K u).map fun k => -SymProj.ph (zStr N k) (zs N k u) * coef C (zs N k u)).sum = 0 := by
  have hlen := adK_len N K hK C hl
  constructor
  · intro h u hu
    rw [← coef_adK N K hK C hl u hu]
    refine coef_of_denP_zero N 0 _ hlen ?_ u
    have := comm_adK N K hK C hl
    rw [h, sub_self] at this
    exact this.symm
  · intro h
    refine sub_eq_zero.mp ?_
    rw [comm_adK N K hK C hl, denPO_coef _ ((adK N K C).map (·.1)).toFinset fun t ht => List.mem_toFinset.mpr (List.mem_map_of_mem ht)]
    refine Finset.sum_eq_zero fun s hs => ?_
    obtain ⟨v, hv, rfl⟩ := List.mem_map.mp (List.mem_toFinset.mp hs)
    rw [coef_adK N K hK C hl v.1 (hlen v hv), h v.1 (hlen v hv), zero_smul]

/-! ### Strings that flip two or no qubits of `K` -/

/-- `X` and `Y` exchanged on both flipped qubits of `K`, when there are two. -/
def swp (N : ℕ) (K : List ℕ) (s : PStr) : PStr :=
  match pos K s with
  | [a, b] => zs N a (zs N b s)
  | _ => s

/-- Two or no flipped qubits in `K`. -/
def Two (K : List ℕ) (s : PStr) : Prop := pos K s = [] ∨ ∃ a b, pos K s = [a, b]

theorem ph_norm (P Q : PStr) : ‖SymProj.ph P Q‖ = 1 := by
  have h := congrArg norm (SymProj.ph_unit P Q)
  rw [norm_mul, RCLike.norm_conj, norm_one] at h
  nlinarith [norm_nonneg (SymProj.ph P Q)]

variable {N : ℕ} {K : List ℕ}

theorem pos_mem {s : PStr} {a b : ℕ} (h : pos K s = [a, b]) : (a ∈ K ∧ (s.getD a .I).l = true) ∧ b ∈ K ∧ (s.getD b .I).l = true := by
  have h1 : a ∈ pos K s := by rw [h]; simp
  have h2 : b ∈ pos K s := by rw [h]; simp
  exact ⟨List.mem_filter.mp h1, List.mem_filter.mp h2⟩

theorem swp_length (hK : ∀ k ∈ K, k < N) (s : PStr) (h : s.length = N) : (swp N K s).length = N := by
  unfold swp
  split
  · rename_i a b hp
    obtain ⟨⟨ha, _⟩, hb, _⟩ := pos_mem hp
    exact zs_length N a (hK a ha) _ (zs_length N b (hK b hb) s h)
  · exact h

theorem swp_mask (hK : ∀ k ∈ K, k < N) (s : PStr) (h : s.length = N) : flipMask (swp N K s) = flipMask s := by
  unfold swp
  split
  · rename_i a b hp
    obtain ⟨⟨ha, _⟩, hb, _⟩ := pos_mem hp
    rw [zs_mask N a (hK a ha) _ (zs_length N b (hK b hb) s h), zs_mask N b (hK b hb) s h]
  · rfl

theorem swp_ySign (hK : ∀ k ∈ K, k < N) (s : PStr) (h : s.length = N) : ySign (swp N K s) = ySign s := by
  unfold swp
  split
  · rename_i a b hp
    obtain ⟨⟨ha, fa⟩, hb, fb⟩ := pos_mem hp
    rw [ySign_zs N a (hK a ha) _ (zs_length N b (hK b hb) s h) (by rw [zs_l N b (hK b hb) s h]; exact fa), ySign_zs N b (hK b hb) s h fb, neg_neg]
  · rfl

/-- The two strings that meet in one term of the commutator. -/
theorem swp_meet (hK : ∀ k ∈ K, k < N) (u : PStr) (h : u.length = N) (a b : ℕ) (hp : pos K u = [a, b]) : swp N K (zs N a u) = zs N b u := by
  obtain ⟨⟨ha, _⟩, hb, _⟩ := pos_mem hp
  have ha := hK a ha
  have hb := hK b hb
  unfold swp
  rw [pos_zs K N a ha u h, hp]
  show zs N a (zs N b (zs N a u)) = zs N b u
  rw [zs_comm N a b ha hb _ (zs_length N a ha u h), zs_zs N a ha u h]

/-- The part of a conserving operator made of whole pairs conserves. -/
theorem com_filter (hK : ∀ k ∈ K, k < N) (C : POp ℂ) (hl : ∀ t ∈ C, t.1.length = N) (h2 : ∀ t ∈ C, Two K t.1) (h : Com K (denPO C))
    (p : PStr → Bool) (hp : ∀ s : PStr, s.length = N → p (swp N K s) = p s) : Com K (denPO (C.filter fun t => p t.1)) := by
  rw [com_iff N K hK _ fun t ht => hl t (List.mem_filter.mp ht).1]
  rw [com_iff N K hK C hl] at h
  intro u hu
  by_cases hT : Two K u
  · rcases hT with h0 | ⟨a, b, hab⟩
    · rw [h0]; rfl
    · have h' := h u hu
      rw [hab] at h' ⊢
      simp only [List.map_cons, List.map_nil, List.sum_cons, List.sum_nil, add_zero, coef_filter] at h' ⊢
      obtain ⟨⟨ha, _⟩, _⟩ := pos_mem hab
      have e := hp (zs N a u) (zs_length N a (hK a ha) u hu)
      rw [swp_meet hK u hu a b hab] at e
      rw [e]
      split
      · exact h'
      · simp
  · refine List.sum_eq_zero ?_
    intro x hx
    obtain ⟨k, hk, rfl⟩ := List.mem_map.mp hx
    have hkN := hK k (List.mem_filter.mp hk).1
    rw [coef_filter, OpD.coef_of_not_mem C (zs N k u), ite_self, mul_zero]
    intro hm
    obtain ⟨t, ht, e⟩ := List.mem_map.mp hm
    have := h2 t ht
    rw [e] at this
    unfold Two at this hT
    rw [pos_zs K N k hkN u hu] at this
    exact hT this

/-- The coefficients of a pair have the same modulus. -/
theorem com_norm (hK : ∀ k ∈ K, k < N) (C : POp ℂ) (hl : ∀ t ∈ C, t.1.length = N) (h : Com K (denPO C)) (s : PStr) (hs : s.length = N) :
    ‖coef C (swp N K s)‖ = ‖coef C s‖ := by
  unfold swp
  split
  · rename_i a b hp
    obtain ⟨⟨ha, _⟩, hb, _⟩ := pos_mem hp
    have ha := hK a ha
    have hb := hK b hb
    rw [com_iff N K hK C hl] at h
    have := h (zs N a s) (zs_length N a ha s hs)
    rw [pos_zs K N a ha s hs, hp] at this
    simp only [List.map_cons, List.map_nil, List.sum_cons, List.sum_nil, add_zero] at this
    rw [zs_zs N a ha s hs, zs_comm N b a hb ha s hs] at this
    have e := congrArg norm (eq_neg_of_add_eq_zero_left this)
    rw [norm_neg, norm_mul, norm_mul, norm_neg, norm_neg, ph_norm, ph_norm, one_mul, one_mul] at e
    exact e.symm
  · rfl

/-! ### Adding the terms one by one -/

theorem foldl_addStr_eq (E : POp ℂ) (hE : UniqueKeys E) (D : POp ℂ) :
    E.foldl OpD.addStr D = D.map (fun u => (u.1, u.2 + coef E u.1)) ++ E.filter fun t => !OpD.hasKey D t.1 := by
  induction E generalizing D with
  | nil => simp [coef_nil]
  | cons t E ih =>
    obtain ⟨ht, hE⟩ := List.nodup_cons.mp hE
    have hne : ∀ u ∈ E, u.1 ≠ t.1 := fun u hu e => ht (List.mem_map.mpr ⟨u, hu, e⟩)
    rw [List.foldl_cons, ih hE]
    unfold OpD.addStr
    by_cases hk : OpD.hasKey D t.1 = true
    · rw [if_pos hk, List.filter_cons_of_neg (by simp [hk]), List.map_map]
      have hkey : ∀ s, OpD.hasKey (D.map fun u => if u.1 = t.1 then (u.1, u.2 + t.2) else u) s = OpD.hasKey D s := by
        intro s
        unfold OpD.hasKey
        rw [List.any_map]
        congr 1
        funext u
        show decide ((if u.1 = t.1 then (u.1, u.2 + t.2) else u).1 = s) = decide (u.1 = s)
        split <;> rfl
      simp only [hkey]
      congr 1
      refine List.map_congr_left fun u _ => ?_
      show ((if u.1 = t.1 then (u.1, u.2 + t.2) else u).1, (if u.1 = t.1 then (u.1, u.2 + t.2) else u).2 + coef E (if u.1 = t.1 then (u.1, u.2 + t.2) else u).1) = _
      rw [coef_cons]
      by_cases hu : u.1 = t.1
      · rw [if_pos hu, if_pos hu.symm]
        show (u.1, u.2 + t.2 + _) = _
        rw [add_assoc]
      · rw [if_neg hu, if_neg (Ne.symm hu), zero_add]
    · rw [if_neg hk, List.filter_cons_of_pos (by simpa using hk), List.map_append, List.append_assoc]
      congr 1
      · refine List.map_congr_left fun u hu => ?_
        rw [coef_cons, if_neg, zero_add]
        intro e
        refine hk ?_
        unfold OpD.hasKey
        rw [List.any_eq_true]
        exact ⟨u, hu, by simp [e]⟩
      · rw [List.map_cons, List.map_nil, OpD.coef_of_not_mem E t.1 ht, add_zero, List.singleton_append]
        congr 1
        refine List.filter_congr fun u hu => ?_
        unfold OpD.hasKey
        simp [List.any_append, (hne u hu).symm]

/-- An odd number of `Y`. -/
def oddB (s : PStr) : Bool := decide (ySign s = -1)

/-- The strings with an odd number of `Y`. -/
def oddP (D : POp ℂ) : POp ℂ := D.filter fun t => oddB t.1

/-- The keys are made of whole pairs. -/
def Closed2 (N : ℕ) (K : List ℕ) (B : POp ℂ) : Prop := ∀ s : PStr, s.length = N → (swp N K s ∈ B.map (·.1) ↔ s ∈ B.map (·.1))

/-- What one fermionic term contributes. -/
structure Piece (N : ℕ) (Ks : List (List ℕ)) (E : POp ℂ) : Prop where
  uniq : UniqueKeys E
  len : ∀ t ∈ E, t.1.length = N
  ne : ∀ t ∈ E, t.2 ≠ 0
  mask : ∀ s ∈ E, ∀ t ∈ E, flipMask s.1 = flipMask t.1
  two : ∀ K ∈ Ks, ∀ t ∈ E, Two K t.1
  com : ∀ K ∈ Ks, Com K (denPO E)

/-- What holds after each fermionic term. -/
structure Stage (N : ℕ) (Ks : List (List ℕ)) (D : POp ℂ) : Prop where
  uniq : UniqueKeys D
  len : ∀ t ∈ D, t.1.length = N
  two : ∀ K ∈ Ks, ∀ t ∈ D, Two K t.1
  com : ∀ K ∈ Ks, Com K (denPO (oddP D))
  blocks : ∃ Bs : List (POp ℂ), oddP D = Bs.flatten ∧ (∀ B ∈ Bs, ∀ s ∈ B, ∀ t ∈ B, flipMask s.1 = flipMask t.1) ∧ ∀ B ∈ Bs, ∀ K ∈ Ks, Closed2 N K B

theorem oddB_swp (hK : ∀ k ∈ K, k < N) (s : PStr) (hs : s.length = N) : oddB (swp N K s) = oddB s := by
  unfold oddB
  rw [swp_ySign hK s hs]

theorem mem_keys_iff (E : POp ℂ) (hU : UniqueKeys E) (h0 : ∀ t ∈ E, t.2 ≠ 0) (s : PStr) : s ∈ E.map (·.1) ↔ coef E s ≠ 0 := by
  constructor
  · intro h
    obtain ⟨t, ht, rfl⟩ := List.mem_map.mp h
    rw [OpD.coef_of_mem E hU t ht]
    exact h0 t ht
  · intro h
    by_contra hn
    exact h (OpD.coef_of_not_mem E s hn)

theorem small_norm {x y : ℂ} (h : ‖x‖ = ‖y‖) : small x = small y := by
  rw [Bool.eq_iff_iff, small_complex, small_complex, h]

theorem hasKey_iff (D : POp ℂ) (s : PStr) : OpD.hasKey D s = true ↔ s ∈ D.map (·.1) := by
  unfold OpD.hasKey
  rw [List.any_eq_true, List.mem_map]
  simp

theorem keys_filter (B : POp ℂ) (p : PStr → Bool) (s : PStr) : s ∈ (B.filter fun t => p t.1).map (·.1) ↔ s ∈ B.map (·.1) ∧ p s = true := by
  constructor
  · intro h
    obtain ⟨t, ht, rfl⟩ := List.mem_map.mp h
    obtain ⟨h1, h2⟩ := List.mem_filter.mp ht
    exact ⟨List.mem_map_of_mem h1, h2⟩
  · rintro ⟨h, hp⟩
    obtain ⟨t, ht, rfl⟩ := List.mem_map.mp h
    exact List.mem_map_of_mem (List.mem_filter.mpr ⟨ht, hp⟩)

theorem Stage.nil (Ks : List (List ℕ)) : Stage N Ks [] := by
  refine ⟨List.nodup_nil, by simp, by simp, fun K _ => ?_, [], rfl, by simp, by simp⟩
  show nOn K * denPO [] = denPO [] * nOn K
  rw [denPO_nil', mul_zero, zero_mul]

theorem com_of_coef (hK : ∀ k ∈ K, k < N) (C D : POp ℂ) (hC : ∀ t ∈ C, t.1.length = N) (hD : ∀ t ∈ D, t.1.length = N) (h : Com K (denPO C))
    (he : ∀ s, coef D s = coef C s) : Com K (denPO D) := by
  rw [com_iff N K hK D hD]
  rw [com_iff N K hK C hC] at h
  simp only [he]
  exact h

theorem com_add (hK : ∀ k ∈ K, k < N) (C D F : POp ℂ) (hC : ∀ t ∈ C, t.1.length = N) (hD : ∀ t ∈ D, t.1.length = N) (hF : ∀ t ∈ F, t.1.length = N)
    (h1 : Com K (denPO C)) (h2 : Com K (denPO D)) (he : ∀ s, coef F s = coef C s + coef D s) : Com K (denPO F) := by
  rw [com_iff N K hK F hF]
  rw [com_iff N K hK C hC] at h1
  rw [com_iff N K hK D hD] at h2
  intro u hu
  simp only [he, mul_add]
  rw [List.sum_map_add, h1 u hu, h2 u hu, add_zero]

theorem Stage.add {Ks : List (List ℕ)} (hKs : ∀ K ∈ Ks, ∀ k ∈ K, k < N) {D E : POp ℂ} (hD : Stage N Ks D) (hE : Piece N Ks E) : Stage N Ks (OpD.add D E) := by
  set F := E.foldl OpD.addStr D with hF
  have uF : UniqueKeys F := OpD.foldl_addStr_unique E D hD.uniq
  have cF : ∀ s, coef F s = coef D s + coef E s := OpD.coef_foldl_addStr E D hD.uniq
  have eF : F = D.map (fun u => (u.1, u.2 + coef E u.1)) ++ E.filter fun t => !OpD.hasKey D t.1 := foldl_addStr_eq E hE.uniq D
  have kF : ∀ t ∈ F, (∃ u ∈ D, u.1 = t.1) ∨ ∃ u ∈ E, u.1 = t.1 := by
    intro t ht
    rw [eF, List.mem_append] at ht
    rcases ht with h | h
    · obtain ⟨u, hu, rfl⟩ := List.mem_map.mp h
      exact Or.inl ⟨u, hu, rfl⟩
    · exact Or.inr ⟨t, (List.mem_filter.mp h).1, rfl⟩
  have lF : ∀ t ∈ F, t.1.length = N := by
    intro t ht
    rcases kF t ht with ⟨u, hu, e⟩ | ⟨u, hu, e⟩
    · rw [← e]; exact hD.len u hu
    · rw [← e]; exact hE.len u hu
  have tF : ∀ K ∈ Ks, ∀ t ∈ F, Two K t.1 := by
    intro K hK t ht
    rcases kF t ht with ⟨u, hu, e⟩ | ⟨u, hu, e⟩
    · rw [← e]; exact hD.two K hK u hu
    · rw [← e]; exact hE.two K hK u hu
  have comF : ∀ K ∈ Ks, Com K (denPO (oddP F)) := by
    intro K hK
    refine com_add (hKs K hK) (oddP D) (oddP E) (oddP F) (fun t ht => hD.len t (List.mem_filter.mp ht).1) (fun t ht => hE.len t (List.mem_filter.mp ht).1)
      (fun t ht => lF t (List.mem_filter.mp ht).1) (hD.com K hK)
      (com_filter (hKs K hK) E hE.len (hE.two K hK) (hE.com K hK) oddB fun s hs => oddB_swp (hKs K hK) s hs) fun s => ?_
    unfold oddP
    rw [coef_filter, coef_filter, coef_filter, cF]
    split <;> simp
  have hadd : OpD.add D E = F.filter fun t => !small (coef F t.1) := by
    unfold OpD.add OpD.clean
    rw [← hF]
    refine List.filter_congr fun t ht => ?_
    rw [OpD.coef_of_mem F uF t ht]
  have hsmall : ∀ K ∈ Ks, ∀ s : PStr, s.length = N → (oddB (swp N K s) && !small (coef F (swp N K s))) = (oddB s && !small (coef F s)) := by
    intro K hK s hs
    rw [oddB_swp (hKs K hK) s hs]
    cases ho : oddB s
    · rfl
    · have h1 := com_norm (hKs K hK) (oddP F) (fun t ht => lF t (List.mem_filter.mp ht).1) (comF K hK) s hs
      unfold oddP at h1
      rw [coef_filter, coef_filter, oddB_swp (hKs K hK) s hs, ho, if_pos rfl, if_pos rfl] at h1
      rw [small_norm h1]
  have hodd : oddP (OpD.add D E) = (oddP F).filter fun t => oddB t.1 && !small (coef F t.1) := by
    rw [hadd]
    unfold oddP
    rw [List.filter_filter, List.filter_filter]
    refine List.filter_congr fun t _ => ?_
    cases oddB t.1 <;> cases small (coef F t.1) <;> rfl
  obtain ⟨Bs, b1, b2, b3⟩ := hD.blocks
  have hoF : oddP F = (Bs.map fun B => B.map fun u => (u.1, u.2 + coef E u.1)).flatten ++ (oddP E).filter fun t => !OpD.hasKey D t.1 := by
    unfold oddP at b1 ⊢
    rw [eF, List.filter_append, List.filter_map]
    congr 1
    · have : (fun t : Term PStr ℂ => oddB t.1) ∘ (fun u : Term PStr ℂ => (u.1, u.2 + coef E u.1)) = fun t => oddB t.1 := rfl
      rw [this, b1, List.map_flatten]
    · rw [List.filter_filter, List.filter_filter]
      refine List.filter_congr fun t _ => Bool.and_comm _ _
  have kD : ∀ s, oddB s = true → (OpD.hasKey D s = true ↔ ∃ B ∈ Bs, s ∈ B.map (·.1)) := by
    intro s ho
    rw [hasKey_iff]
    have : s ∈ D.map (·.1) ↔ s ∈ (oddP D).map (·.1) := by
      unfold oddP
      rw [keys_filter, ho]
      simp
    rw [this, b1, List.map_flatten, List.mem_flatten]
    constructor
    · rintro ⟨l, hl, hs⟩
      obtain ⟨B, hB, rfl⟩ := List.mem_map.mp hl
      exact ⟨B, hB, hs⟩
    · rintro ⟨B, hB, hs⟩
      exact ⟨_, List.mem_map_of_mem hB, hs⟩
  refine ⟨OpD.clean_unique _ uF, ?_, ?_, ?_, ?_⟩
  · intro t ht
    rw [hadd] at ht
    exact lF t (List.mem_filter.mp ht).1
  · intro K hK t ht
    rw [hadd] at ht
    exact tF K hK t (List.mem_filter.mp ht).1
  · intro K hK
    rw [hodd]
    exact com_filter (hKs K hK) (oddP F) (fun t ht => lF t (List.mem_filter.mp ht).1) (fun t ht => tF K hK t (List.mem_filter.mp ht).1) (comF K hK)
      (fun s => oddB s && !small (coef F s)) (hsmall K hK)
  · refine ⟨((Bs.map fun B => B.map fun u => (u.1, u.2 + coef E u.1)) ++ [(oddP E).filter fun t => !OpD.hasKey D t.1]).map
      fun B => B.filter fun t => oddB t.1 && !small (coef F t.1), ?_, ?_, ?_⟩
    · rw [hodd, hoF, List.filter_append, List.map_append, List.flatten_append, List.filter_flatten]
      simp
    · intro B hB0 s hs t ht
      obtain ⟨B, hB, rfl⟩ := List.mem_map.mp hB0
      have hs := (List.mem_filter.mp hs).1
      have ht := (List.mem_filter.mp ht).1
      rcases List.mem_append.mp hB with h | h
      · obtain ⟨B, hB', rfl⟩ := List.mem_map.mp h
        obtain ⟨s', hs', rfl⟩ := List.mem_map.mp hs
        obtain ⟨t', ht', rfl⟩ := List.mem_map.mp ht
        exact b2 B hB' s' hs' t' ht'
      · rw [List.mem_singleton] at h
        subst h
        exact hE.mask s (List.mem_filter.mp (List.mem_filter.mp hs).1).1 t (List.mem_filter.mp (List.mem_filter.mp ht).1).1
    · intro B hB0 K hK s hs
      obtain ⟨B, hB, rfl⟩ := List.mem_map.mp hB0
      rw [keys_filter B fun s => oddB s && !small (coef F s), keys_filter B fun s => oddB s && !small (coef F s), hsmall K hK s hs]
      refine and_congr_left fun ho => ?_
      have ho : oddB s = true := by
        cases h : oddB s
        · rw [h] at ho; exact ho
        · rfl
      rcases List.mem_append.mp hB with h | h
      · obtain ⟨B, hB', rfl⟩ := List.mem_map.mp h
        have : (B.map fun u => (u.1, u.2 + coef E u.1)).map (·.1) = B.map (·.1) := by rw [List.map_map]; rfl
        rw [this]
        exact b3 B hB' K hK s hs
      · rw [List.mem_singleton] at h
        subst h
        unfold oddP
        rw [keys_filter _ fun s => !OpD.hasKey D s, keys_filter _ fun s => !OpD.hasKey D s, keys_filter, keys_filter, oddB_swp (hKs K hK) s hs,
          mem_keys_iff E hE.uniq hE.ne, mem_keys_iff E hE.uniq hE.ne, ← norm_ne_zero_iff, com_norm (hKs K hK) E hE.len (hE.com K hK) s hs, norm_ne_zero_iff]
        refine and_congr_right fun _ => ?_
        have : OpD.hasKey D (swp N K s) = OpD.hasKey D s := by
          rw [Bool.eq_iff_iff, kD _ (by rw [oddB_swp (hKs K hK) s hs]; exact ho), kD s ho]
          exact exists_congr fun B => and_congr_right fun hB => b3 B hB K hK s hs
        rw [this]

theorem Stage.foldl {Ks : List (List ℕ)} (hKs : ∀ K ∈ Ks, ∀ k ∈ K, k < N) (rs : List (POp ℂ)) (h : ∀ r ∈ rs, Piece N Ks r) (D : POp ℂ) (hD : Stage N Ks D) :
    Stage N Ks (rs.foldl OpD.add D) := by
  induction rs generalizing D with
  | nil => exact hD
  | cons r rs ih =>
    rw [List.foldl_cons]
    exact ih (fun q hq => h q (by simp [hq])) _ (hD.add hKs (h r (by simp)))

/-- When only odd strings are left, the operator is made of conserving groups. -/
theorem Stage.groups {Ks : List (List ℕ)} (hKs : ∀ K ∈ Ks, ∀ k ∈ K, k < N) {C : POp ℂ} (h : Stage N Ks C) (ho : ∀ t ∈ C, ySign t.1 = -1) :
    ∃ Bs : List (POp ℂ), C = Bs.flatten ∧ (∀ B ∈ Bs, ∀ s ∈ B, ∀ t ∈ B, flipMask s.1 = flipMask t.1) ∧ ∀ B ∈ Bs, ∀ K ∈ Ks, Com K (denPO B) := by
  obtain ⟨Bs, b1, b2, b3⟩ := h.blocks
  have hC : oddP C = C := by
    unfold oddP
    rw [List.filter_eq_self]
    intro t ht
    simp [oddB, ho t ht]
  have hcom := h.com
  rw [hC] at b1 hcom
  refine ⟨Bs, b1, b2, fun B hB K hK => ?_⟩
  have hsub : ∀ t ∈ B, t ∈ C := fun t ht => b1 ▸ List.mem_flatten.mpr ⟨B, hB, ht⟩
  have hU : UniqueKeys B := by
    have := h.uniq
    rw [b1] at this
    refine List.Nodup.sublist ?_ this
    exact (List.sublist_flatten_of_mem hB).map _
  have hf := com_filter (hKs K hK) C h.len (h.two K hK) (hcom K hK) (fun s => decide (s ∈ B.map (·.1))) fun s hs => by
    rw [decide_eq_decide]
    exact b3 B hB K hK s hs
  refine com_of_coef (hKs K hK) _ B (fun t ht => h.len t (List.mem_filter.mp ht).1) (fun t ht => h.len t (hsub t ht)) hf fun s => ?_
  rw [coef_filter C (fun s => decide (s ∈ B.map (·.1)))]
  by_cases hs : s ∈ B.map (·.1)
  · rw [if_pos (by simpa using hs)]
    obtain ⟨t, ht, rfl⟩ := List.mem_map.mp hs
    rw [OpD.coef_of_mem B hU t ht, OpD.coef_of_mem C h.uniq t (hsub t ht)]
  · rw [if_neg (by simpa using hs), OpD.coef_of_not_mem B s hs]

/-! ### Fermionic terms -/

/-- The change of the number of electrons by a letter. -/
def wt (o : FL) : ℤ := if o = .cr then 1 else if o = .an then -1 else 0

theorem number_fop (r k : ℕ) (o : FL) : (numberOp r * fop k o : Oper ℂ) = fop k o * numberOp r + ((if k < r then wt o else 0 : ℤ) : ℂ) • fop k o := by
  have hc := number_cre r k
  have ha := number_ann r k
  have h2 : ∀ (n c a : Oper ℂ) (x y : ℂ), n * c = c * n + x • c → n * a = a * n + y • a → x + y = 0 → n * (c * a) = c * a * n := by
    intro n c a x y h1 h2 h3
    rw [← mul_assoc, h1, add_mul, mul_assoc c n a, h2, mul_add, smul_mul_assoc, mul_smul_comm, mul_assoc, add_assoc, ← add_smul, add_comm y x, h3, zero_smul, add_zero]
  cases o with
  | i => simp [fop, wt]
  | cr =>
    show numberOp r * cre k = cre k * numberOp r + _ • cre k
    rw [hc]
    by_cases h : k < r <;> simp [h, wt]
  | an =>
    show numberOp r * ann k = ann k * numberOp r + _ • ann k
    rw [ha]
    by_cases h : k < r <;> simp [h, wt]
  | p =>
    show numberOp r * (cre k * ann k) = cre k * ann k * numberOp r + _ • (cre k * ann k)
    rw [h2 _ _ _ _ _ hc ha (by by_cases h : k < r <;> simp [h])]
    by_cases h : k < r <;> simp [h, wt]
  | h =>
    show numberOp r * (ann k * cre k) = ann k * cre k * numberOp r + _ • (ann k * cre k)
    rw [h2 _ _ _ _ _ ha hc (by by_cases h : k < r <;> simp [h])]
    by_cases h : k < r <;> simp [h, wt]

theorem number_denF (r k : ℕ) (s : FStr) : (numberOp r * denF k s : Oper ℂ) = denF k s * numberOp r + ((((s.take (r - k)).map wt).sum : ℤ) : ℂ) • denF k s := by
  induction s generalizing k with
  | nil => simp [denF]
  | cons o s ih =>
    have e : ((((o :: s).take (r - k)).map wt).sum : ℤ) = (if k < r then wt o else 0) + ((s.take (r - (k + 1))).map wt).sum := by
      by_cases h : k < r
      · obtain ⟨m, hm⟩ : ∃ m, r - k = m + 1 := ⟨r - k - 1, by omega⟩
        rw [hm, show r - (k + 1) = m by omega, if_pos h]
        simp
      · rw [show r - k = 0 by omega, show r - (k + 1) = 0 by omega, if_neg h]
        simp
    rw [e]
    simp only [denF]
    rw [← mul_assoc, number_fop, add_mul, mul_assoc _ (numberOp r), ih, mul_add, smul_mul_assoc, mul_smul_comm, mul_assoc]
    push_cast
    module

theorem wt_sum (s : FStr) : ((s.map wt).sum : ℤ) = s.count .cr - s.count .an := by
  induction s with
  | nil => rfl
  | cons o s ih =>
    rw [List.map_cons, List.sum_cons, ih, List.count_cons, List.count_cons]
    cases o <;> simp [wt] <;> ring

theorem conserves_denF (r : ℕ) (s : FStr) (h : (s.take r).count .cr = (s.take r).count .an) : Conserves r (denF 0 s : Oper ℂ) := by
  unfold Conserves
  rw [number_denF, Nat.sub_zero, wt_sum, h, sub_self, Int.cast_zero, zero_smul, add_zero]

theorem pos_count (s : FStr) (n : ℕ) (h : n ≤ s.length) :
    ((List.range n).filter fun k => isOdd (s.getD k .i)).length = (s.take n).count .cr + (s.take n).count .an := by
  induction n with
  | zero => simp
  | succ n ih =>
    rw [List.range_succ, List.filter_append, List.length_append, ih (by omega), List.take_add_one, List.count_append, List.count_append,
      List.getElem?_eq_getElem (by omega)]
    have : s.getD n .i = s[n]'(by omega) := List.getD_eq_getElem _ _ _
    simp only [List.filter_cons, List.filter_nil, this, Option.toList_some]
    cases s[n]'(by omega) <;> simp [isOdd] <;> omega

/-- The string moves at most one alpha and at most one beta electron. -/
def OneEach (no : ℕ) (s : FStr) : Prop :=
  ((s.take no).count .cr = (s.take no).count .an ∧ (s.take no).count .cr ≤ 1) ∧
    (s.drop no).count .cr = (s.drop no).count .an ∧ (s.drop no).count .cr ≤ 1

/-- The alpha and the beta orbitals. -/
def spins (no : ℕ) : List (List ℕ) := [List.range no, (List.range no).map (no + ·)]

theorem spins_lt (no : ℕ) : ∀ K ∈ spins no, ∀ k ∈ K, k < 2 * no := by
  intro K hK k hk
  simp only [spins, List.mem_cons, List.not_mem_nil, or_false] at hK
  rcases hK with rfl | rfl
  · have := List.mem_range.mp hk; omega
  · obtain ⟨i, hi, rfl⟩ := List.mem_map.mp hk
    have := List.mem_range.mp hi; omega

theorem nOn_alpha (no : ℕ) : nOn (List.range no) = numberOp no := by
  unfold nOn
  induction no with
  | zero => simp [numberOp]
  | succ n ih => rw [List.range_succ, List.map_append, List.sum_append, ih, numberOp_succ]; simp

theorem nOn_beta (no : ℕ) : nOn ((List.range no).map (no + ·)) = numberOp (2 * no) - numberOp no := by
  have : ∀ m, nOn ((List.range m).map (no + ·)) = numberOp (no + m) - numberOp no := by
    intro m
    induction m with
    | zero => simp [nOn]
    | succ m ih =>
      unfold nOn at ih ⊢
      rw [List.range_succ, List.map_append, List.map_append, List.sum_append, ih, ← add_assoc, numberOp_succ]
      simp
      abel
  rw [this, two_mul]

theorem com_spins {no : ℕ} {X : Oper ℂ} : (∀ K ∈ spins no, Com K X) ↔ Conserves no X ∧ Conserves (2 * no) X := by
  unfold spins Com Conserves
  simp only [List.mem_cons, List.not_mem_nil, or_false, forall_eq_or_imp, forall_eq]
  rw [nOn_alpha, nOn_beta, sub_mul, mul_sub]
  constructor
  · rintro ⟨h1, h2⟩
    exact ⟨h1, by rw [h1] at h2; exact sub_left_injective h2⟩
  · rintro ⟨h1, h2⟩
    exact ⟨h1, by rw [h1, h2]⟩

theorem two_of_length {l : List ℕ} {K : List ℕ} {s : PStr} (h : pos K s = l) (hl : l.length = 0 ∨ l.length = 2) : Two K s := by
  rcases hl with h0 | h0
  · left; rw [h]; exact List.length_eq_zero_iff.mp h0
  · right
    obtain ⟨a, b, e⟩ := List.length_eq_two.mp h0
    exact ⟨a, b, by rw [h, e]⟩

theorem jw_piece (no : ℕ) (t : Term FStr ℂ) (hl : t.1.length = 2 * no) (h0 : t.2 ≠ 0 ∨ Transform.nLetters t.1 ≠ 0) (h1 : OneEach no t.1) (r : POp ℂ)
    (h : Transform.jordanWigner t = some r) : Piece (2 * no) (spins no) r := by
  have hs := Transform.jw_spec (K := ℂ) t
  have hm := jw_flips t h0 r h
  by_cases hb : Transform.nLetters t.1 = 0 ∨ small (t.2 / 2 ^ Transform.nLetters t.1) = false
  · obtain ⟨r', e1, e2, e3, _, e5, e6⟩ := hs.above hb
    rw [h] at e1
    cases e1
    have h0 : t.2 ≠ 0 := by
      rcases h0 with h0 | h0
      · exact h0
      · rintro hz
        have := hb.resolve_left h0
        rw [hz, zero_div] at this
        have h2 : small (0 : ℂ) = true := by rw [small_complex]; norm_num
        rw [h2] at this
        exact Bool.noConfusion this
    refine ⟨e2, fun u hu => by rw [e3 u hu, hl], fun v hv => ?_, fun u hu v hv => by rw [hm u hu, hm v hv], ?_, ?_⟩
    · obtain ⟨e, he⟩ := e5 v hv
      rw [he]
      refine mul_ne_zero (div_ne_zero h0 (by norm_num)) (zpow_ne_zero _ ?_)
      exact Complex.I_ne_zero
    · intro K hK u hu
      have hfl : ∀ k, (u.1.getD k .I).l = isOdd (t.1.getD k .i) := fun k => by rw [← flips_getD', hm u hu, ladder_getD]
      simp only [spins, List.mem_cons, List.not_mem_nil, or_false] at hK
      rcases hK with rfl | rfl
      · refine two_of_length rfl ?_
        unfold pos
        simp only [hfl]
        rw [pos_count t.1 no (by omega)]
        have := h1.1
        omega
      · refine two_of_length rfl ?_
        unfold pos
        rw [List.filter_map, List.length_map]
        have e : ((fun k => (u.1.getD k .I).l) ∘ fun x => no + x) = fun k => isOdd ((t.1.drop no).getD k .i) := by
          funext k
          show (u.1.getD (no + k) .I).l = _
          rw [hfl]
          simp [List.getD_eq_getElem?_getD]
        rw [e, pos_count (t.1.drop no) no (by rw [List.length_drop]; omega), List.take_of_length_le (by rw [List.length_drop]; omega)]
        have := h1.2
        omega
    · rw [com_spins, e6]
      have hc : ∀ (n : ℕ) (X : Oper ℂ), Conserves n X → Conserves n (t.2 • X) := by
        intro n X hX
        unfold Conserves at *
        rw [mul_smul_comm, hX, smul_mul_assoc]
      refine ⟨hc _ _ (conserves_denF no t.1 h1.1.1), hc _ _ (conserves_denF _ t.1 ?_)⟩
      rw [List.take_of_length_le (by omega), ← List.take_append_drop no t.1, List.count_append, List.count_append, h1.1.1, h1.2.1]
  · rw [not_or] at hb
    have := hs.below hb.1 (by simpa using hb.2)
    rw [h] at this
    cases this
    refine ⟨List.nodup_nil, by simp, by simp, by simp, by simp, fun K _ => ?_⟩
    show nOn K * denPO [] = denPO [] * nOn K
    rw [denPO_nil', mul_zero, zero_mul]

/-- Layers whose terms each move at most one alpha and at most one beta electron are covered: only realness and anti-Hermiticity of the Pauli form are needed. -/
theorem oneEach_ok (no : ℕ) (A : OpD FStr ℂ) (hl : ∀ t ∈ A, t.1.length = 2 * no) (h0 : ∀ t ∈ A, t.2 ≠ 0 ∨ Transform.nLetters t.1 ≠ 0)
    (h1 : ∀ t ∈ A, OneEach no t.1)
    (hr : ∀ C, OpD.transform Transform.jordanWigner A = some C → IsReal (denPO C) ∧ IsAdj (-denPO C) (denPO C)) : LayerOK no A := by
  refine ⟨hl, fun C hC => ⟨(hr C hC).1, (hr C hC).2, ?_⟩⟩
  obtain ⟨C', _, c1, c2, c3, _⟩ := Transform.transform_error Transform.jordanWigner (denF 0) Transform.jw_spec A (2 * no) hl
  rw [hC] at c1
  cases c1
  have hlen := SymProj.transform_len _ _ Transform.jw_spec A _ hl C hC
  have hst : Stage (2 * no) (spins no) C := by
    unfold OpD.transform at hC
    obtain ⟨rs, r1, rfl⟩ := Option.map_eq_some_iff.mp hC
    refine Stage.foldl (spins_lt no) rs (fun r hr => ?_) [] (Stage.nil _)
    obtain ⟨t, ht, h⟩ := mapM_mem_of _ _ _ r1 r hr
    exact jw_piece no t (hl t ht) (h0 t ht) (h1 t ht) r h
  have hodd : ∀ t ∈ C, ySign t.1 = -1 := by
    have him := antiherm_imag (2 * no) C c2 hlen (hr C hC).2
    intro u hu
    have h1 := real_coef (2 * no) C c2 hlen (hr C hC).1 u hu
    have h2 : (starRingEnd ℂ) u.2 = -u.2 := by apply Complex.ext <;> simp [him u hu]
    rw [h2] at h1
    have h3 : (ySign u.1 + 1) * u.2 = 0 := by linear_combination -h1
    rcases mul_eq_zero.mp h3 with h4 | h4
    · linear_combination h4
    · exfalso
      have := c3 u hu
      rw [h4, ← Bool.not_eq_true, small_complex] at this
      norm_num at this
  obtain ⟨Bs, b1, b2, b3⟩ := hst.groups (spins_lt no) hodd
  exact ⟨Bs, b1, b2, fun B hB => com_spins.mp (b3 B hB)⟩

end
end Props
end HQCA
