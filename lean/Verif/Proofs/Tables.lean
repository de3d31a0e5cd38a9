import Verif.Proofs.Act

set_option linter.unusedSectionVars false

namespace HQCA
variable {K : Type} [Coef K]

namespace Transform

/-- Facts about the string pairs used by every transform. -/
structure TabGood (tab : Table) (N : ℕ) : Prop where
  len : ∀ q < N, ∀ o, o ≠ .i → (tab N q o).1.length = N ∧ (tab N q o).2.length = N
  diff : ∀ q < N, ∀ o, o ≠ .i → (tab N q o).1.getD q .I ≠ (tab N q o).2.getD q .I
  above : ∀ q < N, ∀ o, o ≠ .i → ∀ i, q < i → (tab N q o).1.getD i .I = (tab N q o).2.getD i .I

/-- Transforms whose two strings differ only at the letter itself. -/
def TabLocal (tab : Table) (N : ℕ) : Prop :=
  ∀ q < N, ∀ o, o ≠ .i → ∀ i, i ≠ q → (tab N q o).1.getD i .I = (tab N q o).2.getD i .I

theorem c2_unit (o : FL) : ∃ e : ℤ, (c2 o : K) = 1/2 * I ^ e := by
  have hh := half_add_half (K := K)
  have h2 : (I : K) ^ (2 : ℤ) = -1 := by
    rw [show (2 : ℤ) = ((2 : ℕ) : ℤ) by rfl, zpow_natCast, pow_two, I_mul_I]
  have h3 : (I : K) ^ (3 : ℤ) = -I := by
    rw [show (3 : ℤ) = ((3 : ℕ) : ℤ) by rfl, zpow_natCast, pow_succ, pow_two, I_mul_I]; ring
  cases o
  · exact ⟨2, by rw [h2]; simp [c2]⟩
  · exact ⟨3, by rw [h3]; simp [c2]⟩
  · exact ⟨1, by rw [zpow_one]; simp only [c2]; linear_combination (-(I : K)) * hh⟩
  · exact ⟨2, by rw [h2]; simp [c2]⟩
  · exact ⟨0, by simp only [c2, zpow_zero]; linear_combination (-1 : K) * hh⟩

theorem tem_eq (tab : Table) (N q : ℕ) (o : FL) (h : (tab N q o).1 ≠ (tab N q o).2) :
    (tem tab N q o : POp K) = [((tab N q o).1, 1/2), ((tab N q o).2, c2 o)] := by
  simp [tem, OpD.addStr, OpD.hasKey, h]

theorem getElem?_of_getD (s : PStr) (i : ℕ) : s[i]? = if i < s.length then some (s.getD i .I) else none := by
  split
  · rename_i h; rw [List.getD_eq_getElem?_getD, List.getElem?_eq_getElem h]; rfl
  · rename_i h; exact List.getElem?_eq_none (by omega)

theorem TabGood.ne {tab : Table} {N : ℕ} (h : TabGood tab N) {q : ℕ} (hq : q < N) {o : FL} (ho : o ≠ .i) :
    (tab N q o).1 ≠ (tab N q o).2 := fun e => h.diff q hq o ho (by rw [e])

theorem isTem (tab : Table) (N q : ℕ) (o : FL) (hg : TabGood tab N) (hq : q < N) (ho : o ≠ .i) :
    IsTem N q (tem tab N q o : POp K) (tab N q o).1 (tab N q o).2 := by
  refine ⟨⟨c2 o, tem_eq _ _ _ _ (hg.ne hq ho), c2_unit o⟩, (hg.len q hq o ho).1, (hg.len q hq o ho).2, ?_⟩
  intro h
  rw [getElem?_of_getD, getElem?_of_getD, (hg.len q hq o ho).1, (hg.len q hq o ho).2, if_pos hq,
    if_pos hq] at h
  exact hg.diff q hq o ho (Option.some.inj h)

theorem mem_letters (s : FStr) (a : ℕ × FL) (h : a ∈ letters s) : a.1 < s.length := by
  obtain ⟨x, hx, rfl⟩ := List.mem_map.mp h
  have := List.mem_zipIdx hx
  simp; omega

theorem letters_fst (s : FStr) : (letters s).map (·.1) = List.range s.length := by
  unfold letters
  rw [List.map_map]
  have : ((fun x : ℕ × FL => x.1) ∘ fun x : FL × ℕ => (x.2, x.1)) = Prod.snd := rfl
  rw [this, List.zipIdx_map_snd, List.range_eq_range']

theorem letters_sorted (s : FStr) : (letters s).Pairwise (fun a b => a.1 < b.1) := by
  have h : ((letters s).map (·.1)).Pairwise (· < ·) := by
    rw [letters_fst]; exact List.pairwise_lt_range
  exact List.pairwise_map.mp h

theorem agree_terms (tab : Table) (N q i : ℕ) (o : FL) (hg : TabGood tab N) (hq : q < N) (ho : o ≠ .i)
    (h : (tab N q o).1.getD i .I = (tab N q o).2.getD i .I) :
    ∀ t ∈ (tem tab N q o : POp K), ∀ u ∈ (tem tab N q o : POp K), t.1[i]? = u.1[i]? := by
  rw [tem_eq _ _ _ _ (hg.ne hq ho)]
  have e : (tab N q o).1[i]? = (tab N q o).2[i]? := by
    rw [getElem?_of_getD, getElem?_of_getD, (hg.len q hq o ho).1, (hg.len q hq o ho).2, h]
  intro t ht u hu
  simp only [List.mem_cons, List.not_mem_nil, or_false] at ht hu
  rcases ht with rfl | rfl <;> rcases hu with rfl | rfl <;> simp [e]

theorem tabOK_forward (tab : Table) (s : FStr) (hg : TabGood tab s.length) :
    TabOK s.length (tem tab s.length : ℕ → FL → POp K) (letters s) := by
  refine ⟨fun a ha => mem_letters s a ha, fun a ha hi => ⟨_, _, isTem tab _ _ _ hg (mem_letters s a ha) hi⟩,
    ?_⟩
  have := List.Pairwise.and_mem.mp (letters_sorted s)
  apply this.imp
  rintro a b ⟨ma, mb, hab⟩ hai _
  exact agree_terms tab _ _ _ _ hg (mem_letters s a ma) hai (hg.above _ (mem_letters s a ma) _ hai _ hab)

theorem tabOK_reverse (tab : Table) (s : FStr) (hg : TabGood tab s.length) (hloc : TabLocal tab s.length) :
    TabOK s.length (tem tab s.length : ℕ → FL → POp K) (letters s).reverse := by
  refine ⟨fun a ha => mem_letters s a (List.mem_reverse.mp ha),
    fun a ha hi => ⟨_, _, isTem tab _ _ _ hg (mem_letters s a (List.mem_reverse.mp ha)) hi⟩, ?_⟩
  rw [List.pairwise_reverse]
  have := List.Pairwise.and_mem.mp (letters_sorted s)
  apply this.imp
  rintro a b ⟨ma, mb, hab⟩ hbi _
  exact agree_terms tab _ _ _ _ hg (mem_letters s b mb) hbi (hloc _ (mem_letters s b mb) _ hbi _ (by omega))

theorem weight_letters (s : FStr) : weight (letters s) = (s.filter (· ≠ .i)).length := by
  unfold weight letters
  rw [List.filter_map, List.length_map]
  have : ∀ k, ((s.zipIdx k).filter ((fun a : ℕ × FL => decide (a.2 ≠ .i)) ∘ fun x : FL × ℕ => (x.2, x.1))).length =
      (s.filter (· ≠ .i)).length := by
    induction s with
    | nil => simp
    | cons x s ih =>
      intro k
      have := ih (k+1)
      rw [List.zipIdx_cons]
      by_cases h : x = .i
      · rw [List.filter_cons_of_neg (by simp [h]), List.filter_cons_of_neg (by simp [h]), this]
      · rw [List.filter_cons_of_pos (by simp [h]), List.filter_cons_of_pos (by simp [h]), List.length_cons,
          this, List.length_cons]
  exact this 0

theorem weight_reverse (l : List (ℕ × FL)) : weight l.reverse = weight l := by
  simp [weight, List.filter_reverse]

/-- Summary of the loop for a whole string. -/
theorem transform_spec (tm : ℕ → FL → POp K) (t : Term FStr K) (l : List (ℕ × FL))
    (hl : TabOK t.1.length tm l) (hw : weight l = (t.1.filter (· ≠ .i)).length) :
    (((t.1.filter (· ≠ .i)).length = 0 ∨ small (t.2 / 2 ^ (t.1.filter (· ≠ .i)).length) = false) →
      ∃ r, loop tm (start t) l = some r ∧ UniqueKeys r ∧ (∀ u ∈ r, u.1.length = t.1.length) ∧
        r.length = 2 ^ (t.1.filter (· ≠ .i)).length ∧
        (∀ u ∈ r, ∃ e : ℤ, u.2 = t.2 / 2 ^ (t.1.filter (· ≠ .i)).length * I ^ e) ∧
        denPO r = t.2 • (revProd (fun q o => denPO (tm q o)) l : Oper K)) ∧
    ((t.1.filter (· ≠ .i)).length ≠ 0 → small (t.2 / 2 ^ (t.1.filter (· ≠ .i)).length) = true →
      loop tm (start t) l = some []) := by
  obtain ⟨h1, h2⟩ := loop_spec t.1.length tm l hl t.2 (start t) (start_acc t) (fun a _ _ => start_agree t _)
  rw [hw] at h1 h2
  refine ⟨fun h => ?_, h2⟩
  obtain ⟨r, e1, e2, e3, e4⟩ := h1 h
  refine ⟨r, e1, e2.nodup, e2.len, ?_, e2.mag, ?_⟩
  · rw [e4, start_eq]; simp
  · rw [e3, start_den, mul_smul_comm, mul_one]

/-- Composition of encodings of the letters. -/
theorem encodes_revProd (enc : Cfg → Cfg) (D F : ℕ → FL → Oper K) (l : List (ℕ × FL))
    (h : ∀ a ∈ l, a.2 ≠ .i → Encodes enc (D a.1 a.2) (F a.1 a.2)) :
    Encodes enc (revProd D l) (revProd F l) := by
  induction l with
  | nil => exact Encodes.one enc
  | cons a l ih =>
    unfold revProd
    apply Encodes.mul (ih (fun b hb => h b (List.mem_cons_of_mem _ hb)))
    split
    · exact Encodes.one enc
    · rename_i hi; exact h a List.mem_cons_self hi

theorem revProd_append (D : ℕ → FL → Oper K) (l l' : List (ℕ × FL)) :
    revProd D (l ++ l') = revProd D l' * revProd D l := by
  induction l with
  | nil => simp [revProd]
  | cons a l ih => simp [revProd, ih, mul_assoc]

theorem revProd_reverse (W : ℕ → FL → Oper K) (hi : ∀ k, W k .i = 1) (l : List (ℕ × FL)) :
    revProd W l.reverse = wordW W l := by
  induction l with
  | nil => rfl
  | cons a l ih =>
    rw [List.reverse_cons, revProd_append, ih, wordW_cons]
    congr 1
    simp only [revProd, one_mul]
    split
    · rename_i h; rw [h, hi]
    · rfl

theorem word_letters (W : ℕ → FL → Oper K) (s : FStr) : wordW W (letters s) = denW W 0 s := by
  unfold letters
  have : ∀ k, wordW W ((s.zipIdx k).map (fun x => (x.2, x.1))) = denW W k s := by
    induction s with
    | nil => intro k; rfl
    | cons x s ih => intro k; rw [List.zipIdx_cons, List.map_cons, wordW_cons, ih, denW]
  exact this 0

/-! ### Letters of the concrete strings -/

theorem getD_block (a L c : PL) (q r i : ℕ) :
    (List.replicate q a ++ [L] ++ List.replicate r c).getD i .I =
      if i < q then a else if i = q then L else if i < q + 1 + r then c else .I := by
  rw [List.getD_eq_getElem?_getD, List.append_assoc, List.getElem?_append]
  simp only [List.length_replicate, List.getElem?_replicate, List.singleton_append]
  by_cases h1 : i < q
  · simp [h1]
  · by_cases h2 : i = q
    · simp [h2]
    · obtain ⟨j, rfl⟩ : ∃ j, i = q + 1 + j := ⟨i - q - 1, by omega⟩
      have e : q + 1 + j - q = j + 1 := by omega
      rw [if_neg h1, e, List.getElem?_cons_succ, List.getElem?_replicate, if_neg h1, if_neg h2]
      by_cases h3 : j < r
      · rw [if_pos h3, if_pos (by omega)]; rfl
      · rw [if_neg h3, if_neg (by omega)]; rfl

theorem length_block (a L c : PL) (q N : ℕ) (h : q < N) :
    (List.replicate q a ++ [L] ++ List.replicate (N-q-1) c).length = N := by
  simp; omega

/-- Value of a phase when the letters beyond `q` act trivially. -/
theorem phase_upto (s : PStr) (e : Cfg) (q : ℕ) (hq : q < s.length)
    (h : ∀ i, q < i → i < s.length → ph (s.getD i .I) (e i) = (1 : K)) :
    (phase 0 s e : K) = (∏ i ∈ Finset.range q, ph (s.getD i .I) (e i)) * ph (s.getD q .I) (e q) := by
  rw [phase_zero, ← Finset.prod_range_succ]
  symm
  apply Finset.prod_subset
  · intro i hi; simp only [Finset.mem_range] at *; omega
  · intro i hi hi'; simp only [Finset.mem_range] at *; exact h i (by omega) (by omega)

theorem fsign_prod (b : Cfg) (q : ℕ) : (fsign b q : K) = ∏ i ∈ Finset.range q, sg (b i) := by
  induction q with
  | zero => simp [fsign]
  | succ q ih => rw [fsign_succ, Finset.prod_range_succ, ih]; rfl

theorem odd_or_even (o : FL) (h : o ≠ .i) : (o = .cr ∨ o = .an) ∨ ((o = .p ∨ o = .h) ∧ ¬ (o = .cr ∨ o = .an)) := by
  cases o <;> simp at *

theorem flipBit_eq (b : Cfg) (q i : ℕ) : flipBit b q i = xor (b i) (decide (i = q)) := by
  unfold flipBit
  by_cases h : i = q
  · subst h; simp
  · rw [Function.update_of_ne h]; simp [h]

/-! ### Jordan–Wigner -/

theorem jw_good (N : ℕ) : TabGood jwTab N := by
  refine ⟨?_, ?_, ?_⟩
  · intro q hq o ho
    unfold jwTab
    split <;> exact ⟨length_block _ _ _ _ _ hq, length_block _ _ _ _ _ hq⟩
  · intro q hq o ho
    unfold jwTab
    split <;> simp only [getD_block] <;> simp
  · intro q hq o ho i hi
    unfold jwTab
    split <;> simp only [getD_block] <;> (repeat' split) <;> first | rfl | omega

theorem jw_local (N : ℕ) : TabLocal jwTab N := by
  intro q hq o ho i hi
  unfold jwTab
  split <;> simp only [getD_block] <;> (repeat' split) <;> first | rfl | omega

theorem jw_letter (N q : ℕ) (hq : q < N) (o : FL) (ho : o ≠ .i) :
    Encodes id (denPO (tem jwTab N q o) : Oper K) (fop q o) := by
  rw [tem_eq _ _ _ _ ((jw_good N).ne hq ho)]
  rcases odd_or_even o ho with h | ⟨h, h'⟩
  · have l1 := length_block .Z .X .I q N hq
    have l2 := length_block .Z .Y .I q N hq
    simp only [jwTab, if_pos h]
    apply encodes_odd id q o h
    · intro b
      funext i
      rw [fl_zero, getD_block, id, id, flipBit_eq]
      congr 1
      by_cases h1 : i < q
      · simp [h1, PL.l]; omega
      · by_cases h2 : i = q <;> simp [h1, h2, PL.l]
    · intro b
      funext i
      rw [fl_zero, getD_block, id, id, flipBit_eq]
      congr 1
      by_cases h1 : i < q
      · simp [h1, PL.l]; omega
      · by_cases h2 : i = q <;> simp [h1, h2, PL.l]
    · intro b
      rw [phase_upto _ _ q (by omega)]
      · simp only [getD_block, id]
        rw [fsign_prod]
        simp only [lt_self_iff_false, if_false, if_true, ph, mul_one]
        apply Finset.prod_congr rfl
        intro i hi
        rw [if_pos (Finset.mem_range.mp hi)]
      · intro i hi _
        simp only [getD_block]
        rw [if_neg (by omega), if_neg (by omega)]; split <;> rfl
    · intro b
      rw [phase_upto _ _ q (by omega)]
      · simp only [getD_block, id]
        rw [fsign_prod]
        simp only [lt_self_iff_false, if_false, if_true, ph]
        rw [mul_left_comm]
        congr 2
        apply Finset.prod_congr rfl
        intro i hi
        rw [if_pos (Finset.mem_range.mp hi)]
      · intro i hi _
        simp only [getD_block]
        rw [if_neg (by omega), if_neg (by omega)]; split <;> rfl
  · have l1 := length_block .I .I .I q N hq
    have l2 := length_block .I .Z .I q N hq
    simp only [jwTab, if_neg h']
    apply encodes_even id q o h
    · intro b
      funext i
      rw [fl_zero, getD_block]
      (repeat' split) <;> simp [PL.l]
    · intro b
      funext i
      rw [fl_zero, getD_block]
      (repeat' split) <;> simp [PL.l]
    · intro b
      rw [phase_zero]
      apply Finset.prod_eq_one
      intro i _
      rw [getD_block]
      (repeat' split) <;> rfl
    · intro b
      rw [phase_upto _ _ q (by omega)]
      · simp only [getD_block, id]
        rw [Finset.prod_eq_one]
        · simp [ph]
        · intro i hi
          rw [if_pos (Finset.mem_range.mp hi)]; rfl
      · intro i hi _
        simp only [getD_block]
        rw [if_neg (by omega), if_neg (by omega)]; split <;> rfl

/-! ### Qubit strings -/

theorem qu_good (N : ℕ) : TabGood quTab N := by
  refine ⟨?_, ?_, ?_⟩
  · intro q hq o ho
    unfold quTab
    split <;> exact ⟨length_block _ _ _ _ _ hq, length_block _ _ _ _ _ hq⟩
  · intro q hq o ho
    unfold quTab
    split <;> simp only [getD_block] <;> simp
  · intro q hq o ho i hi
    unfold quTab
    split <;> simp only [getD_block] <;> (repeat' split) <;> first | rfl | omega

theorem qu_local (N : ℕ) : TabLocal quTab N := by
  intro q hq o ho i hi
  unfold quTab
  split <;> simp only [getD_block] <;> (repeat' split) <;> first | rfl | omega

theorem qu_letter (N q : ℕ) (hq : q < N) (o : FL) (ho : o ≠ .i) :
    Encodes id (denPO (tem quTab N q o) : Oper K) (site q (qmat o)) := by
  rcases odd_or_even o ho with h | ⟨h, h'⟩
  · rw [tem_eq _ _ _ _ ((qu_good N).ne hq ho)]
    have l1 := length_block .I .X .I q N hq
    have l2 := length_block .I .Y .I q N hq
    simp only [quTab, if_pos h]
    apply encodes_odd_gen id q (fun _ => 1) _ o
    · rcases h with rfl | rfl
      · exact Or.inl ⟨rfl, fun ψ b => by rw [site_apply]; cases h : b q <;> simp [qmat]⟩
      · exact Or.inr ⟨rfl, fun ψ b => by rw [site_apply]; cases h : b q <;> simp [qmat]⟩
    · intro b
      funext i
      rw [fl_zero, getD_block, id, id, flipBit_eq]
      congr 1
      by_cases h1 : i < q
      · simp [h1, PL.l]; omega
      · by_cases h2 : i = q <;> simp [h1, h2, PL.l]
    · intro b
      funext i
      rw [fl_zero, getD_block, id, id, flipBit_eq]
      congr 1
      by_cases h1 : i < q
      · simp [h1, PL.l]; omega
      · by_cases h2 : i = q <;> simp [h1, h2, PL.l]
    · intro b
      rw [phase_zero]
      apply Finset.prod_eq_one
      intro i _
      rw [getD_block]
      (repeat' split) <;> rfl
    · intro b
      rw [phase_upto _ _ q (by omega)]
      · simp only [getD_block, id]
        rw [Finset.prod_eq_one]
        · simp [ph]
        · intro i hi
          rw [if_pos (Finset.mem_range.mp hi)]; rfl
      · intro i hi _
        simp only [getD_block]
        rw [if_neg (by omega), if_neg (by omega)]; split <;> rfl
  · have e1 : (tem quTab N q o : POp K) = tem jwTab N q o := by
      simp [tem, quTab, jwTab, h']
    have e2 : (fop q o : Oper K) = site q (qmat o) := by
      rw [fop_eq]
      rcases h with rfl | rfl <;> simp [FL.odd, zs]
    rw [e1, ← e2]
    exact jw_letter N q hq o ho

end Transform
end HQCA
