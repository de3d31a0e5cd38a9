import Verif.Proofs.Tables

set_option linter.unusedSectionVars false

namespace HQCA
variable {K : Type} [Coef K]

theorem parOver_empty (b : Cfg) : parOver ∅ b = false := by simp [parOver]

theorem parOver_insert (a : ℕ) (S : Finset ℕ) (b : Cfg) (h : a ∉ S) :
    parOver (insert a S) b = xor (b a) (parOver S b) := by
  unfold parOver
  rw [Finset.filter_insert]
  cases hb : b a
  · simp
  · rw [if_pos rfl, Finset.card_insert_of_notMem (by simp [h])]
    simp only [Nat.odd_add_one, Bool.true_xor, decide_not]

theorem sg_parOver (S : Finset ℕ) (b : Cfg) : (sg (parOver S b) : K) = ∏ j ∈ S, sg (b j) := by
  induction S using Finset.induction_on with
  | empty => simp [parOver_empty, sg]
  | insert a S h ih => rw [parOver_insert a S b h, sg_xor, ih, Finset.prod_insert h]

theorem parOver_flip (S : Finset ℕ) (b : Cfg) (q : ℕ) :
    parOver S (flipBit b q) = xor (parOver S b) (decide (q ∈ S)) := by
  induction S using Finset.induction_on with
  | empty => simp [parOver_empty]
  | insert a S h ih =>
    rw [parOver_insert a S _ h, parOver_insert a S _ h, ih, Transform.flipBit_eq]
    by_cases hq : q = a
    · subst hq
      have : decide (q ∈ S) = false := by simp [h]
      rw [this]; cases b q <;> cases parOver S b <;> simp
    · have e1 : decide (a = q) = false := by simp [Ne.symm hq]
      have e2 : decide (q ∈ insert a S) = decide (q ∈ S) := by simp [hq]
      rw [e1, e2]; simp

/-- A map of configurations that changes bit `i` only by a function of the lower bits is a bijection. -/
theorem triangular_bijective (enc : Cfg → Cfg) (g : ℕ → Cfg → Bool)
    (h : ∀ b i, enc b i = xor (b i) (g i b))
    (hg : ∀ i b b', (∀ j < i, b j = b' j) → g i b = g i b') : Function.Bijective enc := by
  constructor
  · intro b b' e
    funext i
    induction i using Nat.strong_induction_on with
    | _ i ih =>
      have e1 := congrFun e i
      rw [h, h, hg i b b' ih] at e1
      revert e1; cases b i <;> cases b' i <;> cases g i b' <;> simp
  · intro e
    -- build the preimage bit by bit
    let pre : ℕ → Cfg := fun n => Nat.rec (fun _ => false)
      (fun n b => Function.update b n (xor (e n) (g n b))) n
    have hs : ∀ n, pre (n+1) = Function.update (pre n) n (xor (e n) (g n (pre n))) := fun _ => rfl
    have hst : ∀ n m i, i < n → n ≤ m → pre m i = pre n i := by
      intro n m i hi hm
      induction m, hm using Nat.le_induction with
      | base => rfl
      | succ m hm ih => rw [hs, Function.update_of_ne (by omega), ih]
    refine ⟨fun i => pre (i+1) i, ?_⟩
    funext i
    rw [h]
    have e1 : g i (fun i => pre (i+1) i) = g i (pre i) := by
      apply hg
      intro j hj
      exact (hst (j+1) i j (by omega) (by omega)).symm
    rw [e1, hs, Function.update_self]
    cases e i <;> cases g i (pre i) <;> rfl

theorem parityEnc_bijective (N : ℕ) : Function.Bijective (parityEnc N) := by
  apply triangular_bijective (parityEnc N) (fun i b => if i < N then parOver (Finset.range i) b else false)
  · intro b i
    unfold parityEnc
    split
    · rw [Finset.range_add_one, parOver_insert _ _ _ (by simp)]
    · simp
  · intro i b b' hb
    show (if i < N then _ else _) = if i < N then _ else _
    split
    · unfold parOver
      congr 3
      apply Finset.filter_congr
      intro j hj
      rw [hb j (Finset.mem_range.mp hj)]
    · rfl

namespace Transform

theorem getD_block2 (a L1 L2 c : PL) (q r i : ℕ) :
    (List.replicate q a ++ [L1, L2] ++ List.replicate r c).getD i .I =
      if i < q then a else if i = q then L1 else if i = q + 1 then L2
      else if i < q + 2 + r then c else .I := by
  rw [List.getD_eq_getElem?_getD, List.append_assoc, List.getElem?_append]
  simp only [List.length_replicate, List.getElem?_replicate, List.cons_append, List.nil_append]
  by_cases h1 : i < q
  · simp [h1]
  · by_cases h2 : i = q
    · simp [h2]
    · by_cases h3 : i = q + 1
      · simp [h3]
      · obtain ⟨j, rfl⟩ : ∃ j, i = q + 2 + j := ⟨i - q - 2, by omega⟩
        have e : q + 2 + j - q = j + 2 := by omega
        rw [if_neg h1, e, List.getElem?_cons_succ, List.getElem?_cons_succ, List.getElem?_replicate,
          if_neg h1, if_neg h2, if_neg h3]
        by_cases h4 : j < r
        · rw [if_pos h4, if_pos (by omega)]; rfl
        · rw [if_neg h4, if_neg (by omega)]; rfl

theorem getD_block0 (L c : PL) (r i : ℕ) :
    ([L] ++ List.replicate r c).getD i .I =
      if i = 0 then L else if i < 1 + r then c else .I := by
  have := getD_block .I L c 0 r i
  simpa using this

theorem par_good (N : ℕ) : TabGood parTab N := by
  refine ⟨?_, ?_, ?_⟩
  · intro q hq o ho
    unfold parTab
    split <;> split <;> constructor <;> simp <;> omega
  · intro q hq o ho
    unfold parTab
    rcases q with _ | q
    · rw [if_pos rfl]; split <;> simp only [getD_block0] <;> simp
    · rw [if_neg (by omega)]
      split <;> simp only [getD_block2, Nat.add_sub_cancel] <;> simp
  · intro q hq o ho i hi
    unfold parTab
    rcases q with _ | q
    · rw [if_pos rfl]; split <;> simp only [getD_block0] <;> (repeat' split) <;> first | rfl | omega
    · rw [if_neg (by omega)]
      split <;> simp only [getD_block2, Nat.add_sub_cancel] <;> (repeat' split) <;> first | rfl | omega

/-- Letters of the parity strings, uniformly in `q`. -/
theorem parTab_odd (N q i : ℕ) (o : FL) (h : o = .cr ∨ o = .an) (hq : q < N) :
    (parTab N q o).1.getD i .I = (if i + 1 = q then .Z else if i < q then .I else if i < N then .X else .I) ∧
    (parTab N q o).2.getD i .I = (if i < q then .I else if i = q then .Y else if i < N then .X else .I) := by
  unfold parTab
  rcases q with _ | q
  · rw [if_pos rfl, if_pos h]
    simp only [getD_block0]
    constructor <;> (repeat' split) <;> first | rfl | omega
  · rw [if_neg (by omega), if_pos h]
    simp only [getD_block2, Nat.add_sub_cancel]
    constructor <;> (repeat' split) <;> first | rfl | omega

theorem parTab_even (N q i : ℕ) (o : FL) (h : ¬ (o = .cr ∨ o = .an)) (hq : q < N) :
    (parTab N q o).1.getD i .I = .I ∧
    (parTab N q o).2.getD i .I = (if i + 1 = q ∨ i = q then .Z else .I) := by
  unfold parTab
  rcases q with _ | q
  · rw [if_pos rfl, if_neg h]
    simp only [getD_block0]
    constructor <;> (repeat' split) <;> first | rfl | omega
  · rw [if_neg (by omega), if_neg h]
    simp only [getD_block2, Nat.add_sub_cancel]
    constructor <;> (repeat' split) <;> first | rfl | omega

theorem parityEnc_flip (N q : ℕ) (hq : q < N) (b : Cfg) (i : ℕ) :
    parityEnc N (flipBit b q) i = xor (parityEnc N b i) (decide (q ≤ i ∧ i < N)) := by
  unfold parityEnc
  split
  · rename_i h
    rw [parOver_flip]
    congr 1
    simp [h]
    try omega
  · rename_i h
    rw [flipBit_eq]
    congr 1
    simp [h]
    try omega

theorem sg_parityEnc (N i : ℕ) (hi : i < N) (b : Cfg) : (sg (parityEnc N b i) : K) = fsign b (i+1) := by
  rw [parityEnc, if_pos hi, sg_parOver, fsign_prod]

theorem fsign_sq (b : Cfg) (q : ℕ) : (fsign b q : K) * fsign b q = 1 := by
  rw [fsign_prod, ← Finset.prod_mul_distrib]
  apply Finset.prod_eq_one
  intro i _; exact sg_sq _

theorem par_letter (N q : ℕ) (hq : q < N) (o : FL) (ho : o ≠ .i) :
    Encodes (parityEnc N) (denPO (tem parTab N q o) : Oper K) (fop q o) := by
  rw [tem_eq _ _ _ _ ((par_good N).ne hq ho)]
  obtain ⟨l1, l2⟩ := (par_good N).len q hq o ho
  rcases odd_or_even o ho with h | ⟨h, h'⟩
  · have hl := fun i => parTab_odd N q i o h hq
    apply encodes_odd _ q o h
    · intro b
      funext i
      rw [fl_zero, (hl i).1, parityEnc_flip N q hq]
      congr 1
      by_cases h1 : i + 1 = q
      · simp [h1, PL.l]; try omega
      · by_cases h2 : i < q
        · simp [h1, h2, PL.l]; try omega
        · by_cases h3 : i < N
          · simp [h1, h2, h3, PL.l]; try omega
          · simp [h1, h2, h3, PL.l]
    · intro b
      funext i
      rw [fl_zero, (hl i).2, parityEnc_flip N q hq]
      congr 1
      by_cases h1 : i < q
      · simp [h1, PL.l]; try omega
      · by_cases h2 : i = q
        · simp [h2, PL.l]; try omega
        · by_cases h3 : i < N
          · simp [h1, h2, h3, PL.l]; try omega
          · simp [h1, h2, h3, PL.l]
    · intro b
      rw [phase_upto _ _ q (by omega)]
      · simp only [fun i => (hl i).1]
        rw [if_neg (by omega), if_neg (by omega), if_pos hq]
        simp only [ph, mul_one]
        rcases q with _ | q
        · simp [fsign]
        · rw [Finset.prod_range_succ, Finset.prod_eq_one, one_mul, if_pos rfl]
          · simp only [ph]; exact sg_parityEnc N q (by omega) b
          · intro i hi
            have := Finset.mem_range.mp hi
            rw [if_neg (by omega), if_pos (by omega)]; try rfl
      · intro i hi hi'
        rw [(hl i).1, if_neg (by omega), if_neg (by omega)]; split <;> rfl
    · intro b
      rw [phase_upto _ _ q (by omega)]
      · simp only [fun i => (hl i).2]
        rw [if_neg (by omega), if_pos trivial, Finset.prod_eq_one, one_mul]
        · simp only [ph]
          rw [sg_parityEnc N q hq, fsign_succ]; rfl
        · intro i hi
          rw [if_pos (Finset.mem_range.mp hi)]; rfl
      · intro i hi hi'
        rw [(hl i).2, if_neg (by omega), if_neg (by omega)]; split <;> rfl
  · have hl := fun i => parTab_even N q i o h' hq
    apply encodes_even _ q o h
    · intro b
      funext i
      rw [fl_zero, (hl i).1]; simp [PL.l]
    · intro b
      funext i
      rw [fl_zero, (hl i).2]; split <;> simp [PL.l]
    · intro b
      rw [phase_zero]
      apply Finset.prod_eq_one
      intro i _
      rw [(hl i).1]; rfl
    · intro b
      rw [phase_upto _ _ q (by omega)]
      · simp only [fun i => (hl i).2]
        rw [if_pos (Or.inr trivial)]
        rcases q with _ | q
        · simp only [Finset.range_zero, Finset.prod_empty, one_mul, ph]
          rw [sg_parityEnc N 0 hq, fsign_succ]
          simp [fsign, sg]
        · rw [Finset.prod_range_succ, Finset.prod_eq_one, one_mul, if_pos (Or.inl rfl)]
          · simp only [ph]
            rw [sg_parityEnc N q (by omega), sg_parityEnc N (q+1) hq, fsign_succ b (q+1), ← mul_assoc, fsign_sq,
              one_mul]; rfl
          · intro i hi
            have := Finset.mem_range.mp hi
            rw [if_neg (by omega)]; rfl
      · intro i hi hi'
        rw [(hl i).2, if_neg (by omega)]; rfl

/-! ### The order of the factors -/

/-- Number of creation/annihilation letters. -/
def oddCount (l : List (ℕ × FL)) : ℕ := (l.filter (fun a => a.2.odd)).length

/-- Moving a letter through a word of letters on other orbitals. -/
theorem word_move (a : ℕ × FL) (l : List (ℕ × FL)) (h : ∀ b ∈ l, b.1 ≠ a.1) :
    (wordW fop l * fop a.1 a.2 : Oper K) =
      ((if a.2.odd then (-1) ^ oddCount l else 1 : K)) • (fop a.1 a.2 * wordW fop l) := by
  induction l with
  | nil => simp [wordW, oddCount]
  | cons b l ih =>
    have hb := h b List.mem_cons_self
    rw [wordW_cons, mul_assoc, ih (fun c hc => h c (List.mem_cons_of_mem _ hc)), mul_smul_comm, ← mul_assoc,
      fop_swap (Ne.symm hb) a.2 b.2, smul_mul_assoc, smul_smul, mul_assoc]
    congr 1
    unfold oddCount esign
    cases ha : a.2.odd
    · simp
    · cases hb' : b.2.odd
      · rw [List.filter_cons_of_neg (by simp [hb'])]; simp
      · rw [List.filter_cons_of_pos (by simp [hb'])]; simp [pow_succ]

/-- Reversing a word of letters on distinct orbitals gives the sign of reversing its odd letters. -/
theorem word_reverse (l : List (ℕ × FL)) (h : l.Pairwise (fun a b => a.1 ≠ b.1)) :
    (wordW fop l.reverse : Oper K) =
      ((-1) ^ (oddCount l * (oddCount l - 1) / 2) : K) • wordW fop l := by
  induction l with
  | nil => simp [wordW, oddCount]
  | cons a l ih =>
    obtain ⟨h1, h2⟩ := List.pairwise_cons.mp h
    have e : (wordW fop (a :: l).reverse : Oper K) = wordW fop l.reverse * fop a.1 a.2 := by
      simp [wordW]
    rw [e, ih h2, smul_mul_assoc, word_move a l (fun b hb => (h1 b hb).symm), smul_smul, wordW_cons]
    congr 1
    have hc : oddCount (a :: l) = oddCount l + if a.2.odd then 1 else 0 := by
      unfold oddCount
      cases ha : a.2.odd
      · rw [List.filter_cons_of_neg (by simp [ha])]; simp
      · rw [List.filter_cons_of_pos (by simp [ha])]; simp
    rw [hc]
    cases ha : a.2.odd
    · simp
    · simp only [if_true]
      rw [← pow_add]
      congr 1
      have := Nat.triangle_succ (oddCount l)
      rw [Nat.add_sub_cancel] at this ⊢
      rw [this]

theorem revProd_forward (s : FStr) :
    (revProd fop (letters s) : Oper K) =
      ((-1) ^ (oddCount (letters s) * (oddCount (letters s) - 1) / 2) : K) • denW fop 0 s := by
  have h := revProd_reverse (K := K) fop (fun _ => rfl) (letters s).reverse
  rw [List.reverse_reverse] at h
  rw [h, word_reverse, word_letters]
  exact (letters_sorted s).imp (fun h => by omega)

theorem oddCount_letters (s : FStr) : oddCount (letters s) = (s.filter (fun x => x.odd)).length := by
  unfold oddCount letters
  rw [List.filter_map, List.length_map]
  have : ∀ k, ((s.zipIdx k).filter ((fun a : ℕ × FL => a.2.odd) ∘ fun x : FL × ℕ => (x.2, x.1))).length =
      (s.filter (fun x => x.odd)).length := by
    induction s with
    | nil => simp
    | cons x s ih =>
      intro k
      have := ih (k+1)
      rw [List.zipIdx_cons]
      by_cases h : x.odd
      · rw [List.filter_cons_of_pos (by simp [h]), List.filter_cons_of_pos (by simp [h]), List.length_cons,
          this, List.length_cons]
      · rw [List.filter_cons_of_neg (by simp [h]), List.filter_cons_of_neg (by simp [h]), this]
  exact this 0

end Transform
end HQCA
