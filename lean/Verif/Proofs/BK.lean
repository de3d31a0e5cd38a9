import Verif.Proofs.Parity
import Mathlib.Data.Nat.Log

set_option linter.unusedSectionVars false

namespace HQCA
variable {K : Type} [Coef K]

theorem mem_bkWindow (i j : ℕ) :
    j ∈ bkWindow i ↔ j ≤ i ∧ ∃ m, 2^m ∣ i+1 ∧ j / 2^m = i / 2^m := by
  unfold bkWindow
  rw [Finset.mem_filter, Finset.mem_range]
  constructor
  · rintro ⟨h, m, _, h1, h2⟩; exact ⟨by omega, m, h1, h2⟩
  · rintro ⟨h, m, h1, h2⟩
    refine ⟨by omega, m, ?_, h1, h2⟩
    have : 2^m ≤ i + 1 := Nat.le_of_dvd (by omega) h1
    have := Nat.lt_two_pow_self (n := m)
    omega

theorem self_mem_bkWindow (i : ℕ) : i ∈ bkWindow i :=
  (mem_bkWindow i i).mpr ⟨le_rfl, 0, by simp, rfl⟩

/-- The window of the last index of a block of `2^k` is the whole block. -/
theorem bkWindow_last (k : ℕ) : bkWindow (2^k - 1) = Finset.range (2^k) := by
  have hp : 0 < 2^k := by positivity
  ext j
  rw [mem_bkWindow, Finset.mem_range]
  constructor
  · rintro ⟨h, _⟩; omega
  · intro h
    refine ⟨by omega, k, by rw [Nat.sub_add_cancel hp], ?_⟩
    rw [Nat.div_eq_of_lt h, Nat.div_eq_of_lt (by omega)]

/-- Windows inside the upper half of a block, except at its end, are shifted copies. -/
theorem bkWindow_shift (k i : ℕ) (h : i + 1 < 2^k) :
    bkWindow (i + 2^k) = (bkWindow i).image (· + 2^k) := by
  ext j
  rw [mem_bkWindow, Finset.mem_image]
  constructor
  · rintro ⟨hle, m, hd, he⟩
    have hmk : m < k := by
      by_contra hc
      have h1 : 2^k ∣ 2^m := pow_dvd_pow 2 (by omega)
      have h2 : 2^k ∣ i + 1 := by
        have h3 := h1.trans hd
        have h4 : i + 2^k + 1 = (i + 1) + 2^k := by ring
        rw [h4] at h3
        exact (Nat.dvd_add_left (dvd_refl _)).mp h3
      have := Nat.le_of_dvd (by omega) h2
      omega
    have hpos : 0 < 2^m := by positivity
    obtain ⟨r, hr⟩ : 2^m ∣ 2^k := pow_dvd_pow 2 hmk.le
    rw [hr, Nat.add_mul_div_left _ _ hpos] at he
    have hj : 2^k ≤ j := by
      have h5 := Nat.div_mul_le_self j (2^m)
      rw [he] at h5
      rw [hr]
      nlinarith [Nat.zero_le (i / 2^m)]
    refine ⟨j - 2^k, ?_, by omega⟩
    rw [mem_bkWindow]
    refine ⟨by omega, m, ?_, ?_⟩
    · have h4 : i + 2^k + 1 = (i + 1) + 2^k := by ring
      rw [h4] at hd
      exact (Nat.dvd_add_left ⟨r, hr⟩).mp hd
    · have h6 : j = (j - 2^k) + 2^m * r := by rw [← hr]; omega
      have h7 : j / 2^m = (j - 2^k) / 2^m + r := by
        conv_lhs => rw [h6]
        exact Nat.add_mul_div_left _ _ hpos
      omega
  · rintro ⟨j', hj', rfl⟩
    obtain ⟨hle, m, hd, he⟩ := (mem_bkWindow i j').mp hj'
    have hmk : m < k := by
      by_contra hc
      have h1 : 2^k ∣ 2^m := pow_dvd_pow 2 (by omega)
      have := Nat.le_of_dvd (by omega) (h1.trans hd)
      omega
    have hpos : 0 < 2^m := by positivity
    obtain ⟨r, hr⟩ : 2^m ∣ 2^k := pow_dvd_pow 2 hmk.le
    refine ⟨by omega, m, ?_, ?_⟩
    · have h4 : i + 2^k + 1 = (i + 1) + 2^k := by ring
      rw [h4]; exact dvd_add hd ⟨r, hr⟩
    · rw [hr, Nat.add_mul_div_left _ _ hpos, Nat.add_mul_div_left _ _ hpos, he]

namespace Transform

/-- Product of `f` over all windows of a list of qubits. -/
def winProd (f : ℕ → K) (S : List ℕ) : K := (S.map (fun i => ∏ x ∈ bkWindow i, f x)).prod

theorem winProd_append (f : ℕ → K) (S T : List ℕ) : winProd f (S ++ T) = winProd f S * winProd f T := by
  simp [winProd]

theorem winProd_shift (f : ℕ → K) (k : ℕ) (S : List ℕ) (h : ∀ i ∈ S, i + 1 < 2^k) :
    winProd f (S.map (· + 2^k)) = winProd (fun x => f (x + 2^k)) S := by
  unfold winProd
  rw [List.map_map]
  congr 1
  apply List.map_congr_left
  intro i hi
  simp only [Function.comp]
  rw [bkWindow_shift k i (h i hi), Finset.prod_image]
  intro a _ b _ hab
  simpa using hab

theorem prod_split (f : ℕ → K) (k j : ℕ) (h : 2^k ≤ j) :
    ∏ x ∈ Finset.range j, f x =
      (∏ x ∈ Finset.range (j - 2^k), f (x + 2^k)) * ∏ x ∈ Finset.range (2^k), f x := by
  obtain ⟨m, rfl⟩ := Nat.exists_eq_add_of_le h
  rw [Finset.prod_range_add, Nat.add_sub_cancel_left, mul_comm]
  congr 1
  apply Finset.prod_congr rfl
  intro x _; rw [add_comm]

theorem parityRec_lt (k j : ℕ) (h : j < 2^k) : ∀ i ∈ parityRec k j, i < j := by
  induction k generalizing j with
  | zero => simp [parityRec]
  | succ k ih =>
    have hp : 0 < 2^k := by positivity
    unfold parityRec
    rw [pow_succ] at h
    split
    · rename_i hj
      intro i hi
      rcases List.mem_append.mp hi with h1 | h1
      · obtain ⟨i', h2, rfl⟩ := List.mem_map.mp h1
        have := ih (j - 2^k) (by omega) i' h2
        omega
      · simp at h1; omega
    · exact ih j (by omega)

/-- The windows of the parity set partition the orbitals below `j` (as far as products can tell). -/
theorem parityRec_prod (f : ℕ → K) (k j : ℕ) (h : j < 2^k) :
    winProd f (parityRec k j) = ∏ x ∈ Finset.range j, f x := by
  induction k generalizing j f with
  | zero =>
    have : j = 0 := by simpa using h
    subst this; simp [parityRec, winProd]
  | succ k ih =>
    have hp : 0 < 2^k := by positivity
    unfold parityRec
    rw [pow_succ] at h
    split
    · rename_i hj
      rw [winProd_append, winProd_shift, ih _ _ (by omega), prod_split f k j hj]
      · simp [winProd, bkWindow_last]
      · intro i hi
        have := parityRec_lt k (j - 2^k) (by omega) i hi
        omega
    · exact ih f j (by omega)

theorem flipRec_lt (k j : ℕ) (h : j < 2^k) : ∀ i ∈ flipRec k j, i < j := by
  induction k generalizing j with
  | zero => simp [flipRec]
  | succ k ih =>
    have hp : 0 < 2^k := by positivity
    unfold flipRec
    have h' := h
    rw [pow_succ] at h'
    split
    · exact ih j (by omega)
    · rename_i hj
      have key : ∀ i ∈ (flipRec k (j - 2^k)).map (· + 2^k), i < j := by
        intro i hi
        obtain ⟨i', h2, rfl⟩ := List.mem_map.mp hi
        have := ih (j - 2^k) (by omega) i' h2
        omega
      split
      · exact key
      · intro i hi
        rcases List.mem_append.mp hi with h1 | h1
        · exact key i h1
        · simp at h1; omega

/-- The windows of the flip set together with `j` itself partition the window of `j`. -/
theorem flipRec_prod (f : ℕ → K) (k j : ℕ) (h : j < 2^k) :
    winProd f (flipRec k j) * f j = ∏ x ∈ bkWindow j, f x := by
  induction k generalizing j f with
  | zero =>
    have : j = 0 := by simpa using h
    subst this
    have : bkWindow 0 = {0} := by
      have := bkWindow_last 0
      simpa using this
    rw [this]; simp [flipRec, winProd]
  | succ k ih =>
    have hp : 0 < 2^k := by positivity
    unfold flipRec
    have h' := h
    rw [pow_succ] at h'
    have hsh : ∀ i ∈ flipRec k (j - 2^k), 2^k ≤ j → i + 1 < 2^k := by
      intro i hi hj
      have := flipRec_lt k (j - 2^k) (by omega) i hi
      omega
    split
    · exact ih f j (by omega)
    · rename_i hj
      have ih' := ih (fun x => f (x + 2^k)) (j - 2^k) (by omega)
      rw [Nat.sub_add_cancel (by omega)] at ih'
      split
      · rename_i hj2
        rw [pow_succ] at hj2
        rw [winProd_shift f k _ (fun i hi => hsh i hi (by omega)), ih']
        have : j = (j - 2^k) + 2^k := by omega
        rw [this, bkWindow_shift k _ (by omega), Finset.prod_image, Nat.add_sub_cancel]
        intro a _ b _ hab
        simpa using hab
      · rename_i hj2
        have hj3 : j = 2^(k+1) - 1 := by omega
        have hw : bkWindow (j - 2^k) = Finset.range (2^k) := by
          rw [← bkWindow_last k]; congr 1; rw [hj3, pow_succ]; omega
        rw [winProd_append, winProd_shift f k _ (fun i hi => hsh i hi (by omega))]
        rw [hw] at ih'
        have e : bkWindow j = Finset.range (2^(k+1)) := by rw [hj3, bkWindow_last]
        rw [e, prod_split f k (2^(k+1)) (by rw [pow_succ]; omega)]
        have e2 : 2^(k+1) - 2^k = 2^k := by rw [pow_succ]; omega
        rw [e2, ← ih']
        simp only [winProd, List.map_cons, List.map_nil, List.prod_singleton, bkWindow_last]
        ring

theorem flipRec_sub_parity (k j : ℕ) : ∀ i ∈ flipRec k j, i ∈ parityRec k j := by
  induction k generalizing j with
  | zero => simp [flipRec]
  | succ k ih =>
    unfold flipRec parityRec
    by_cases hj : j < 2^k
    · rw [if_pos hj, if_neg (by omega)]; exact ih j
    · rw [if_neg hj, if_pos (show 2^k ≤ j by omega)]
      have key : ∀ i ∈ (flipRec k (j - 2^k)).map (· + 2^k), i ∈ (parityRec k (j - 2^k)).map (· + 2^k) := by
        intro i hi
        obtain ⟨i', h2, rfl⟩ := List.mem_map.mp hi
        exact List.mem_map.mpr ⟨i', ih _ i' h2, rfl⟩
      split
      · intro i hi; exact List.mem_append_left _ (key i hi)
      · intro i hi
        rcases List.mem_append.mp hi with h | h
        · exact List.mem_append_left _ (key i h)
        · exact List.mem_append_right _ h

theorem parityRec_nodup (k j : ℕ) (h : j < 2^k) : (parityRec k j).Nodup := by
  induction k generalizing j with
  | zero => simp [parityRec]
  | succ k ih =>
    have hp : 0 < 2^k := by positivity
    rw [pow_succ] at h
    unfold parityRec
    split
    · rename_i hj
      rw [List.nodup_append]
      refine ⟨(ih _ (by omega)).map (fun a b h => by simpa using h), by simp, ?_⟩
      intro a ha b hb
      obtain ⟨i', h2, rfl⟩ := List.mem_map.mp ha
      simp at hb
      omega
    · exact ih j (by omega)

theorem flipRec_nodup (k j : ℕ) (h : j < 2^k) : (flipRec k j).Nodup := by
  induction k generalizing j with
  | zero => simp [flipRec]
  | succ k ih =>
    have hp : 0 < 2^k := by positivity
    rw [pow_succ] at h
    unfold flipRec
    split
    · exact ih j (by omega)
    · rename_i hj
      have hn : ((flipRec k (j - 2^k)).map (· + 2^k)).Nodup :=
        (ih _ (by omega)).map (fun a b h => by simpa using h)
      split
      · exact hn
      · rw [List.nodup_append]
        refine ⟨hn, by simp, ?_⟩
        intro a ha b hb
        obtain ⟨i', h2, rfl⟩ := List.mem_map.mp ha
        simp at hb
        omega

theorem flipRec_even (k j : ℕ) (h : j < 2^k) (he : j % 2 = 0) : flipRec k j = [] := by
  induction k generalizing j with
  | zero => rfl
  | succ k ih =>
    have hp : 0 < 2^k := by positivity
    rw [pow_succ] at h
    unfold flipRec
    split
    · exact ih j (by omega) he
    · rename_i hj
      rcases Nat.eq_zero_or_pos k with hk | hk
      · subst hk
        have : j = 1 := by simp at *; omega
        omega
      · obtain ⟨r, hr⟩ : 2 ∣ 2^k := dvd_pow_self 2 (by omega)
        have h2 : (j - 2^k) % 2 = 0 := by omega
        rw [pow_succ, ih (j - 2^k) (by omega) h2]
        rw [if_pos (by omega)]; rfl

theorem updateRec_mem (k j i : ℕ) (h : j < 2^k) :
    i ∈ updateRec k j ↔ i < 2^k ∧ i ≠ j ∧ j ∈ bkWindow i := by
  induction k generalizing j i with
  | zero =>
    have : j = 0 := by simpa using h
    subst this
    simp [updateRec]
    intro h1 h2; omega
  | succ k ih =>
    have hp : 0 < 2^k := by positivity
    have h' := h
    rw [pow_succ] at h'
    unfold updateRec
    split
    · rename_i hj
      rw [List.mem_append, ih j i hj, List.mem_singleton]
      constructor
      · rintro (⟨h1, h2, h3⟩ | h1)
        · exact ⟨by rw [pow_succ]; omega, h2, h3⟩
        · subst h1
          refine ⟨by omega, by rw [pow_succ]; omega, ?_⟩
          rw [bkWindow_last]; exact Finset.mem_range.mpr h
      · rintro ⟨h1, h2, h3⟩
        by_cases hi : i < 2^k
        · exact Or.inl ⟨hi, h2, h3⟩
        · right
          by_contra hc
          rw [pow_succ] at h1 hc
          have hi' : i = (i - 2^k) + 2^k := by omega
          rw [hi', bkWindow_shift k _ (by omega)] at h3
          obtain ⟨x, _, hx⟩ := Finset.mem_image.mp h3
          have hx' : x + 2^k = j := hx
          omega
    · rename_i hj
      rw [List.mem_map]
      constructor
      · rintro ⟨i', h1, rfl⟩
        obtain ⟨h2, h3, h4⟩ := (ih (j - 2^k) i' (by omega)).mp h1
        refine ⟨by rw [pow_succ]; omega, by omega, ?_⟩
        by_cases hl : i' + 1 < 2^k
        · rw [bkWindow_shift k _ hl]
          exact Finset.mem_image.mpr ⟨j - 2^k, h4, Nat.sub_add_cancel (by omega)⟩
        · have : i' + 2^k = 2^(k+1) - 1 := by rw [pow_succ]; omega
          rw [this, bkWindow_last]; exact Finset.mem_range.mpr h
      · rintro ⟨h1, h2, h3⟩
        rw [pow_succ] at h1
        have hij : j ≤ i := ((mem_bkWindow i j).mp h3).1
        refine ⟨i - 2^k, (ih (j - 2^k) _ (by omega)).mpr ⟨by omega, by omega, ?_⟩, by omega⟩
        by_cases hl : (i - 2^k) + 1 < 2^k
        · have hi' : i = (i - 2^k) + 2^k := by omega
          rw [hi', bkWindow_shift k _ hl] at h3
          obtain ⟨x, hx, hxe⟩ := Finset.mem_image.mp h3
          have hxe' : x + 2^k = j := hxe
          have : x = j - 2^k := by omega
          rw [← this]; exact hx
        · have : i - 2^k = 2^k - 1 := by omega
          rw [this, bkWindow_last]; exact Finset.mem_range.mpr (by omega)

theorem lt_bkExp (N q : ℕ) (hq : q < N) : q < 2 ^ bkExp N :=
  lt_of_lt_of_le hq (Nat.le_pow_clog (by norm_num) N)

theorem filter_lt_self (N q : ℕ) (S : List ℕ) (h : ∀ i ∈ S, i < q) (hq : q < N) : S.filter (· < N) = S := by
  rw [List.filter_eq_self]
  intro i hi
  have := h i hi
  simp; omega

theorem flipSet_eq (N q : ℕ) (hq : q < N) : flipSet N q = flipRec (bkExp N) q :=
  filter_lt_self N q _ (flipRec_lt _ _ (lt_bkExp N q hq)) hq

theorem paritySet_eq (N q : ℕ) (hq : q < N) : paritySet N q = parityRec (bkExp N) q :=
  filter_lt_self N q _ (parityRec_lt _ _ (lt_bkExp N q hq)) hq

theorem rhoSet_eq (N q : ℕ) (hq : q < N) :
    rhoSet N q = (paritySet N q).filter (fun i => !(i ∈ flipSet N q)) := by
  unfold rhoSet
  split
  · rename_i h
    rw [flipSet_eq N q hq, flipRec_even _ _ (lt_bkExp N q hq) h]
    simp
  · rfl

theorem mem_updateSet (N q i : ℕ) (hq : q < N) :
    i ∈ updateSet N q ↔ i < N ∧ i ≠ q ∧ q ∈ bkWindow i := by
  unfold updateSet
  rw [List.mem_filter, updateRec_mem _ _ _ (lt_bkExp N q hq)]
  constructor
  · rintro ⟨⟨_, h2, h3⟩, h4⟩; exact ⟨by simpa using h4, h2, h3⟩
  · rintro ⟨h1, h2, h3⟩; exact ⟨⟨lt_bkExp N i h1, h2, h3⟩, by simpa using h1⟩

theorem bkEnc_bijective (N : ℕ) : Function.Bijective (bkEnc N) := by
  apply triangular_bijective (bkEnc N)
    (fun i b => if i < N then parOver ((bkWindow i).erase i) b else false)
  · intro b i
    unfold bkEnc
    split
    · conv_lhs => rw [← Finset.insert_erase (self_mem_bkWindow i)]
      rw [parOver_insert _ _ _ (by simp)]
    · simp
  · intro i b b' hb
    show (if i < N then _ else _) = if i < N then _ else _
    split
    · unfold parOver
      congr 3
      apply Finset.filter_congr
      intro j hj
      obtain ⟨h1, h2⟩ := Finset.mem_erase.mp hj
      have := ((mem_bkWindow i j).mp h2).1
      rw [hb j (by omega)]
    · rfl

theorem bkEnc_flip (N q : ℕ) (hq : q < N) (b : Cfg) (i : ℕ) :
    bkEnc N (flipBit b q) i = xor (bkEnc N b i) (decide (i = q ∨ i ∈ updateSet N q)) := by
  unfold bkEnc
  split
  · rename_i h
    rw [parOver_flip]
    congr 1
    rw [decide_eq_decide, mem_updateSet N q i hq]
    constructor
    · intro h1
      by_cases h2 : i = q
      · exact Or.inl h2
      · exact Or.inr ⟨h, h2, h1⟩
    · rintro (h1 | h1)
      · subst h1; exact self_mem_bkWindow i
      · exact h1.2.2
  · rename_i h
    rw [flipBit_eq]
    congr 1
    rw [decide_eq_decide, mem_updateSet N q i hq]
    constructor
    · intro h1; exact Or.inl h1
    · rintro (h1 | h1)
      · exact h1
      · exact absurd h1.1 h

/-- Signs of encoded bits multiply like windows. -/
theorem prod_sg_enc (N : ℕ) (b : Cfg) (S : List ℕ) (h : ∀ i ∈ S, i < N) :
    (S.map (fun i => (sg (bkEnc N b i) : K))).prod = winProd (fun x => sg (b x)) S := by
  unfold winProd
  congr 1
  apply List.map_congr_left
  intro i hi
  rw [bkEnc, if_pos (h i hi), sg_parOver]

/-! ### The strings -/

theorem setAll_length (s : PStr) (S : List ℕ) (L : PL) : (setAll s S L).length = s.length := by
  unfold setAll
  induction S generalizing s with
  | nil => rfl
  | cons i S ih => rw [List.foldl_cons, ih]; simp

theorem getD_set (s : PStr) (i j : ℕ) (L : PL) :
    (s.set i L).getD j .I = if j = i ∧ i < s.length then L else s.getD j .I := by
  rw [List.getD_eq_getElem?_getD, List.getD_eq_getElem?_getD, List.getElem?_set]
  by_cases h : i = j
  · subst h
    by_cases h2 : i < s.length
    · simp [h2]
    · simp [h2, List.getElem?_eq_none (Nat.le_of_not_lt h2)]
  · have : j ≠ i := fun e => h e.symm
    simp [h, this]

theorem getD_setAll (s : PStr) (S : List ℕ) (L : PL) (j : ℕ) (h : j < s.length) :
    (setAll s S L).getD j .I = if j ∈ S then L else s.getD j .I := by
  unfold setAll
  induction S generalizing s with
  | nil => simp
  | cons i S ih =>
    rw [List.foldl_cons, ih _ (by simpa using h), getD_set]
    by_cases h1 : j ∈ S
    · simp [h1]
    · by_cases h2 : j = i
      · subst h2; simp [h1, h]
      · simp [h1, h2]

theorem getD_replicate_I (N j : ℕ) : (List.replicate N PL.I).getD j .I = .I := by
  rw [List.getD_eq_getElem?_getD, List.getElem?_replicate]; split <;> rfl

theorem bkTab_odd (N q i : ℕ) (o : FL) (h : o = .cr ∨ o = .an) (hq : q < N) (hi : i < N) :
    (bkTab N q o).1.getD i .I = (if i = q then .X else if i ∈ paritySet N q then .Z else
      if i ∈ updateSet N q then .X else .I) ∧
    (bkTab N q o).2.getD i .I = (if i = q then .Y else if i ∈ rhoSet N q then .Z else
      if i ∈ updateSet N q then .X else .I) := by
  unfold bkTab
  simp only [if_pos h, getD_set, setAll_length, List.length_replicate, hq, and_true]
  constructor
  · rw [getD_setAll _ _ _ _ (by rw [setAll_length]; simpa using hi),
      getD_setAll _ _ _ _ (by simpa using hi), getD_replicate_I]
  · rw [getD_setAll _ _ _ _ (by rw [setAll_length]; simpa using hi),
      getD_setAll _ _ _ _ (by simpa using hi), getD_replicate_I]

theorem bkTab_even (N q i : ℕ) (o : FL) (h : ¬ (o = .cr ∨ o = .an)) (hq : q < N) (hi : i < N) :
    (bkTab N q o).1.getD i .I = .I ∧
    (bkTab N q o).2.getD i .I = (if i = q ∨ i ∈ flipSet N q then .Z else .I) := by
  unfold bkTab
  simp only [if_neg h, getD_set, setAll_length, List.length_replicate, hq, and_true, getD_replicate_I,
    true_and]
  rw [getD_setAll _ _ _ _ (by simpa using hi), getD_replicate_I]
  by_cases h1 : i = q <;> simp [h1]

theorem bkTab_len (N q : ℕ) (o : FL) : (bkTab N q o).1.length = N ∧ (bkTab N q o).2.length = N := by
  unfold bkTab
  split <;> simp [setAll_length]

theorem getD_ge (s : PStr) (i : ℕ) (h : s.length ≤ i) : s.getD i .I = .I := by
  rw [List.getD_eq_getElem?_getD, List.getElem?_eq_none h]; rfl

theorem paritySet_lt (N q i : ℕ) (hq : q < N) (h : i ∈ paritySet N q) : i < q := by
  rw [paritySet_eq N q hq] at h
  exact parityRec_lt _ _ (lt_bkExp N q hq) i h

theorem flipSet_lt (N q i : ℕ) (hq : q < N) (h : i ∈ flipSet N q) : i < q := by
  rw [flipSet_eq N q hq] at h
  exact flipRec_lt _ _ (lt_bkExp N q hq) i h

theorem rhoSet_lt (N q i : ℕ) (hq : q < N) (h : i ∈ rhoSet N q) : i < q := by
  rw [rhoSet_eq N q hq] at h
  exact paritySet_lt N q i hq (List.mem_filter.mp h).1

theorem updateSet_gt (N q i : ℕ) (hq : q < N) (h : i ∈ updateSet N q) : q < i := by
  obtain ⟨_, h2, h3⟩ := (mem_updateSet N q i hq).mp h
  have := ((mem_bkWindow i q).mp h3).1
  omega

theorem bk_good (N : ℕ) : TabGood bkTab N := by
  refine ⟨fun q _ o _ => bkTab_len N q o, ?_, ?_⟩
  · intro q hq o ho
    rcases odd_or_even o ho with h | ⟨_, h⟩
    · rw [(bkTab_odd N q q o h hq hq).1, (bkTab_odd N q q o h hq hq).2]; simp
    · rw [(bkTab_even N q q o h hq hq).1, (bkTab_even N q q o h hq hq).2]; simp
  · intro q hq o ho i hi
    by_cases hN : i < N
    · rcases odd_or_even o ho with h | ⟨_, h⟩
      · rw [(bkTab_odd N q i o h hq hN).1, (bkTab_odd N q i o h hq hN).2]
        have h1 : i ∉ paritySet N q := fun hm => by have := paritySet_lt N q i hq hm; omega
        have h2 : i ∉ rhoSet N q := fun hm => by have := rhoSet_lt N q i hq hm; omega
        have h3 : i ≠ q := by omega
        simp [h1, h2, h3]
      · rw [(bkTab_even N q i o h hq hN).1, (bkTab_even N q i o h hq hN).2]
        have h1 : i ∉ flipSet N q := fun hm => by have := flipSet_lt N q i hq hm; omega
        have h3 : i ≠ q := by omega
        simp [h1, h3]
    · rw [getD_ge _ _ (by rw [(bkTab_len N q o).1]; omega), getD_ge _ _ (by rw [(bkTab_len N q o).2]; omega)]

theorem c2_not_small (o : FL) : small (c2 o : K) = false := by
  obtain ⟨e, he⟩ := c2_unit (K := K) o
  rw [he, small_unit]; exact Coef.half_not_small

theorem bkTem_eq (N q : ℕ) (o : FL) (h : (bkTab N q o).1 ≠ (bkTab N q o).2) :
    (bkTem N q o : POp K) = tem bkTab N q o := by
  rw [tem_eq _ _ _ _ h]
  have h1 := Coef.half_not_small (K := K)
  have h2 := c2_not_small (K := K) o
  simp only [one_div] at h1
  simp [bkTem, OpD.add, OpD.addStr, OpD.hasKey, OpD.clean, h1, h2, h]

/-- Product over positions carrying a given letter, as a product over a duplicate-free list. -/
theorem prod_range_mem (N : ℕ) (S : List ℕ) (hS : S.Nodup) (hlt : ∀ i ∈ S, i < N) (f : ℕ → K) :
    ∏ i ∈ Finset.range N, (if i ∈ S then f i else 1) = (S.map f).prod := by
  rw [← Finset.prod_filter, ← List.prod_toFinset f hS]
  apply Finset.prod_congr
  · ext i
    simp only [Finset.mem_filter, Finset.mem_range, List.mem_toFinset]
    constructor
    · exact fun h => h.2
    · exact fun h => ⟨hlt i h, h⟩
  · intros; rfl

theorem prod_filter_not (S F : List ℕ) (f : ℕ → K) (hS : S.Nodup) (hF : F.Nodup) (hsub : ∀ i ∈ F, i ∈ S)
    (hf : ∀ i, f i * f i = 1) :
    ((S.filter (fun i => !(i ∈ F))).map f).prod = (S.map f).prod * (F.map f).prod := by
  rw [← List.prod_toFinset f hS, ← List.prod_toFinset f hF, ← List.prod_toFinset f (hS.filter _)]
  have h1 : S.toFinset = (S.filter (fun i => !(i ∈ F))).toFinset ∪ F.toFinset := by
    ext i
    simp only [List.mem_toFinset, Finset.mem_union, List.mem_filter]
    constructor
    · intro h
      by_cases hi : i ∈ F
      · exact Or.inr hi
      · exact Or.inl ⟨h, by simp [hi]⟩
    · rintro (h | h)
      · exact h.1
      · exact hsub i h
  have h2 : Disjoint (S.filter (fun i => !(i ∈ F))).toFinset F.toFinset := by
    rw [Finset.disjoint_left]
    intro i hi hi'
    simp only [List.mem_toFinset, List.mem_filter] at hi hi'
    simp [hi'] at hi
  rw [h1, Finset.prod_union h2, mul_assoc, ← Finset.prod_mul_distrib]
  rw [Finset.prod_congr rfl (fun i _ => hf i), Finset.prod_const_one, mul_one]

theorem bk_letter (N q : ℕ) (hq : q < N) (o : FL) (ho : o ≠ .i) :
    Encodes (bkEnc N) (denPO (bkTem N q o) : Oper K) (fop q o) := by
  rw [bkTem_eq _ _ _ ((bk_good N).ne hq ho), tem_eq _ _ _ _ ((bk_good N).ne hq ho)]
  obtain ⟨l1, l2⟩ := bkTab_len N q o
  have hE := lt_bkExp N q hq
  have hPn : (paritySet N q).Nodup := by rw [paritySet_eq N q hq]; exact parityRec_nodup _ _ hE
  have hFn : (flipSet N q).Nodup := by rw [flipSet_eq N q hq]; exact flipRec_nodup _ _ hE
  have hP : ∀ b : Cfg, ((paritySet N q).map (fun i => (sg (bkEnc N b i) : K))).prod = fsign b q := by
    intro b
    rw [prod_sg_enc N b _ (fun i hi => by have := paritySet_lt N q i hq hi; omega), paritySet_eq N q hq,
      parityRec_prod _ _ _ hE, fsign_prod]
  have hF : ∀ b : Cfg, ((flipSet N q).map (fun i => (sg (bkEnc N b i) : K))).prod * sg (bkEnc N b q) = sg (b q) := by
    intro b
    rw [prod_sg_enc N b _ (fun i hi => by have := flipSet_lt N q i hq hi; omega), flipSet_eq N q hq]
    have h1 := flipRec_prod (fun x => (sg (b x) : K)) (bkExp N) q hE
    have h2 : (sg (bkEnc N b q) : K) = ∏ x ∈ bkWindow q, sg (b x) := by
      rw [bkEnc, if_pos hq, sg_parOver]
    rw [h2, ← h1]
    have h3 : winProd (fun x => (sg (b x) : K)) (flipRec (bkExp N) q) *
        winProd (fun x => (sg (b x) : K)) (flipRec (bkExp N) q) = 1 := by
      unfold winProd
      rw [← List.prod_map_mul]
      apply List.prod_eq_one
      intro x hx
      obtain ⟨i, _, rfl⟩ := List.mem_map.mp hx
      rw [← Finset.prod_mul_distrib]
      exact Finset.prod_eq_one (fun j _ => sg_sq _)
    rw [← mul_assoc, h3, one_mul]
  have hsub : ∀ i ∈ flipSet N q, i ∈ paritySet N q := by
    rw [flipSet_eq N q hq, paritySet_eq N q hq]; exact flipRec_sub_parity _ _
  have hR : ∀ b : Cfg, ((rhoSet N q).map (fun i => (sg (bkEnc N b i) : K))).prod * sg (bkEnc N b q) =
      fsign b q * sg (b q) := by
    intro b
    rw [rhoSet_eq N q hq, prod_filter_not _ _ _ hPn hFn hsub (fun i => sg_sq _), hP, mul_assoc, hF]
  have hRn : (rhoSet N q).Nodup := by rw [rhoSet_eq N q hq]; exact hPn.filter _
  have flipLemma : ∀ (b : Cfg) (s : PStr), s.length = N →
      (∀ i < N, (s.getD i .I).l = decide (i = q ∨ i ∈ updateSet N q)) →
      fl 0 s (bkEnc N b) = bkEnc N (flipBit b q) := by
    intro b s hs h
    funext i
    rw [fl_zero, bkEnc_flip N q hq]
    congr 1
    by_cases hi : i < N
    · exact h i hi
    · rw [getD_ge _ _ (by omega)]
      have h1 : i ≠ q := by omega
      have h2 : i ∉ updateSet N q := fun hm => hi ((mem_updateSet N q i hq).mp hm).1
      simp [PL.l, h1, h2]
  have phaseLemma : ∀ (b : Cfg) (s : PStr) (S : List ℕ), s.length = N → S.Nodup → (∀ i ∈ S, i < q) →
      (∀ i < N, i ≠ q → (ph (s.getD i .I) (bkEnc N b i) : K) = if i ∈ S then sg (bkEnc N b i) else 1) →
      (phase 0 s (bkEnc N b) : K) = (S.map (fun i => (sg (bkEnc N b i) : K))).prod * ph (s.getD q .I) (bkEnc N b q) := by
    intro b s S hs hn hlt h
    rw [phase_upto _ _ q (by omega)]
    · congr 1
      rw [← prod_range_mem q S hn hlt]
      apply Finset.prod_congr rfl
      intro i hi
      have := Finset.mem_range.mp hi
      exact h i (by omega) (by omega)
    · intro i hi hi'
      rw [h i (by omega) (by omega), if_neg]
      intro hm
      have := hlt i hm
      omega
  have hU : ∀ i, i ∈ updateSet N q → i ≠ q ∧ i ∉ paritySet N q ∧ i ∉ rhoSet N q := by
    intro i hi
    have h0 := updateSet_gt N q i hq hi
    exact ⟨by omega, fun hm => by have := paritySet_lt N q i hq hm; omega,
      fun hm => by have := rhoSet_lt N q i hq hm; omega⟩
  rcases odd_or_even o ho with h | ⟨h, h'⟩
  · have hl := fun i hi => bkTab_odd N q i o h hq hi
    apply encodes_odd _ q o h
    · intro b
      apply flipLemma b _ l1
      intro i hi
      rw [(hl i hi).1]
      by_cases h1 : i = q
      · simp [h1, PL.l]
      · by_cases h2 : i ∈ updateSet N q
        · simp [h1, h2, (hU i h2).2.1, PL.l]
        · by_cases h3 : i ∈ paritySet N q <;> simp [h1, h2, h3, PL.l]
    · intro b
      apply flipLemma b _ l2
      intro i hi
      rw [(hl i hi).2]
      by_cases h1 : i = q
      · simp [h1, PL.l]
      · by_cases h2 : i ∈ updateSet N q
        · simp [h1, h2, (hU i h2).2.2, PL.l]
        · by_cases h3 : i ∈ rhoSet N q <;> simp [h1, h2, h3, PL.l]
    · intro b
      rw [phaseLemma b _ (paritySet N q) l1 hPn (fun i hi => paritySet_lt N q i hq hi), hP, (hl q hq).1]
      · simp [ph]
      · intro i hi hne
        rw [(hl i hi).1, if_neg hne]
        by_cases h3 : i ∈ paritySet N q
        · simp [h3, ph]
        · simp only [h3, if_false]; split <;> rfl
    · intro b
      rw [phaseLemma b _ (rhoSet N q) l2 hRn (fun i hi => rhoSet_lt N q i hq hi), (hl q hq).2]
      · simp only [if_true, ph]
        rw [← hR b]; ring
      · intro i hi hne
        rw [(hl i hi).2, if_neg hne]
        by_cases h3 : i ∈ rhoSet N q
        · simp [h3, ph]
        · simp only [h3, if_false]; split <;> rfl
  · have hl := fun i hi => bkTab_even N q i o h' hq hi
    have noflip : ∀ (b : Cfg) (s : PStr), s.length = N → (∀ i < N, (s.getD i .I).l = false) →
        fl 0 s (bkEnc N b) = bkEnc N b := by
      intro b s hs h
      funext i
      rw [fl_zero]
      by_cases hi : i < N
      · rw [h i hi]; simp
      · rw [getD_ge _ _ (by omega)]; simp [PL.l]
    apply encodes_even _ q o h
    · intro b
      exact noflip b _ l1 (fun i hi => by rw [(hl i hi).1]; rfl)
    · intro b
      exact noflip b _ l2 (fun i hi => by rw [(hl i hi).2]; split <;> rfl)
    · intro b
      rw [phase_zero]
      apply Finset.prod_eq_one
      intro i hi
      rw [(hl i (by rw [← l1]; exact Finset.mem_range.mp hi)).1]; rfl
    · intro b
      rw [phaseLemma b _ (flipSet N q) l2 hFn (fun i hi => flipSet_lt N q i hq hi), (hl q hq).2]
      · simp only [true_or, if_true, ph]
        exact hF b
      · intro i hi hne
        rw [(hl i hi).2]
        by_cases h3 : i ∈ flipSet N q <;> simp [h3, hne, ph]

end Transform
end HQCA
