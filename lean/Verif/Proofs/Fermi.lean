import Verif.Spec.DenF

set_option linter.unusedSectionVars false

namespace HQCA
variable {K : Type} [Coef K]

/-- Odd letters. -/
def FL.odd : FL → Bool
  | .cr => true
  | .an => true
  | _ => false

/-- `Z` string for odd letters. -/
def zs (o : Bool) (k : ℕ) : Oper K := if o then zstr k else 1

theorem raise_low : (mRaise * mLow : M2 K) = mOcc := by m2
theorem low_raise : (mLow * mRaise : M2 K) = mEmp := by m2

theorem fop_eq (k : ℕ) (x : FL) : (fop k x : Oper K) = zs x.odd k * site k (qmat x) := by
  cases x <;> simp only [fop, FL.odd, zs, qmat, if_true, site_one, cre_eq, ann_eq, mul_one,
    Bool.false_eq_true, if_false, one_mul]
  · rw [zstr_site_ge le_rfl, mul_assoc, ← mul_assoc (zstr k), zstr_mul_self, one_mul, ← site_mul,
      raise_low]
  · rw [zstr_site_ge le_rfl, mul_assoc, ← mul_assoc (zstr k), zstr_mul_self, one_mul, ← site_mul,
      low_raise]

theorem zs_mul_self (o : Bool) (k : ℕ) : (zs o k : Oper K) * zs o k = 1 := by
  cases o <;> simp [zs, zstr_mul_self]

theorem zs_comm (o o' : Bool) (j k : ℕ) : (zs o j : Oper K) * zs o' k = zs o' k * zs o j := by
  cases o <;> cases o' <;> simp [zs, zstr_comm]

theorem zs_site_ge (o : Bool) {j k : ℕ} (h : j ≤ k) (m : M2 K) :
    zs o j * site k m = site k m * zs o j := by
  cases o <;> simp [zs, zstr_site_ge h]

/-- Sign picked up by an odd letter moved through a Z. -/
def esign (o o' : Bool) : K := if o && o' then -1 else 1

theorem zmz (x : FL) : (mZ * qmat x * mZ : M2 K) = (if x.odd then -1 else 1 : K) • qmat x := by
  cases x <;> simp only [qmat, FL.odd, if_true, if_false, Bool.false_eq_true] <;> m2

theorem zs_site_lt (o : Bool) {j k : ℕ} (h : k < j) (x : FL) :
    (zs o j * site k (qmat x) : Oper K) = (esign o x.odd : K) • (site k (qmat x) * zs o j) := by
  cases o
  · simp [zs, esign]
  · simp only [zs, if_true, esign, Bool.true_and]
    rw [zstr_site_lt h, zmz, site_smul, smul_mul_assoc]

theorem esign_comm (o o' : Bool) : (esign o o' : K) = esign o' o := by
  cases o <;> cases o' <;> rfl

theorem esign_sq (o o' : Bool) : (esign o o' : K) * esign o o' = 1 := by
  cases o <;> cases o' <;> simp [esign]

theorem fop_swap_lt {j k : ℕ} (h : j < k) (x y : FL) :
    (fop k y * fop j x : Oper K) = (esign x.odd y.odd : K) • (fop j x * fop k y) := by
  rw [fop_eq, fop_eq]
  -- Zk Yk Zj Xj
  calc (zs y.odd k * site k (qmat y) * (zs x.odd j * site j (qmat x)) : Oper K)
      = zs y.odd k * (site k (qmat y) * zs x.odd j) * site j (qmat x) := by noncomm_ring
    _ = zs y.odd k * (zs x.odd j * site k (qmat y)) * site j (qmat x) := by
        rw [zs_site_ge x.odd (le_of_lt h)]
    _ = (zs y.odd k * zs x.odd j) * (site k (qmat y) * site j (qmat x)) := by noncomm_ring
    _ = (zs x.odd j * zs y.odd k) * (site j (qmat x) * site k (qmat y)) := by
        rw [zs_comm, site_comm (by omega : k ≠ j)]
    _ = zs x.odd j * (zs y.odd k * site j (qmat x)) * site k (qmat y) := by noncomm_ring
    _ = zs x.odd j * ((esign y.odd x.odd : K) • (site j (qmat x) * zs y.odd k)) * site k (qmat y) := by
        rw [zs_site_lt y.odd h]
    _ = _ := by
        rw [esign_comm, mul_smul_comm, smul_mul_assoc]
        congr 1

theorem fop_swap {j k : ℕ} (h : j ≠ k) (x y : FL) :
    (fop k y * fop j x : Oper K) = (esign x.odd y.odd : K) • (fop j x * fop k y) := by
  rcases Nat.lt_or_gt_of_ne h with h | h
  · exact fop_swap_lt h x y
  · rw [fop_swap_lt h y x, smul_smul, esign_comm, esign_sq, one_smul]

theorem contr_qmat_simple (x y z : FL) (h : Fermi.contr x y = some (some z)) :
    (qmat x * qmat y : M2 K) = qmat z ∧ (xor x.odd y.odd) = z.odd := by
  cases x <;> cases y <;> simp only [Fermi.contr, Option.some.injEq, reduceCtorEq] at h <;>
    subst h <;> refine ⟨?_, rfl⟩ <;> simp only [qmat] <;> m2

theorem contr_qmat_zero (x y : FL) (h : Fermi.contr x y = some none) :
    (qmat x * qmat y : M2 K) = 0 := by
  cases x <;> cases y <;> simp only [Fermi.contr, Option.some.injEq, reduceCtorEq] at h <;>
    simp only [qmat] <;> m2

theorem zs_mul_same (o o' : Bool) (k : ℕ) : (zs o k : Oper K) * zs o' k = zs (xor o o') k := by
  cases o <;> cases o' <;> simp [zs, zstr_mul_self]

theorem fop_mul_same (k : ℕ) (x y : FL) :
    (fop k x * fop k y : Oper K) = zs (xor x.odd y.odd) k * site k (qmat x * qmat y) := by
  rw [fop_eq, fop_eq, site_mul, ← zs_mul_same]
  calc (zs x.odd k * site k (qmat x) * (zs y.odd k * site k (qmat y)) : Oper K)
      = zs x.odd k * (site k (qmat x) * zs y.odd k) * site k (qmat y) := by noncomm_ring
    _ = _ := by rw [← zs_site_ge y.odd le_rfl]; noncomm_ring

theorem fop_contr (k : ℕ) (x y z : FL) (h : Fermi.contr x y = some (some z)) :
    (fop k x * fop k y : Oper K) = fop k z := by
  obtain ⟨h1, h2⟩ := contr_qmat_simple (K := K) x y z h
  rw [fop_mul_same, h1, h2, fop_eq]

theorem fop_contr_zero (k : ℕ) (x y : FL) (h : Fermi.contr x y = some none) :
    (fop k x * fop k y : Oper K) = 0 := by
  rw [fop_mul_same, contr_qmat_zero x y h, site_zero, mul_zero]

/-- The letters accepted in `ops`. -/
def okLetters (l : List (ℕ × FL)) : Prop := ∀ a ∈ l, a.2 ≠ .i

theorem contr_isSome (x y : FL) (hx : x ≠ .i) (hy : y ≠ .i) : Fermi.contr x y ≠ none := by
  cases x <;> cases y <;> simp_all [Fermi.contr]

theorem contr_ne_i (x y z : FL) (h : Fermi.contr x y = some (some z)) : z ≠ .i := by
  cases x <;> cases y <;> simp [Fermi.contr] at h <;> subst h <;> simp

theorem noSign_odd (x : FL) (h : x ≠ .i) : (!Fermi.noSign x) = x.odd := by
  cases x <;> simp_all [Fermi.noSign, FL.odd]

/-! ### A generic word evaluator

`W : ℕ → FL → Oper K` evaluates letters; the sort and contraction loops preserve any evaluation with the
right swap and contraction laws. -/

structure Laws (fermi : Bool) (W : ℕ → FL → Oper K) : Prop where
  swap : ∀ j k x y, j ≠ k → x ≠ .i → y ≠ .i →
    W k y * W j x = (if fermi && x.odd && y.odd then -1 else 1 : K) • (W j x * W k y)
  simple : ∀ k x y z, Fermi.contr x y = some (some z) → W k x * W k y = W k z
  zero : ∀ k x y, Fermi.contr x y = some none → W k x * W k y = 0

def wordW (W : ℕ → FL → Oper K) (l : List (ℕ × FL)) : Oper K := (l.map (fun a => W a.1 a.2)).prod

theorem wordW_cons (W : ℕ → FL → Oper K) (a : ℕ × FL) (l : List (ℕ × FL)) :
    wordW W (a :: l) = W a.1 a.2 * wordW W l := by simp [wordW]

theorem laws_fermi : Laws true (fop : ℕ → FL → Oper K) where
  swap j k x y h _ _ := by
    rw [fop_swap h]; simp [esign]
  simple := fop_contr
  zero := fop_contr_zero

theorem laws_qubit : Laws false (fun k x => site k (qmat x) : ℕ → FL → Oper K) where
  swap j k x y h _ _ := by
    rw [site_comm (Ne.symm h)]; simp
  simple k x y z h := by rw [← site_mul, (contr_qmat_simple x y z h).1]
  zero k x y h := by rw [← site_mul, contr_qmat_zero x y h, site_zero]

section
variable {fermi : Bool} {W : ℕ → FL → Oper K} (hW : Laws fermi W)
include hW

theorem sortStep_word (l l' : List (ℕ × FL)) (f : Bool) (hok : okLetters l)
    (h : Fermi.sortStep fermi l = some (f, l')) :
    okLetters l' ∧ (wordW W l : Oper K) = (if f then -1 else 1 : K) • wordW W l' := by
  induction l generalizing l' f with
  | nil => simp [Fermi.sortStep] at h
  | cons a l ih =>
    cases l with
    | nil => simp [Fermi.sortStep] at h
    | cons b l =>
      unfold Fermi.sortStep at h
      have ha := hok a List.mem_cons_self
      have hb := hok b (List.mem_cons_of_mem _ List.mem_cons_self)
      split at h
      · rename_i hgt
        simp only [Option.some.injEq, Prod.mk.injEq] at h
        obtain ⟨rfl, rfl⟩ := h
        constructor
        · intro x hx
          apply hok
          simp only [List.mem_cons] at hx ⊢
          tauto
        · rw [wordW_cons, wordW_cons, wordW_cons, wordW_cons, ← mul_assoc,
            hW.swap b.1 a.1 b.2 a.2 (by omega) hb ha, noSign_odd _ ha, noSign_odd _ hb,
            smul_mul_assoc, mul_assoc]
          congr 2
          cases fermi <;> cases a.2.odd <;> cases b.2.odd <;> rfl
      · rcases hs : Fermi.sortStep fermi (b :: l) with _ | ⟨f1, l1⟩
        · simp [hs] at h
        · simp only [hs, Option.map_some, Option.some.injEq, Prod.mk.injEq] at h
          obtain ⟨rfl, rfl⟩ := h
          obtain ⟨i1, i2⟩ := ih l1 f1 (fun x hx => hok x (List.mem_cons_of_mem _ hx)) hs
          constructor
          · intro x hx
            rcases List.mem_cons.mp hx with rfl | hx
            · exact ha
            · exact i1 x hx
          · rw [wordW_cons, i2, mul_smul_comm, ← wordW_cons]

theorem sortLoop_word (n : ℕ) (c : K) (l : List (ℕ × FL)) (hok : okLetters l) :
    okLetters (Fermi.sortLoop fermi n c l).2 ∧
      (Fermi.sortLoop fermi n c l).1 • (wordW W (Fermi.sortLoop fermi n c l).2 : Oper K) =
        c • wordW W l := by
  induction n generalizing c l with
  | zero => exact ⟨hok, rfl⟩
  | succ n ih =>
    unfold Fermi.sortLoop
    rcases hs : Fermi.sortStep fermi l with _ | ⟨f, l'⟩
    · exact ⟨hok, rfl⟩
    · obtain ⟨h1, h2⟩ := sortStep_word hW l l' f hok hs
      obtain ⟨i1, i2⟩ := ih (if f then -c else c) l' h1
      refine ⟨i1, ?_⟩
      simp only
      rw [i2, h2, smul_smul]
      cases f
      · simp
      · simp only [if_true]
        congr 1
        ring

theorem contractStep_word (l l' : List (ℕ × FL)) (hok : okLetters l)
    (h : Fermi.contractStep l = .next l') :
    okLetters l' ∧ (wordW W l : Oper K) = wordW W l' := by
  induction l generalizing l' with
  | nil => simp [Fermi.contractStep] at h
  | cons a l ih =>
    cases l with
    | nil => simp [Fermi.contractStep] at h
    | cons b l =>
      unfold Fermi.contractStep at h
      split at h
      · rename_i he
        rcases hc : Fermi.contr a.2 b.2 with _ | _ | z
        · simp [hc] at h
        · simp [hc] at h
        · simp only [hc, Fermi.CStep.next.injEq] at h
          subst h
          constructor
          · intro x hx
            rcases List.mem_cons.mp hx with rfl | hx
            · exact contr_ne_i _ _ _ hc
            · exact hok x (by simp [hx])
          · rw [wordW_cons, wordW_cons, wordW_cons, ← mul_assoc, ← he, hW.simple _ _ _ _ hc]
      · rcases hs : Fermi.contractStep (b :: l) with _ | _ | _ | l1
        · simp [hs] at h
        · simp [hs] at h
        · simp [hs] at h
        · simp only [hs, Fermi.CStep.next.injEq] at h
          subst h
          obtain ⟨i1, i2⟩ := ih l1 (fun x hx => hok x (List.mem_cons_of_mem _ hx)) hs
          constructor
          · intro x hx
            rcases List.mem_cons.mp hx with rfl | hx
            · exact hok _ List.mem_cons_self
            · exact i1 x hx
          · rw [wordW_cons, i2, ← wordW_cons]

theorem contractStep_zero (l : List (ℕ × FL)) (h : Fermi.contractStep l = .zero) :
    (wordW W l : Oper K) = 0 := by
  induction l with
  | nil => simp [Fermi.contractStep] at h
  | cons a l ih =>
    cases l with
    | nil => simp [Fermi.contractStep] at h
    | cons b l =>
      unfold Fermi.contractStep at h
      split at h
      · rename_i he
        rcases hc : Fermi.contr a.2 b.2 with _ | _ | z
        · simp [hc] at h
        · rw [wordW_cons, wordW_cons, ← mul_assoc, ← he, hW.zero _ _ _ hc, zero_mul]
        · simp [hc] at h
      · rcases hs : Fermi.contractStep (b :: l) with _ | _ | _ | l1
        · simp [hs] at h
        · rw [wordW_cons, ih hs, mul_zero]
        · simp [hs] at h
        · simp [hs] at h

theorem contractLoop_word (n : ℕ) (l : List (ℕ × FL)) (hok : okLetters l) :
    (∀ l', Fermi.contractLoop n l = some (some l') →
      okLetters l' ∧ (wordW W l : Oper K) = wordW W l') ∧
    (Fermi.contractLoop n l = some none → (wordW W l : Oper K) = 0) := by
  induction n generalizing l with
  | zero =>
    simp only [Fermi.contractLoop]
    constructor
    · intro l' h; simp at h; subst h; exact ⟨hok, rfl⟩
    · intro h; simp at h
  | succ n ih =>
    unfold Fermi.contractLoop
    rcases hs : Fermi.contractStep l with _ | _ | _ | l1
    · constructor
      · intro l' h; simp at h; subst h; exact ⟨hok, rfl⟩
      · intro h; simp at h
    · constructor
      · intro l' h; simp at h
      · intro _; exact contractStep_zero hW l hs
    · constructor <;> intros <;> simp_all
    · obtain ⟨h1, h2⟩ := contractStep_word hW l l1 hok hs
      obtain ⟨i1, i2⟩ := ih l1 h1
      simp only
      constructor
      · intro l' h; rw [h2]; exact i1 l' h
      · intro h; rw [h2]; exact i2 h

end

/-! ### Loop bounds are sufficient -/

/-- Number of inversions. -/
def inv : List (ℕ × FL) → ℕ
  | [] => 0
  | a :: l => (l.filter (fun b => b.1 < a.1)).length + inv l

theorem sortStep_perm (fermi : Bool) (l l' : List (ℕ × FL)) (f : Bool)
    (h : Fermi.sortStep fermi l = some (f, l')) : l'.Perm l ∧ inv l' + 1 = inv l := by
  induction l generalizing l' f with
  | nil => simp [Fermi.sortStep] at h
  | cons a l ih =>
    cases l with
    | nil => simp [Fermi.sortStep] at h
    | cons b l =>
      unfold Fermi.sortStep at h
      split at h
      · rename_i hgt
        simp only [Option.some.injEq, Prod.mk.injEq] at h
        obtain ⟨rfl, rfl⟩ := h
        refine ⟨List.Perm.swap _ _ _, ?_⟩
        have h1 : ¬ (a.1 < b.1) := by omega
        have h2 : b.1 < a.1 := hgt
        simp only [inv, List.filter_cons, h1, h2, decide_true, decide_false, if_true]
        simp
        omega
      · rcases hs : Fermi.sortStep fermi (b :: l) with _ | ⟨f1, l1⟩
        · simp [hs] at h
        · simp only [hs, Option.map_some, Option.some.injEq, Prod.mk.injEq] at h
          obtain ⟨rfl, rfl⟩ := h
          obtain ⟨i1, i2⟩ := ih l1 f1 hs
          refine ⟨i1.cons a, ?_⟩
          simp only [inv]
          have : (l1.filter (fun x => decide (x.1 < a.1))).length =
              ((b :: l).filter (fun x => decide (x.1 < a.1))).length :=
            (i1.filter _).length_eq
          rw [this]
          simp only [inv] at i2
          omega

theorem sortStep_none (fermi : Bool) (l : List (ℕ × FL)) (h : Fermi.sortStep fermi l = none) :
    l.Pairwise (fun a b => a.1 ≤ b.1) := by
  induction l with
  | nil => exact .nil
  | cons a l ih =>
    cases l with
    | nil => simp
    | cons b l =>
      unfold Fermi.sortStep at h
      split at h
      · simp at h
      · rename_i hle
        rcases hs : Fermi.sortStep fermi (b :: l) with _ | r
        · have := ih hs
          rw [List.pairwise_cons]
          refine ⟨?_, this⟩
          intro x hx
          rcases List.mem_cons.mp hx with rfl | hx
          · omega
          · have := (List.pairwise_cons.mp this).1 x hx
            omega
        · simp [hs] at h

theorem sortLoop_sorted {K : Type} [Neg K] (fermi : Bool) (n : ℕ) (c : K) (l : List (ℕ × FL))
    (h : inv l ≤ n) :
    (Fermi.sortLoop fermi n c l).2.Pairwise (fun a b => a.1 ≤ b.1) ∧
      (Fermi.sortLoop fermi n c l).2.Perm l := by
  induction n generalizing c l with
  | zero =>
    refine ⟨?_, List.Perm.refl _⟩
    show l.Pairwise _
    rcases hs : Fermi.sortStep fermi l with _ | ⟨f, l'⟩
    · exact sortStep_none fermi l hs
    · have := (sortStep_perm fermi l l' f hs).2
      omega
  | succ n ih =>
    unfold Fermi.sortLoop
    rcases hs : Fermi.sortStep fermi l with _ | ⟨f, l'⟩
    · exact ⟨sortStep_none fermi l hs, List.Perm.refl _⟩
    · obtain ⟨h1, h2⟩ := sortStep_perm fermi l l' f hs
      obtain ⟨i1, i2⟩ := ih (if f then -c else c) l' (by omega)
      exact ⟨i1, i2.trans h1⟩

theorem inv_le (l : List (ℕ × FL)) : inv l ≤ l.length * l.length := by
  induction l with
  | nil => simp [inv]
  | cons a l ih =>
    have : (l.filter (fun b => decide (b.1 < a.1))).length ≤ l.length := List.length_filter_le _ _
    simp only [inv, List.length_cons]
    nlinarith

theorem contractStep_done (l : List (ℕ × FL)) (hs : l.Pairwise (fun a b => a.1 ≤ b.1))
    (h : Fermi.contractStep l = .done) : l.Pairwise (fun a b => a.1 < b.1) := by
  induction l with
  | nil => exact .nil
  | cons a l ih =>
    cases l with
    | nil => simp
    | cons b l =>
      unfold Fermi.contractStep at h
      split at h
      · split at h <;> simp at h
      · rename_i hne
        rcases hc : Fermi.contractStep (b :: l) with _ | _ | _ | l1
        · have hp := List.pairwise_cons.mp hs
          have := ih hp.2 hc
          rw [List.pairwise_cons]
          refine ⟨?_, this⟩
          intro x hx
          have hab := hp.1 b List.mem_cons_self
          rcases List.mem_cons.mp hx with rfl | hx
          · omega
          · have := (List.pairwise_cons.mp this).1 x hx
            omega
        all_goals simp [hc] at h

theorem contractStep_next (l l' : List (ℕ × FL)) (h : Fermi.contractStep l = .next l') :
    l'.length + 1 = l.length ∧ (l'.map (·.1)).Sublist (l.map (·.1)) ∧
      (∀ x, x ∈ l.map (·.1) → x ∈ l'.map (·.1)) := by
  induction l generalizing l' with
  | nil => simp [Fermi.contractStep] at h
  | cons a l ih =>
    cases l with
    | nil => simp [Fermi.contractStep] at h
    | cons b l =>
      unfold Fermi.contractStep at h
      split at h
      · rename_i he
        rcases hc : Fermi.contr a.2 b.2 with _ | _ | z
        · simp [hc] at h
        · simp [hc] at h
        · simp only [hc, Fermi.CStep.next.injEq] at h
          subst h
          refine ⟨by simp, ?_, ?_⟩
          · simp only [List.map_cons]
            exact (List.sublist_cons_self _ _).cons_cons _
          · intro x hx
            simp only [List.map_cons, List.mem_cons] at hx ⊢
            rw [← he] at hx
            tauto
      · rcases hs : Fermi.contractStep (b :: l) with _ | _ | _ | l1
        · simp [hs] at h
        · simp [hs] at h
        · simp [hs] at h
        · simp only [hs, Fermi.CStep.next.injEq] at h
          subst h
          obtain ⟨i1, i2, i3⟩ := ih l1 hs
          refine ⟨by simp at i1 ⊢; omega, ?_, ?_⟩
          · rw [List.map_cons, List.map_cons]; exact i2.cons_cons _
          · intro x hx
            rw [List.map_cons, List.mem_cons] at hx ⊢
            rcases hx with hx | hx
            · exact Or.inl hx
            · exact Or.inr (i3 x hx)

theorem contractStep_keyError (l : List (ℕ × FL)) (hok : okLetters l) :
    Fermi.contractStep l ≠ .keyError := by
  induction l with
  | nil => simp [Fermi.contractStep]
  | cons a l ih =>
    cases l with
    | nil => simp [Fermi.contractStep]
    | cons b l =>
      unfold Fermi.contractStep
      split
      · have := contr_isSome a.2 b.2 (hok a List.mem_cons_self)
          (hok b (List.mem_cons_of_mem _ List.mem_cons_self))
        rcases hc : Fermi.contr a.2 b.2 with _ | _ | z
        · exact absurd hc this
        · simp
        · simp
      · have := ih (fun x hx => hok x (List.mem_cons_of_mem _ hx))
        rcases hs : Fermi.contractStep (b :: l) with _ | _ | _ | l1
        · simp
        · simp
        · exact absurd hs this
        · simp

theorem contractLoop_ok (n : ℕ) (l : List (ℕ × FL)) (hn : l.length ≤ n) (hok : okLetters l)
    (hs : l.Pairwise (fun a b => a.1 ≤ b.1)) :
    Fermi.contractLoop n l ≠ none ∧
    ∀ l', Fermi.contractLoop n l = some (some l') →
      l'.Pairwise (fun a b => a.1 < b.1) ∧ (∀ x, x ∈ l'.map (·.1) ↔ x ∈ l.map (·.1)) := by
  induction n generalizing l with
  | zero =>
    have : l = [] := List.length_eq_zero_iff.mp (by omega)
    subst this
    simp [Fermi.contractLoop]
  | succ n ih =>
    unfold Fermi.contractLoop
    rcases hc : Fermi.contractStep l with _ | _ | _ | l1
    · refine ⟨by simp, ?_⟩
      intro l' h
      simp at h
      subst h
      exact ⟨contractStep_done l hs hc, fun _ => Iff.rfl⟩
    · simp
    · exact absurd hc (contractStep_keyError l hok)
    · obtain ⟨h1, h2, h3⟩ := contractStep_next l l1 hc
      have hok1 : okLetters l1 := (contractStep_word (laws_fermi (K := GQ)) l l1 hok hc).1
      have hs1 : l1.Pairwise (fun a b => a.1 ≤ b.1) := by
        have h4 : (l.map (·.1)).Pairwise (· ≤ ·) := List.pairwise_map.mpr hs
        exact List.pairwise_map.mp (h4.sublist h2)
      obtain ⟨i1, i2⟩ := ih l1 (by omega) hok1 hs1
      refine ⟨i1, fun l' h => ⟨(i2 l' h).1, fun x => ?_⟩⟩
      rw [(i2 l' h).2]
      exact ⟨fun hx => h2.subset hx, h3 x⟩

/-! ### The final string -/

section
variable (W : ℕ → FL → Oper K) (hi : ∀ k, W k .i = 1)

/-- A string evaluated letter by letter. -/
def denW (W : ℕ → FL → Oper K) (k : ℕ) : FStr → Oper K
  | [] => 1
  | x :: xs => W k x * denW W (k+1) xs

theorem denW_append (k : ℕ) (s t : FStr) : denW W k (s ++ t) = denW W k s * denW W (k + s.length) t := by
  induction s generalizing k with
  | nil => simp [denW]
  | cons x s ih =>
    simp only [List.cons_append, denW, List.length_cons]
    rw [ih, mul_assoc]
    congr 3
    omega

include hi in
theorem denW_replicate (k n : ℕ) : denW W k (List.replicate n .i) = 1 := by
  induction n generalizing k with
  | zero => rfl
  | succ n ih => simp [List.replicate_succ, denW, hi, ih]

include hi in
theorem denW_buildRest (N : ℕ) (a : ℕ × FL) (l : List (ℕ × FL))
    (h : (a :: l).Pairwise (fun a b => a.1 < b.1)) :
    denW W a.1 (Fermi.buildRest N a l) = wordW W (a :: l) := by
  induction l generalizing a with
  | nil => simp [Fermi.buildRest, denW, denW_replicate W hi, wordW]
  | cons b l ih =>
    have hp := List.pairwise_cons.mp h
    have hab := hp.1 b List.mem_cons_self
    simp only [Fermi.buildRest, denW]
    rw [denW_append, denW_replicate W hi, one_mul, List.length_replicate,
      show a.1 + 1 + (b.1 - a.1 - 1) = b.1 by omega, ih b hp.2, ← wordW_cons W a]

include hi in
theorem denW_build (N : ℕ) (l : List (ℕ × FL)) (s : FStr) (hb : Fermi.build N l = some s)
    (h : l.Pairwise (fun a b => a.1 < b.1)) : denW W 0 s = wordW W l := by
  cases l with
  | nil => simp [Fermi.build] at hb
  | cons a l =>
    simp only [Fermi.build, Option.some.injEq] at hb
    subst hb
    rw [denW_append, denW_replicate W hi, one_mul, List.length_replicate, Nat.zero_add,
      denW_buildRest W hi N a l h]

end

theorem buildRest_length (N : ℕ) (a : ℕ × FL) (l : List (ℕ × FL))
    (h : (a :: l).Pairwise (fun a b => a.1 < b.1)) (hN : ∀ b ∈ a :: l, b.1 < N) :
    (Fermi.buildRest N a l).length = N - a.1 := by
  induction l generalizing a with
  | nil =>
    have := hN a List.mem_cons_self
    simp [Fermi.buildRest]; omega
  | cons b l ih =>
    have hp := List.pairwise_cons.mp h
    have hab := hp.1 b List.mem_cons_self
    have := ih b hp.2 (fun x hx => hN x (List.mem_cons_of_mem _ hx))
    have := hN b (List.mem_cons_of_mem _ List.mem_cons_self)
    simp [Fermi.buildRest]; omega

theorem build_length (N : ℕ) (l : List (ℕ × FL)) (s : FStr) (hb : Fermi.build N l = some s)
    (h : l.Pairwise (fun a b => a.1 < b.1)) (hN : ∀ b ∈ l, b.1 < N) : s.length = N := by
  cases l with
  | nil => simp [Fermi.build] at hb
  | cons a l =>
    simp only [Fermi.build, Option.some.injEq] at hb
    subst hb
    have := hN a List.mem_cons_self
    rw [List.length_append, List.length_replicate, buildRest_length N a l h hN]
    omega

theorem sorted_dedup (l : List (ℕ × FL)) (hs : l.Pairwise (fun a b => a.1 ≤ b.1))
    (h : (l.map (·.1)).dedup.length = l.length) : l.Pairwise (fun a b => a.1 < b.1) := by
  have hnd : (l.map (·.1)).Nodup := by
    have hsub := List.dedup_sublist (l.map (·.1))
    have := hsub.eq_of_length (by rw [h, List.length_map])
    rw [← this]
    exact List.nodup_dedup _
  have hnd' : l.Pairwise (fun a b => a.1 ≠ b.1) := List.pairwise_map.mp hnd
  exact (hs.and hnd').imp (fun h => lt_of_le_of_ne h.1 h.2)

/-- `generateCore` on a non-empty word: always defined, correct length, correct operator. -/
theorem generateCore_spec {fermi : Bool} {W : ℕ → FL → Oper K} (hW : Laws fermi W)
    (hi : ∀ k, W k .i = 1) (c : K) (l : List (ℕ × FL)) (N : ℕ) (hok : okLetters l) (hne : l ≠ []) :
    ∃ r, Fermi.generateCore fermi c l N = some r ∧
      r.2 • denW W 0 r.1 = c • (wordW W l : Oper K) ∧
      ((∀ a ∈ l, a.1 < N) → r.1.length = N) := by
  obtain ⟨ho, hw⟩ := sortLoop_word hW (l.length * l.length) c l hok
  obtain ⟨hsorted, hperm⟩ := sortLoop_sorted fermi (l.length * l.length) c l (inv_le l)
  unfold Fermi.generateCore
  generalize Fermi.sortLoop fermi (l.length * l.length) c l = r at ho hw hsorted hperm
  have hrne : r.2 ≠ [] := fun h => hne (by rw [h] at hperm; exact hperm.nil_eq.symm)
  have fin : ∀ l2 : List (ℕ × FL), l2.Pairwise (fun a b => a.1 < b.1) →
      (∀ x, x ∈ l2.map (·.1) ↔ x ∈ r.2.map (·.1)) → (wordW W r.2 : Oper K) = wordW W l2 →
      ∃ q, (if isZero r.1 then some (List.replicate N FL.i, r.1)
          else (Fermi.build N l2).map (fun s => (s, r.1))) = some q ∧
        q.2 • denW W 0 q.1 = c • (wordW W l : Oper K) ∧ ((∀ a ∈ l, a.1 < N) → q.1.length = N) := by
    intro l2 hp hmem he
    by_cases hz : isZero r.1 = true
    · refine ⟨_, if_pos hz, ?_, fun _ => by simp⟩
      have hz' := (Coef.isZero_iff _).mp hz
      rw [← hw, hz']
      simp
    · obtain ⟨s, hs⟩ : ∃ s, Fermi.build N l2 = some s := by
        cases l2 with
        | nil =>
          exfalso
          obtain ⟨a, ha⟩ := List.exists_mem_of_ne_nil _ hrne
          have := (hmem a.1).mpr (List.mem_map_of_mem ha)
          simp at this
        | cons a l2 => exact ⟨_, rfl⟩
      refine ⟨(s, r.1), by rw [if_neg hz, hs]; rfl, ?_, ?_⟩
      · rw [denW_build W hi N l2 s hs hp, ← he, hw]
      · intro hN
        apply build_length N l2 s hs hp
        intro b hb
        obtain ⟨a, ha, hab⟩ := List.mem_map.mp ((hmem b.1).mp (List.mem_map_of_mem hb))
        have := hN a (hperm.mem_iff.mp ha)
        omega
  simp only
  by_cases hd : (r.2.map (·.1)).dedup.length = r.2.length
  · simp only [hd, if_true]
    exact fin r.2 (sorted_dedup r.2 hsorted hd) (fun _ => Iff.rfl) rfl
  · simp only [hd, if_false]
    obtain ⟨k1, k2⟩ := contractLoop_ok r.2.length r.2 le_rfl ho hsorted
    obtain ⟨w1, w2⟩ := contractLoop_word hW r.2.length r.2 ho
    rcases hc : Fermi.contractLoop r.2.length r.2 with _ | _ | l2
    · exact absurd hc k1
    · refine ⟨_, rfl, ?_, fun _ => by simp⟩
      rw [← hw, w2 hc]
      simp
    · obtain ⟨p1, p2⟩ := k2 l2 hc
      obtain ⟨_, e2⟩ := w1 l2 hc
      exact fin l2 p1 p2 e2

end HQCA
