import Verif.Proofs.SymSpec
import Verif.Proofs.Adjoint
import Verif.Spec.Count
import Batteries.Data.Nat.Lemmas

/-!
# Occupation numbers and the combinatorics of letter strings, for the symmetry projection
-/

namespace HQCA.SymProj
open Transform

/-! ### Occupation numbers -/

/-- Change of the occupation of a site by a letter. -/
def wt : FL → ℤ
  | .cr => 1
  | .an => -1
  | _ => 0

/-- Change of the occupation of `A` by a product of letters. -/
def dlt (A : Finset ℕ) (l : List (ℕ × FL)) : ℤ := (l.map (fun a => if a.1 ∈ A then wt a.2 else 0)).sum

/-- The operator changes the occupation of every `A` by `wt o` if `q ∈ A`. -/
def Shifts (D : ℕ → FL → Oper ℂ) : Prop :=
  ∀ (A : Finset ℕ) (n : ℤ) (ψ : Cfg → ℂ) (q : ℕ) (o : FL), HasOcc A n ψ →
    HasOcc A (n + if q ∈ A then wt o else 0) (D q o ψ)

theorem occ_update (A : Finset ℕ) (b : Cfg) (k : ℕ) (v : Bool) :
    (occOn A (Function.update b k v) : ℤ) =
      occOn A b + (if k ∈ A then (if v then 1 else 0) - (if b k then 1 else 0) else 0) := by
  have h : ∀ b : Cfg, (occOn A b : ℤ) = ∑ j ∈ A, (if b j = true then (1:ℤ) else 0) := by
    intro b; rw [occOn, Finset.card_filter]; push_cast; rfl
  rw [h, h]
  by_cases hk : k ∈ A
  · rw [← Finset.add_sum_erase A _ hk, ← Finset.add_sum_erase A (fun j => if b j = true then (1:ℤ) else 0) hk,
      if_pos hk, Function.update_self]
    have : ∑ j ∈ A.erase k, (if Function.update b k v j = true then (1:ℤ) else 0) =
        ∑ j ∈ A.erase k, (if b j = true then (1:ℤ) else 0) := by
      apply Finset.sum_congr rfl
      intro j hj
      rw [Function.update_of_ne (Finset.ne_of_mem_erase hj)]
    rw [this]; ring
  · rw [if_neg hk, add_zero]
    apply Finset.sum_congr rfl
    intro j hj
    rw [Function.update_of_ne (fun e : j = k => hk (e ▸ hj))]

theorem shifts_site : Shifts (fun q o => site q (qmat o)) := by
  intro A n ψ q o h b hb
  rw [site_apply] at hb
  by_cases hbq : b q = true
  · have e0 := occ_update A b q false
    have e1 := occ_update A b q true
    have h0 := h (Function.update b q false)
    have h1 := h (Function.update b q true)
    rw [hbq] at hb
    simp only [hbq, if_true] at e0 e1
    cases o <;>
      simp [qmat, mRaise, mLow, mOcc, mEmp, wt] at hb ⊢ <;>
      first
        | (have := h1 hb; by_cases hq : q ∈ A <;> simp [hq] at e1 ⊢ <;> omega)
        | (have := h0 hb; by_cases hq : q ∈ A <;> simp [hq] at e0 ⊢ <;> omega)
  · have hbq' : b q = false := by simpa using hbq
    have e0 := occ_update A b q false
    have e1 := occ_update A b q true
    have h0 := h (Function.update b q false)
    have h1 := h (Function.update b q true)
    rw [hbq'] at hb
    simp only [hbq', Bool.false_eq_true, if_true, if_false] at e0 e1
    cases o <;>
      simp [qmat, mRaise, mLow, mOcc, mEmp, wt] at hb ⊢ <;>
      first
        | (have := h0 hb; by_cases hq : q ∈ A <;> simp [hq] at e0 ⊢ <;> omega)
        | (have := h1 hb; by_cases hq : q ∈ A <;> simp [hq] at e1 ⊢ <;> omega)

theorem shifts_fop : Shifts (fun q o => fop q o) := by
  intro A n ψ q o h b hb
  replace hb : (fop q o : Oper ℂ) ψ b ≠ 0 := hb
  rw [fop_eq] at hb
  refine shifts_site A n ψ q o h b ?_
  intro h0
  apply hb
  show (zs o.odd q) ((site q (qmat o)) ψ) b = 0
  cases o.odd
  · simpa [zs] using h0
  · simp only [zs, if_true]
    rw [zstr_apply, h0, mul_zero]

theorem hasOcc_prodO {D : ℕ → FL → Oper ℂ} (hD : Shifts D) (rev : Bool) (A : Finset ℕ) (n : ℤ) (ψ : Cfg → ℂ)
    (h : HasOcc A n ψ) (l : List (ℕ × FL)) : HasOcc A (n + dlt A l) (prodO rev D l ψ) := by
  induction l generalizing n ψ with
  | nil => simpa [dlt, SymProj.prodO] using h
  | cons a l ih =>
    have e : dlt A (a :: l) = (if a.1 ∈ A then wt a.2 else 0) + dlt A l := by simp [dlt]
    rw [e]
    cases rev
    · have := ih _ _ (hD A n ψ a.1 a.2 h)
      rw [add_assoc] at this
      exact this
    · have := hD A _ _ a.1 a.2 (ih n ψ h)
      rw [add_assoc, add_comm (dlt A l)] at this
      exact this

/-- Expectation value. -/
noncomputable def ev (ψ : Cfg →₀ ℂ) (X : Oper ℂ) : ℂ := pair ψ (X ψ)

theorem ev_smul (ψ : Cfg →₀ ℂ) (c : ℂ) (X : Oper ℂ) : ev ψ (c • X) = c * ev ψ X := pair_smul_right ψ c _
theorem ev_add (ψ : Cfg →₀ ℂ) (X Y : Oper ℂ) : ev ψ (X + Y) = ev ψ X + ev ψ Y := pair_add_right ψ _ _
theorem ev_zero (ψ : Cfg →₀ ℂ) : ev ψ 0 = 0 := by
  have := ev_smul ψ 0 0
  rw [zero_smul, zero_mul] at this; exact this

theorem ev_sum {ι : Type} (ψ : Cfg →₀ ℂ) (l : List ι) (f : ι → Oper ℂ) :
    ev ψ (l.map f).sum = (l.map (fun x => ev ψ (f x))).sum := by
  induction l with
  | nil => exact ev_zero ψ
  | cons a l ih => simp only [List.map_cons, List.sum_cons]; rw [ev_add, ih]

theorem ev_unbalanced {D : ℕ → FL → Oper ℂ} (hD : Shifts D) (rev : Bool) (A : Finset ℕ) (n : ℤ) (ψ : Cfg →₀ ℂ)
    (h : HasOcc A n ψ) (l : List (ℕ × FL)) (hl : dlt A l ≠ 0) : ev ψ (SymProj.prodO rev D l) = 0 := by
  unfold ev pair
  rw [Finsupp.sum]
  apply Finset.sum_eq_zero
  intro b hb
  have hb' : ψ b ≠ 0 := Finsupp.mem_support_iff.mp hb
  by_contra hne
  have h2 : (SymProj.prodO rev D l ψ) b ≠ 0 := fun e => hne (by rw [e, mul_zero])
  have e1 := h b hb'
  have e2 := hasOcc_prodO hD rev A n ψ h l b h2
  omega

/-! ### Permutations of the excitation letters -/

theorem mem_choose (n : ℕ) (l p : List FL) (hl : l.length = n) : p ∈ choose n l ↔ p.Perm l := by
  induction n generalizing l p with
  | zero =>
    have : l = [] := List.length_eq_zero_iff.mp hl
    subst this
    simp [choose]
  | succ n ih =>
    rw [choose]
    simp only [List.mem_flatMap, List.mem_reverse, List.mem_range, List.mem_map]
    constructor
    · rintro ⟨m, hm, r, hr, rfl⟩
      have hm' : m < l.length := by omega
      have h1 := (ih (l.eraseIdx m) r (by rw [List.length_eraseIdx_of_lt hm']; omega)).mp hr
      have h2 : l.getD m .i = l[m] := by simp [List.getD, List.getElem?_eq_getElem hm']
      rw [h2]
      exact (List.Perm.cons _ h1).trans (List.getElem_cons_eraseIdx_perm hm')
    · intro hp
      cases p with
      | nil => rw [← hp.length_eq] at hl; simp at hl
      | cons a p =>
        have ha : a ∈ l := hp.subset (by simp)
        obtain ⟨m, hm, rfl⟩ := List.getElem_of_mem ha
        refine ⟨m, by omega, p, ?_, by simp [List.getD, List.getElem?_eq_getElem hm]⟩
        rw [ih _ _ (by rw [List.length_eraseIdx_of_lt hm]; omega)]
        exact List.Perm.cons_inv (hp.trans (List.getElem_cons_eraseIdx_perm hm).symm)

theorem simplify_aux (l acc : List (List FL)) (h : acc.Nodup) :
    (l.foldl (fun new r => if r ∈ new then new else new ++ [r]) acc).Nodup ∧
    ∀ x, x ∈ l.foldl (fun new r => if r ∈ new then new else new ++ [r]) acc ↔ x ∈ acc ∨ x ∈ l := by
  induction l generalizing acc with
  | nil => simpa using h
  | cons r l ih =>
    rw [List.foldl_cons]
    by_cases hr : r ∈ acc
    · rw [if_pos hr]
      refine ⟨(ih acc h).1, fun x => ?_⟩
      rw [(ih acc h).2]
      simp only [List.mem_cons]
      constructor
      · rintro (h | h)
        · exact Or.inl h
        · exact Or.inr (Or.inr h)
      · rintro (h | rfl | h)
        · exact Or.inl h
        · exact Or.inl hr
        · exact Or.inr h
    · rw [if_neg hr]
      have h' : (acc ++ [r]).Nodup := by
        rw [List.nodup_append]
        refine ⟨h, by simp, ?_⟩
        intro a ha b hb
        rw [List.mem_singleton.mp hb]
        rintro rfl
        exact hr ha
      refine ⟨(ih _ h').1, fun x => ?_⟩
      rw [(ih _ h').2]
      simp [or_assoc]

theorem nodup_perms (alp : List ℕ) (skip : Bool) (sites : List ℕ) (E : List FL) : (perms alp skip sites E).Nodup := by
  have := (simplify_aux (choose E.length E) [] List.nodup_nil).1
  unfold perms
  split
  · exact this
  · exact this.filter _

theorem mem_perms (alp : List ℕ) (skip : Bool) (sites : List ℕ) (E p : List FL) :
    p ∈ perms alp skip sites E ↔ p.Perm E ∧ (skip = false → szBad alp sites p = false) := by
  have := (simplify_aux (choose E.length E) [] List.nodup_nil).2 p
  rw [mem_choose _ _ _ rfl] at this
  unfold perms
  cases skip
  · simp only [Bool.false_eq_true, if_false, List.mem_filter, Bool.not_eq_true', true_imp_iff]
    unfold simplify
    rw [this]; simp
  · simp only [if_true, Bool.true_eq_false, false_imp_iff, and_true]
    unfold simplify
    rw [this]; simp

/-! ### Strings of particle/hole letters -/

theorem mem_permC (n : ℕ) (q : List FL) : q ∈ permC n ↔ q.length = n ∧ ∀ x ∈ q, FLcon x = true := by
  unfold permC
  simp only [List.mem_map, List.mem_range]
  constructor
  · rintro ⟨i, _, rfl⟩
    refine ⟨by simp, ?_⟩
    intro x hx
    obtain ⟨t, _, rfl⟩ := List.mem_map.mp hx
    split <;> rfl
  · rintro ⟨hl, hq⟩
    refine ⟨Nat.ofBits (fun j : Fin n => decide (q.getD (n - 1 - j) .i = .h)), Nat.ofBits_lt_two_pow _, ?_⟩
    apply List.ext_getElem (by simp [hl])
    intro t h1 h2
    simp only [List.getElem_map, List.getElem_range]
    have htn : t < n := by simpa using h1
    have hb := Nat.testBit_ofBits_lt (fun j : Fin n => decide (q.getD (n - 1 - j) .i = .h)) (n - 1 - t) (by omega)
    rw [Nat.testBit_eq_decide_div_mod_eq] at hb
    have e : n - 1 - (n - 1 - t) = t := by omega
    simp only [e] at hb
    have hg : q.getD t .i = q[t] := by simp [List.getD, List.getElem?_eq_getElem h2]
    rw [hg] at hb
    have hc := hq q[t] (List.getElem_mem h2)
    by_cases hh : q[t] = .h
    · rw [hh] at hb ⊢
      have : Nat.ofBits (fun j : Fin n => decide (q.getD (n - 1 - j) .i = .h)) / 2 ^ (n - 1 - t) % 2 = 1 := by
        simpa using hb
      rw [this]; rfl
    · have hp : q[t] = .p := by
        revert hc hh
        cases q[t] <;> simp [FLcon]
      rw [hp] at hb ⊢
      have : ¬ Nat.ofBits (fun j : Fin n => decide (q.getD (n - 1 - j) .i = .h)) / 2 ^ (n - 1 - t) % 2 = 1 := by
        simpa using hb
      rw [if_pos (by omega)]

theorem nodup_permC (n : ℕ) : (permC n).Nodup := by
  unfold permC
  refine List.Nodup.map_on ?_ List.nodup_range
  intro i hi j hj h
  have hi' := List.mem_range.mp hi
  have hj' := List.mem_range.mp hj
  apply Nat.eq_of_testBit_eq
  intro t
  by_cases ht : t < n
  · have h1 : ∀ u < n, (if i / 2 ^ (n - 1 - u) % 2 = 0 then FL.p else FL.h) =
        (if j / 2 ^ (n - 1 - u) % 2 = 0 then FL.p else FL.h) := by
      intro u hu
      exact List.map_inj_left.mp h u (List.mem_range.mpr hu)
    have := h1 (n - 1 - t) (by omega)
    have e : n - 1 - (n - 1 - t) = t := by omega
    rw [e] at this
    rw [Nat.testBit_eq_decide_div_mod_eq, Nat.testBit_eq_decide_div_mod_eq]
    have m1 := Nat.mod_two_eq_zero_or_one (i / 2 ^ t)
    have m2 := Nat.mod_two_eq_zero_or_one (j / 2 ^ t)
    rcases m1 with m1 | m1 <;> rcases m2 with m2 | m2 <;> simp [m1, m2] at this ⊢
  · rw [Nat.testBit_lt_two_pow (lt_of_lt_of_le hi' (Nat.pow_le_pow_right (by norm_num) (by omega))),
      Nat.testBit_lt_two_pow (lt_of_lt_of_le hj' (Nat.pow_le_pow_right (by norm_num) (by omega)))]

/-! ### Filling a pattern -/

/-- Letter lists of the same pattern. -/
def SamePat (l t : List FL) : Prop := List.Forall₂ (fun x y => y ≠ FL.i ∧ FLodd y = FLodd x) l t

theorem odd_con (x : FL) (h : x ≠ .i) : FLcon x = !FLodd x := by cases x <;> simp_all [FLcon, FLodd]
theorem odd_ne (x : FL) (h : FLodd x = true) : x ≠ .i := by cases x <;> simp_all [FLodd]
theorem con_ne (x : FL) (h : FLcon x = true) : x ≠ .i ∧ FLodd x = false := by cases x <;> simp_all [FLcon, FLodd]

theorem fill_some (l p q t : List FL) (hl : ∀ x ∈ l, x ≠ .i) (hp : ∀ x ∈ p, FLodd x = true) (hq : ∀ x ∈ q, FLcon x = true)
    (hpl : p.length = (l.filter FLodd).length) (hql : q.length = (l.filter FLcon).length) (h : fill l p q = some t) :
    SamePat l t ∧ t.filter FLodd = p ∧ t.filter FLcon = q := by
  induction l generalizing p q t with
  | nil =>
    rw [fill] at h
    cases h
    have e1 : p = [] := List.length_eq_zero_iff.mp (by simpa using hpl)
    have e2 : q = [] := List.length_eq_zero_iff.mp (by simpa using hql)
    subst e1; subst e2
    exact ⟨.nil, rfl, rfl⟩
  | cons x l ih =>
    have hx := hl x (by simp)
    have hl' : ∀ x ∈ l, x ≠ .i := fun y hy => hl y (by simp [hy])
    have hc := odd_con x hx
    rw [fill.eq_def] at h
    simp only at h
    by_cases ho : FLodd x = true
    · rw [if_pos ho] at h
      rw [ho] at hc
      cases p with
      | nil => simp [ho] at hpl
      | cons a p =>
        simp only [Option.map_eq_some_iff] at h
        obtain ⟨t', ht', rfl⟩ := h
        have ha := hp a (by simp)
        have hca := odd_con a (odd_ne a ha)
        rw [ha] at hca
        obtain ⟨i1, i2, i3⟩ := ih p q t' hl' (fun y hy => hp y (by simp [hy])) hq (by simpa [ho] using hpl)
          (by simpa [hc] using hql) ht'
        exact ⟨.cons ⟨odd_ne a ha, ha.trans ho.symm⟩ i1, by simp [ha, i2], by simp [hca, i3]⟩
    · have ho' : FLodd x = false := by simpa using ho
      rw [if_neg ho] at h
      rw [ho'] at hc
      simp only [Bool.not_false] at hc
      rw [if_pos hc] at h
      cases q with
      | nil => simp [hc] at hql
      | cons a q =>
        simp only [Option.map_eq_some_iff] at h
        obtain ⟨t', ht', rfl⟩ := h
        have ha := hq a (by simp)
        have hoa := (con_ne a ha)
        obtain ⟨i1, i2, i3⟩ := ih p q t' hl' hp (fun y hy => hq y (by simp [hy])) (by simpa [ho'] using hpl)
          (by simpa [hc] using hql) ht'
        exact ⟨.cons ⟨hoa.1, hoa.2.trans ho'.symm⟩ i1, by simp [hoa.2, i2], by simp [ha, i3]⟩

theorem fill_complete (l t : List FL) (hl : ∀ x ∈ l, x ≠ .i) (h : SamePat l t) :
    fill l (t.filter FLodd) (t.filter FLcon) = some t := by
  induction h with
  | nil => rfl
  | @cons x y l t hxy h ih =>
    have hx := hl x (by simp)
    have ih' := ih (fun z hz => hl z (by simp [hz]))
    have hcx := odd_con x hx
    have hcy := odd_con y hxy.1
    rw [fill.eq_def]
    simp only
    by_cases ho : FLodd x = true
    · have hy : FLodd y = true := hxy.2.trans ho
      rw [hy] at hcy
      rw [if_pos ho]
      simp [hy, hcy, ih']
    · have ho' : FLodd x = false := by simpa using ho
      have hy : FLodd y = false := hxy.2.trans ho'
      rw [hy] at hcy
      rw [ho'] at hcx
      rw [if_neg ho, if_pos (by simpa using hcx)]
      simp only [Bool.not_false] at hcy
      simp [hy, hcy, ih']

theorem samePat_filter (l t : List FL) (hl : ∀ x ∈ l, x ≠ .i) (h : SamePat l t) :
    (t.filter FLodd).length = (l.filter FLodd).length ∧ (t.filter FLcon).length = (l.filter FLcon).length := by
  induction h with
  | nil => exact ⟨rfl, rfl⟩
  | @cons x y l t hxy h ih =>
    obtain ⟨i1, i2⟩ := ih (fun z hz => hl z (by simp [hz]))
    have hcx := odd_con x (hl x (by simp))
    have hcy := odd_con y hxy.1
    rw [hxy.2] at hcy
    by_cases ho : FLodd x = true
    · have hy : FLodd y = true := hxy.2.trans ho
      rw [ho] at hcx hcy
      simp [ho, hy, hcx, hcy, i1, i2]
    · have ho' : FLodd x = false := by simpa using ho
      have hy : FLodd y = false := hxy.2.trans ho'
      rw [ho'] at hcx hcy
      simp only [Bool.not_false] at hcx hcy
      simp [ho', hy, hcx, hcy, i1, i2]

/-- The letter strings of the loop. -/
theorem tops_spec (P : List (List FL)) (hPn : P.Nodup) (l : List FL) (hl : ∀ x ∈ l, x ≠ .i)
    (hP : ∀ p ∈ P, (∀ x ∈ p, FLodd x = true) ∧ p.length = (l.filter FLodd).length) (tops : List (List FL))
    (h : (P.flatMap (fun p => (permC (l.filter FLcon).length).map (fun q => (p, q)))).mapM (fun x => fill l x.1 x.2) =
      some tops) :
    tops.Nodup ∧ (∀ t, t ∈ tops ↔ SamePat l t ∧ t.filter FLodd ∈ P) ∧
      tops.length = P.length * 2 ^ (l.filter FLcon).length := by
  have hf := (OpD.mapM_option _ _ _).mp h
  have hmem : ∀ x : List FL × List FL, x ∈ P.flatMap (fun p => (permC (l.filter FLcon).length).map (fun q => (p, q))) ↔
      x.1 ∈ P ∧ x.2 ∈ permC (l.filter FLcon).length := by
    rintro ⟨p, q⟩
    simp only [List.mem_flatMap, List.mem_map, Prod.mk.injEq]
    constructor
    · rintro ⟨p', hp', q', hq', rfl, rfl⟩; exact ⟨hp', hq'⟩
    · rintro ⟨hp, hq⟩; exact ⟨p, hp, q, hq, rfl, rfl⟩
  have hnd : (P.flatMap (fun p => (permC (l.filter FLcon).length).map (fun q => (p, q)))).Nodup := by
    rw [List.nodup_flatMap]
    refine ⟨fun p _ => (nodup_permC _).map (fun a b h => (Prod.mk.inj h).2), ?_⟩
    refine hPn.imp ?_
    intro a b hab x hx hx'
    obtain ⟨q, _, rfl⟩ := List.mem_map.mp hx
    obtain ⟨q', _, h'⟩ := List.mem_map.mp hx'
    exact hab (Prod.mk.inj h').1.symm
  have hspec : ∀ x ∈ P.flatMap (fun p => (permC (l.filter FLcon).length).map (fun q => (p, q))), ∀ t,
      fill l x.1 x.2 = some t → SamePat l t ∧ t.filter FLodd = x.1 ∧ t.filter FLcon = x.2 := by
    intro x hx t ht
    obtain ⟨h1, h2⟩ := (hmem x).mp hx
    have h3 := (mem_permC _ _).mp h2
    exact fill_some l x.1 x.2 t hl (hP _ h1).1 h3.2 (hP _ h1).2 h3.1 ht
  refine ⟨?_, ?_, ?_⟩
  · generalize P.flatMap (fun p => (permC (l.filter FLcon).length).map (fun q => (p, q))) = L at hf hnd hspec
    clear h hmem
    induction hf with
    | nil => exact List.nodup_nil
    | @cons x t L ts hx hf ih =>
      have hn := List.nodup_cons.mp hnd
      refine List.nodup_cons.mpr ⟨?_, ih hn.2 (fun y hy => hspec y (by simp [hy]))⟩
      intro htm
      obtain ⟨i, hi, he⟩ := List.getElem_of_mem htm
      have hi' : i < L.length := by rw [hf.length_eq]; exact hi
      have h1 := (List.forall₂_iff_get.mp hf).2 i hi' hi
      simp only [List.get_eq_getElem] at h1
      rw [he] at h1
      have a := hspec x (by simp) t hx
      have b := hspec L[i] (by simp) t h1
      apply hn.1
      have : x = L[i] := Prod.ext (a.2.1.symm.trans b.2.1) (a.2.2.symm.trans b.2.2)
      rw [this]; exact List.getElem_mem hi'
  · intro t
    constructor
    · intro ht
      obtain ⟨i, hi, rfl⟩ := List.getElem_of_mem ht
      have hi' : i < (P.flatMap (fun p => (permC (l.filter FLcon).length).map (fun q => (p, q)))).length := by
        rw [hf.length_eq]; exact hi
      have h1 := (List.forall₂_iff_get.mp hf).2 i hi' hi
      simp only [List.get_eq_getElem] at h1
      have h2 := List.getElem_mem hi'
      have a := hspec _ h2 _ h1
      exact ⟨a.1, a.2.1 ▸ ((hmem _).mp h2).1⟩
    · rintro ⟨h1, h2⟩
      have hc := samePat_filter l t hl h1
      have h3 : (t.filter FLodd, t.filter FLcon) ∈
          P.flatMap (fun p => (permC (l.filter FLcon).length).map (fun q => (p, q))) :=
        (hmem _).mpr ⟨h2, (mem_permC _ _).mpr ⟨hc.2, fun x hx => (List.mem_filter.mp hx).2⟩⟩
      obtain ⟨i, hi, he⟩ := List.getElem_of_mem h3
      have hi' : i < tops.length := by rw [← hf.length_eq]; exact hi
      have h4 := (List.forall₂_iff_get.mp hf).2 i hi hi'
      simp only [List.get_eq_getElem] at h4
      rw [he, fill_complete l t hl h1] at h4
      rw [Option.some.inj h4]
      exact List.getElem_mem hi'
  · rw [← hf.length_eq, List.length_flatMap]
    have : ∀ n, (permC n).length = 2 ^ n := by intro n; simp [permC]
    simp [this]

/-- The filling never fails. -/
theorem tops_isSome (P : List (List FL)) (l : List FL) (hl : ∀ x ∈ l, x ≠ .i)
    (hP : ∀ p ∈ P, p.length = (l.filter FLodd).length) :
    ((P.flatMap (fun p => (permC (l.filter FLcon).length).map (fun q => (p, q)))).mapM
      (fun x => fill l x.1 x.2)).isSome := by
  apply OpD.mapM_isSome
  intro x hx
  simp only [List.mem_flatMap, List.mem_map] at hx
  obtain ⟨p, hp, q, hq, rfl⟩ := hx
  have hql := ((mem_permC _ _).mp hq).1
  have hpl := hP p hp
  simp only
  clear hq hp hP
  induction l generalizing p q with
  | nil => rfl
  | cons x l ih =>
    have hx := hl x (by simp)
    have hcx := odd_con x hx
    have hl' : ∀ x ∈ l, x ≠ .i := fun y hy => hl y (by simp [hy])
    rw [fill.eq_def]
    simp only
    by_cases ho : FLodd x = true
    · rw [if_pos ho]
      rw [ho] at hcx
      cases p with
      | nil => simp [ho] at hpl
      | cons a p =>
        simp only [Option.isSome_map]
        exact ih hl' p q (by simpa [hcx] using hql) (by simpa [ho] using hpl)
    · have ho' : FLodd x = false := by simpa using ho
      rw [ho'] at hcx
      simp only [Bool.not_false] at hcx
      rw [if_neg ho, if_pos hcx]
      cases q with
      | nil => simp [hcx] at hql
      | cons a q =>
        simp only [Option.isSome_map]
        exact ih hl' p q (by simpa [hcx] using hql) (by simpa [ho'] using hpl)

/-! ### Variants -/

theorem mem_vars (l r : List (ℕ × FL)) (hl : ∀ a ∈ l, a.2 ≠ .i) :
    r ∈ vars l ↔ r.map (·.1) = l.map (·.1) ∧ SamePat (l.map (·.2)) (r.map (·.2)) := by
  induction l generalizing r with
  | nil =>
    simp only [vars, List.mem_singleton, List.map_nil, List.map_eq_nil_iff]
    constructor
    · rintro rfl; exact ⟨rfl, .nil⟩
    · exact fun h => h.1
  | cons a l ih =>
    have ih' := fun r => ih r (fun x hx => hl x (by simp [hx]))
    have ha := hl a (by simp)
    rw [vars, List.mem_append, List.mem_map, List.mem_map]
    constructor
    · rintro (⟨u, hu, rfl⟩ | ⟨u, hu, rfl⟩)
      all_goals
        obtain ⟨h1, h2⟩ := (ih' u).mp hu
        exact ⟨by simp [h1], .cons ⟨alt_ne _ _ ha, alt_class _ _⟩ h2⟩
    · rintro ⟨h1, h2⟩
      cases r with
      | nil => simp at h1
      | cons b r =>
        simp only [List.map_cons, List.cons.injEq] at h1
        cases h2 with
        | cons h3 h4 =>
          have hr := (ih' r).mpr ⟨h1.2, h4⟩
          have : b.2 = alt false a.2 ∨ b.2 = alt true a.2 := by
            have key : ∀ x y : FL, x ≠ .i → y ≠ .i → FLodd y = FLodd x → y = alt false x ∨ y = alt true x := by
              intro x y; cases x <;> cases y <;> simp [alt, FLodd]
            exact key _ _ ha h3.1 h3.2
          rcases this with h | h
          · exact Or.inl ⟨r, hr, by rw [← h, ← h1.1]⟩
          · exact Or.inr ⟨r, hr, by rw [← h, ← h1.1]⟩

theorem nodup_vars (l : List (ℕ × FL)) (hl : ∀ a ∈ l, a.2 ≠ .i) : (vars l).Nodup := by
  induction l with
  | nil => simp [vars]
  | cons a l ih =>
    have ih' := ih (fun x hx => hl x (by simp [hx]))
    have ha := hl a (by simp)
    rw [vars, List.nodup_append]
    refine ⟨ih'.map (fun a b h => (List.cons.inj h).2), ih'.map (fun a b h => (List.cons.inj h).2), ?_⟩
    intro x hx y hy he
    obtain ⟨u, _, rfl⟩ := List.mem_map.mp hx
    obtain ⟨v, _, rfl⟩ := List.mem_map.mp hy
    have := (Prod.mk.inj (List.cons.inj he).1).2
    have key : ∀ x : FL, x ≠ .i → alt false x ≠ alt true x := by intro x; cases x <;> simp [alt]
    exact key _ ha this

theorem length_vars (l : List (ℕ × FL)) : (vars l).length = 2 ^ l.length := by
  induction l with
  | nil => rfl
  | cons a l ih => simp [vars, ih, pow_succ]; ring

end HQCA.SymProj
