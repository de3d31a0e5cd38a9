import Verif.Model.EulerRun3
import Verif.Props.EulerMin
import Verif.Props.ClassResid

/-!
# C160: a closed Euler run with the classical solver and a three-body tomography
-/

namespace HQCA
namespace Props
open ACSE ACSEEn EulerRun HFStore Ham Prepare Resid UCC
noncomputable section

/-! ### Excitations that change the spin do not contribute -/

/-- The change of the number of electrons on the first `r` orbitals. -/
def shift (r : ℕ) (i k j l : ℕ) : ℤ := (if i < r then 1 else 0) + (if k < r then 1 else 0) - (if j < r then 1 else 0) - (if l < r then 1 else 0)

theorem shift_gop {n : ℕ} (r : ℕ) (i k j l : Fin n) :
    (numberOp r * gop i k j l : Oper ℂ) = gop i k j l * numberOp r + ((shift r i.val k.val j.val l.val : ℤ) : ℂ) • gop i k j l := by
  unfold gop
  have a1 := number_prod r _ 1 (number_cre r) [i.val, k.val]
  have a2 := number_prod r _ (-1) (number_ann r) [l.val, j.val]
  simp only [List.map_cons, List.map_nil, List.prod_cons, List.prod_nil, mul_one] at a1 a2
  have e : (cre i.val * (cre k.val * (ann l.val * ann j.val)) : Oper ℂ) = (cre i.val * cre k.val) * (ann l.val * ann j.val) := by
    simp only [mul_assoc]
  have c1 : ∀ x y : ℕ, ((nAlpha r [x, y] : ℕ) : ℂ) = (if x < r then (1 : ℂ) else 0) + (if y < r then (1 : ℂ) else 0) := by
    intro x y
    unfold nAlpha
    by_cases hx : x < r <;> by_cases hy : y < r <;> simp [List.countP_cons, hx, hy] <;> norm_num
  have hw : ((shift r i.val k.val j.val l.val : ℤ) : ℂ) = ((nAlpha r [i.val, k.val] : ℕ) : ℂ) - ((nAlpha r [l.val, j.val] : ℕ) : ℂ) := by
    rw [c1, c1]
    unfold shift
    push_cast
    ring
  rw [e, hw]
  generalize (cre i.val * cre k.val : Oper ℂ) = P at a1 ⊢
  generalize (ann l.val * ann j.val : Oper ℂ) = Q at a2 ⊢
  rw [← mul_assoc, a1, add_mul, mul_assoc, a2, mul_add, smul_mul_assoc, mul_smul_comm, mul_assoc]
  module

theorem Conserves.smul' {r : ℕ} {X : Oper ℂ} (hX : Conserves r X) (c : ℂ) : Conserves r (c • X) := by
  unfold Conserves at *
  rw [mul_smul_comm, hX, smul_mul_assoc]

theorem Conserves.sum' {r : ℕ} {ι : Type} (s : Finset ι) (f : ι → Oper ℂ) (h : ∀ i ∈ s, Conserves r (f i)) : Conserves r (∑ i ∈ s, f i) := by
  unfold Conserves at *
  rw [Finset.mul_sum, Finset.sum_mul]
  exact Finset.sum_congr rfl h

/-- The Hamiltonian conserves the number of alpha electrons. -/
theorem conserves_secondQ {no : ℕ} {h1 : Fin (2 * no) → Fin (2 * no) → ℂ} {V : Fin (2 * no) → Fin (2 * no) → Fin (2 * no) → Fin (2 * no) → ℂ}
    (h : SpinInts no h1 V) : Conserves no (secondQ h1 V) := by
  unfold secondQ
  refine Conserves.add (Conserves.sum' _ _ fun p _ => Conserves.sum' _ _ fun q _ => ?_)
    (Conserves.sum' _ _ fun p _ => Conserves.sum' _ _ fun t _ => Conserves.sum' _ _ fun s _ => Conserves.sum' _ _ fun q _ => ?_)
  · by_cases h0 : h1 p q = 0
    · rw [h0, zero_smul]; exact Conserves.zero
    · refine Conserves.smul' ?_ _
      have e := h.one _ _ h0
      unfold Conserves
      rw [← mul_assoc, number_cre, add_mul, mul_assoc, number_ann, mul_add, smul_mul_assoc, mul_smul_comm, mul_assoc]
      by_cases hp : p.val < no
      · rw [if_pos hp, if_pos (e.mp hp)]; module
      · rw [if_neg hp, if_neg (fun hq => hp (e.mpr hq))]; module
  · by_cases h0 : V p t q s = 0
    · rw [h0, mul_zero, zero_smul]; exact Conserves.zero
    · refine Conserves.smul' ?_ _
      have e := h.two _ _ _ _ h0
      have := shift_gop no p t q s
      have hz : shift no p.val t.val q.val s.val = 0 := by
        unfold shift
        simp only [e.1, e.2]
        ring
      rw [hz, Int.cast_zero, zero_smul, add_zero] at this
      exact this

/-- The commutator of a spin-changing excitation has no expectation value in a state of definite numbers. -/
theorem spin_zero {no na ne : ℕ} {h1 : Fin (2 * no) → Fin (2 * no) → ℂ} {V : Fin (2 * no) → Fin (2 * no) → Fin (2 * no) → Fin (2 * no) → ℂ}
    (h : SpinInts no h1 V) (Ψ : Cfg →₀ ℂ) (hS : InS (InSec no (2 * no) na ne) Ψ) (i k j l : Fin (2 * no)) (hw : shift no i.val k.val j.val l.val ≠ 0) :
    pair Ψ ((gop i k j l * secondQ h1 V - secondQ h1 V * gop i k j l : Oper ℂ) Ψ) = 0 := by
  set X : Oper ℂ := gop i k j l * secondQ h1 V - secondQ h1 V * gop i k j l with hX
  have hH := conserves_secondQ h
  unfold Conserves at hH
  have hNX : (numberOp no * X : Oper ℂ) = X * numberOp no + ((shift no i.val k.val j.val l.val : ℤ) : ℂ) • X := by
    have hg := shift_gop no i k j l
    rw [hX, mul_sub, ← mul_assoc, hg, ← mul_assoc (numberOp no : Oper ℂ) (secondQ h1 V), hH, mul_assoc (secondQ h1 V) (numberOp no) _, hg, add_mul, mul_add,
      mul_assoc (gop i k j l : Oper ℂ) (numberOp no) _, hH, smul_mul_assoc, mul_smul_comm, sub_mul, mul_assoc, mul_assoc]
    module
  have hNΨ : (numberOp no : Oper ℂ) (Ψ : Cfg → ℂ) = ((na : ℕ) : ℂ) • (Ψ : Cfg → ℂ) := number_sec no na Ψ fun b hb => (hS b hb).1
  have hv : ∀ b, Ψ b ≠ 0 → X (Ψ : Cfg → ℂ) b = 0 := by
    intro b hb
    have e := congrFun (LinearMap.congr_fun hNX (Ψ : Cfg → ℂ)) b
    rw [Module.End.mul_apply, numberOp_apply, LinearMap.add_apply, Module.End.mul_apply, hNΨ, map_smul, (hS b hb).1] at e
    have e' : (na : ℂ) * X (Ψ : Cfg → ℂ) b = (na : ℂ) * X (Ψ : Cfg → ℂ) b + ((shift no i.val k.val j.val l.val : ℤ) : ℂ) * X (Ψ : Cfg → ℂ) b := by
      exact e
    have e2 : ((shift no i.val k.val j.val l.val : ℤ) : ℂ) * X (Ψ : Cfg → ℂ) b = 0 := by linear_combination -e'
    exact (mul_eq_zero.mp e2).resolve_left (by exact_mod_cast hw)
  unfold pair
  rw [Finsupp.sum]
  refine Finset.sum_eq_zero fun b hb => ?_
  rw [hv b (Finsupp.mem_support_iff.mp hb), mul_zero]

/-! ### The terms of the residual operator in at most three spatial orbitals -/

theorem shift_bal (p q u v : Prop) [Decidable p] [Decidable q] [Decidable u] [Decidable v]
    (h : ((if p then 1 else 0) + (if q then 1 else 0) - (if u then 1 else 0) - (if v then 1 else 0) : ℤ) = 0) :
    (if p then wt .cr else 0) + ((if q then wt .cr else 0) + ((if v then wt .an else 0) + ((if u then wt .an else 0) + 0))) = 0 ∧
    (if p then 0 else wt .cr) + ((if q then 0 else wt .cr) + ((if v then 0 else wt .an) + ((if u then 0 else wt .an) + 0))) = 0 := by
  by_cases a1 : p <;> by_cases a2 : q <;> by_cases a3 : u <;> by_cases a4 : v <;> simp [a1, a2, a3, a4, wt] at h ⊢

/-- The strings of `a†i a†k a_l a_j` that conserve the spin, in at most three spatial orbitals: at most one electron of each spin moves. -/
theorem gen_small (no : ℕ) (hno : no ≤ 3) (c : ℂ) (hc : c ≠ 0) (hr : (starRingEnd ℂ) c = c) (i k j l : Fin (2 * no)) (h1 : i ≠ k) (h2 : j ≠ l)
    (hw : shift no i.val k.val j.val l.val = 0) (t : Term FStr ℂ)
    (ht : Fermi.generate true c [(i.val, .cr), (k.val, .cr), (l.val, .an), (j.val, .an)] (2 * no) = some t) : GoodTerm no t := by
  have hok : okLetters [(i.val, FL.cr), (k.val, .cr), (l.val, .an), (j.val, .an)] := by
    intro x hx
    simp only [List.mem_cons, List.not_mem_nil, or_false] at hx
    rcases hx with rfl | rfl | rfl | rfl <;> simp
  obtain ⟨t', e1, e2, e3⟩ := generate_spec (K := ℂ) c _ (2 * no) hok
  rw [ht] at e1
  cases e1
  have hlen := e3 (fun a ha => by
    simp only [List.mem_cons, List.not_mem_nil, or_false] at ha
    rcases ha with rfl | rfl | rfl | rfl <;> simp)
  have hw' : (wordF [(i.val, FL.cr), (k.val, .cr), (l.val, .an), (j.val, .an)] : Oper ℂ) = gop i k j l := by
    simp [wordF, gop, fop]
  rw [hw'] at e2
  have ht0 : t.2 ≠ 0 := by
    intro h0
    rw [h0, zero_smul] at e2
    exact gop_ne i k j l h1 h2 ((smul_eq_zero.mp e2.symm).resolve_left hc)
  have hcore : Fermi.generateCore true c [(i.val, .cr), (k.val, .cr), (l.val, .an), (j.val, .an)] (2 * no) = some t := ht
  obtain ⟨hs, hf⟩ := SymProj.generate_letters true c _ (2 * no) hok t hcore ht0
  rw [pairs_eq] at hs hf
  have hcnt : ∀ u : FStr, (u.map wt).sum = 0 → u.length ≤ 3 → u.count .cr = u.count .an ∧ u.count .cr ≤ 1 := by
    intro u u1 u2
    rw [wt_sum] at u1
    have h3 : (u.map mv).sum ≤ u.length := by
      clear u1 u2
      induction u with
      | nil => simp
      | cons x u ih =>
        rw [List.map_cons, List.sum_cons, List.length_cons]
        have : mv x ≤ 1 := by unfold mv; split <;> simp
        omega
    rw [mv_sum] at h3
    omega
  have low : ((t.1.take no).map wt).sum = 0 := by
    have := sum_low wt rfl no 0 t.1
    rw [Nat.sub_zero] at this
    rw [← this]
    have := hf ℤ _ (additive_wt fun x => decide (x < no))
    simp only [decide_eq_true_eq] at this
    rw [this]
    exact (shift_bal _ _ _ _ hw).1
  have high : ((t.1.drop no).map wt).sum = 0 := by
    have := sum_high wt rfl no 0 t.1
    rw [Nat.sub_zero] at this
    rw [← this]
    have := hf ℤ _ (additive_wt fun x => !decide (x < no))
    simp only [Bool.not_eq_true', decide_eq_false_iff_not, ite_not] at this
    rw [this]
    exact (shift_bal _ _ _ _ hw).2
  refine ⟨hlen, ?_, ⟨hcnt _ low (by rw [List.length_take]; omega), hcnt _ high (by rw [List.length_drop]; omega)⟩, ?_⟩
  · intro h0
    have := (hs i.val).mpr (by simp)
    rw [SymProj.mem_pairsFrom] at this
    have hz := this.2
    rw [Nat.sub_zero] at hz
    refine hz ?_
    by_cases hi : i.val < t.1.length
    · rw [List.getD_eq_getElem _ _ hi]
      by_contra hne
      unfold Transform.nLetters at h0
      simp only [List.length_eq_zero_iff, List.filter_eq_nil_iff, ne_eq, decide_not, Bool.not_eq_eq_eq_not, Bool.not_true, Bool.not_eq_false, decide_eq_true_eq] at h0
      exact hne (by simpa using h0 _ (List.getElem_mem hi))
    · exact List.getD_eq_default _ _ (by omega)
  · rcases (generate_size c _ _ t ht).2 with h | h | h
    · rw [h]; exact hr
    · rw [h, map_neg, hr]
    · exact absurd h ht0

theorem classical_small {no : ℕ} (hno : no ≤ 3) (S : ℝ) (A : Fin (2 * no) → Fin (2 * no) → Fin (2 * no) → Fin (2 * no) → ℂ)
    (hr : ∀ a b c d, (starRingEnd ℂ) (A a b c d) = A a b c d)
    (hs : ∀ i k j l, S ≤ ‖A i k j l‖ → i ≠ k ∧ j ≠ l ∧ shift no i.val k.val j.val l.val = 0) (B : OpD FStr ℂ) (x : ℝ)
    (hB : Collect.classical S A = some (B, x)) : GoodOp no B := by
  unfold Collect.classical at hB
  obtain ⟨B', b1, b2⟩ := Option.bind_eq_some_iff.mp hB
  split at b2
  · obtain ⟨rfl, _⟩ := Prod.mk.inj (Option.some.inj b2)
    unfold resOp at b1
    obtain ⟨us, u1, rfl⟩ := Option.map_eq_some_iff.mp b1
    refine GoodOp.foldl us (fun u hu => ?_) [] (fun t ht => by simp at ht)
    obtain ⟨t, ht, e⟩ := mapM_mem_of _ _ _ u1 u hu
    unfold resTerms at ht
    simp only [List.mem_flatMap, List.mem_finRange, true_and] at ht
    obtain ⟨i, k, j, l, ht⟩ := ht
    split at ht
    · rename_i hc
      rw [List.mem_singleton] at ht
      subst ht
      have hkeep : S ≤ ‖A i k j l‖ := by
        have := hc.2
        unfold Collect.above at this
        simpa using this
      obtain ⟨q1, q2, q3⟩ := hs _ _ _ _ hkeep
      refine gen_small no hno _ (neg_ne_zero.mpr fun h0 => ?_) (by rw [map_neg, hr]) i k j l q1 q2 q3 u e
      have := (Coef.isZero_iff (A i k j l)).mpr h0
      rw [this] at hc
      exact absurd hc.1 (by simp)
    · simp at ht
  · exact absurd b2 (by simp)

theorem residual_real3 {r : ℕ} (k D : Fin r → Fin r → Fin r → Fin r → ℂ) (D3 : Fin r → Fin r → Fin r → Fin r → Fin r → Fin r → ℂ)
    (hk : ∀ a b c d, (starRingEnd ℂ) (k a b c d) = k a b c d) (hD : ∀ a b c d, (starRingEnd ℂ) (D a b c d) = D a b c d)
    (h3 : ∀ a b c d e f, (starRingEnd ℂ) (D3 a b c d e f) = D3 a b c d e f) (a b c d : Fin r) :
    (starRingEnd ℂ) (Resid.residual k D D3 a b c d) = Resid.residual k D D3 a b c d := by
  unfold Resid.residual wmat
  simp only [map_sub, map_add, map_sum, map_mul, hk, hD, h3, map_zero]

theorem tensor_real (p : ℕ) (im : Bool) (no na nb : ℕ) (col : List PStr → ℕ → ℕ) {h1 : Fin (2 * no) → Fin (2 * no) → ℂ}
    {V : Fin (2 * no) → Fin (2 * no) → Fin (2 * no) → Fin (2 * no) → ℂ} (h : SpinInts no h1 V) (L : List (OpD FStr ℂ))
    (A : Fin (2 * no) → Fin (2 * no) → Fin (2 * no) → Fin (2 * no) → ℂ) (hA : ClassResid.tensor p im no na nb col h1 V L = some A) (a b c d : Fin (2 * no)) :
    (starRingEnd ℂ) (A a b c d) = A a b c d := by
  have r2 : ∀ D : List ℕ → ℂ, ∀ a b c d : Fin (2 * no), (starRingEnd ℂ) (EulerRun.real2 D a b c d) = EulerRun.real2 D a b c d := fun D a b c d => by
    unfold EulerRun.real2; exact Complex.conj_ofReal _
  unfold ClassResid.tensor at hA
  split at hA
  · obtain ⟨_, _, hA⟩ := Option.bind_eq_some_iff.mp hA
    obtain ⟨D, _, rfl⟩ := Option.map_eq_some_iff.mp hA
    exact residual_real3 _ _ _ (k2_realC h.real1 h.real2 _) (r2 D) (fun _ _ _ _ _ _ => map_zero _) _ _ _ _
  · split at hA
    · obtain ⟨_, _, hA⟩ := Option.bind_eq_some_iff.mp hA
      obtain ⟨D3, _, hA⟩ := Option.bind_eq_some_iff.mp hA
      obtain ⟨D2, _, rfl⟩ := Option.map_eq_some_iff.mp hA
      exact residual_real3 _ _ _ (k2_realC h.real1 h.real2 _) (r2 D2) (fun _ _ _ _ _ _ => by unfold ClassResid.real3; exact Complex.conj_ofReal _) _ _ _ _
    · simp at hA

/-! ### The residual operator of an ansatz -/

theorem getA3_ok (p : ℕ) (o : Opt) (hcol : ColouringOK o.colA) (no na nb : ℕ) (ha : na ≤ no) (hb : nb ≤ no) (hne : na + nb ≠ 1)
    (hp : (p = 2 ∧ 0 < no ∧ na + nb < 3) ∨ (p = 3 ∧ 1 < no ∧ na + nb ≠ 2))
    (h1 : Fin (2 * no) → Fin (2 * no) → ℂ) (V : Fin (2 * no) → Fin (2 * no) → Fin (2 * no) → Fin (2 * no) → ℂ) (hh : ∀ a b, h1 a b = h1 b a)
    (hV : ∀ a b c d, V a b c d = V c d a b) (hx : ∀ a b c d, V a b c d = V b a d c) (L : List (OpD FStr ℂ)) (hL : ∀ A ∈ L, LayerOK no A) :
    ∃ x, EulerRun3.getA p o no na nb h1 V L = some x := by
  obtain ⟨_, _, _, B, x, _, _, _, _, e, _⟩ := C159_operator_partial o.smin p false no na nb ha hb hne hp o.colA hcol h1 V hh hV hx L hL
  exact ⟨_, by unfold EulerRun3.getA; rw [e]; rfl⟩

/-- In at most three spatial orbitals, above the accuracy, the residual operator moves at most one electron of each spin. -/
theorem getA3_small (p : ℕ) (o : Opt) (hcol : ColouringOK o.colA) (no na nb : ℕ) (h3 : no ≤ 3) (ha : na ≤ no) (hb : nb ≤ no) (hne : na + nb ≠ 1)
    (hp : (p = 2 ∧ 0 < no ∧ na + nb < 3) ∨ (p = 3 ∧ 1 < no ∧ na + nb ≠ 2))
    (h1 : Fin (2 * no) → Fin (2 * no) → ℂ) (V : Fin (2 * no) → Fin (2 * no) → Fin (2 * no) → Fin (2 * no) → ℂ) (hs : SpinInts no h1 V) (hh : ∀ a b, h1 a b = h1 b a)
    (hV : ∀ a b c d, V a b c d = V c d a b) (hx : ∀ a b c d, V a b c d = V b a d c) (hS : (8 * no + 12) * tolE no (na + nb) h1 V < o.smin)
    (L : List (OpD FStr ℂ)) (hL : ∀ A ∈ L, LayerOK no A) (x : OpD FStr ℂ × ℝ) (e : EulerRun3.getA p o no na nb h1 V L = some x) : GoodOp no x.1 := by
  obtain ⟨_, _, Ψ, A, _, _, _, _, s8, s6, s7⟩ := C159_residual_partial p false no na nb ha hb hne hp o.colA hcol h1 V hh hV hx L hL
  unfold EulerRun3.getA ClassResid.solve at e
  rw [s6, Option.bind_some] at e
  obtain ⟨y, y1, rfl⟩ := Option.map_eq_some_iff.mp e
  refine GoodOp.relTrunc (classical_small h3 o.smin A (tensor_real p false no na nb o.colA hs L A s6) (fun i k j l hk => ?_) y.1 y.2 y1) o.thr
  have hnz : pair Ψ ((gop i k j l * secondQ h1 V - secondQ h1 V * gop i k j l : Oper ℂ) Ψ) ≠ 0 := by
    intro h0
    have := s7 i k j l
    rw [h0, sub_zero] at this
    linarith
  have g0 : (gop i k j l : Oper ℂ) ≠ 0 := by
    intro h0
    refine hnz ?_
    rw [h0, zero_mul, mul_zero, sub_zero, LinearMap.zero_apply]
    simp [pair, Finsupp.sum]
  refine ⟨?_, ?_, by_contra fun hw => hnz (spin_zero hs Ψ s8 i k j l hw)⟩
  · rintro rfl
    refine g0 ?_
    unfold gop
    rw [← mul_assoc, show (cre i.val * cre i.val : Oper ℂ) = 0 from fop_contr_zero i.val .cr .cr rfl, zero_mul]
  · rintro rfl
    refine g0 ?_
    unfold gop
    rw [show (ann j.val * ann j.val : Oper ℂ) = 0 from fop_contr_zero j.val .an .an rfl, mul_zero, mul_zero]

/-! ### The run -/

theorem after3_len (p : ℕ) (o : Opt) (no na nb : ℕ) (h1 : Fin (2 * no) → Fin (2 * no) → ℂ) (V : Fin (2 * no) → Fin (2 * no) → Fin (2 * no) → Fin (2 * no) → ℂ) (enc : ℝ)
    (n : ℕ) (s : Euler.St FStr ℂ) (h : EulerRun3.after p o no na nb h1 V enc n = some s) : s.psi.length ≤ n := by
  induction n generalizing s with
  | zero =>
    unfold EulerRun3.after EulerRun3.start at h
    obtain ⟨x, _, rfl⟩ := Option.map_eq_some_iff.mp h
    simp
  | succ n ih =>
    unfold EulerRun3.after at h
    obtain ⟨t, t1, t2⟩ := Option.bind_eq_some_iff.mp h
    obtain ⟨y, y1, rfl⟩ := Option.map_eq_some_iff.mp t2
    unfold EulerRun3.step at y1
    obtain ⟨e, _, e2⟩ := Option.bind_eq_some_iff.mp y1
    obtain ⟨z, _, rfl⟩ := Option.map_eq_some_iff.mp e2
    exact (ansatz_add_length _ _).trans (by have := ih t t1; omega)

theorem loop3_obs (P : Par ℝ) (p : ℕ) (o : Opt) (hcol : ColouringOK o.col) (hcolA : ColouringOK o.colA) (no na nb : ℕ) (hno : 0 < no) (ha : na ≤ no) (hb : nb ≤ no)
    (hne : na + nb ≠ 1) (hp : (p = 2 ∧ 0 < no ∧ na + nb < 3) ∨ (p = 3 ∧ 1 < no ∧ na + nb ≠ 2))
    (h1 : Fin (2 * no) → Fin (2 * no) → ℂ) (V : Fin (2 * no) → Fin (2 * no) → Fin (2 * no) → Fin (2 * no) → ℂ) (hh : ∀ a b, h1 a b = h1 b a)
    (hV : ∀ a b c d, V a b c d = V c d a b) (hx : ∀ a b c d, V a b c d = V b a d c) (enc : ℝ) (M : ℕ) (hdep : M < o.depth)
    (hi : ∀ n < M, ∀ s, EulerRun3.after p o no na nb h1 V enc n = some s → ∀ A ∈ (Euler.step 1 (o.eps : ℂ) s).psi, LayerOK no A) :
    ∀ (n m : ℕ) (s : Euler.St FStr ℂ), m + n = M → EulerRun3.after p o no na nb h1 V enc m = some s →
      ∃ os : List (Obs ℝ), os.length = n ∧ (∀ ob ∈ os, ob.deep = false ∧ IsEnergy no na nb h1 V enc ob.en) ∧
        ∀ d, EulerRun3.loop P p o no na nb h1 V enc n d s = ACSE.run P os d := by
  intro n
  induction n with
  | zero => exact fun m s _ _ => ⟨[], rfl, by simp, fun d => rfl⟩
  | succ n ih =>
    intro m s hm has
    have hL := hi m (by omega) s has
    obtain ⟨_, _, Ψ, E, _, _, _, a1, a2, a3, a4⟩ := C115_energy_partial no na nb hno ha hb hne o.col hcol h1 V hh hV enc _ hL
    obtain ⟨y, y1⟩ := getA3_ok p o hcolA no na nb ha hb hne hp h1 V hh hV hx _ hL
    have hlen : (Euler.step 1 (o.eps : ℂ) s).psi.length ≤ m + 1 :=
      (ansatz_add_length _ _).trans (by have := after3_len p o no na nb h1 V enc m s has; omega)
    have hstep : EulerRun3.step p o no na nb h1 V enc s =
        some (⟨(Euler.step 1 (o.eps : ℂ) s).psi, y.1⟩, ⟨E, y.2, 0, 0, decide ((Euler.step 1 (o.eps : ℂ) s).psi.length = o.depth)⟩) := by
      unfold EulerRun3.step
      simp only
      rw [a3, Option.bind_some, y1]
      rfl
    obtain ⟨os, o1, o2, o3⟩ := ih (m + 1) _ (by omega) (by rw [EulerRun3.after, has, Option.bind_some, hstep]; rfl)
    refine ⟨⟨E, y.2, 0, 0, decide ((Euler.step 1 (o.eps : ℂ) s).psi.length = o.depth)⟩ :: os, by rw [List.length_cons, o1], ?_, fun d => ?_⟩
    · intro ob hob
      rcases List.mem_cons.mp hob with rfl | hob
      · exact ⟨decide_eq_false (by omega), Ψ, a1, a2, a4⟩
      · exact o2 ob hob
    · unfold EulerRun3.loop ACSE.run
      split
      · rfl
      · rw [hstep, Option.bind_some]
        congr 1
        funext d'
        exact o3 d'

/-- **C160, partial.** A closed Euler run with the classical solver, the residual from a two-body tomography (fewer than three electrons) or a three-body one, in which every
ansatz reached is made of layers as in C115: the run completes within `max_iter` iterations; the energy it reports is not above the Hartree–Fock energy, is within the
accuracy of one evaluation the energy of a normalised state with the right numbers of electrons, and not below the lowest energy of these states by more than that.
Missing: layers whose Trotterised circuit does not conserve the numbers of electrons, one electron, the orders that raise (C159), and reaching the maximal depth. -/
theorem C160_run_partial (P : Par ℝ) (hP : 0 < P.maxIter) (hc : P.conv = .norm) (p : ℕ) (o : Opt) (hcol : ColouringOK o.col) (hcolA : ColouringOK o.colA)
    (hdep : P.maxIter < o.depth) (no na nb : ℕ) (hno : 0 < no) (ha : na ≤ no) (hb : nb ≤ no) (hne : na + nb ≠ 1) (hsz : SpinOK na nb)
    (hp : (p = 2 ∧ 0 < no ∧ na + nb < 3) ∨ (p = 3 ∧ 1 < no ∧ na + nb ≠ 2))
    (h1 : Fin (2 * no) → Fin (2 * no) → ℂ) (V : Fin (2 * no) → Fin (2 * no) → Fin (2 * no) → Fin (2 * no) → ℂ) (hh : ∀ a b, h1 a b = h1 b a)
    (hV : ∀ a b c d, V a b c d = V c d a b) (hx : ∀ a b c d, V a b c d = V b a d c) (enc : ℝ)
    (hi : ∀ n < P.maxIter, ∀ s, EulerRun3.after p o no na nb h1 V enc n = some s → ∀ A ∈ (Euler.step 1 (o.eps : ℂ) s).psi, LayerOK no A) :
    ∃ s, EulerRun3.run P p o no na nb h1 V enc P.maxIter = some s ∧ s.iter ≤ P.maxIter ∧ s.done = true ∧
      s.best ≤ (pair (det (hfCfg no na nb)) (secondQ h1 V (det (hfCfg no na nb) : Cfg →₀ ℂ))).re + enc ∧
      IsEnergy no na nb h1 V enc s.best ∧
      ∀ E0 : ℝ, (∀ φ : Cfg →₀ ℂ, pair φ φ = 1 → (∀ b, φ b ≠ 0 → InSec no (2 * no) na (na + nb) b) → E0 ≤ (pair φ (secondQ h1 V φ)).re) →
        E0 + enc - tolE no (na + nb) h1 V ≤ s.best := by
  obtain ⟨x, x1⟩ := getA3_ok p o hcolA no na nb ha hb hne hp h1 V hh hV hx [] (by simp)
  have hst : EulerRun3.start p o no na nb h1 V = some ⟨[], x.1⟩ := by unfold EulerRun3.start; rw [x1]; rfl
  obtain ⟨os, o1, o2, o3⟩ := loop3_obs P p o hcol hcolA no na nb hno ha hb hne hp h1 V hh hV hx enc P.maxIter hdep hi P.maxIter 0 _ (by omega) hst
  obtain ⟨s, e1, e2, e3, e4⟩ := run_of_obs P hP (by rw [hc]; simp) no na nb ha hb h1 V enc os o2
  refine ⟨s, ?_, e2, e3 (by omega), e4⟩
  unfold EulerRun3.run
  rw [C113_acse_partial no na nb ha hb hne hsz h1 V hh hV enc, Option.bind_some, hst, Option.bind_some, o3]
  exact e1

theorem after3_good (p : ℕ) (o : Opt) (hcolA : ColouringOK o.colA) (no na nb : ℕ) (h3 : no ≤ 3) (ha : na ≤ no) (hb : nb ≤ no) (hne : na + nb ≠ 1)
    (hp : (p = 2 ∧ 0 < no ∧ na + nb < 3) ∨ (p = 3 ∧ 1 < no ∧ na + nb ≠ 2))
    (h1 : Fin (2 * no) → Fin (2 * no) → ℂ) (V : Fin (2 * no) → Fin (2 * no) → Fin (2 * no) → Fin (2 * no) → ℂ) (hs : SpinInts no h1 V) (hh : ∀ a b, h1 a b = h1 b a)
    (hV : ∀ a b c d, V a b c d = V c d a b) (hx : ∀ a b c d, V a b c d = V b a d c) (hS : (8 * no + 12) * tolE no (na + nb) h1 V < o.smin) (enc : ℝ) (M : ℕ)
    (hi : ∀ n < M, ∀ s, EulerRun3.after p o no na nb h1 V enc n = some s → ∀ A ∈ (Euler.step 1 (o.eps : ℂ) s).psi, ImagForm A)
    (n : ℕ) (hn : n ≤ M) (s : Euler.St FStr ℂ) (h : EulerRun3.after p o no na nb h1 V enc n = some s) : GoodOp no s.A ∧ ∀ A ∈ s.psi, GoodOp no A := by
  induction n generalizing s with
  | zero =>
    unfold EulerRun3.after EulerRun3.start at h
    obtain ⟨x, x1, rfl⟩ := Option.map_eq_some_iff.mp h
    exact ⟨getA3_small p o hcolA no na nb h3 ha hb hne hp h1 V hs hh hV hx hS [] (by simp) x x1, by simp⟩
  | succ n ih =>
    unfold EulerRun3.after at h
    obtain ⟨t, t1, t2⟩ := Option.bind_eq_some_iff.mp h
    obtain ⟨g1, g2⟩ := ih (by omega) t t1
    have gp : ∀ A ∈ (Euler.step 1 (o.eps : ℂ) t).psi, GoodOp no A := add_good g2 (g1.scaled o.eps)
    have hi' := hi n (by omega) t t1
    obtain ⟨y, y1, rfl⟩ := Option.map_eq_some_iff.mp t2
    unfold EulerRun3.step at y1
    obtain ⟨e, _, e2⟩ := Option.bind_eq_some_iff.mp y1
    obtain ⟨z, z1, rfl⟩ := Option.map_eq_some_iff.mp e2
    exact ⟨getA3_small p o hcolA no na nb h3 ha hb hne hp h1 V hs hh hV hx hS _ (fun A hA => (gp A hA).ok (hi' A hA)) z z1, gp⟩

/-- **C160, at most three spatial orbitals, partial.** As `C160_run_partial` for any number of electrons in two or three spatial orbitals: the condition on the layers is
derived.  Excitations that change the spin are below the threshold, and in three orbitals no excitation moves two electrons of one spin.  Missing: what is missing from
`C160_run_partial`; a threshold below the accuracy; layers whose Pauli form keeps a real coefficient after cancellation (`ImagForm`), which the circuit would use as an angle. -/
theorem C160_small_partial (P : Par ℝ) (hP : 0 < P.maxIter) (hc : P.conv = .norm) (p : ℕ) (o : Opt) (hcol : ColouringOK o.col) (hcolA : ColouringOK o.colA)
    (hdep : P.maxIter < o.depth) (no na nb : ℕ) (hno : 0 < no) (h3 : no ≤ 3) (ha : na ≤ no) (hb : nb ≤ no) (hne : na + nb ≠ 1) (hsz : SpinOK na nb)
    (hp : (p = 2 ∧ 0 < no ∧ na + nb < 3) ∨ (p = 3 ∧ 1 < no ∧ na + nb ≠ 2))
    (h1 : Fin (2 * no) → Fin (2 * no) → ℂ) (V : Fin (2 * no) → Fin (2 * no) → Fin (2 * no) → Fin (2 * no) → ℂ) (hs : SpinInts no h1 V) (hh : ∀ a b, h1 a b = h1 b a)
    (hV : ∀ a b c d, V a b c d = V c d a b) (hx : ∀ a b c d, V a b c d = V b a d c) (hS : (8 * no + 12) * tolE no (na + nb) h1 V < o.smin) (enc : ℝ)
    (hi : ∀ n < P.maxIter, ∀ s, EulerRun3.after p o no na nb h1 V enc n = some s → ∀ A ∈ (Euler.step 1 (o.eps : ℂ) s).psi, ImagForm A) :
    ∃ s, EulerRun3.run P p o no na nb h1 V enc P.maxIter = some s ∧ s.iter ≤ P.maxIter ∧ s.done = true ∧
      s.best ≤ (pair (det (hfCfg no na nb)) (secondQ h1 V (det (hfCfg no na nb) : Cfg →₀ ℂ))).re + enc ∧
      IsEnergy no na nb h1 V enc s.best ∧
      ∀ E0 : ℝ, (∀ φ : Cfg →₀ ℂ, pair φ φ = 1 → (∀ b, φ b ≠ 0 → InSec no (2 * no) na (na + nb) b) → E0 ≤ (pair φ (secondQ h1 V φ)).re) →
        E0 + enc - tolE no (na + nb) h1 V ≤ s.best :=
  C160_run_partial P hP hc p o hcol hcolA hdep no na nb hno ha hb hne hsz hp h1 V hh hV hx enc fun n hn s h A hA => by
    obtain ⟨g1, g2⟩ := after3_good p o hcolA no na nb h3 ha hb hne hp h1 V hs hh hV hx hS enc P.maxIter hi n (by omega) s h
    exact (add_good g2 (g1.scaled o.eps) A hA).ok (hi n hn s h A hA)

/-! ### A stationary reference -/

theorem strings_empty (L : List (OpD FStr ℂ)) (h : ∀ A ∈ L, A = []) : ACSEEn.strings L = some [] := by
  have e : L.mapM (OpD.transform Transform.jordanWigner) = some (L.map fun _ => []) := by
    induction L with
    | nil => rfl
    | cons A L ih =>
      rw [List.mapM_cons, ih fun B hB => h B (List.mem_cons_of_mem _ hB), h A List.mem_cons_self]
      rfl
  unfold ACSEEn.strings
  rw [e, Option.map_some]
  congr 1
  exact List.flatten_eq_nil_iff.mpr fun l hl => by
    obtain ⟨_, _, rfl⟩ := List.mem_map.mp hl
    rfl

theorem empty_ok (no : ℕ) : LayerOK no [] :=
  GoodOp.ok (fun t ht => absurd ht (by simp)) fun C hC u hu => by
    obtain rfl : ([] : OpD PStr ℂ) = C := by
      have : OpD.transform Transform.jordanWigner ([] : OpD FStr ℂ) = some [] := rfl
      rw [this] at hC
      exact Option.some.inj hC
    exact absurd hu (by simp)

theorem step_empty (e : ℂ) (s : Euler.St FStr ℂ) (h1 : s.A = []) (h2 : ∀ A ∈ s.psi, A = []) : ∀ A ∈ (Euler.step 1 e s).psi, A = [] := by
  intro A hA
  have hA' : A ∈ Ansatz.add 1 s.psi (Euler.scaled e s.A) := hA
  rw [h1] at hA'
  unfold Ansatz.add at hA'
  split at hA'
  · rw [List.mem_singleton] at hA'
    rw [hA']; rfl
  · rename_i hn
    unfold Ansatz.clean Ansatz.layers at hA'
    rw [if_neg hn, if_pos rfl] at hA'
    obtain ⟨B, hB, rfl⟩ := List.mem_map.mp (List.mem_filter.mp hA').1
    rcases List.mem_append.mp hB with hB | hB
    · rw [h2 B hB]; rfl
    · rw [List.mem_singleton] at hB
      rw [hB]; rfl

/-- **C160, partial.** If the Hartree–Fock determinant is an eigenstate and the threshold is above the accuracy, the run never moves: the search direction is empty at every
iteration, the ansatz has empty layers only, and the run completes as in `C160_run_partial`, for every number of orbitals.  (Limits as there.) -/
theorem C160_stationary_partial (P : Par ℝ) (hP : 0 < P.maxIter) (hc : P.conv = .norm) (p : ℕ) (o : Opt) (hcol : ColouringOK o.col) (hcolA : ColouringOK o.colA)
    (hdep : P.maxIter < o.depth) (no na nb : ℕ) (hno : 0 < no) (ha : na ≤ no) (hb : nb ≤ no) (hne : na + nb ≠ 1) (hsz : SpinOK na nb)
    (hp : (p = 2 ∧ 0 < no ∧ na + nb < 3) ∨ (p = 3 ∧ 1 < no ∧ na + nb ≠ 2))
    (h1 : Fin (2 * no) → Fin (2 * no) → ℂ) (V : Fin (2 * no) → Fin (2 * no) → Fin (2 * no) → Fin (2 * no) → ℂ) (hh : ∀ a b, h1 a b = h1 b a)
    (hV : ∀ a b c d, V a b c d = V c d a b) (hx : ∀ a b c d, V a b c d = V b a d c) (r1 : ∀ a b, (starRingEnd ℂ) (h1 a b) = h1 a b)
    (r2 : ∀ a b c d, (starRingEnd ℂ) (V a b c d) = V a b c d) (hS : (8 * no + 12) * tolE no (na + nb) h1 V < o.smin)
    (E : ℝ) (hE : secondQ h1 V (ket (hfCfg no na nb)) = (E : ℂ) • ket (hfCfg no na nb)) (enc : ℝ) :
    (∀ n s, EulerRun3.after p o no na nb h1 V enc n = some s → s.A = [] ∧ ∀ A ∈ s.psi, A = []) ∧
    ∃ s, EulerRun3.run P p o no na nb h1 V enc P.maxIter = some s ∧ s.iter ≤ P.maxIter ∧ s.done = true ∧
      s.best ≤ (pair (det (hfCfg no na nb)) (secondQ h1 V (det (hfCfg no na nb) : Cfg →₀ ℂ))).re + enc ∧ IsEnergy no na nb h1 V enc s.best := by
  have key : ∀ L : List (OpD FStr ℂ), (∀ A ∈ L, A = []) → ∀ x, EulerRun3.getA p o no na nb h1 V L = some x → x.1 = [] := by
    intro L hL x hxx
    obtain ⟨y, hy⟩ := C159_stationary_partial o.smin p false no na nb ha hb hne hp o.colA hcolA h1 V hh hV hx r1 r2 L (fun A hA => by rw [hL A hA]; exact empty_ok no) hS
      (fun psi Us hpsi hU => by
        rw [strings_empty L hL] at hpsi
        obtain rfl := Option.some.inj hpsi
        cases hU
        exact ⟨E, hE⟩)
    unfold EulerRun3.getA at hxx
    rw [hy] at hxx
    obtain rfl := Option.some.inj hxx
    rfl
  have inv : ∀ n s, EulerRun3.after p o no na nb h1 V enc n = some s → s.A = [] ∧ ∀ A ∈ s.psi, A = [] := by
    intro n
    induction n with
    | zero =>
      intro s h
      unfold EulerRun3.after EulerRun3.start at h
      obtain ⟨x, x1, rfl⟩ := Option.map_eq_some_iff.mp h
      exact ⟨key [] (by simp) x x1, by simp⟩
    | succ n ih =>
      intro s h
      unfold EulerRun3.after at h
      obtain ⟨t, t1, t2⟩ := Option.bind_eq_some_iff.mp h
      obtain ⟨g1, g2⟩ := ih t t1
      obtain ⟨y, y1, rfl⟩ := Option.map_eq_some_iff.mp t2
      unfold EulerRun3.step at y1
      obtain ⟨e, _, e2⟩ := Option.bind_eq_some_iff.mp y1
      obtain ⟨z, z1, rfl⟩ := Option.map_eq_some_iff.mp e2
      have gp := step_empty (o.eps : ℂ) t g1 g2
      exact ⟨key _ gp z z1, gp⟩
  refine ⟨inv, ?_⟩
  obtain ⟨s, e1, e2, e3, e4, e5, _⟩ := C160_run_partial P hP hc p o hcol hcolA hdep no na nb hno ha hb hne hsz hp h1 V hh hV hx enc fun n _ s h A hA => by
    obtain ⟨g1, g2⟩ := inv n s h
    rw [step_empty (o.eps : ℂ) s g1 g2 A hA]
    exact empty_ok no
  exact ⟨s, e1, e2, e3, e4, e5⟩

/-- A two-body tomography with three or more electrons, and a three-body one with two, end the run with an error. -/
theorem C160_raises (P : Par ℝ) (p : ℕ) (o : Opt) (no na nb : ℕ) (hp : (p = 2 ∧ 3 ≤ na + nb) ∨ (p = 3 ∧ na + nb = 2)) (h1 : Fin (2 * no) → Fin (2 * no) → ℂ)
    (V : Fin (2 * no) → Fin (2 * no) → Fin (2 * no) → Fin (2 * no) → ℂ) (enc : ℝ) (n : ℕ) : EulerRun3.run P p o no na nb h1 V enc n = none := by
  have h : EulerRun3.start p o no na nb h1 V = none := by
    unfold EulerRun3.start EulerRun3.getA ClassResid.solve
    rw [C159_raises p false no na nb hp o.colA h1 V []]
    rfl
  unfold EulerRun3.run
  rw [h]
  cases HFStore.acseE0 no na nb h1 V enc <;> rfl

/-- For fewer than three electrons and a two-body tomography this is the run of C121. -/
theorem C160_two (P : Par ℝ) (o : Opt) (no na nb : ℕ) (hn : na + nb < 3) (h1 : Fin (2 * no) → Fin (2 * no) → ℂ)
    (V : Fin (2 * no) → Fin (2 * no) → Fin (2 * no) → Fin (2 * no) → ℂ) (enc : ℝ) (n : ℕ) :
    EulerRun3.run P 2 o no na nb h1 V enc n = EulerRun.run P o no na nb h1 V enc n := by
  have g : EulerRun3.getA 2 o no na nb h1 V = EulerRun.getA o no na nb h1 V := by
    funext L
    unfold EulerRun3.getA ClassResid.solve ClassResid.tensor EulerRun.getA
    rw [if_pos ⟨hn, rfl⟩, if_pos hn]
    cases ACSEEn.state no na nb L with
    | none => rfl
    | some prep =>
      simp only [Option.bind_some, Option.map_bind, Option.bind_map]
      rfl
  have st : EulerRun3.step 2 o no na nb h1 V enc = EulerRun.step o no na nb h1 V enc := by
    funext s
    unfold EulerRun3.step EulerRun.step
    rw [g]
  have lp : ∀ n d s, EulerRun3.loop P 2 o no na nb h1 V enc n d s = EulerRun.loop P o no na nb h1 V enc n d s := by
    intro n
    induction n with
    | zero => exact fun _ _ => rfl
    | succ n ih =>
      intro d s
      unfold EulerRun3.loop EulerRun.loop
      rw [st]
      simp only [ih]
  unfold EulerRun3.run EulerRun.run EulerRun3.start EulerRun.start
  rw [g]
  simp only [lp]

/-- Non-interacting electrons, four in three spatial orbitals with energies −2, −1, 1: the hypotheses of `C160_stationary_partial` and `C160_small_partial` are met. -/
example (P : Par ℝ) (hP : 0 < P.maxIter) (hc : P.conv = .norm) (enc : ℝ) : ∃ (o : Opt) (h1 : Fin (2 * 3) → Fin (2 * 3) → ℂ) (s : St ℝ), h1 0 0 = -2 ∧
    EulerRun3.run P 3 o 3 2 2 h1 (fun _ _ _ _ => 0) enc P.maxIter = some s ∧ s.done = true := by
  let e : Fin (2 * 3) → ℝ := fun a => if a.val % 3 = 0 then -2 else if a.val % 3 = 1 then -1 else 1
  let h1 : Fin (2 * 3) → Fin (2 * 3) → ℂ := fun a b => if a = b then (e a : ℂ) else 0
  let V : Fin (2 * 3) → Fin (2 * 3) → Fin (2 * 3) → Fin (2 * 3) → ℂ := fun _ _ _ _ => 0
  let o : Opt := ⟨1, (8 * (3 : ℕ) + 12) * tolE 3 (2 + 2) h1 V + 1, 0, P.maxIter + 1, fun _ i => i, fun _ i => i⟩
  have hcol : ColouringOK (fun (_ : List PStr) i => i) := colouring_id
  have hE : secondQ h1 V (ket (hfCfg 3 2 2)) = ((∑ a, if hfCfg 3 2 2 a.val then e a else 0 : ℝ) : ℂ) • ket (hfCfg 3 2 2) := by
    funext b
    unfold secondQ
    simp only [V, h1, mul_zero, zero_smul, Finset.sum_const_zero, add_zero, ite_smul, Finset.sum_ite_eq, Finset.mem_univ, if_true]
    rw [LinearMap.sum_apply, Finset.sum_apply]
    push_cast
    rw [Pi.smul_apply, smul_eq_mul, Finset.sum_mul]
    refine Finset.sum_congr rfl fun a _ => ?_
    show (e a : ℂ) * (cre a.val * ann a.val : Oper ℂ) (ket (hfCfg 3 2 2)) b = _
    rw [number_apply]
    unfold ket
    by_cases hb : b = hfCfg 3 2 2
    · rw [hb]; split <;> simp_all
    · simp [hb]
  obtain ⟨_, s, s1, _, s2, _⟩ := C160_stationary_partial P hP hc 3 o hcol hcol (Nat.lt_succ_self _) 3 2 2 (by norm_num) (by norm_num) (by norm_num) (by norm_num)
    (by unfold SpinOK; simp) (Or.inr ⟨rfl, by norm_num, by norm_num⟩) h1 V (fun a b => by
      simp only [h1]
      by_cases h : a = b
      · rw [h]
      · rw [if_neg h, if_neg (Ne.symm h)]) (fun _ _ _ _ => rfl) (fun _ _ _ _ => rfl)
    (fun a b => by simp only [h1]; split <;> simp) (fun _ _ _ _ => by simp [V]) (by simp only [o]; linarith) _ hE enc
  exact ⟨o, h1, s, by simp [h1, e], s1, s2⟩

end
end Props
end HQCA
