import Verif.Model.Gates
import Verif.Spec.Gates
import Verif.Proofs.Circ
import Verif.Proofs.PTrace
import Verif.Proofs.Act

/-! # Gates: proofs -/

set_option linter.unusedSectionVars false

namespace HQCA
namespace Gates
section
variable {K : Type} [Coef K]

theorem ctlX_apply (ctl : List ℕ) (j : ℕ) (ψ : Cfg → K) (b : Cfg) :
    ctlOp ctl (site j mX) ψ b = ψ (if ∀ i ∈ ctl, b i = true then flipBit b j else b) := by
  show (if ∀ i ∈ ctl, b i = true then site j mX ψ b else ψ b) = _
  split
  · have := site_pmat_apply (K := K) j .X ψ b
    simpa [pmat, HQCA.ph, PL.l] using this
  · rfl

theorem bchar_idx' (n k : ℕ) (b : Cfg) (h : k < n) : Circ.bchar n (idx n b) k = b k := Circ.bchar_idx n k b h

theorem setBits_bchar (n l k : ℕ) (hl : l < 2 ^ n) (hk : k < n) (b : Cfg) : setBits n l b k = Circ.bchar n l k := by
  have := Circ.bchar_idx n k (setBits n l b) hk
  rw [idx_setBits n l b hl] at this
  exact this.symm

theorem holdM_eq (n : ℕ) (ctl : List ℕ) (j : ℕ) (hj : j < n) (hc : ∀ i ∈ ctl, i < n) (b : Cfg) (l : ℕ) (hl : l < 2 ^ n) :
    (Circ.holdM n ctl j (idx n b) l : K) =
      if l = idx n (if ∀ i ∈ ctl, b i = true then flipBit b j else b) then 1 else 0 := by
  unfold Circ.holdM
  have hall : ctl.all (fun i => Circ.bchar n (idx n b) i) = decide (∀ i ∈ ctl, b i = true) := by
    rw [Bool.eq_iff_iff, List.all_eq_true, decide_eq_true_eq]
    constructor
    · intro h i hi; rw [← Circ.bchar_idx n i b (hc i hi)]; exact h i hi
    · intro h i hi; rw [Circ.bchar_idx n i b (hc i hi)]; exact h i hi
  rw [hall]
  by_cases h : ∀ i ∈ ctl, b i = true
  · rw [decide_eq_true h, Bool.true_and, if_pos h]
    have hsame : Circ.sameBut n j (idx n b) l = true ↔ ∀ k < n, k ≠ j → b k = Circ.bchar n l k := by
      unfold Circ.sameBut
      rw [List.all_eq_true]
      constructor
      · intro h1 k hk hne
        have := h1 k (List.mem_range.mpr hk)
        rw [Bool.or_eq_true, decide_eq_true_eq, beq_iff_eq, Circ.bchar_idx n k b hk] at this
        exact this.resolve_left hne
      · intro h1 k hk
        have hk := List.mem_range.mp hk
        rw [Bool.or_eq_true, decide_eq_true_eq, beq_iff_eq, Circ.bchar_idx n k b hk]
        by_cases hkj : k = j
        · exact Or.inl hkj
        · exact Or.inr (h1 k hk hkj)
    have hflip : l = idx n (flipBit b j) ↔ (∀ k < n, k ≠ j → b k = Circ.bchar n l k) ∧ b j ≠ Circ.bchar n l j := by
      constructor
      · intro e
        subst e
        refine ⟨fun k hk hne => ?_, ?_⟩
        · rw [Circ.bchar_idx n k _ hk, flipBit, Function.update_of_ne hne]
        · rw [Circ.bchar_idx n j _ hj, flipBit, Function.update_self]; cases b j <;> simp
      · rintro ⟨h1, h2⟩
        rw [← PTrace.idx_bchar n l hl]
        apply idx_congr
        intro k hk
        unfold flipBit
        by_cases hkj : k = j
        · subst hkj; rw [Function.update_self]
          cases hb : b k <;> cases hc : Circ.bchar n l k <;> simp_all
        · rw [Function.update_of_ne hkj, h1 k hk hkj]
    by_cases hs : Circ.sameBut n j (idx n b) l = true
    · rw [if_pos hs, Circ.bchar_idx n j b hj]
      have hs' := hsame.mp hs
      by_cases hb : b j = Circ.bchar n l j
      · rw [if_pos hb, if_neg (fun e => (hflip.mp e).2 hb)]
      · rw [if_neg hb, if_pos (hflip.mpr ⟨hs', hb⟩)]
    · rw [if_neg hs, if_neg (fun e => hs (hsame.mpr (hflip.mp e).1))]
      unfold Circ.ident
      rw [if_neg]
      intro e
      apply hs
      rw [hsame]
      intro k hk _
      rw [← e, Circ.bchar_idx n k b hk]
  · rw [decide_eq_false h, Bool.false_and, if_neg h, if_neg (by simp)]
    unfold Circ.ident
    exact if_congr eq_comm rfl rfl

theorem ofMat_holdM (n : ℕ) (ctl : List ℕ) (j : ℕ) (hj : j < n) (hc : ∀ i ∈ ctl, i < n) :
    ofMat n (Circ.holdM n ctl j : Mat K) = ctlOp ctl (site j mX) := by
  ext ψ b
  rw [ofMat_apply, ctlX_apply, Finset.sum_congr rfl (fun l hl => by
    rw [holdM_eq n ctl j hj hc b l (Finset.mem_range.mp hl)])]
  simp only [ite_mul, one_mul, zero_mul]
  rw [Finset.sum_ite_eq', if_pos (Finset.mem_range.mpr (idx_lt _ _))]
  congr 1
  conv_rhs => rw [← setBits_idx n (if ∀ i ∈ ctl, b i = true then flipBit b j else b)]
  apply setBits_congr
  intro k hk
  split
  · rw [flipBit, Function.update_of_ne (by omega)]
  · rfl

/-- Meaning of one multiplication. -/
def denG : G K → Oper K
  | .sq g i => site i g
  | .ct ctl j => ctlOp ctl (site j mX)

/-- Meaning of a sequence: the last one acts last. -/
def denL (p : List (G K)) : Oper K := p.foldl (fun U g => denG g * U) 1

theorem denL_nil : (denL [] : Oper K) = 1 := rfl

theorem foldl_denG (p : List (G K)) (U : Oper K) : p.foldl (fun U g => denG g * U) U = denL p * U := by
  unfold denL
  induction p generalizing U with
  | nil => simp
  | cons g p ih => rw [List.foldl_cons, List.foldl_cons, ih, ih (denG g * 1), mul_one, mul_assoc]

theorem denL_cons (g : G K) (p : List (G K)) : denL (g :: p) = denL p * denG g := by
  rw [denL, List.foldl_cons, foldl_denG, mul_one]

theorem denL_append (p q : List (G K)) : denL (p ++ q) = denL q * denL p := by
  rw [denL, List.foldl_append, foldl_denG]; rfl

theorem denL_single (g : G K) : denL [g] = denG g := by rw [denL_cons, denL_nil, one_mul]

/-- The qubits of a multiplication are below `n`. -/
def Ok (n : ℕ) : G K → Prop
  | .sq _ i => i < n
  | .ct ctl j => j < n ∧ ∀ i ∈ ctl, i < n

theorem ofMat_run (n : ℕ) (p : List (G K)) (hp : ∀ g ∈ p, Ok n g) (m : Mat K) :
    ofMat n (run n p m) = denL p * ofMat n m := by
  induction p generalizing m with
  | nil => rw [denL_nil, one_mul]; rfl
  | cons g p ih =>
    have e : run n (g :: p) m = run n p (app n m g) := rfl
    rw [e, ih (fun x hx => hp x (by simp [hx])), denL_cons, mul_assoc]
    congr 1
    have hg := hp g (by simp)
    cases g with
    | sq g i => exact Circ.ofMat_applySqg n g i hg m
    | ct ctl j =>
      show ofMat n (Circ.applyCtl n ctl j m) = _
      unfold Circ.applyCtl
      rw [Circ.ofMat_dot, ofMat_holdM n ctl j hg.1 hg.2]
      rfl

/-! ### Multiplexed single-qubit gates -/

/-- `A` on qubit `j` where qubit `i` is `0`, `B` where it is `1`. -/
def mux (i j : ℕ) (A B : M2 K) : Oper K where
  toFun ψ := fun b => if b i then site j B ψ b else site j A ψ b
  map_add' ψ φ := by funext b; by_cases h : b i <;> simp [h]
  map_smul' c ψ := by funext b; by_cases h : b i <;> simp [h]

theorem mux_apply (i j : ℕ) (A B : M2 K) (ψ : Cfg → K) (b : Cfg) :
    mux i j A B ψ b = if b i then site j B ψ b else site j A ψ b := rfl

theorem mux_mul (i j : ℕ) (h : i ≠ j) (A B C D : M2 K) : mux i j A B * mux i j C D = mux i j (A * C) (B * D) := by
  ext ψ b
  rw [Module.End.mul_apply, mux_apply, mux_apply, site_mul, site_mul]
  simp only [Module.End.mul_apply, site_apply, mux_apply, Function.update_of_ne h]
  by_cases hb : b i <;> simp [hb]

theorem site_eq_mux (i j : ℕ) (A : M2 K) : site j A = mux i j A A := by
  ext ψ b; rw [mux_apply]; split <;> rfl

theorem ctl_eq_mux (i j : ℕ) (A : M2 K) : ctlOp [i] (site j A) = mux i j 1 A := by
  ext ψ b
  rw [mux_apply, site_one]
  show (if ∀ k ∈ [i], b k = true then _ else _) = _
  by_cases hb : b i <;> simp [hb]

theorem diag_eq_mux (i j : ℕ) (a d : K) : site i (Circ.arr a 0 0 d) = mux i j (a • 1) (d • 1) := by
  ext ψ b
  rw [mux_apply, site_smul, site_smul, site_one, site_apply]
  cases hb : b i
  · have : Function.update b i false = b := by rw [← hb]; exact Function.update_eq_self i b
    simp [Circ.arr, this]
  · have : Function.update b i true = b := by rw [← hb]; exact Function.update_eq_self i b
    simp [Circ.arr, this]

theorem arr_mul (a b c d a' b' c' d' : K) : Circ.arr a b c d * Circ.arr a' b' c' d' =
    Circ.arr (a * a' + b * c') (a * b' + b * d') (c * a' + d * c') (c * b' + d * d') := by
  apply M2.ext <;> simp [Matrix.mul_apply, Circ.arr] <;> ring

theorem arr_smul (x a b c d : K) : x • Circ.arr a b c d = Circ.arr (x * a) (x * b) (x * c) (x * d) := by
  apply M2.ext <;> simp [Circ.arr]

theorem one_eq_arr : (1 : M2 K) = Circ.arr 1 0 0 1 := by
  apply M2.ext <;> simp [Circ.arr]

theorem mX_eq_arr : (mX : M2 K) = Circ.arr 0 1 1 0 := by
  apply M2.ext <;> simp [Circ.arr, mX]
theorem mY_eq_arr : (mY : M2 K) = Circ.arr 0 (-I) I 0 := by
  apply M2.ext <;> simp [Circ.arr, mY]
theorem mZ_eq_arr : (mZ : M2 K) = Circ.arr 1 0 0 (-1) := by
  apply M2.ext <;> simp [Circ.arr, mZ]

end
end Gates
end HQCA
