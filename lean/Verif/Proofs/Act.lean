import Verif.Spec.Encode
import Verif.Proofs.Transform
import Verif.Proofs.Fermi

set_option linter.unusedSectionVars false

namespace HQCA
variable {K : Type} [Coef K]

/-- Sign of a bit. -/
def sg (b : Bool) : K := if b then -1 else 1

theorem sg_sq (b : Bool) : (sg b : K) * sg b = 1 := by cases b <;> simp [sg]

theorem sg_xor (a b : Bool) : (sg (xor a b) : K) = sg a * sg b := by cases a <;> cases b <;> simp [sg]

/-- Phase of a letter on a bit. -/
def ph : PL → Bool → K
  | .I, _ => 1
  | .X, _ => 1
  | .Z, b => sg b
  | .Y, b => -I * sg b

/-- Flip bit `q`. -/
def flipBit (b : Cfg) (q : ℕ) : Cfg := Function.update b q (!b q)

/-- Configuration reached by a string placed at `k`. -/
def fl (k : ℕ) (s : PStr) (e : Cfg) : Cfg := fun i =>
  xor (e i) (decide (k ≤ i) && (s.getD (i-k) .I).l)

/-- Phase of a string placed at `k`. -/
def phase (k : ℕ) (s : PStr) (e : Cfg) : K :=
  ∏ i ∈ Finset.range s.length, ph (s.getD i .I) (e (k+i))

theorem site_pmat_apply (k : ℕ) (p : PL) (ψ : Cfg → K) (e : Cfg) :
    site k (pmat p) ψ e = ph p (e k) * ψ (if p.l then flipBit e k else e) := by
  rw [site_apply]
  rcases h : e k
  · have : Function.update e k false = e := by rw [← h]; exact Function.update_eq_self k e
    cases p <;> simp [pmat, ph, PL.l, flipBit, h, sg, this]
  · have : Function.update e k true = e := by rw [← h]; exact Function.update_eq_self k e
    cases p <;> simp [pmat, ph, PL.l, flipBit, h, sg, this]

theorem denP_apply (k : ℕ) (s : PStr) (ψ : Cfg → K) (e : Cfg) :
    denP k s ψ e = phase k s e * ψ (fl k s e) := by
  induction s generalizing k e with
  | nil =>
    have : fl k [] e = e := by funext i; simp [fl, PL.l]
    simp [denP, phase, this]
  | cons p s ih =>
    simp only [denP, Module.End.mul_apply]
    rw [site_pmat_apply, ih]
    have h1 : (phase (k+1) s (if p.l then flipBit e k else e) : K) = phase (k+1) s e := by
      unfold phase
      apply Finset.prod_congr rfl
      intro i _
      split
      · rw [flipBit, Function.update_of_ne (by omega)]
      · rfl
    have h2 : (phase k (p :: s) e : K) = ph p (e k) * phase (k+1) s e := by
      unfold phase
      rw [List.length_cons, Finset.prod_range_succ', mul_comm]
      congr 1
      apply Finset.prod_congr rfl
      intro i _
      rw [List.getD_cons_succ]
      congr 2
      omega
    have h3 : fl (k+1) s (if p.l then flipBit e k else e) = fl k (p :: s) e := by
      funext i
      unfold fl
      rcases lt_trichotomy i k with h | h | h
      · have e1 : decide (k + 1 ≤ i) = false := by simp; omega
        have e2 : decide (k ≤ i) = false := by simp; omega
        rw [e1, e2]
        split
        · rw [flipBit, Function.update_of_ne (by omega)]; simp
        · simp
      · subst h
        cases hp : p.l <;> simp [flipBit, hp]
      · have e1 : decide (k + 1 ≤ i) = true := by simp; omega
        have e2 : decide (k ≤ i) = true := by simp; omega
        have e3 : i - k = (i - (k+1)) + 1 := by omega
        rw [e1, e2, e3, List.getD_cons_succ]
        split
        · rw [flipBit, Function.update_of_ne (by omega)]
        · rfl
    rw [h1, h2, h3, mul_assoc]

theorem fl_zero (s : PStr) (e : Cfg) (i : ℕ) : fl 0 s e i = xor (e i) (s.getD i .I).l := by
  simp [fl]

theorem phase_zero (s : PStr) (e : Cfg) :
    (phase 0 s e : K) = ∏ i ∈ Finset.range s.length, ph (s.getD i .I) (e i) := by
  simp [phase]

/-! ### Letters -/

theorem half_add_half : (1/2 + 1/2 : K) = 1 := by
  have : (2 : K) ≠ 0 := Coef.two_ne_zero'
  field_simp; norm_num

theorem update_of_not {b : Cfg} {q : ℕ} {v : Bool} (h : b q = !v) :
    Function.update b q v = flipBit b q := by
  unfold flipBit; rw [h, Bool.not_not]

theorem encodes_odd_gen (enc : Cfg → Cfg) (q : ℕ) (σ : Cfg → K) (F : Oper K) (o : FL)
    (ho : (o = .cr ∧ ∀ ψ b, F ψ b = if b q then σ b * ψ (Function.update b q false) else 0) ∨
      (o = .an ∧ ∀ ψ b, F ψ b = if b q then 0 else σ b * ψ (Function.update b q true)))
    (s1 s2 : PStr)
    (f1 : ∀ b, fl 0 s1 (enc b) = enc (flipBit b q)) (f2 : ∀ b, fl 0 s2 (enc b) = enc (flipBit b q))
    (p1 : ∀ b, (phase 0 s1 (enc b) : K) = σ b)
    (p2 : ∀ b, (phase 0 s2 (enc b) : K) = -I * (σ b * sg (b q))) :
    Encodes enc (denPO [(s1, 1/2), (s2, Transform.c2 o)] : Oper K) F := by
  intro ψ b
  have hh := half_add_half (K := K)
  simp only [denPO, OpD.denD_cons, OpD.denD_nil, add_zero, LinearMap.add_apply, LinearMap.smul_apply,
    Pi.add_apply, Pi.smul_apply, smul_eq_mul, denP_apply, f1, f2, p1, p2]
  have hI := I_mul_I (K := K)
  rcases ho with ⟨rfl, hF⟩ | ⟨rfl, hF⟩
  · rw [hF]
    rcases h : b q
    · simp only [Transform.c2, sg, Bool.false_eq_true, if_false]
      linear_combination (1/2 * σ b * ψ (enc (flipBit b q))) * hI
    · rw [if_pos rfl, update_of_not (by simp [h])]
      simp only [Transform.c2, sg, if_true]
      linear_combination (- 1/2 * σ b * ψ (enc (flipBit b q))) * hI +
        (σ b * ψ (enc (flipBit b q))) * hh
  · rw [hF]
    rcases h : b q
    · rw [if_neg (by simp), update_of_not (by simp [h])]
      simp only [Transform.c2, sg, Bool.false_eq_true, if_false]
      linear_combination (- (1 - 1/2) * σ b * ψ (enc (flipBit b q))) * hI
    · simp only [Transform.c2, sg, if_true]
      linear_combination ((1-1/2) * σ b * ψ (enc (flipBit b q))) * hI +
        (σ b * ψ (enc (flipBit b q))) * hh

theorem encodes_odd (enc : Cfg → Cfg) (q : ℕ) (o : FL) (ho : o = .cr ∨ o = .an) (s1 s2 : PStr)
    (f1 : ∀ b, fl 0 s1 (enc b) = enc (flipBit b q)) (f2 : ∀ b, fl 0 s2 (enc b) = enc (flipBit b q))
    (p1 : ∀ b, (phase 0 s1 (enc b) : K) = fsign b q)
    (p2 : ∀ b, (phase 0 s2 (enc b) : K) = -I * (fsign b q * sg (b q))) :
    Encodes enc (denPO [(s1, 1/2), (s2, Transform.c2 o)] : Oper K) (fop q o) := by
  refine encodes_odd_gen enc q (fun b => fsign b q) (fop q o) o ?_ s1 s2 f1 f2 p1 p2
  rcases ho with rfl | rfl
  · exact Or.inl ⟨rfl, fun _ _ => rfl⟩
  · exact Or.inr ⟨rfl, fun _ _ => rfl⟩

theorem fop_p_apply (q : ℕ) (ψ : Cfg → K) (b : Cfg) :
    (fop q .p ψ) b = if b q then ψ b else 0 := by
  have h1 : (fop q .p : Oper K) = site q mOcc := by rw [fop_eq]; simp [FL.odd, zs, qmat]
  rw [h1, site_apply]
  rcases h : b q
  · simp
  · have : Function.update b q true = b := by rw [← h]; exact Function.update_eq_self q b
    simp [this]

theorem fop_h_apply (q : ℕ) (ψ : Cfg → K) (b : Cfg) :
    (fop q .h ψ) b = if b q then 0 else ψ b := by
  have h1 : (fop q .h : Oper K) = site q mEmp := by rw [fop_eq]; simp [FL.odd, zs, qmat]
  rw [h1, site_apply]
  rcases h : b q
  · have : Function.update b q false = b := by rw [← h]; exact Function.update_eq_self q b
    simp [this]
  · simp

theorem encodes_even (enc : Cfg → Cfg) (q : ℕ) (o : FL) (ho : o = .p ∨ o = .h) (s1 s2 : PStr)
    (f1 : ∀ b, fl 0 s1 (enc b) = enc b) (f2 : ∀ b, fl 0 s2 (enc b) = enc b)
    (p1 : ∀ b, (phase 0 s1 (enc b) : K) = 1)
    (p2 : ∀ b, (phase 0 s2 (enc b) : K) = sg (b q)) :
    Encodes enc (denPO [(s1, 1/2), (s2, Transform.c2 o)] : Oper K) (fop q o) := by
  intro ψ b
  have hh := half_add_half (K := K)
  simp only [denPO, OpD.denD_cons, OpD.denD_nil, add_zero, LinearMap.add_apply, LinearMap.smul_apply,
    Pi.add_apply, Pi.smul_apply, smul_eq_mul, denP_apply, f1, f2, p1, p2]
  rcases ho with rfl | rfl
  · rw [fop_p_apply]
    rcases h : b q
    · simp only [Transform.c2, sg, Bool.false_eq_true, if_false]; ring
    · simp only [Transform.c2, sg, if_true]; linear_combination ψ (enc b) * hh
  · rw [fop_h_apply]
    rcases h : b q
    · simp only [Transform.c2, sg, Bool.false_eq_true, if_false]; ring
    · simp only [Transform.c2, sg, if_true]; linear_combination ψ (enc b) * hh

theorem Encodes.mul {enc : Cfg → Cfg} {P F P' F' : Oper K} (h : Encodes enc P F)
    (h' : Encodes enc P' F') : Encodes enc (P * P') (F * F') := by
  intro ψ b
  rw [Module.End.mul_apply, Module.End.mul_apply, h]
  have e : (fun b' => P' ψ (enc b')) = F' (fun b' => ψ (enc b')) := funext (fun b' => h' ψ b')
  rw [e]

theorem Encodes.one (enc : Cfg → Cfg) : Encodes enc (1 : Oper K) 1 := fun _ _ => rfl

theorem Encodes.smul {enc : Cfg → Cfg} {P F : Oper K} (c : K) (h : Encodes enc P F) :
    Encodes enc (c • P) (c • F) := by
  intro ψ b
  simp only [LinearMap.smul_apply, Pi.smul_apply, h ψ b]

theorem Encodes.add {enc : Cfg → Cfg} {P F P' F' : Oper K} (h : Encodes enc P F)
    (h' : Encodes enc P' F') : Encodes enc (P + P') (F + F') := by
  intro ψ b
  simp only [LinearMap.add_apply, Pi.add_apply, h ψ b, h' ψ b]

theorem encodes_id (P F : Oper K) : Encodes id P F ↔ P = F :=
  ⟨fun h => by ext ψ b; exact h ψ b, fun h => by subst h; exact fun _ _ => rfl⟩

/-- For a surjective encoding the encoded operator is determined. -/
theorem Encodes.unique {enc : Cfg → Cfg} (hs : Function.Surjective enc) {P P' F : Oper K}
    (h : Encodes enc P F) (h' : Encodes enc P' F) : P = P' := by
  ext ψ e
  obtain ⟨b, rfl⟩ := hs e
  rw [h, h']

end HQCA
