import Verif.Proofs.Primitives

/-!
# Properties C37 and C38: Pauli gadget and direct application of a Pauli string
-/

namespace HQCA.Props
open HQCA.Prim Real
noncomputable section

theorem denP_sq (k : ℕ) (s : PStr) : (denP k s * denP k s : Oper ℂ) = 1 := by
  induction s generalizing k with
  | nil => simp [denP]
  | cons p s ih =>
    have hp : (pmat p * pmat p : M2 ℂ) = 1 := by
      have hI := Complex.I_mul_I
      cases p <;> simp only [pmat]
      · simp
      · rw [mX_eq, mat2_mul, one_eq]; congr 1 <;> ring
      · rw [mY_eq, mat2_mul, one_eq]; congr 1
        all_goals first | ring1 | linear_combination -hI
      · rw [mZ_eq, mat2_mul, one_eq]; congr 1 <;> ring
    rw [denP]
    calc site k (pmat p) * denP (k + 1) s * (site k (pmat p) * denP (k + 1) s)
        = site k (pmat p) * (denP (k + 1) s * site k (pmat p)) * denP (k + 1) s := by simp only [mul_assoc]
      _ = site k (pmat p * pmat p) * (denP (k + 1) s * denP (k + 1) s) := by
          rw [← denP_site_lt (Nat.lt_succ_self k), site_mul]; simp only [mul_assoc]
      _ = 1 := by rw [hp, ih, site_one, one_mul]

theorem hasSum_euler1 (v : ℝ) (x : ℂ) (f : ℕ → ℂ) (he : ∀ m, f (2 * m) = x)  : HasSum (fun m : ℕ => ((Nat.factorial (2 * m) : ℂ))⁻¹ * ((Complex.I * v) ^ (2 * m) * f (2 * m)))
      (Complex.cos v * x) := by
    have := (Complex.hasSum_cos (v : ℂ)).mul_right x
    have e : (fun m : ℕ => ((Nat.factorial (2 * m) : ℂ))⁻¹ * ((Complex.I * v) ^ (2 * m) * f (2 * m))) =
        fun m : ℕ => (-1 : ℂ) ^ m * (v : ℂ) ^ (2 * m) / (Nat.factorial (2 * m) : ℂ) * x := by
      funext m
      rw [he, mul_pow, pow_mul Complex.I, Complex.I_sq]
      ring
    rw [e]
    exact this

theorem hasSum_euler2 (v : ℝ) (y : ℂ) (f : ℕ → ℂ)  (ho : ∀ m, f (2 * m + 1) = y) :
 HasSum (fun m : ℕ => ((Nat.factorial (2 * m + 1) : ℂ))⁻¹ *
      ((Complex.I * v) ^ (2 * m + 1) * f (2 * m + 1))) (Complex.I * (Complex.sin v * y)) := by
    have := ((Complex.hasSum_sin (v : ℂ)).mul_right y).mul_left Complex.I
    have e : (fun m : ℕ => ((Nat.factorial (2 * m + 1) : ℂ))⁻¹ * ((Complex.I * v) ^ (2 * m + 1) * f (2 * m + 1))) =
        fun m : ℕ => Complex.I * ((-1 : ℂ) ^ m * (v : ℂ) ^ (2 * m + 1) / (Nat.factorial (2 * m + 1) : ℂ) * y) := by
      funext m
      rw [ho, mul_pow, pow_succ Complex.I, pow_mul Complex.I, Complex.I_sq]
      ring
    rw [e]
    exact this

theorem hasSum_euler (v : ℝ) (x y : ℂ) (f : ℕ → ℂ) (he : ∀ m, f (2 * m) = x) (ho : ∀ m, f (2 * m + 1) = y) :
    HasSum (fun k : ℕ => ((Nat.factorial k : ℂ))⁻¹ * ((Complex.I * v) ^ k * f k))
      (((cos v : ℝ) : ℂ) * x + Complex.I * (sin v : ℝ) * y) := by
  have h1 := hasSum_euler1 v x f he
  have h2 := hasSum_euler2 v y f ho
  have := HasSum.even_add_odd (f := fun k : ℕ => ((Nat.factorial k : ℂ))⁻¹ * ((Complex.I * v) ^ k * f k)) h1 h2
  push_cast
  rw [mul_assoc]
  exact this

/-- Euler's formula for an involution. -/
theorem isExp_of_sq (P : Oper ℂ) (h : P * P = 1) (v : ℝ) :
    IsExp ((Complex.I * v) • P) (((cos v : ℝ) : ℂ) • (1 : Oper ℂ) + (Complex.I * (sin v : ℝ)) • P) := by
  intro ψ b
  have hpe : ∀ m : ℕ, P ^ (2 * m) = 1 := by
    intro m; rw [pow_mul, sq, h, one_pow]
  have hpo : ∀ m : ℕ, P ^ (2 * m + 1) = P := by
    intro m; rw [pow_succ, hpe, one_mul]
  have := hasSum_euler v (ψ b) (P ψ b) (fun k => (P ^ k) ψ b) (fun m => by simp only [hpe]; rfl)
    (fun m => by simp only [hpo])
  have hsm : ∀ (c : ℂ) (k : ℕ), ((c • P) ^ k) ψ b = c ^ k * (P ^ k) ψ b := by
    intro c k; rw [smul_pow]; rfl
  simp only [hsm]
  exact this

theorem euler_mul (P : Oper ℂ) (hP : P * P = 1) (a b c d : ℂ) :
    (a • (1 : Oper ℂ) + b • P) * (c • (1 : Oper ℂ) + d • P) = (a * c + b * d) • (1 : Oper ℂ) + (a * d + b * c) • P := by
  simp only [mul_add, add_mul, smul_mul_assoc, mul_smul_comm, one_mul, mul_one, hP]
  module

theorem gadgetMany_eq (v : ℝ) (s : PStr) (h : nonI 0 s ≠ []) : circOp (gadgetMany v s) =
    ((cos v : ℝ) : ℂ) • (1 : Oper ℂ) + (Complex.I * (sin v : ℝ)) • (denP 0 s : Oper ℂ) := by
  unfold gadgetMany
  simp only []
  rw [if_neg (fun h0 => h (List.length_eq_zero_iff.mp h0))]
  simp only [circOp_append, circOp_single]
  rw [flatMap_meas, flatMap_inv]
  have hz := zprod_nonI 0 s
  have hnd := nonI_nodup 0 s
  have hne : (nonI 0 s).map (·.1) ≠ [] := by simpa using h
  generalize (nonI 0 s).map (·.1) = ind at hz hnd hne
  obtain ⟨i, l, rfl⟩ := List.exists_cons_of_ne_nil hne
  obtain ⟨h1, h2⟩ := ladder_conj i l hnd
  have hs := conj_layer s s rfl (by
    intro p hp
    right
    clear h hz hnd hne h1 h2
    induction s with
    | nil => cases hp
    | cons a s ih =>
      rw [List.zip_cons_cons, List.mem_cons] at hp
      rcases hp with rfl | hp
      · rfl
      · exact ih hp) 0
  rw [← hz] at hs
  rw [rz_eq, ← hs, ← h2]
  have hi := inv_meas s 0
  generalize circOp (invFrom 0 s) = V at *
  generalize circOp (measFrom 0 s) = W at *
  generalize circOp (ladder (i :: l)) = L at *
  generalize circOp (ladder (i :: l)).reverse = L' at *
  generalize (site ((i :: l).getLastD 0) mZ : Oper ℂ) = Z at *
  have e1 : V * (L' * (((((cos v : ℝ) : ℂ) • (1 : Oper ℂ) + (Complex.I * (sin v : ℝ)) • Z) * (L * W)))) =
      ((cos v : ℝ) : ℂ) • (V * ((L' * L) * W)) + (Complex.I * (sin v : ℝ)) • (V * (L' * Z * L) * W) := by
    simp only [mul_add, add_mul, smul_mul_assoc, mul_smul_comm, one_mul, mul_assoc]
  rw [e1, h1, one_mul, hi]

theorem gadget_eq (v : ℝ) (s : PStr) (h : ∃ p ∈ s, p ≠ .I) : circOp (gadget v s) =
    ((cos v : ℝ) : ℂ) • (1 : Oper ℂ) + (Complex.I * (sin v : ℝ)) • (denP 0 s : Oper ℂ) := by
  have hn : ∀ (k : ℕ) (s : PStr), (∃ p ∈ s, p ≠ .I) → nonI k s ≠ [] := by
    intro k s
    induction s generalizing k with
    | nil => simp
    | cons p s ih =>
      intro h
      unfold nonI
      split
      · rename_i hp
        apply ih
        obtain ⟨q, hq, hq'⟩ := h
        rcases List.mem_cons.mp hq with rfl | hq
        · exact absurd hp hq'
        · exact ⟨q, hq, hq'⟩
      · simp
  unfold gadget
  split
  · simp at h
  · rw [circOp_single, ← site_one 0]
    simp only [denP, mul_one, pmat]
    rw [← site_smul, ← site_smul, ← site_add]
    show site 0 _ = _
    congr 1
    rw [one_eq, mX_eq, show v * (-2) / 2 = -v by ring, cos_neg, sin_neg]
    push_cast
    apply M2.ext <;> simp [mat2]
  · rw [circOp_single, ← site_one 0]
    simp only [denP, mul_one, pmat]
    rw [← site_smul, ← site_smul, ← site_add]
    show site 0 _ = _
    congr 1
    rw [one_eq, mY_eq, show v * (-2) / 2 = -v by ring, cos_neg, sin_neg]
    have hI := Complex.I_mul_I
    push_cast
    apply M2.ext <;> simp [mat2]
    · linear_combination Complex.sin v * hI
    · linear_combination -Complex.sin v * hI
  · rw [circOp_single, rz_eq]
    simp only [denP, mul_one, pmat]
  · exact gadgetMany_eq v s (hn 0 s h)

/-- **C37.** For every real angle and every Pauli string with a letter other than `I`, the emitted circuit is the
exponential of `i·val·P`. -/
theorem C37_gadget (v : ℝ) (s : PStr) (h : ∃ p ∈ s, p ≠ .I) :
    IsExp ((Complex.I * v) • (denP 0 s : Oper ℂ)) (circOp (gadget v s)) := by
  rw [gadget_eq v s h]
  exact isExp_of_sq _ (denP_sq 0 s) v

/-- **C37, identity strings.** Nothing is emitted: the exponential is reached up to the global phase `exp(i·val)`. -/
theorem C37_identity (v : ℝ) (n : ℕ) :
    IsExp ((Complex.I * v) • (denP 0 (List.replicate n PL.I) : Oper ℂ))
      (Complex.exp (Complex.I * v) • circOp (gadget v (List.replicate n PL.I))) := by
  have hd : ∀ k, (denP k (List.replicate n PL.I) : Oper ℂ) = 1 := by
    induction n with
    | zero => intro k; rfl
    | succ n ih => intro k; rw [List.replicate_succ, denP, ih]; simp [pmat, site_one]
  have hn : ∀ k, nonI k (List.replicate n PL.I) = [] := by
    clear hd
    induction n with
    | zero => intro k; rfl
    | succ n ih => intro k; rw [List.replicate_succ, nonI, if_pos rfl, ih]
  have hm : gadgetMany v (List.replicate n PL.I) = [] := by
    unfold gadgetMany
    simp [hn]
  have hg : gadget v (List.replicate n PL.I) = [] := by
    unfold gadget
    split
    · rfl
    · rename_i h; exact absurd (List.eq_of_mem_replicate (h ▸ List.mem_singleton_self PL.X)) (by simp)
    · rename_i h; exact absurd (List.eq_of_mem_replicate (h ▸ List.mem_singleton_self PL.Y)) (by simp)
    · rename_i h; exact absurd (List.eq_of_mem_replicate (h ▸ List.mem_singleton_self PL.Z)) (by simp)
    · exact hm
  rw [hg, hd, circOp]
  have := isExp_of_sq (1 : Oper ℂ) (one_mul 1) v
  have e : (((cos v : ℝ) : ℂ) • (1 : Oper ℂ) + (Complex.I * (sin v : ℝ)) • (1 : Oper ℂ)) =
      Complex.exp (Complex.I * v) • (1 : Oper ℂ) := by
    rw [← add_smul, mul_comm Complex.I (v : ℂ), Complex.exp_mul_I, mul_comm Complex.I]
    push_cast
    rfl
  rwa [e] at this

/-- **C37.** Successive gadgets of one string add their angles; angle `0` does nothing. -/
theorem C37_group (v w : ℝ) (s : PStr) (h : ∃ p ∈ s, p ≠ .I) :
    circOp (gadget v s ++ gadget w s) = circOp (gadget (v + w) s) ∧ circOp (gadget 0 s) = 1 := by
  constructor
  · rw [circOp_append, gadget_eq v s h, gadget_eq w s h, gadget_eq (v + w) s h]
    have hP := denP_sq 0 s
    rw [euler_mul _ hP, cos_add, sin_add]
    push_cast
    have hI := Complex.I_mul_I
    congr 2
    · linear_combination Complex.sin w * Complex.sin v * hI
    · ring
  · rw [gadget_eq 0 s h]
    simp

example : ∃ p ∈ ([.X, .I, .Y, .Z] : PStr), p ≠ .I := ⟨.X, by simp, by simp⟩

/-! ### C38 -/

/-- What `apply_pauli_string` applies instead: `Y` read as `X`. -/
def yAsX : PL → PL
  | .Y => .X
  | p => p

theorem applyLetter_eq (k : ℕ) (p : PL) : circOp (applyLetter k p) =
    (if p = .Z then -Complex.I else 1 : ℂ) • (site k (pmat (yAsX p)) : Oper ℂ) := by
  cases p
  · simp [applyLetter, circOp, yAsX, pmat, site_one]
  · simp [applyLetter, circOp, yAsX, pmat, opQ]
  · simp only [applyLetter, circOp, opQ, yAsX, pmat, one_mul]
    rw [← site_mul, ← site_mul]
    simp only [reduceCtorEq, if_false, one_smul]
    congr 1
    rw [mX_eq]
    simp only [mat2_mul]
    congr 1
    · ring
    · simp only [mul_zero, zero_mul, zero_add, add_zero, mul_one, one_mul, ← Complex.exp_add]
      rw [show (-Complex.I * ((π / 2 / 2 : ℝ) : ℂ) + Complex.I * ((π / 2 / 2 : ℝ) : ℂ)) = 0 by ring]
      simp
    · simp only [mul_zero, zero_mul, zero_add, add_zero, mul_one, one_mul, ← Complex.exp_add]
      rw [show (Complex.I * ((π / 2 / 2 : ℝ) : ℂ) + -Complex.I * ((π / 2 / 2 : ℝ) : ℂ)) = 0 by ring]
      simp
    · ring
  · simp only [applyLetter, circOp, opQ, yAsX, pmat, one_mul, if_true]
    rw [← site_smul]
    congr 1
    rw [mZ_eq]
    have e1 : Complex.exp (-Complex.I * ((π / 2 : ℝ) : ℂ)) = -Complex.I := by
      rw [show (-Complex.I * ((π / 2 : ℝ) : ℂ)) = -((π : ℂ) / 2 * Complex.I) by push_cast; ring, Complex.exp_neg,
        Complex.exp_pi_div_two_mul_I, Complex.inv_I]
    have e2 : Complex.exp (Complex.I * ((π / 2 : ℝ) : ℂ)) = Complex.I := by
      rw [show (Complex.I * ((π / 2 : ℝ) : ℂ)) = ((π : ℂ) / 2 * Complex.I) by push_cast; ring,
        Complex.exp_pi_div_two_mul_I]
    rw [e1, e2]
    apply M2.ext <;> simp [mat2]

theorem applyFrom_eq (k : ℕ) (s : PStr) : circOp (applyFrom k s) =
    ((-Complex.I) ^ (s.count .Z)) • (denP k (s.map yAsX) : Oper ℂ) := by
  induction s generalizing k with
  | nil => simp [applyFrom, circOp, denP]
  | cons p s ih =>
    rw [applyFrom, circOp_append, ih, applyLetter_eq, List.map_cons, denP, smul_mul_smul_comm,
      ← denP_site_lt (Nat.lt_succ_self k)]
    congr 1
    rw [List.count_cons]
    by_cases h : p = .Z
    · subst h; simp [pow_succ]
    · have : (p == PL.Z) = false := by simpa using h
      simp [h, this]

/-- `U` acts as `P` up to a phase of modulus one. -/
def UpToPhase (U P : Oper ℂ) : Prop := ∃ c : ℂ, ‖c‖ = 1 ∧ U = c • P

/-- **C38, strings without `Y`** are applied up to a phase.  Missing: strings with `Y`, see `C38_Y_fails`. -/
theorem C38_apply_partial (c : ℂ) (s : PStr) (hs : PL.Y ∉ s) (gs : List QG) (h : applyPauli c s = some gs) :
    UpToPhase (circOp gs) (denP 0 s) := by
  unfold applyPauli at h
  split at h
  · obtain rfl : applyFrom 0 s = gs := by simpa using h
    refine ⟨(-Complex.I) ^ (s.count .Z), by simp, ?_⟩
    rw [applyFrom_eq]
    congr 2
    conv_rhs => rw [← List.map_id s]
    apply List.map_congr_left
    intro p hp
    cases p
    · rfl
    · rfl
    · exact absurd hp hs
    · rfl
  · cases h

/-- **C38, general form.** Every `Y` is applied as `X`. -/
theorem C38_Y_as_X (c : ℂ) (s : PStr) (gs : List QG) (h : applyPauli c s = some gs) :
    UpToPhase (circOp gs) (denP 0 (s.map yAsX)) := by
  unfold applyPauli at h
  split at h
  · obtain rfl : applyFrom 0 s = gs := by simpa using h
    exact ⟨(-Complex.I) ^ (s.count .Z), by simp, applyFrom_eq 0 s⟩
  · cases h

open Classical in
/-- Basis state with configuration `a`. -/
def ket (a : Cfg) : Cfg → ℂ := fun b => if b = a then 1 else 0

open Classical in
theorem site_ket (k : ℕ) (m : M2 ℂ) (a : Cfg) : (site k m : Oper ℂ) (ket a) =
    m false (a k) • ket (Function.update a k false) + m true (a k) • ket (Function.update a k true) := by
  funext b
  simp only [site_apply, Pi.add_apply, Pi.smul_apply, smul_eq_mul, ket]
  have key : ∀ y z : Bool, (Function.update b k y = a) ∧ b k = z ↔ (b = Function.update a k z ∧ a k = y) := by
    intro y z
    constructor
    · rintro ⟨rfl, rfl⟩; simp
    · rintro ⟨rfl, rfl⟩; simp
  have k1 : ∀ y z : Bool, b k = z → ((Function.update b k y = a) ↔ (b = Function.update a k z ∧ a k = y)) := by
    intro y z hz; rw [← key, and_iff_left hz]
  have k2 : ∀ z : Bool, b k ≠ z → ¬ b = Function.update a k z := by
    rintro z hz rfl; simp at hz
  cases hb : b k
  · rw [if_neg (k2 true (by simp [hb])), if_congr (k1 false false hb) rfl rfl, if_congr (k1 true false hb) rfl rfl]
    cases ha : a k <;> simp
  · rw [if_neg (k2 false (by simp [hb])), if_congr (k1 false true hb) rfl rfl, if_congr (k1 true true hb) rfl rfl]
    cases ha : a k <;> simp

theorem yAsX_ket (s : PStr) (k : ℕ) (a : Cfg) : ∃ c : ℂ, ‖c‖ = 1 ∧
    (denP k (s.map yAsX) : Oper ℂ) (ket a) = c • (denP k s : Oper ℂ) (ket a) ∧
    ∃ (e : ℂ) (a' : Cfg), (denP k s : Oper ℂ) (ket a) = e • ket a' := by
  induction s generalizing k a with
  | nil => exact ⟨1, by simp, by simp [denP], 1, a, by simp [denP]⟩
  | cons p s ih =>
    obtain ⟨c, hc, h1, e, a', h2⟩ := ih (k + 1) a
    simp only [List.map_cons, denP, Module.End.mul_apply, h1, h2, map_smul]
    obtain ⟨d, hd, h3, f, a'', h4⟩ : ∃ d : ℂ, ‖d‖ = 1 ∧ (site k (pmat (yAsX p)) : Oper ℂ) (ket a') =
        d • (site k (pmat p) : Oper ℂ) (ket a') ∧ ∃ (f : ℂ) (a'' : Cfg), (site k (pmat p) : Oper ℂ) (ket a') =
        f • ket a'' := by
      have hup : ∀ y, a' k = y → Function.update a' k y = a' := by
        rintro y rfl; exact Function.update_eq_self k a'
      cases p
      · refine ⟨1, by simp, by simp [yAsX], 1, a', by simp [pmat, site_one]⟩
      · refine ⟨1, by simp, by simp [yAsX], 1, Function.update a' k (!a' k), ?_⟩
        rw [site_ket]
        cases h : a' k <;> simp [pmat, mX]
      · refine ⟨if a' k then Complex.I else -Complex.I, by split <;> simp, ?_, if a' k then -Complex.I else Complex.I,
          Function.update a' k (!a' k), ?_⟩
        · rw [site_ket, site_ket]
          cases h : a' k
          · simp only [yAsX, pmat, mX_eq, mY_eq, mat2]
            simp [smul_smul]
          · simp only [yAsX, pmat, mX_eq, mY_eq, mat2]
            simp [smul_smul]
        · rw [site_ket]
          cases h : a' k <;> simp only [pmat, mY_eq, mat2] <;> simp
      · refine ⟨1, by simp, by simp [yAsX], if a' k then -1 else 1, a', ?_⟩
        rw [site_ket]
        cases h : a' k
        · simp [pmat, mZ, hup false h]
        · simp [pmat, mZ, hup true h]
    refine ⟨c * d, by simp [hc, hd], ?_, e * f, a'', ?_⟩
    · rw [h3]; simp only [smul_smul]; congr 1; ring
    · rw [h4, smul_smul]

/-- **C38 on basis states.** Applied to a computational basis state (the use made of it to prepare a reference
determinant), the circuit gives the string's result up to a phase, `Y` included; the phase may differ from state to
state. -/
theorem C38_basis_state (c : ℂ) (s : PStr) (gs : List QG) (h : applyPauli c s = some gs) (a : Cfg) :
    ∃ d : ℂ, ‖d‖ = 1 ∧ circOp gs (ket a) = d • (denP 0 s : Oper ℂ) (ket a) := by
  obtain ⟨x, hx, e⟩ := C38_Y_as_X c s gs h
  obtain ⟨d, hd, h1, _⟩ := yAsX_ket s 0 a
  refine ⟨x * d, by simp [hx, hd], ?_⟩
  rw [e, LinearMap.smul_apply, h1, smul_smul]

/-- **C38, definedness.** A string is applied exactly when its coefficient has modulus one up to `1e-4`; otherwise the program exits. -/
theorem C38_defined (c : ℂ) (s : PStr) : (∃ gs, applyPauli c s = some gs) ↔ |‖c‖ - 1| < 1e-4 := by
  unfold applyPauli
  split <;> simp_all

/-- **C38 is violated**: the circuit for `Y` is `X`, which is not `Y` up to a phase. -/
theorem C38_Y_fails : ∃ gs, applyPauli 1 [.Y] = some gs ∧ circOp gs = denP 0 [.X] ∧
    ¬ UpToPhase (circOp gs) (denP 0 [.Y]) := by
  have h0 : applyPauli 1 [.Y] = some (applyFrom 0 [.Y]) := by
    unfold applyPauli
    rw [if_pos]
    simp
    norm_num
  have h1 : circOp (applyFrom 0 [.Y]) = denP 0 [.X] := by
    rw [applyFrom_eq]
    simp [yAsX]
  refine ⟨_, h0, h1, ?_⟩
  rw [h1]
  rintro ⟨c, hc, e⟩
  have e1 := congrFun (LinearMap.congr_fun e (fun b => if b 0 then 1 else 0)) (fun _ => false)
  have e2 := congrFun (LinearMap.congr_fun e (fun b => if b 0 then 0 else 1)) (fun _ => true)
  simp only [denP, mul_one, pmat, mX_eq, mY_eq, site_apply, LinearMap.smul_apply, Pi.smul_apply, mat2] at e1 e2
  simp at e1 e2
  have hI : (Complex.I : ℂ) ≠ 0 := Complex.I_ne_zero
  have : (2 : ℂ) = 0 := by linear_combination e1 + e2
  norm_num at this

end
end HQCA.Props
