import Verif.Proofs.Primitives
import Verif.Model.Process
import Verif.Props.Grouping
import Mathlib.Data.Nat.Bitwise
import Mathlib.Algebra.BigOperators.Field
import Mathlib.Algebra.Order.BigOperators.Ring.Finset

/-!
# Properties C26 and C61: expectation values from measurements
-/

namespace HQCA.Props
open HQCA.Prim HQCA.Process

/-- Product of the outcomes `±1` of the qubits where the string has a letter other than `I`; letters from qubit
`k` on. -/
def outcome (k : ℕ) : PStr → Cfg → ℤ
  | [], _ => 1
  | p :: s, b => (if p ≠ .I ∧ b k = true then -1 else 1) * outcome (k + 1) s b

/-- The outcome of qubit `i` is character `Nq-1-i` of the record. -/
def record (det : List Bool) : Cfg := fun i => det.reverse.getD i false

theorem outcome_sq (k : ℕ) (s : PStr) (b : Cfg) : outcome k s b = 1 ∨ outcome k s b = -1 := by
  induction s generalizing k with
  | nil => exact Or.inl rfl
  | cons p s ih =>
    unfold outcome
    split <;> rcases ih (k + 1) with h | h <;> rw [h] <;> simp

/-- The `Z` string has the outcome product as eigenvalue. -/
theorem denP_zl (k : ℕ) (s : PStr) (ψ : Cfg → ℂ) (b : Cfg) :
    (denP k (s.map zl) : Oper ℂ) ψ b = (outcome k s b : ℂ) * ψ b := by
  induction s generalizing k with
  | nil => simp [denP, outcome]
  | cons p s ih =>
    rw [List.map_cons, denP, Module.End.mul_apply]
    unfold outcome
    by_cases hp : p = .I
    · subst hp
      simp only [zl, pmat, site_one, Module.End.one_apply, ih]
      simp
    · have : zl p = .Z := by cases p <;> simp_all [zl]
      rw [this]
      simp only [pmat]
      rw [mZ_apply, ih]
      cases b k <;> simp [hp]

theorem pyGet_record (det : List Bool) (i : ℕ) (h : i < det.length) :
    pyGet det ((det.length : ℤ) - i - 1) = some (record det i) := by
  unfold pyGet record
  have e : ((det.length : ℤ) - i - 1) = ((det.length - 1 - i : ℕ) : ℤ) := by omega
  rw [if_pos (by omega), e, Int.toNat_natCast, List.getD_eq_getElem?_getD, List.getElem?_reverse h,
    List.getElem?_eq_getElem (by omega)]
  rfl

theorem phaseFrom_eq (det : List Bool) (s : PStr) (k : ℕ) (h : k + s.length ≤ det.length) :
    phaseFrom det.length det k s = some (outcome k s (record det)) := by
  induction s generalizing k with
  | nil => rfl
  | cons p s ih =>
    have hk : k < det.length := by simp at h; omega
    unfold phaseFrom outcome
    rw [ih (k + 1) (by simp at h; omega)]
    by_cases hp : p = .I
    · rw [if_pos hp]; simp [hp]
    · rw [if_neg hp, pyGet_record det k hk]
      simp only [Option.map_some]
      cases record det k <;> simp [hp]

section
variable {K : Type} [Field K]

theorem sums_eq (Nq : ℕ) (s : PStr) (hs : s.length ≤ Nq) (c : List (List Bool × K)) (hc : ∀ x ∈ c, x.1.length = Nq) :
    sums Nq s c = some ((c.map (fun x => x.2 * (outcome 0 s (record x.1) : K))).sum, (c.map (·.2)).sum) := by
  induction c with
  | nil => rfl
  | cons x c ih =>
    obtain ⟨det, n⟩ := x
    unfold sums
    have hd : det.length = Nq := hc (det, n) (by simp)
    rw [ih (fun y hy => hc y (by simp [hy])), ← hd, phaseFrom_eq det s 0 (by omega)]
    simp

/-- **C26, mean of the outcome products.** -/
theorem C26_mean [DecidableEq K] (Nq : ℕ) (s : PStr) (hs : s.length ≤ Nq) (c : List (List Bool × K))
    (hc : ∀ x ∈ c, x.1.length = Nq) (ht : (c.map (·.2)).sum ≠ 0) :
    counts Nq s c = some ((c.map (fun x => x.2 * (outcome 0 s (record x.1) : K))).sum / (c.map (·.2)).sum) := by
  unfold counts
  rw [sums_eq Nq s hs c hc]
  simp only [if_neg ht]

/-- An empty table (or one with total 0) raises. -/
theorem C26_zero_total [DecidableEq K] (Nq : ℕ) (s : PStr) (hs : s.length ≤ Nq) (c : List (List Bool × K))
    (hc : ∀ x ∈ c, x.1.length = Nq) (ht : (c.map (·.2)).sum = 0) : counts Nq s c = none := by
  unfold counts
  rw [sums_eq Nq s hs c hc]
  simp only [if_pos ht]

/-- **C26, the identity string gives 1.** -/
theorem C26_identity [DecidableEq K] (Nq n : ℕ) (c : List (List Bool × K))
    (ht : (c.map (·.2)).sum ≠ 0) : counts Nq (List.replicate n .I) c = some 1 := by
  have h1 : ∀ (det : List Bool) (k : ℕ), phaseFrom Nq det k (List.replicate n .I) = some 1 := by
    intro det
    induction n with
    | zero => intro k; rfl
    | succ n ih => intro k; rw [List.replicate_succ, phaseFrom, if_pos rfl, ih]
  have h2 : ∀ c : List (List Bool × K), sums Nq (List.replicate n .I) c = some ((c.map (·.2)).sum, (c.map (·.2)).sum) := by
    intro c
    induction c with
    | nil => rfl
    | cons x c ih =>
      obtain ⟨det, m⟩ := x
      unfold sums
      rw [ih, h1]
      simp
  unfold counts
  rw [h2]
  simp only [if_neg ht, div_self ht]

/-- Total count of one outcome. -/
def tally (c : List (List Bool × K)) (det : List Bool) : K := ((c.filter (·.1 = det)).map (·.2)).sum

theorem sum_by_tally (c : List (List Bool × K)) (f : List Bool → K) (T : Finset (List Bool)) (hT : ∀ x ∈ c, x.1 ∈ T) :
    (c.map (fun x => x.2 * f x.1)).sum = ∑ d ∈ T, tally c d * f d := by
  induction c with
  | nil => simp [tally]
  | cons x c ih =>
    have hx := hT x (by simp)
    rw [List.map_cons, List.sum_cons, ih (fun y hy => hT y (by simp [hy]))]
    have : ∀ d, tally (x :: c) d = (if x.1 = d then x.2 else 0) + tally c d := by
      intro d
      unfold tally
      rw [List.filter_cons]
      by_cases h : x.1 = d <;> simp [h]
    simp only [this, add_mul, Finset.sum_add_distrib, ite_mul, zero_mul]
    rw [Finset.sum_ite_eq, if_pos hx]

/-- **C26, merging and splitting records.** Only the total count of each outcome matters. -/
theorem C26_merge [DecidableEq K] (Nq : ℕ) (s : PStr) (hs : s.length ≤ Nq) (c c' : List (List Bool × K))
    (hc : ∀ x ∈ c, x.1.length = Nq) (hc' : ∀ x ∈ c', x.1.length = Nq) (h : ∀ det, tally c det = tally c' det) :
    counts Nq s c = counts Nq s c' := by
  have key : ∀ f : List Bool → K, (c.map (fun x => x.2 * f x.1)).sum = (c'.map (fun x => x.2 * f x.1)).sum := by
    intro f
    rw [sum_by_tally c f ((c.map (·.1)).toFinset ∪ (c'.map (·.1)).toFinset) (by
        intro x hx; simp only [Finset.mem_union, List.mem_toFinset]; exact Or.inl (List.mem_map_of_mem hx)),
      sum_by_tally c' f ((c.map (·.1)).toFinset ∪ (c'.map (·.1)).toFinset) (by
        intro x hx; simp only [Finset.mem_union, List.mem_toFinset]; exact Or.inr (List.mem_map_of_mem hx))]
    simp only [h]
  have k1 := key (fun d => (outcome 0 s (record d) : K))
  have k2 := key (fun _ => 1)
  simp only [mul_one] at k2
  unfold counts
  rw [sums_eq Nq s hs c hc, sums_eq Nq s hs c' hc', k1, k2]

end

/-- **C26, bounds.** -/
theorem C26_bounds (Nq : ℕ) (s : PStr) (hs : s.length ≤ Nq) (c : List (List Bool × ℚ))
    (hc : ∀ x ∈ c, x.1.length = Nq) (hn : ∀ x ∈ c, 0 ≤ x.2) (v : ℚ) (h : counts Nq s c = some v) :
    -1 ≤ v ∧ v ≤ 1 := by
  have hb : -(c.map (·.2)).sum ≤ (c.map (fun x => x.2 * (outcome 0 s (record x.1) : ℚ))).sum ∧
      (c.map (fun x => x.2 * (outcome 0 s (record x.1) : ℚ))).sum ≤ (c.map (·.2)).sum ∧ 0 ≤ (c.map (·.2)).sum := by
    clear hc h
    induction c with
    | nil => simp
    | cons x c ih =>
      obtain ⟨h1, h2, h3⟩ := ih (fun y hy => hn y (by simp [hy]))
      have hx := hn x (by simp)
      simp only [List.map_cons, List.sum_cons]
      rcases outcome_sq 0 s (record x.1) with e | e <;> rw [e] <;> push_cast <;>
        refine ⟨by linarith, by linarith, by linarith⟩
  unfold counts at h
  rw [sums_eq Nq s hs c hc] at h
  simp only at h
  split at h
  · cases h
  · rename_i ht
    obtain rfl := Option.some.inj h
    obtain ⟨h1, h2, h3⟩ := hb
    have hpos : 0 < (c.map (·.2)).sum := lt_of_le_of_ne h3 (Ne.symm ht)
    constructor
    · rw [le_div_iff₀ hpos]; linarith
    · rw [div_le_iff₀ hpos]; linarith

/-- Two qubits, `ZI` and `ZZ`; characters run from the last qubit to the first. -/
example : counts (K := ℚ) 2 [.Z, .I] [([false, true], 3), ([true, true], 1), ([false, false], 4)] = some 0 ∧
    counts (K := ℚ) 2 [.X, .Y] [([false, true], 3), ([true, true], 1), ([false, false], 4)] = some (1 / 4) := by
  decide +kernel

/-! ### State vectors -/

noncomputable section

theorem bchar_testBit (n l i : ℕ) (h : i < n) : Circ.bchar n l (n - i - 1) = l.testBit i := by
  unfold Circ.bchar
  rw [show n - 1 - (n - i - 1) = i by omega, Nat.testBit_eq_decide_div_mod_eq]

theorem outcome_append (k : ℕ) (s t : PStr) (b : Cfg) :
    outcome k (s ++ t) b = outcome k s b * outcome (k + s.length) t b := by
  induction s generalizing k with
  | nil => simp [outcome]
  | cons p s ih =>
    rw [List.cons_append, outcome, outcome, ih, mul_assoc, List.length_cons]
    congr 3
    omega

theorem sgn_eq (n l : ℕ) (s : PStr) (h : s.length ≤ n) : sgn n l s = outcome 0 s (cfgOf l) := by
  unfold sgn
  rw [min_eq_right h]
  have : ∀ m ≤ s.length, (List.range m).foldl (fun g i => if s.getD i .I = .I then g else
      if Circ.bchar n l (n - i - 1) then -g else g) 1 = outcome 0 (s.take m) (cfgOf l) := by
    intro m hm
    induction m with
    | zero => rfl
    | succ m ih =>
      rw [List.range_succ, List.foldl_append, ih (by omega), List.foldl_cons, List.foldl_nil,
        bchar_testBit n l m (by omega), List.take_add_one, outcome_append]
      have hg : s[m]? = some s[m] := List.getElem?_eq_getElem (by omega)
      rw [List.getD_eq_getElem?_getD, hg]
      simp only [Option.getD_some, Option.toList_some, outcome, List.length_take, mul_one, zero_add]
      rw [min_eq_left (by omega : m ≤ s.length)]
      unfold cfgOf
      by_cases hp : s[m] = .I
      · simp [hp]
      · cases l.testBit m <;> simp [hp]
  rw [this s.length le_rfl, List.take_length]

theorem statevector_eq (n : ℕ) (s : PStr) (ψ : ℕ → ℂ) : statevector n s ψ =
    ∑ l ∈ Finset.range (2 ^ n), if ‖ψ l‖ < 1e-14 then 0 else ‖ψ l‖ ^ 2 * (sgn n l s : ℝ) := by
  unfold statevector
  induction 2 ^ n with
  | zero => simp
  | succ m ih =>
    rw [List.range_succ, List.foldl_append, ih, Finset.sum_range_succ, List.foldl_cons, List.foldl_nil]
    split
    · simp
    · congr 1
      rw [Complex.mul_conj, Complex.normSq_eq_norm_sq]
      norm_cast

theorem innerQ_z (n : ℕ) (s : PStr) (φ : Cfg → ℂ) : innerQ n φ ((denP 0 (s.map zl) : Oper ℂ) φ) =
    ((∑ l ∈ Finset.range (2 ^ n), ‖φ (cfgOf l)‖ ^ 2 * (outcome 0 s (cfgOf l) : ℝ) : ℝ) : ℂ) := by
  unfold innerQ
  push_cast
  apply Finset.sum_congr rfl
  intro l _
  rw [denP_zl]
  have : (starRingEnd ℂ) (φ (cfgOf l)) * φ (cfgOf l) = (‖φ (cfgOf l)‖ : ℂ) ^ 2 := by
    rw [mul_comm, Complex.mul_conj, Complex.normSq_eq_norm_sq]; push_cast; rfl
  rw [← this]; ring

/-- **C26, state vectors.** The value computed from amplitudes is `⟨φ|Z_s|φ⟩` up to the amplitudes the code skips
(`|a| < 1e-14`). -/
theorem C26_statevector (n : ℕ) (s : PStr) (hs : s.length ≤ n) (φ : Cfg → ℂ) :
    ‖(statevector n s (fun l => φ (cfgOf l)) : ℂ) - innerQ n φ ((denP 0 (s.map zl) : Oper ℂ) φ)‖ ≤ 2 ^ n * 1e-28 := by
  rw [innerQ_z, ← Complex.ofReal_sub, Complex.norm_real, statevector_eq, ← Finset.sum_sub_distrib]
  refine (norm_sum_le _ _).trans ?_
  have : ∀ l ∈ Finset.range (2 ^ n), ‖(if ‖φ (cfgOf l)‖ < 1e-14 then 0 else ‖φ (cfgOf l)‖ ^ 2 * (sgn n l s : ℝ)) -
      ‖φ (cfgOf l)‖ ^ 2 * (outcome 0 s (cfgOf l) : ℝ)‖ ≤ (1e-28 : ℝ) := by
    intro l _
    rw [sgn_eq n l s hs]
    split
    · rename_i h
      have hn := norm_nonneg (φ (cfgOf l))
      rw [zero_sub, norm_neg, norm_mul, norm_pow, norm_norm]
      have h1 : ‖(outcome 0 s (cfgOf l) : ℝ)‖ = 1 := by
        rcases outcome_sq 0 s (cfgOf l) with e | e <;> rw [e] <;> simp
      rw [h1, mul_one]
      have : ‖φ (cfgOf l)‖ ^ 2 ≤ (1e-14 : ℝ) ^ 2 := by gcongr
      refine this.trans ?_
      norm_num
    · simp; norm_num
  refine (Finset.sum_le_sum this).trans ?_
  simp

/-! ### Adjoint of the measurement layer -/

theorem cfgOf_xor (l k : ℕ) : cfgOf (l ^^^ 2 ^ k) = Function.update (cfgOf l) k (!cfgOf l k) := by
  funext i
  unfold cfgOf
  rw [Nat.testBit_xor, Nat.testBit_two_pow]
  by_cases h : i = k
  · subst h; simp
  · rw [Function.update_of_ne h]; simp [Ne.symm h]

/-- Single-qubit adjoint for `innerQ`. -/
theorem innerQ_site (n k : ℕ) (hk : k < n) (m : M2 ℂ) (φ ψ : Cfg → ℂ) :
    innerQ n φ ((site k m : Oper ℂ) ψ) = innerQ n ((site k (fun a b => (starRingEnd ℂ) (m b a)) : Oper ℂ) φ) ψ := by
  have hs : ∀ (m : M2 ℂ) (ψ : Cfg → ℂ) (b : Cfg), (site k m : Oper ℂ) ψ b =
      m (b k) (b k) * ψ b + m (b k) (!b k) * ψ (Function.update b k (!b k)) := by
    intro m ψ b
    rw [site_apply]
    cases h : b k
    · have : Function.update b k false = b := by rw [← h]; exact Function.update_eq_self k b
      simp [this]
    · have : Function.update b k true = b := by rw [← h]; exact Function.update_eq_self k b
      simp [this]; ring
  have hs' := hs (fun a b => (starRingEnd ℂ) (m b a)) φ
  unfold innerQ
  simp only [hs, hs', map_add, map_mul, Complex.conj_conj, mul_add, add_mul, Finset.sum_add_distrib]
  congr 1
  · apply Finset.sum_congr rfl; intro l _; ring
  · apply Finset.sum_nbij' (fun l => l ^^^ 2 ^ k) (fun l => l ^^^ 2 ^ k)
    · intro l hl
      simp only [Finset.mem_range] at hl ⊢
      exact Nat.xor_lt_two_pow hl (Nat.pow_lt_pow_right (by norm_num) hk)
    · intro l hl
      simp only [Finset.mem_range] at hl ⊢
      exact Nat.xor_lt_two_pow hl (Nat.pow_lt_pow_right (by norm_num) hk)
    · intro l _; simp [Nat.xor_assoc]
    · intro l _; simp [Nat.xor_assoc]
    · intro l _
      simp only [cfgOf_xor, Function.update_self, Function.update_idem, Bool.not_not, Function.update_eq_self]
      ring

theorem wm_adj (p : PL) : (fun a b => (starRingEnd ℂ) (vm p b a)) = wm p := by
  have hr : (starRingEnd ℂ) r2 = r2 := Complex.conj_ofReal _
  cases p
  · funext a b; cases a <;> cases b <;> simp [vm, wm]
  · funext a b; cases a <;> cases b <;> simp [vm, wm, mat2, hr]
  · simp only [vm, wm, mat2_mul]
    funext a b; cases a <;> cases b <;> simp [mat2, hr] <;> ring
  · funext a b; cases a <;> cases b <;> simp [vm, wm]

theorem innerQ_layer (n k : ℕ) (b : PStr) (h : k + b.length ≤ n) (φ ψ : Cfg → ℂ) :
    innerQ n (circOp (measFrom k b) φ) ψ = innerQ n φ (circOp (invFrom k b) ψ) := by
  induction b generalizing k φ ψ with
  | nil => simp [measFrom, invFrom, circOp]
  | cons p b ih =>
    have hk : k < n := by simp at h; omega
    rw [measFrom, invFrom, circOp_append, circOp_append, circOp_pauliOp, circOp_pauliOp_inv, ←
      site_invFrom k (k + 1) (by omega)]
    simp only [Module.End.mul_apply]
    rw [ih (k + 1) (by simp at h; omega), innerQ_site n k hk (wm p)]
    congr 2
    have := wm_adj p
    congr 1
    rw [← wm_adj p]
    funext a b
    simp

/-- **C61.** Measuring in a basis from which `s` is recoverable: the expectation of the outcome product after the
basis-change gates is `⟨ψ|P_s|ψ⟩`. -/
theorem C61_measurement (n : ℕ) (s b : PStr) (h : Recoverable s b) (hn : b.length ≤ n) (ψ : Cfg → ℂ) :
    ((∑ l ∈ Finset.range (2 ^ n), ‖circOp (measFrom 0 b) ψ (cfgOf l)‖ ^ 2 * (outcome 0 s (cfgOf l) : ℝ) : ℝ) : ℂ) =
      innerQ n ψ ((denP 0 s : Oper ℂ) ψ) := by
  rw [← innerQ_z, innerQ_layer n 0 b (by omega), ← conj_layer s b h.1 h.2 0]
  rfl

/-- **C61, state-vector backend, end to end.** For every list of strings of length `n`, every colouring and every
state: if grouping returns, the value computed for a requested string from the amplitudes after the gates of its
assigned basis is `⟨ψ|P_s|ψ⟩`, up to the skipped amplitudes. -/
theorem C61_statevector (n : ℕ) (rel : Grouping.Rel) (col : ℕ → ℕ) (items : List PStr) (hn : ∀ s ∈ items, s.length = n)
    (ops : List PStr) (d : List (PStr × PStr)) (h : Grouping.simplify rel col items = some (ops, d)) (s b : PStr)
    (hsb : (s, b) ∈ d) (ψ : Cfg → ℂ) :
    ‖(statevector n s (fun l => circOp (measFrom 0 b) ψ (cfgOf l)) : ℂ) - innerQ n ψ ((denP 0 s : Oper ℂ) ψ)‖ ≤
      2 ^ n * 1e-28 := by
  obtain ⟨h1, _, h3⟩ := (C25_sound rel col items n hn ops d h).2 s b hsb
  have := hn s h1
  rw [← C61_measurement n s b h3 (by rw [← h3.1]; omega), ← innerQ_z]
  exact C26_statevector n s (by omega) _

/-- The record of basis state number `l`. -/
def recordOf (n l : ℕ) : List Bool := (List.range n).map (fun i => l.testBit (n - 1 - i))

theorem outcome_congr (s : PStr) (k : ℕ) (b b' : Cfg) (h : ∀ i, k ≤ i → i < k + s.length → b i = b' i) :
    outcome k s b = outcome k s b' := by
  induction s generalizing k with
  | nil => rfl
  | cons p s ih =>
    unfold outcome
    rw [h k le_rfl (by simp), ih (k + 1) (fun i h1 h2 => h i (by omega) (by simp; omega))]

/-- **C61, counts.** With frequencies proportional to the probabilities of the outcomes after the gates of a basis
from which `s` is recoverable, the value computed from the counts is `⟨ψ|P_s|ψ⟩/⟨ψ|ψ⟩`. -/
theorem C61_counts [DecidableEq ℝ] (n : ℕ) (s b : PStr) (h : Recoverable s b) (hn : b.length ≤ n) (ψ : Cfg → ℂ)
    (shots : ℝ) (hsh : shots ≠ 0) (hψ : innerQ n ψ ψ ≠ 0) :
    ∃ v : ℝ, counts n s ((List.range (2 ^ n)).map (fun l =>
      (recordOf n l, shots * ‖circOp (measFrom 0 b) ψ (cfgOf l)‖ ^ 2))) = some v ∧
      (v : ℂ) = innerQ n ψ ((denP 0 s : Oper ℂ) ψ) / innerQ n ψ ψ := by
  have hrec : ∀ l, ∀ i < n, record (recordOf n l) i = cfgOf l i := by
    intro l i hi
    unfold record recordOf cfgOf
    rw [List.getD_eq_getElem?_getD, List.getElem?_reverse (by simpa using hi), List.getElem?_map,
      List.getElem?_range (by simp; omega)]
    simp only [List.length_map, List.length_range, Option.map_some, Option.getD_some]
    congr 1
    omega
  have hsum : ∀ (N : ℕ) (f : ℕ → ℝ), ((List.range N).map f).sum = ∑ l ∈ Finset.range N, f l := by
    intro N f
    induction N with
    | zero => simp
    | succ N ih => rw [List.range_succ, List.map_append, List.sum_append, ih, Finset.sum_range_succ]; simp
  have hlen : ∀ x ∈ (List.range (2 ^ n)).map (fun l =>
      (recordOf n l, shots * ‖circOp (measFrom 0 b) ψ (cfgOf l)‖ ^ 2)), x.1.length = n := by
    intro x hx
    obtain ⟨l, _, rfl⟩ := List.mem_map.mp hx
    simp [recordOf]
  have e2 := C61_measurement n s b h hn ψ
  have e1 : ((∑ l ∈ Finset.range (2 ^ n), ‖circOp (measFrom 0 b) ψ (cfgOf l)‖ ^ 2 : ℝ) : ℂ) = innerQ n ψ ψ := by
    have h0 := C61_measurement n (List.replicate b.length .I) b ⟨by simp, by
      intro p hp
      exact Or.inl (List.eq_of_mem_replicate (List.of_mem_zip hp).1)⟩ hn ψ
    have hd : ∀ m k, (denP k (List.replicate m PL.I) : Oper ℂ) = 1 := by
      intro m
      induction m with
      | zero => intro k; rfl
      | succ n ih => intro k; rw [List.replicate_succ, denP, ih]; simp [pmat, site_one]
    have ho : ∀ m k (c : Cfg), outcome k (List.replicate m PL.I) c = 1 := by
      intro m
      induction m with
      | zero => intro k c; rfl
      | succ n ih => intro k c; rw [List.replicate_succ, outcome, ih]; simp
    rw [hd] at h0
    simp only [ho, Int.cast_one, mul_one] at h0
    exact h0
  have ht : ((List.map (fun l => (recordOf n l, shots * ‖circOp (measFrom 0 b) ψ (cfgOf l)‖ ^ 2))
      (List.range (2 ^ n))).map (·.2)).sum = shots * ∑ l ∈ Finset.range (2 ^ n), ‖circOp (measFrom 0 b) ψ (cfgOf l)‖ ^ 2 := by
    rw [List.map_map, Finset.mul_sum, ← hsum]
    rfl
  have hv : ((List.map (fun l => (recordOf n l, shots * ‖circOp (measFrom 0 b) ψ (cfgOf l)‖ ^ 2))
      (List.range (2 ^ n))).map (fun x => x.2 * (outcome 0 s (record x.1) : ℝ))).sum =
      shots * ∑ l ∈ Finset.range (2 ^ n), ‖circOp (measFrom 0 b) ψ (cfgOf l)‖ ^ 2 * (outcome 0 s (cfgOf l) : ℝ) := by
    rw [List.map_map, Finset.mul_sum, ← hsum]
    congr 1
    apply List.map_congr_left
    intro l _
    simp only [Function.comp]
    rw [outcome_congr s 0 (record (recordOf n l)) (cfgOf l) (fun i _ hi => hrec l i (by
      have := h.1; omega))]
    ring
  have hne : (∑ l ∈ Finset.range (2 ^ n), ‖circOp (measFrom 0 b) ψ (cfgOf l)‖ ^ 2 : ℝ) ≠ 0 := by
    intro h0
    rw [h0] at e1
    exact hψ (by rw [← e1]; simp)
  refine ⟨_, C26_mean n s (by have := h.1; omega) _ hlen (by rw [ht]; exact mul_ne_zero hsh hne), ?_⟩
  rw [ht, hv, mul_div_mul_left _ _ hsh, ← e1, ← e2, Complex.ofReal_div]

example : Recoverable [.X, .I, .Z] [.X, .Y, .Z] := by
  refine ⟨rfl, ?_⟩
  decide

end
end HQCA.Props
