import Verif.Proofs.Adjoint

set_option linter.unusedSectionVars false

namespace HQCA
variable {K : Type} [Coef K]

theorem denF_eq_denW (k : ℕ) (s : FStr) : (denF k s : Oper K) = denW fop k s := by
  induction s generalizing k with
  | nil => rfl
  | cons x s ih => simp [denF, denW, ih]

theorem denQ_eq_denW (k : ℕ) (s : FStr) : (denQ k s : Oper K) = denW (fun k x => site k (qmat x)) k s := by
  induction s generalizing k with
  | nil => rfl
  | cons x s ih => simp [denQ, denW, ih]

/-- Pairs of a string placed at offset `k`. -/
def pairsFrom (k : ℕ) (s : FStr) : List (ℕ × FL) :=
  ((s.zipIdx k).filter (fun x => x.1 ≠ .i)).map (fun x => (x.2, x.1))

theorem pairs_eq (s : FStr) : Fermi.pairs s = pairsFrom 0 s := rfl

theorem word_pairsFrom (W : ℕ → FL → Oper K) (hi : ∀ k, W k .i = 1) (k : ℕ) (s : FStr) :
    wordW W (pairsFrom k s) = denW W k s := by
  induction s generalizing k with
  | nil => rfl
  | cons x s ih =>
    by_cases h : x = .i
    · subst h
      have : pairsFrom k (FL.i :: s) = pairsFrom (k+1) s := by simp [pairsFrom]
      rw [this, ih, denW, hi, one_mul]
    · have : pairsFrom k (x :: s) = (k, x) :: pairsFrom (k+1) s := by simp [pairsFrom, h]
      rw [this, wordW_cons, ih, denW]

theorem pairsFrom_ok (k : ℕ) (s : FStr) :
    okLetters (pairsFrom k s) ∧ ∀ a ∈ pairsFrom k s, k ≤ a.1 ∧ a.1 < k + s.length := by
  constructor
  · intro a ha
    obtain ⟨x, hx, rfl⟩ := List.mem_map.mp ha
    simpa using (List.mem_filter.mp hx).2
  · intro a ha
    obtain ⟨x, hx, rfl⟩ := List.mem_map.mp ha
    have := List.mem_zipIdx (List.mem_filter.mp hx).1
    simp
    omega

/-- `generate` for fermions: defined for every word. -/
theorem generate_spec (c : K) (l : List (ℕ × FL)) (N : ℕ) (hok : okLetters l) :
    ∃ r, Fermi.generate true c l N = some r ∧
      r.2 • denF 0 r.1 = c • (wordF l : Oper K) ∧ ((∀ a ∈ l, a.1 < N) → r.1.length = N) := by
  unfold Fermi.generate
  cases l with
  | nil =>
    refine ⟨_, rfl, ?_, fun _ => by simp⟩
    rw [denF_eq_denW, denW_replicate fop (fun _ => rfl)]
    simp [wordF]
  | cons a l =>
    obtain ⟨r, h1, h2, h3⟩ := generateCore_spec (laws_fermi (K := K)) (fun _ => rfl) c (a :: l) N hok
      (by simp)
    exact ⟨r, h1, by rw [denF_eq_denW]; exact h2, h3⟩

/-! ### Strings are never the zero operator -/

/-- Does configuration `b` survive the letter `x` at orbital `k`? -/
def survives (b : Cfg) (k : ℕ) : FL → Prop
  | .i => True
  | .cr => b k = true
  | .an => b k = false
  | .p => b k = true
  | .h => b k = false

def survivesAll (b : Cfg) : ℕ → FStr → Prop
  | _, [] => True
  | k, x :: xs => survives b k x ∧ survivesAll b (k+1) xs

theorem survivesAll_update (b : Cfg) (j : ℕ) (v : Bool) (k : ℕ) (s : FStr) (h : j < k) :
    survivesAll (Function.update b j v) k s ↔ survivesAll b k s := by
  induction s generalizing k with
  | nil => exact Iff.rfl
  | cons x s ih =>
    simp only [survivesAll]
    rw [ih (k+1) (by omega)]
    have : Function.update b j v k = b k := Function.update_of_ne (by omega) _ _
    cases x <;> simp [survives, this]

theorem fsign_ne_zero (b : Cfg) (k : ℕ) : (fsign b k : K) ≠ 0 := by
  unfold fsign
  exact pow_ne_zero _ (neg_ne_zero.mpr one_ne_zero)

theorem fop_ne_zero (k : ℕ) (x : FL) (φ : Cfg → K) (P : Cfg → Prop)
    (hφ : ∀ b, φ b ≠ 0 ↔ P b) (hP : ∀ b v, P (Function.update b k v) ↔ P b) (b : Cfg) :
    (fop k x φ) b ≠ 0 ↔ survives b k x ∧ P b := by
  have hc : ∀ (φ : Cfg → K), (cre k φ : Cfg → K) b = if b k then fsign b k * φ (Function.update b k false) else 0 :=
    fun _ => rfl
  have ha : ∀ (φ : Cfg → K) (b), (ann k φ : Cfg → K) b = if b k then 0 else fsign b k * φ (Function.update b k true) :=
    fun _ _ => rfl
  have hc' : ∀ (φ : Cfg → K) (b), (cre k φ : Cfg → K) b = if b k then fsign b k * φ (Function.update b k false) else 0 :=
    fun _ _ => rfl
  have hs := fsign_ne_zero (K := K) b k
  cases x
  · simp [fop, survives, hφ]
  · simp only [fop, survives, hc]
    split
    · rename_i h; rw [mul_ne_zero_iff, hφ, hP]; simp [hs, h]
    · rename_i h; simp [h]
  · simp only [fop, survives, ha]
    split
    · rename_i h; simp [h]
    · rename_i h; rw [mul_ne_zero_iff, hφ, hP]; simp [hs, h]
  · simp only [fop, survives, Module.End.mul_apply, hc, ha]
    split
    · rename_i h
      simp only [Function.update_self, Function.update_idem]
      rw [if_neg (by simp), mul_ne_zero_iff, mul_ne_zero_iff, hφ, hP]
      simp [hs, h, fsign_ne_zero]
    · rename_i h; simp [h]
  · simp only [fop, survives, Module.End.mul_apply, hc', ha]
    split
    · rename_i h; simp [h]
    · rename_i h
      simp only [Function.update_self, Function.update_idem]
      rw [if_pos trivial, mul_ne_zero_iff, mul_ne_zero_iff, hφ, hP]
      simp [hs, h, fsign_ne_zero]

theorem denF_apply_ne (k : ℕ) (s : FStr) (b : Cfg) :
    (denF k s (fun _ => (1 : K))) b ≠ 0 ↔ survivesAll b k s := by
  induction s generalizing k b with
  | nil => simp [denF, survivesAll]
  | cons x s ih =>
    simp only [denF, Module.End.mul_apply, survivesAll]
    exact fop_ne_zero k x _ (fun b => survivesAll b (k+1) s) (fun b => ih (k+1) b)
      (fun b v => survivesAll_update b k v (k+1) s (by omega)) b

theorem exists_survives (k : ℕ) (s : FStr) : ∃ b : Cfg, survivesAll b k s := by
  induction s generalizing k with
  | nil => exact ⟨fun _ => false, trivial⟩
  | cons x s ih =>
    obtain ⟨b, hb⟩ := ih (k+1)
    refine ⟨Function.update b k (decide (x = .cr ∨ x = .p)), ?_, ?_⟩
    · cases x <;> simp [survives]
    · rw [survivesAll_update b k _ (k+1) s (by omega)]; exact hb

theorem denF_ne_zero (k : ℕ) (s : FStr) : (denF k s : Oper K) ≠ 0 := by
  intro h
  obtain ⟨b, hb⟩ := exists_survives k s
  have := (denF_apply_ne (K := K) k s b).mpr hb
  rw [h] at this
  exact this rfl

end HQCA
