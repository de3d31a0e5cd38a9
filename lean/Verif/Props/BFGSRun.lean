import Verif.Model.BFGSRun
import Verif.Props.BFGS
import Verif.Props.Optim

/-!
# C124: the quasi-Newton optimizer
-/

namespace HQCA.Props
open HQCA HQCA.BFGSRun Matrix Optim
variable {n : ℕ}

/-- What holds between steps: the reported value belongs to the reported point, the gradient and the criterion too, and the inverse Hessian is positive definite. -/
structure Sound (P : Prob n) (t : BFGSRun.St n) : Prop where
  value : t.bestF = P.f t.bestX
  grad : t.g0 = P.g t.bestX
  crit : t.crit = BFGSRun.norm (P.g t.bestX)
  pos : PosDefSym t.B0i

theorem posDef_one : PosDefSym (1 : Matrix (Fin n) (Fin n) ℝ) := by
  refine ⟨transpose_one, fun x hx => ?_⟩
  rw [one_mulVec]
  obtain ⟨i, hi⟩ := Function.ne_iff.mp hx
  unfold dotProduct
  refine Finset.sum_pos' (fun j _ => mul_self_nonneg _) ⟨i, Finset.mem_univ i, ?_⟩
  exact mul_self_pos.mpr hi

theorem clamp_nonneg_pos {x : ℝ} (h : 0 ≤ x) : 0 < BFGS.clamp x := by
  unfold BFGS.clamp
  split_ifs with h1 h2
  · linarith
  · positivity
  · rcases h.lt_or_eq with h | h
    · exact h
    · exfalso
      rw [← h] at h1
      norm_num at h1

/-- The slope along the search direction. -/
theorem slope (H : Matrix (Fin n) (Fin n) ℝ) (hH : PosDefSym H) (g0 : Fin n → ℝ) : g0 ⬝ᵥ (-(H *ᵥ g0)) ≤ 0 ∧ (g0 ≠ 0 → g0 ⬝ᵥ (-(H *ᵥ g0)) < 0) := by
  rw [dotProduct_neg]
  by_cases h : g0 = 0
  · subst h
    exact ⟨by simp, fun h => absurd rfl h⟩
  · have := hH.2 g0 h
    exact ⟨by linarith, fun _ => by linarith⟩

/-- One accepted step of either routine, from the point `x` with the value `fz`. -/
theorem accepted (P : Prob n) (H : Matrix (Fin n) (Fin n) ℝ) (hH : PosDefSym H) (x g0 : Fin n → ℝ) (fz : ℝ) (m : ℕ) (a f : ℝ)
    (h : wRun (search P x (-(H *ᵥ g0)) g0 fz) m = .ended (some (a, f))) :
    P.f (x + a • -(H *ᵥ g0)) ≤ fz ∧ (g0 ≠ 0 → P.f (x + a • -(H *ᵥ g0)) < fz) ∧
      PosDefSym (BFGS.inv H (a • -(H *ᵥ g0)) (P.g (x + a • -(H *ᵥ g0)) - g0)) := by
  obtain ⟨w1, w2, w3⟩ := C46_wolfe _ _ _ _ h
  obtain ⟨r1, -⟩ := C46_range _ _ _ _ h
  obtain ⟨s1, s2⟩ := slope H hH g0
  set p := -(H *ᵥ g0) with hp
  have e1 : f = P.f (x + a • p) := w1
  have e2 : f ≤ fz + 6 / 10 * a * (g0 ⬝ᵥ p) := w2
  have e3 : |P.g (x + a • p) ⬝ᵥ p| ≤ -(9 / 10) * (g0 ⬝ᵥ p) := w3
  rw [e1] at e2
  refine ⟨?_, fun hg => ?_, ?_⟩
  · have : 6 / 10 * a * (g0 ⬝ᵥ p) ≤ 0 := mul_nonpos_of_nonneg_of_nonpos (by positivity) s1
    linarith
  · have : 6 / 10 * a * (g0 ⬝ᵥ p) < 0 := mul_neg_of_pos_of_neg (by positivity) (s2 hg)
    linarith
  · refine ⟨(C45_symmetric H H _ _ hH.1 hH.1 true).2.2.1, ?_⟩
    unfold BFGS.inv
    refine invWith_posDef _ (clamp_nonneg_pos ?_) H _ _ hH
    rw [dotProduct_smul, sub_dotProduct, smul_eq_mul]
    refine mul_nonneg r1.le ?_
    have := (abs_le.mp e3).1
    linarith

/-- **C124** (start).  The optimizer starts no higher than the start point, and lower unless the gradient vanishes there. -/
theorem C124_start (P : Prob n) (start : Fin n → ℝ) (m : ℕ) (t : BFGSRun.St n) (h : BFGSRun.init P start m = some t) :
    Sound P t ∧ t.bestF ≤ P.f start ∧ (P.g start ≠ 0 → t.bestF < P.f start) := by
  unfold BFGSRun.init at h
  dsimp only at h
  split at h
  · rename_i a f hw
    obtain ⟨a1, a2, a3⟩ := accepted P 1 posDef_one start (P.g start) (P.f start) m a f hw
    cases h
    exact ⟨⟨rfl, rfl, rfl, a3⟩, a1, a2⟩
  · cases h

/-- **C124** (step).  A step reports the value of the objective at the point it reports, not above the previous one, and below it unless the gradient vanishes; a step whose
line search raises changes neither. -/
theorem C124_step (P : Prob n) (t t' : BFGSRun.St n) (m : ℕ) (ok : Bool) (ht : Sound P t) (h : BFGSRun.next P t m = some (t', ok)) :
    Sound P t' ∧ t'.bestF ≤ t.bestF ∧ (ok = true → P.g t.bestX ≠ 0 → t'.bestF < t.bestF) ∧ (ok = false → t'.bestX = t.bestX ∧ t'.bestF = t.bestF) := by
  unfold BFGSRun.next at h
  dsimp only at h
  split at h
  · cases h
  · cases h
    exact ⟨⟨ht.value, ht.grad, ht.crit, ht.pos⟩, le_refl _, fun h => by simp at h, fun _ => ⟨rfl, rfl⟩⟩
  · rename_i a f hw
    obtain ⟨a1, a2, a3⟩ := accepted P t.B0i ht.pos _ t.g0 t.bestF m a f hw
    cases h
    exact ⟨⟨rfl, rfl, rfl, a3⟩, a1, fun _ hg => a2 (by rw [ht.grad]; exact hg), fun h => by simp at h⟩

/-- What holds between the passes of the driver. -/
structure RunOK (P : Prob n) (D : VQE.Par ℝ) (top : ℝ) (r : BFGSRun.Run n) : Prop where
  sound : Sound P r.opt
  best : r.best = r.opt.bestF
  log : ∃ l, r.logE = r.opt.bestF :: l
  sorted : r.logE.Pairwise (· ≤ ·)
  top : ∀ e ∈ r.logE, e ≤ top
  ended : r.done = true → r.error = true ∨ BFGSRun.norm (P.g r.opt.bestX) ≤ max |D.thresh| D.crit
  going : r.error = true → r.done = true

theorem norm_nonneg' (v : Fin n → ℝ) : 0 ≤ BFGSRun.norm v := Real.sqrt_nonneg _

theorem pass_ok (P : Prob n) (D : VQE.Par ℝ) (top : ℝ) (r r' : BFGSRun.Run n) (m : ℕ) (hr : RunOK P D top r) (h : BFGSRun.pass P D r m = some r') :
    RunOK P D top r' := by
  unfold BFGSRun.pass at h
  rw [Option.map_eq_some_iff] at h
  obtain ⟨⟨t, ok⟩, hn, rfl⟩ := h
  obtain ⟨s1, s2, -, -⟩ := C124_step P _ _ _ _ hr.sound hn
  obtain ⟨l, hl⟩ := hr.log
  have hs := hr.sorted
  have hle : ∀ e ∈ r.logE, t.bestF ≤ e := by
    intro e he
    rw [hl] at he hs
    rcases List.mem_cons.mp he with rfl | he
    · exact s2
    · exact s2.trans ((List.pairwise_cons.mp hs).1 e he)
  refine ⟨s1, rfl, ⟨_, rfl⟩, List.pairwise_cons.mpr ⟨hle, hs⟩, ?_, ?_, ?_⟩
  · intro e he
    rcases List.mem_cons.mp he with rfl | he
    · exact s2.trans (hr.top _ (by rw [hl]; simp))
    · exact hr.top e he
  · intro hd
    have hc : t.crit = BFGSRun.norm (P.g t.bestX) := s1.crit
    have h0 := norm_nonneg' (P.g t.bestX)
    simp only [VQE.check, VQE.maxIter] at hd
    rw [if_neg (by norm_num)] at hd
    split at hd
    · rename_i h1
      right
      show BFGSRun.norm (P.g t.bestX) ≤ _
      rw [← hc]
      exact le_max_of_le_right h1.le
    · rw [Bool.or_eq_true] at hd
      rcases hd with hd | hd
      · right
        have := of_decide_eq_true hd
        rw [hc, abs_of_nonneg h0] at this
        exact le_max_of_le_left this
      · exact Or.inl hd
  · intro he
    have he : (r.error || !ok) = true := he
    simp only [VQE.check, VQE.maxIter]
    rw [if_neg (by norm_num), he]
    split
    · rfl
    · simp

theorem loop_ok (P : Prob n) (D : VQE.Par ℝ) (top : ℝ) (ms : List ℕ) : ∀ r r' : BFGSRun.Run n, RunOK P D top r → BFGSRun.loop P D ms r = some r' → RunOK P D top r' := by
  induction ms with
  | nil => intro r r' hr h; cases h; exact hr
  | cons m ms ih =>
    intro r r' hr h
    rw [BFGSRun.loop] at h
    split at h
    · cases h; exact hr
    · rw [Option.bind_eq_some_iff] at h
      obtain ⟨q, h1, h2⟩ := h
      exact ih q r' (pass_ok P D top r q m hr h1) h2

/-- **C124** (run).  For every objective and every gradient routine: the value reported is the objective at the point reported; the recorded values never increase and none is
above the start value; the run ends without error only where the gradient routine gives a vector no longer than the larger of the two thresholds. -/
theorem C124_run (P : Prob n) (D : VQE.Par ℝ) (start : Fin n → ℝ) (m : ℕ) (ms : List ℕ) (r : BFGSRun.Run n) (h : BFGSRun.whole P D start m ms = some r) :
    r.best = P.f r.opt.bestX ∧ (∃ l, r.logE = r.best :: l) ∧ r.logE.Pairwise (· ≤ ·) ∧ (∀ e ∈ r.logE, e ≤ P.f start)
      ∧ (r.done = true → r.error = true ∨ BFGSRun.norm (P.g r.opt.bestX) ≤ max |D.thresh| D.crit) := by
  unfold BFGSRun.whole BFGSRun.build at h
  rw [Option.bind_eq_some_iff] at h
  obtain ⟨q, hq, hl⟩ := h
  rw [Option.map_eq_some_iff] at hq
  obtain ⟨t, ht, rfl⟩ := hq
  obtain ⟨s1, s2, -⟩ := C124_start P start m t ht
  have ok := loop_ok P D (P.f start) ms _ r ⟨s1, rfl, ⟨_, rfl⟩, List.pairwise_singleton _ _, fun e he => by simpa using (List.mem_singleton.mp he ▸ s2),
    fun h => by simp at h, fun h => by simp at h⟩ hl
  exact ⟨ok.best.trans ok.sound.value, by rw [ok.best]; exact ok.log, ok.sorted, ok.top, ok.ended⟩

/-- A start that goes through: `x²` from 1; the line search finds the step `1/4`. -/
example : ∃ t, BFGSRun.init (n := 1) ⟨fun x => x 0 ^ 2, fun x _ => 2 * x 0⟩ (fun _ => 1) 1 = some t ∧ t.bestF = 1 / 4 := by
  have hs : search (n := 1) ⟨fun x => x 0 ^ 2, fun x _ => 2 * x 0⟩ (fun _ => 1) (-((1 : Matrix (Fin 1) (Fin 1) ℝ) *ᵥ fun _ => 2 * 1)) (fun _ => 2 * 1) (1 ^ 2)
      = ⟨fun a => (1 - 2 * a) ^ 2, fun a => 2 * (1 - 2 * a) * -2, 1, -4, 6 / 10, 9 / 10⟩ := by
    unfold search
    rw [one_mulVec]
    congr 1
    · funext a; simp; ring
    · funext a; simp [dotProduct]; ring
    · norm_num
    · simp [dotProduct]; norm_num
  have hz : ∀ W : WLS ℝ, W = ⟨fun a => (1 - 2 * a) ^ 2, fun a => 2 * (1 - 2 * a) * -2, 1, -4, 6 / 10, 9 / 10⟩ → wRun W 1 = .ended (some (1 / 4, 1 / 4)) := by
    rintro W rfl
    rw [wRun, wRun, wPass]
    dsimp only
    rw [if_pos (by norm_num), show (21 : ℕ) = 19 + 1 + 1 from rfl, wZoom]
    dsimp only
    rw [if_pos (by norm_num), wZoom]
    dsimp only
    rw [if_neg (by norm_num), if_pos (by norm_num), if_neg (by norm_num)]
    norm_num
  unfold BFGSRun.init
  dsimp only
  rw [hz _ hs]
  refine ⟨_, rfl, ?_⟩
  dsimp only
  rw [one_mulVec]
  simp
  norm_num

/-- A line search along which the value falls enough and the slope stays too steep everywhere below the largest step never ends. -/
theorem wRun_endless (W : WLS ℝ) (h : ∀ a, 0 < a → a < 5 → W.phi a ≤ W.fz + W.c1 * a * W.gz ∧ W.dphi a < 0 ∧ -W.c2 * W.gz < |W.dphi a|) (m : ℕ) :
    ∃ a f b, wRun W m = .running a f b ∧ 0 < b ∧ b < 5 := by
  induction m with
  | zero => exact ⟨0, W.fz, 1, rfl, by norm_num, by norm_num⟩
  | succ m ih =>
    obtain ⟨a, f, b, e, b1, b2⟩ := ih
    obtain ⟨h1, h2, h3⟩ := h b b1 b2
    refine ⟨b, W.phi b, 1 / 2 * (b + 5), ?_, by linarith, by linarith⟩
    rw [wRun, e, wPass]
    dsimp only
    rw [if_neg (not_lt.mpr h1), if_neg (not_le.mpr h3), if_neg (not_le.mpr h2)]

/-- The line search of `initialize` on the bowl `lam / 2 * |x|²`. -/
theorem search_bowl (lam : ℝ) (start : Fin n → ℝ) :
    search ⟨fun x => lam / 2 * (x ⬝ᵥ x), fun x => lam • x⟩ start (-((1 : Matrix (Fin n) (Fin n) ℝ) *ᵥ (lam • start))) (lam • start) (lam / 2 * (start ⬝ᵥ start))
      = ⟨fun a => lam / 2 * ((1 - a * lam) ^ 2 * (start ⬝ᵥ start)), fun a => -((1 - a * lam) * (lam * (lam * (start ⬝ᵥ start)))), lam / 2 * (start ⬝ᵥ start),
          -(lam * (lam * (start ⬝ᵥ start))), 6 / 10, 9 / 10⟩ := by
  have hp : ∀ a : ℝ, start + a • -((1 : Matrix (Fin n) (Fin n) ℝ) *ᵥ (lam • start)) = (1 - a * lam) • start := by
    intro a
    rw [one_mulVec]
    ext i
    simp
    ring
  unfold search
  congr 1
  · funext a
    rw [hp]
    simp only [smul_dotProduct, dotProduct_smul, smul_eq_mul]
    ring
  · funext a
    dsimp only
    rw [hp, one_mulVec]
    simp only [smul_dotProduct, dotProduct_smul, dotProduct_neg, smul_eq_mul]
    ring
  · rw [one_mulVec]
    simp only [smul_dotProduct, dotProduct_smul, dotProduct_neg, smul_eq_mul]

theorem self_dot_pos {x : Fin n → ℝ} (h : x ≠ 0) : 0 < x ⬝ᵥ x := by
  have := (posDef_one (n := n)).2 x h
  rwa [one_mulVec] at this

/-- **C46, C124** (negation).  On the bowl `lam / 2 * |x|²` with `0 < lam ≤ 1/50` the first line search never ends, from any start point other than the minimum and in any
dimension: `initialize` does not return. -/
theorem C124_endless (lam : ℝ) (h0 : 0 < lam) (h1 : lam ≤ 1 / 50) (start : Fin n → ℝ) (hs : start ≠ 0) (m : ℕ) :
    BFGSRun.init ⟨fun x => lam / 2 * (x ⬝ᵥ x), fun x => lam • x⟩ start m = none := by
  have hq := self_dot_pos hs
  obtain ⟨a, f, b, e, -, -⟩ := wRun_endless (search ⟨fun x => lam / 2 * (x ⬝ᵥ x), fun x => lam • x⟩ start
    (-((1 : Matrix (Fin n) (Fin n) ℝ) *ᵥ (lam • start))) (lam • start) (lam / 2 * (start ⬝ᵥ start))) (by
      rw [search_bowl lam start]
      intro a a0 a5
      dsimp only
      set q := start ⬝ᵥ start
      have t1 : 0 < a * lam := by positivity
      have t2 : a * lam < 1 / 10 := by nlinarith
      have t3 : 0 < lam * q := by positivity
      have t4 : 0 < lam * (lam * q) := by positivity
      have t5 : 0 < (1 - a * lam) * (lam * (lam * q)) := by
        apply mul_pos <;> linarith
      refine ⟨?_, by linarith, ?_⟩
      · nlinarith [mul_pos t1 t3, mul_pos (mul_pos t1 t1) t3]
      · rw [abs_neg, abs_of_pos t5]
        nlinarith) m
  unfold BFGSRun.init
  dsimp only
  rw [e]

/-- **C124** (the other bowls).  For `1/50 < lam ≤ 4/5` it returns. -/
theorem C124_bowl_partial (lam : ℝ) (h0 : 1 / 50 < lam) (h1 : lam ≤ 4 / 5) (start : Fin n → ℝ) :
    ∃ m t, BFGSRun.init ⟨fun x => lam / 2 * (x ⬝ᵥ x), fun x => lam • x⟩ start m = some t := by
  have hq : 0 ≤ start ⬝ᵥ start := Finset.sum_nonneg fun i _ => mul_self_nonneg _
  set W := search ⟨fun x => lam / 2 * (x ⬝ᵥ x), fun x => lam • x⟩ start (-((1 : Matrix (Fin n) (Fin n) ℝ) *ᵥ (lam • start))) (lam • start)
    (lam / 2 * (start ⬝ᵥ start)) with hW
  have hgood : ∀ a f b, 1 / 10 ≤ b * lam → b * lam ≤ 4 / 5 → wPass W (.running a f b) = .ended (some (b, W.phi b)) := by
    intro a f b c1 c2
    rw [hW, search_bowl, wPass]
    dsimp only
    set q := start ⬝ᵥ start
    have t4 : 0 ≤ lam * (lam * q) := by positivity
    have t3 : 0 ≤ lam * q := by positivity
    have t5 : 0 ≤ (1 - b * lam) * (lam * (lam * q)) := by
      apply mul_nonneg <;> linarith
    rw [if_neg, if_pos]
    · rw [abs_neg, abs_of_nonneg t5]
      nlinarith
    · rw [not_lt]
      nlinarith [mul_nonneg (mul_nonneg (by linarith : 0 ≤ b * lam) (by linarith : 0 ≤ 4 / 5 - b * lam)) t3]
  have hbad : ∀ a f b, 0 < b → b * lam < 1 / 10 → 0 < start ⬝ᵥ start → wPass W (.running a f b) = .running b (W.phi b) (1 / 2 * (b + 5)) := by
    intro a f b b0 c1 hq
    rw [hW, search_bowl, wPass]
    dsimp only
    set q := start ⬝ᵥ start
    have t0 : 0 < b * lam := by apply mul_pos <;> linarith
    have t3 : 0 < lam * q := by apply mul_pos <;> linarith
    have t4 : 0 < lam * (lam * q) := by apply mul_pos <;> linarith
    have t5 : 0 < (1 - b * lam) * (lam * (lam * q)) := by
      apply mul_pos <;> linarith
    rw [if_neg, if_neg, if_neg]
    · rw [not_le]; linarith
    · rw [abs_neg, abs_of_pos t5, not_le]
      nlinarith
    · rw [not_lt]
      nlinarith [mul_pos t0 t3, mul_pos (mul_pos t0 t0) t3]
  have hend : ∃ m a f, wRun W m = .ended (some (a, f)) := by
    by_contra hno
    push Not at hno
    by_cases hz : start ⬝ᵥ start = 0
    · refine hno 1 1 (W.phi 1) ?_
      rw [wRun, wRun, hW, search_bowl, wPass]
      dsimp only
      rw [hz]
      simp
    have hq := lt_of_le_of_ne hq (Ne.symm hz)
    have hrun : ∀ m : ℕ, ∃ a f, wRun W m = .running a f (5 - 4 / 2 ^ m) ∧ (5 - 4 / 2 ^ m : ℝ) * lam ≤ 4 / 5 := by
      intro m
      induction m with
      | zero => exact ⟨0, W.fz, by rw [wRun]; norm_num, by norm_num; exact h1⟩
      | succ m ih =>
        obtain ⟨a, f, e, hle⟩ := ih
        have hp : (4 : ℝ) / 2 ^ m ≤ 4 := div_le_self (by norm_num) (one_le_pow₀ (by norm_num))
        by_cases hc : 1 / 10 ≤ (5 - 4 / 2 ^ m : ℝ) * lam
        · exact absurd (by rw [wRun, e, hgood _ _ _ hc hle]) (hno (m + 1) _ _)
        · push Not at hc
          have e2 : (5 - 4 / 2 ^ (m + 1) : ℝ) = 1 / 2 * ((5 - 4 / 2 ^ m) + 5) := by
            rw [pow_succ, ← div_div]
            ring
          refine ⟨_, _, by rw [wRun, e, hbad _ _ _ (by linarith) hc hq, e2], ?_⟩
          rw [e2]
          nlinarith
    obtain ⟨m, hm⟩ := exists_pow_lt_of_lt_one (show (0 : ℝ) < (5 - 1 / (10 * lam)) / 4 by
      have : 1 / (10 * lam) < 5 := by
        rw [div_lt_iff₀ (by linarith)]
        linarith
      linarith) (show (1 / 2 : ℝ) < 1 by norm_num)
    obtain ⟨a, f, e, hle⟩ := hrun m
    suffices hc : 1 / 10 ≤ (5 - 4 / 2 ^ m : ℝ) * lam from hno (m + 1) _ _ (by rw [wRun, e, hgood _ _ _ hc hle])
    have e3 : (4 : ℝ) / 2 ^ m = 4 * (1 / 2) ^ m := by
      rw [one_div, inv_pow]
      rfl
    have e4 : 1 / (10 * lam) ≤ 5 - 4 / 2 ^ m := by
      rw [e3]
      linarith
    calc (1 / 10 : ℝ) = 1 / (10 * lam) * lam := by
          have : lam ≠ 0 := by linarith
          field_simp
      _ ≤ _ := mul_le_mul_of_nonneg_right e4 (by linarith)
  obtain ⟨m, a, f, e⟩ := hend
  refine ⟨m, ?_⟩
  unfold BFGSRun.init
  dsimp only
  rw [hW] at e
  rw [e]
  exact ⟨_, rfl⟩

end HQCA.Props
