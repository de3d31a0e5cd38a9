import Verif.Model.SaveRDM
import Verif.Props.SpinBlocks

/-!
# C142: density matrices written to a file and read back
-/

namespace HQCA.Props
open HQCA HQCA.SpinBlocks HQCA.SaveRDM
noncomputable section

/-- Spec: `rnd d x` is a number with `d` decimals nearest to `x`. -/
def Rounds (rnd : ℕ → ℝ → ℝ) : Prop := ∀ d x, (∃ k : ℤ, rnd d x = k / 10 ^ d) ∧ |rnd d x - x| ≤ 1 / (2 * 10 ^ d)

/-- Rounding half up is one. -/
theorem rounds_round : Rounds fun d x => (round (x * 10 ^ d) : ℝ) / 10 ^ d := by
  intro d x
  refine ⟨⟨_, rfl⟩, ?_⟩
  have h := abs_sub_round (x * 10 ^ d)
  have hp : (0 : ℝ) < 10 ^ d := by positivity
  rw [abs_sub_comm] at h
  have e : (round (x * 10 ^ d) : ℝ) / 10 ^ d - x = ((round (x * 10 ^ d) : ℝ) - x * 10 ^ d) / 10 ^ d := by field_simp
  rw [e, abs_div, abs_of_pos hp, div_le_div_iff₀ hp (by positivity)]
  nlinarith

theorem printed_near {rnd : ℕ → ℝ → ℝ} (h : Rounds rnd) (precision : ℕ) (x : ℝ) :
    |printed rnd precision x - x| ≤ (1 / 10 ^ precision + 1 / 10 ^ 6) / 2 := by
  have h1 := (h precision x).2
  have h2 := (h 6 (rnd precision x)).2
  have e : printed rnd precision x - x = (rnd 6 (rnd precision x) - rnd precision x) + (rnd precision x - x) := by unfold printed; ring
  rw [e]
  refine (abs_add_le _ _).trans ((add_le_add h2 h1).trans (le_of_eq ?_))
  field_simp
  ring

/-- Reading: the last line with the index decides. -/
theorem load_of_mem (ls : List (List ℕ × ℝ × ℝ)) (ind : List ℕ) (v : ℝ) (hv : ∀ x ∈ ls, x.1 = ind.map (· + 1) → x.2.1 = v)
    (he : (∃ x ∈ ls, x.1 = ind.map (· + 1)) ∨ v = 0) : load ls ind = v := by
  unfold load
  have gen : ∀ (l : List (List ℕ × ℝ × ℝ)) (A : List ℕ → ℝ), (∀ x ∈ l, x.1 = ind.map (· + 1) → x.2.1 = v) →
      ((∃ x ∈ l, x.1 = ind.map (· + 1)) ∨ A ind = v) →
      l.foldl (fun A x => fun ind => if x.1 = ind.map (· + 1) then x.2.1 else A ind) A ind = v := by
    intro l
    induction l with
    | nil => rintro A _ (⟨x, hx, _⟩ | h); · cases hx
             · exact h
    | cons y l ih =>
      intro A h1 h2
      rw [List.foldl_cons]
      refine ih _ (fun x hx => h1 x (List.mem_cons_of_mem _ hx)) ?_
      by_cases hy : y.1 = ind.map (· + 1)
      · right
        rw [if_pos hy]
        exact h1 y List.mem_cons_self hy
      · rcases h2 with ⟨x, hx, hxe⟩ | h2
        · rcases List.mem_cons.1 hx with rfl | hx
          · exact absurd hxe hy
          · exact Or.inl ⟨x, hx, hxe⟩
        · right; rw [if_neg hy]; exact h2
  exact gen ls _ hv (he.imp_right fun h => h.symm)

theorem mem_loop4 {β : Type} (R : ℕ) (f : ℕ → ℕ → ℕ → ℕ → List β) (x : β) :
    x ∈ loop4 R f ↔ ∃ i < R, ∃ j < R, ∃ k < R, ∃ l < R, x ∈ f i j k l := by
  unfold loop4
  simp only [List.mem_flatMap, List.mem_range]

/-- What is read is what was printed. -/
theorem load_lines (rnd : ℕ → ℝ → ℝ) (precision R : ℕ) (d : List ℕ → ℂ) (i j k l : ℕ) (hi : i < R) (hj : j < R) (hk : k < R) (hl : l < R) :
    load (lines rnd precision R d) [i, j, k, l] = if d [i, j, k, l] = 0 then 0 else printed rnd precision (d [i, j, k, l]).re := by
  apply load_of_mem
  · intro x hx hxe
    obtain ⟨i', _, j', _, k', _, l', _, hx⟩ := (mem_loop4 R _ x).1 hx
    split at hx
    · cases hx
    · rename_i h0
      rw [List.mem_singleton] at hx
      subst hx
      simp only [List.map_cons, List.map_nil, List.cons.injEq, Nat.add_right_cancel_iff, and_true] at hxe
      obtain ⟨rfl, rfl, rfl, rfl⟩ := hxe
      rw [if_neg h0]
  · by_cases h0 : d [i, j, k, l] = 0
    · right; rw [if_pos h0]
    · left
      exact ⟨_, (mem_loop4 R _ _).2 ⟨i, hi, j, hj, k, hk, l, hl, by rw [if_neg h0]; exact List.mem_singleton.2 rfl⟩, rfl⟩

/-- **C142, the file.**  Whatever the density matrix, reading the file gives the real part of its alpha-beta block up to half a unit of the last digit asked for
plus half a unit of the sixth. -/
theorem C142_file_partial {rnd : ℕ → ℝ → ℝ} (h : Rounds rnd) (precision R : ℕ) (D : List ℕ → ℂ) (i k j l : ℕ) (hi : i < R) (hk : k < R) (hj : j < R) (hl : l < R) :
    |load (saved rnd precision R (List.range R) ((List.range R).map (R + ·)) D) [i, k, j, l] - (D [i, R + k, j, R + l]).re| ≤
      (1 / 10 ^ precision + 1 / 10 ^ 6) / 2 := by
  unfold saved
  rw [load_lines rnd precision R _ i k j l hi hk hj hl, block_apply R D i k j l hi hk hj hl]
  split
  · rename_i h0
    rw [h0, Complex.zero_re, sub_zero, abs_zero]
    positivity
  · exact printed_near h precision _

/-- Values wrong by at most `δ` give entries wrong by at most `2 δ`. -/
theorem fromAB_error (R : ℕ) (f g : List ℕ → ℂ) (δ : ℝ)
    (hfg : ∀ i k j l, i < R → k < R → j < R → l < R → |(f [i, k, j, l]).re - (g [i, k, j, l]).re| ≤ δ)
    (p q s t : ℕ) (hp : p < R + R) (hq : q < R + R) (hs : s < R + R) (ht : t < R + R) :
    ‖fromAB R f [p, q, s, t] - fromAB R g [p, q, s, t]‖ ≤ 2 * δ := by
  have hR : 0 < R := by omega
  have hδ : 0 ≤ δ := (abs_nonneg _).trans (hfg 0 0 0 0 hR hR hR hR)
  have one : ∀ x y : ℝ, |x - y| ≤ δ → ‖(x : ℂ) - (y : ℂ)‖ ≤ 2 * δ := by
    intro x y hxy
    rw [← Complex.ofReal_sub, Complex.norm_real, Real.norm_eq_abs]
    linarith
  have neg : ∀ x y : ℝ, |x - y| ≤ δ → ‖((-x : ℝ) : ℂ) - ((-y : ℝ) : ℂ)‖ ≤ 2 * δ := by
    intro x y hxy
    refine one _ _ ?_
    rw [show -x - -y = -(x - y) by ring, abs_neg]
    exact hxy
  have two : ∀ x y x' y' : ℝ, |x - y| ≤ δ → |x' - y'| ≤ δ → ‖((x - x' : ℝ) : ℂ) - ((y - y' : ℝ) : ℂ)‖ ≤ 2 * δ := by
    intro x y x' y' h1 h2
    rw [← Complex.ofReal_sub, Complex.norm_real, Real.norm_eq_abs]
    rw [abs_le] at h1 h2 ⊢
    constructor <;> linarith [h1.1, h1.2, h2.1, h2.2]
  rw [fromAB_apply, fromAB_apply]
  simp only [store_re, aaBlock, Complex.sub_re, Complex.neg_re]
  rcases split_index R p hp with ⟨i, hi, rfl⟩ | ⟨i, hi, rfl⟩ <;> rcases split_index R q hq with ⟨k, hk, rfl⟩ | ⟨k, hk, rfl⟩ <;>
    rcases split_index R s hs with ⟨j, hj, rfl⟩ | ⟨j, hj, rfl⟩ <;> rcases split_index R t ht with ⟨l, hl, rfl⟩ | ⟨l, hl, rfl⟩
  all_goals simp only [hi, hk, hj, hl, not_lt.mpr hi.le, not_lt.mpr hk.le, not_lt.mpr hj.le, not_lt.mpr hl.le, Nat.not_le.mpr hi,
    Nat.not_le.mpr hk, Nat.not_le.mpr hj, Nat.not_le.mpr hl, Nat.le_add_right, Nat.not_lt.mpr (Nat.le_add_right R _),
    Nat.add_lt_add_iff_left, Nat.add_sub_cancel_left, false_and, and_false, true_and, and_true, if_false, if_true, zero_add, add_zero]
  all_goals first
    | exact two _ _ _ _ (hfg i k j l hi hk hj hl) (hfg k i j l hk hi hj hl)
    | exact one _ _ (hfg i k j l hi hk hj hl)
    | exact neg _ _ (hfg k i j l hk hi hj hl)
    | (rw [sub_self, norm_zero]; linarith)

/-- **C142, singlets.**  The density matrix built from the file of a singlet state with a fixed number of alpha electrons is the real part of the state's 2-RDM, up to a
unit of the last digit asked for plus a unit of the sixth, at every index. -/
theorem C142_restored_partial {rnd : ℕ → ℝ → ℝ} (h : Rounds rnd) (precision R : ℕ) (ψ : Cfg →₀ ℂ) (hu : (spinUp (abPairs R) : Oper ℂ) ψ = 0)
    (hd : (spinDown (abPairs R) : Oper ℂ) ψ = 0) (n : ℤ) (hn : Sector R n ψ) (D : List ℕ → ℂ)
    (hD : ∀ i k j l, i < R + R → k < R + R → j < R + R → l < R + R → D [i, k, j, l] = rdm ψ [i, k] [j, l])
    (p q s t : ℕ) (hp : p < R + R) (hq : q < R + R) (hs : s < R + R) (ht : t < R + R) :
    ‖restored R (saved rnd precision R (List.range R) ((List.range R).map (R + ·)) D) [p, q, s, t] - ((rdm ψ [p, q] [s, t]).re : ℂ)‖ ≤
      1 / 10 ^ precision + 1 / 10 ^ 6 := by
  rw [← C97_singlet hu hd n hn (fun ind => D [ind.getD 0 0, R + ind.getD 1 0, ind.getD 2 0, R + ind.getD 3 0])
    (fun i k j l hi hk hj hl => hD i (R + k) j (R + l) (by omega) (by omega) (by omega) (by omega)) p q s t hp hq hs ht]
  have := fromAB_error R (fun ind => ((load (saved rnd precision R (List.range R) ((List.range R).map (R + ·)) D) ind : ℝ) : ℂ))
    (fun ind => D [ind.getD 0 0, R + ind.getD 1 0, ind.getD 2 0, R + ind.getD 3 0]) ((1 / 10 ^ precision + 1 / 10 ^ 6) / 2)
    (fun i k j l hi hk hj hl => by
      have := C142_file_partial h precision R D i k j l hi hk hj hl
      simpa using this) p q s t hp hq hs ht
  unfold restored
  refine this.trans (le_of_eq ?_)
  ring

/-- The hypotheses: the closed shell of one orbital. -/
example : (spinUp (abPairs 1) : Oper ℂ) (Finsupp.single (fun i => decide (i < 2)) 1) = 0 ∧ (spinDown (abPairs 1) : Oper ℂ) (Finsupp.single (fun i => decide (i < 2)) 1) = 0 ∧
    Sector 1 1 (Finsupp.single (fun i => decide (i < 2)) (1 : ℂ)) := by
  classical
  have hb : ∀ b : Cfg, (Finsupp.single (fun i => decide (i < 2)) (1 : ℂ)) b ≠ 0 → (fun i => decide (i < 2)) = b := by
    intro b hb
    by_contra h
    exact hb (by rw [Finsupp.single_eq_of_ne' h])
  have := closed_singlet (abPairs 1) (by intro p hp; simp [abPairs] at hp; simp [hp]) (Finsupp.single (fun i => decide (i < 2)) (1 : ℂ)) (by
    intro b hb' p hp
    rw [← hb b hb']
    simp [abPairs] at hp
    simp [hp])
  refine ⟨this.1, this.2, ?_⟩
  intro b h
  rw [← hb b h]
  simp [occAlpha, List.range_succ]

/-- **C142 fails**: asking for seven or more digits, eight being the default, does not give them. -/
theorem C142_precision_fails {rnd : ℕ → ℝ → ℝ} (h : Rounds rnd) (precision : ℕ) (hp : 7 ≤ precision) :
    ∃ D : List ℕ → ℂ, 1 / (2 * 10 ^ precision) <
      |load (saved rnd precision 1 [0] [1] D) [0, 0, 0, 0] - (D [0, 1, 0, 1]).re| := by
  refine ⟨fun _ => ((3 / 10 ^ 7 : ℝ) : ℂ), ?_⟩
  have e : load (saved rnd precision 1 [0] [1] fun _ => ((3 / 10 ^ 7 : ℝ) : ℂ)) [0, 0, 0, 0] = printed rnd precision (3 / 10 ^ 7) := by
    have hb : block 1 [0] [1] (fun _ => ((3 / 10 ^ 7 : ℝ) : ℂ)) [0, 0, 0, 0] = ((3 / 10 ^ 7 : ℝ) : ℂ) :=
      block_apply 1 _ 0 0 0 0 one_pos one_pos one_pos one_pos
    unfold saved
    rw [load_lines rnd precision 1 _ 0 0 0 0 one_pos one_pos one_pos one_pos, hb, if_neg (Complex.ofReal_ne_zero.2 (by norm_num)), Complex.ofReal_re]
  rw [e]
  obtain ⟨k, hk⟩ := (h 6 (rnd precision (3 / 10 ^ 7))).1
  unfold printed
  rw [hk, Complex.ofReal_re]
  have h1 : (3 : ℝ) / 10 ^ 7 ≤ |(k : ℝ) / 10 ^ 6 - 3 / 10 ^ 7| := by
    have e2 : (k : ℝ) / 10 ^ 6 - 3 / 10 ^ 7 = ((10 * k - 3 : ℤ) : ℝ) / 10 ^ 7 := by push_cast; ring
    rw [e2, abs_div, abs_of_pos (by positivity : (0 : ℝ) < 10 ^ 7), ← Int.cast_abs]
    have : (3 : ℤ) ≤ |10 * k - 3| := by
      rcases le_or_gt k 0 with h0 | h0
      · rw [abs_of_nonpos (by omega)]; omega
      · rw [abs_of_nonneg (by omega)]; omega
    have : (3 : ℝ) ≤ ((|10 * k - 3| : ℤ) : ℝ) := by exact_mod_cast this
    gcongr
  refine lt_of_lt_of_le ?_ h1
  have h2 : (10 : ℝ) ^ 7 ≤ 10 ^ precision := pow_le_pow_right₀ (by norm_num) hp
  rw [div_lt_div_iff₀ (by positivity) (by positivity)]
  linarith

end
end HQCA.Props
