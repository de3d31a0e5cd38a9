import Verif.Model.InverseJW
import Verif.Proofs.GInt
import Verif.Proofs.Act
import Verif.Props.Fermi

/-!
# Lemmas on the inverse Jordan–Wigner transform
-/

set_option linter.unusedSectionVars false

namespace HQCA.InverseJW
variable {K : Type} [Coef K]

theorem denF_one (N q : ℕ) (x : FL) : (denF 0 (one N q x) : Oper K) = fop q x := by
  unfold one
  rw [denF_eq_denW, denW_append, denW_replicate _ (fun _ => rfl)]
  simp only [denW, List.length_replicate, zero_add, one_mul]
  rw [denW_replicate _ (fun _ => rfl), mul_one]

theorem one_length (N q : ℕ) (x : FL) (h : q < N) : (one N q x).length = N := by
  simp [one]; omega

theorem one_inj (N q : ℕ) (x y : FL) (h : one N q x = one N q y) : x = y := by
  unfold one at h
  have := List.append_cancel_left h
  simpa using this

theorem two_eq (N q : ℕ) (x y : FL) (hxy : x ≠ y) (c d : K) :
    two N q x y c d = [(one N q x, c), (one N q y, d)] := by
  have : one N q x ≠ one N q y := fun h => hxy (one_inj N q x y h)
  simp [two, OpD.addStr, OpD.hasKey, this]

theorem two_den (N q : ℕ) (x y : FL) (hxy : x ≠ y) (c d : K) :
    denD (denF 0) (two N q x y c d) = c • (fop q x : Oper K) + d • fop q y := by
  rw [two_eq N q x y hxy]
  simp [denD, denF_one]

/-- All strings have length `N`. -/
def Len (N : ℕ) (A : OpD FStr K) : Prop := ∀ t ∈ A, t.1.length = N

theorem two_len (N q : ℕ) (x y : FL) (hxy : x ≠ y) (c d : K) (h : q < N) : Len N (two N q x y c d) := by
  rw [two_eq N q x y hxy]
  intro t ht
  simp only [List.mem_cons, List.not_mem_nil, or_false] at ht
  rcases ht with rfl | rfl <;> exact one_length _ _ _ h

theorem two_gi (N q : ℕ) (x y : FL) (hxy : x ≠ y) (c d : ℂ) (hc : GI c) (hd : GI d) :
    GIop 1 (two N q x y c d) := by
  rw [two_eq N q x y hxy]
  intro t ht
  simp only [List.mem_cons, List.not_mem_nil, or_false] at ht
  rcases ht with rfl | rfl
  · exact ⟨c, hc, by simp⟩
  · exact ⟨d, hd, by simp⟩

/-- Product of two fermionic operators with Gaussian-integer coefficients: defined and exact. -/
theorem mul_exact (N : ℕ) (c : ℂ) (hc : small c = false) (A B : OpD FStr ℂ) (hA : GIop 1 A) (hB : GIop c B)
    (lA : Len N A) (lB : Len N B) :
    ∃ C, OpD.mul Fermi.mul A B = some C ∧ GIop c C ∧ Len N C ∧ UniqueKeys C ∧
      denD (denF 0) C = (denD (denF 0) A * denD (denF 0) B : Oper ℂ) := by
  have hs : (OpD.mul Fermi.mul A B).isSome := by
    apply OpD.mul_isSome
    intro s _ t _
    obtain ⟨r, hr, _⟩ := Props.C10_fermi_mul s t
    simp [hr]
  obtain ⟨C, hC⟩ := Option.isSome_iff_exists.mp hs
  obtain ⟨h1, h2, h3⟩ := GIop.mul (denF 0) Fermi.mul hc hA hB (fun s _ t _ u hu => by
      obtain ⟨r, hr, _, hd⟩ := Props.C10_fermi_mul s t
      rw [hr] at hu; cases hu; exact hd) (fun s _ t _ u hu => fermi_mul_coef s t u hu) hC
  refine ⟨C, hC, h1, ?_, h3, h2⟩
  intro t ht
  unfold OpD.mul at hC
  obtain ⟨l, hl, hlC⟩ := Option.map_eq_some_iff.mp hC
  have ht' : t.1 ∈ (l.foldl OpD.addStr []).map (·.1) := by
    rw [← hlC] at ht
    exact List.mem_map_of_mem (List.mem_of_mem_filter ht)
  rw [OpD.mem_keys_foldl_addStr] at ht'
  rcases ht' with h | h
  · simp at h
  · obtain ⟨u, hu, hut⟩ := List.mem_map.mp h
    rw [OpD.mapM_option] at hl
    obtain ⟨i, hi, rfl⟩ := List.getElem_of_mem hu
    have hlen := hl.length_eq
    have := (List.forall₂_iff_get.mp hl).2 i (by omega) hi
    simp only [List.get_eq_getElem] at this
    have hm := (OpD.mem_mulPairs A B _).mp (List.getElem_mem (by omega : i < (OpD.mulPairs A B).length))
    obtain ⟨r, hr, hrl, _⟩ := Props.C10_fermi_mul (OpD.mulPairs A B)[i].1 (OpD.mulPairs A B)[i].2
    rw [hr, Option.some.injEq] at this
    rw [← hut, ← this, hrl, lA _ hm.1, lB _ hm.2, max_self]

/-- The Z factors produced by the loop, with the positions `N-1-n, …, N-2` the code uses. -/
def zr (N : ℕ) : ℕ → Oper K
  | 0 => 1
  | n + 1 => site (N - n - 1 - 1) mZ * zr N n

theorem emp_sub_occ : (mEmp - mOcc : M2 K) = mZ := by m2
theorem raise_add_low : (mRaise + mLow : M2 K) = mX := by m2
theorem raise_sub_low : ((I : K) • mRaise + (-I : K) • mLow : M2 K) = mY := by m2

theorem z_den (q : ℕ) : (1 : K) • (fop q .h : Oper K) + (-1 : K) • fop q .p = site q mZ := by
  rw [fop_eq, fop_eq]
  simp only [FL.odd, zs, qmat, Bool.false_eq_true, if_false, one_mul]
  rw [← emp_sub_occ, sub_eq_add_neg, site_add, site_neg]
  module

theorem x_den (q : ℕ) : (1 : K) • (fop q .cr : Oper K) + (1 : K) • fop q .an = zstr q * site q mX := by
  rw [fop_eq, fop_eq]
  simp only [FL.odd, zs, qmat, if_true]
  rw [one_smul, one_smul, ← mul_add, ← site_add, raise_add_low]

theorem y_den (q : ℕ) : (I : K) • (fop q .cr : Oper K) + (-I : K) • fop q .an = zstr q * site q mY := by
  rw [fop_eq, fop_eq]
  simp only [FL.odd, zs, qmat, if_true]
  rw [← mul_smul_comm, ← mul_smul_comm, ← mul_add, ← site_smul, ← site_smul, ← site_add, raise_sub_low]

theorem zLoop_spec (N q : ℕ) (hq : q < N) (T : OpD FStr ℂ) (hT : GIop 1 T) (lT : Len N T) (uT : UniqueKeys T) :
    ∃ C, zLoop N q T = some C ∧ GIop 1 C ∧ Len N C ∧ UniqueKeys C ∧
      denD (denF 0) C = (zr N q * denD (denF 0) T : Oper ℂ) := by
  unfold zLoop
  induction q with
  | zero => exact ⟨T, rfl, hT, lT, uT, by simp [zr]⟩
  | succ q ih =>
    obtain ⟨C, h1, h2, h3, _, h4⟩ := ih (by omega)
    obtain ⟨D, g1, g2, g3, g4, g5⟩ := mul_exact N 1 Transform.one_not_small (two N (N - q - 1 - 1) .h .p 1 (-1)) C
      (two_gi _ _ _ _ (by decide) _ _ GI.one GI.neg_one) h2 (two_len _ _ _ _ (by decide) _ _ (by omega)) h3
    refine ⟨D, ?_, g2, g3, g4, ?_⟩
    · rw [List.range_succ, List.foldlM_append, h1]
      simp [g1]
    · rw [g5, h4, two_den _ _ _ _ (by decide), z_den, zr, mul_assoc]

/-- The operator that the loop body multiplies in for a letter on qubit `q`. -/
def letterDen (N q : ℕ) : PL → Oper K
  | .I => 1
  | .X => zr N q * (zstr q * site q mX)
  | .Y => zr N q * (zstr q * site q mY)
  | .Z => site q mZ

theorem tem_spec (N q : ℕ) (hq : q < N) (p : PL) (hp : p ≠ .I) :
    ∃ C, tem (K := ℂ) N q p = some C ∧ GIop 1 C ∧ Len N C ∧ UniqueKeys C ∧
      denD (denF 0) C = (letterDen N q p : Oper ℂ) := by
  have hu : ∀ (x y : FL) (c d : ℂ), x ≠ y → UniqueKeys (two N q x y c d) := by
    intro x y c d hxy
    rw [two_eq N q x y hxy]
    have : one N q x ≠ one N q y := fun h => hxy (one_inj N q x y h)
    simp [UniqueKeys, this]
  cases p with
  | I => exact absurd rfl hp
  | X =>
    obtain ⟨C, h1, h2, h3, h4, h5⟩ := zLoop_spec N q hq (two N q .cr .an 1 1)
      (two_gi _ _ _ _ (by decide) _ _ GI.one GI.one) (two_len _ _ _ _ (by decide) _ _ hq)
      (hu _ _ _ _ (by decide))
    exact ⟨C, h1, h2, h3, h4, by rw [h5, two_den _ _ _ _ (by decide), x_den]; rfl⟩
  | Y =>
    obtain ⟨C, h1, h2, h3, h4, h5⟩ := zLoop_spec N q hq (two N q .cr .an I (-I))
      (two_gi _ _ _ _ (by decide) _ _ GI.I GI.I.neg) (two_len _ _ _ _ (by decide) _ _ hq)
      (hu _ _ _ _ (by decide))
    exact ⟨C, h1, h2, h3, h4, by rw [h5, two_den _ _ _ _ (by decide), y_den]; rfl⟩
  | Z =>
    exact ⟨_, rfl, two_gi _ _ _ _ (by decide) _ _ GI.one GI.neg_one, two_len _ _ _ _ (by decide) _ _ hq,
      hu _ _ _ _ (by decide), by rw [two_den _ _ _ _ (by decide), z_den]; rfl⟩

/-- Product of the letter operators from position `k` on. -/
def strDen (N : ℕ) (k : ℕ) : PStr → Oper K
  | [] => 1
  | p :: s => letterDen N k p * strDen N (k+1) s

theorem foldlM_reverse_cons {β γ : Type} (f : β → γ → Option β) (b : β) (a : γ) (l : List γ) :
    (a :: l).reverse.foldlM f b = (l.reverse.foldlM f b).bind (fun x => f x a) := by
  rw [List.reverse_cons, List.foldlM_append]
  cases List.foldlM f b l.reverse <;> simp

theorem loop_spec (N : ℕ) (c : ℂ) (hc : small c = false) (s : PStr) (k : ℕ) (hk : k + s.length = N) :
    ∃ C, (s.zipIdx k).reverse.foldlM (step N) [(List.replicate N .i, c)] = some C ∧ GIop c C ∧ Len N C ∧
      UniqueKeys C ∧ denD (denF 0) C = (c • strDen N k s : Oper ℂ) := by
  induction s generalizing k with
  | nil =>
    refine ⟨_, rfl, ?_, ?_, ?_, ?_⟩
    · intro t ht
      simp only [List.mem_singleton] at ht
      exact ⟨1, GI.one, by rw [ht]; simp⟩
    · intro t ht
      simp only [List.mem_singleton] at ht
      rw [ht]; simp
    · simp [UniqueKeys]
    · simp only [denD, List.map_cons, List.map_nil, List.sum_cons, List.sum_nil, add_zero, strDen]
      rw [denF_eq_denW, denW_replicate _ (fun _ => rfl)]
  | cons p s ih =>
    simp only [List.length_cons] at hk
    obtain ⟨C, h1, h2, h3, hu, h4⟩ := ih (k+1) (by omega)
    rw [List.zipIdx_cons, foldlM_reverse_cons, h1]
    simp only [Option.bind_some, step]
    by_cases hp : p = .I
    · rw [if_pos hp]
      refine ⟨C, rfl, h2, h3, hu, ?_⟩
      rw [h4, strDen, hp, letterDen, one_mul]
    · rw [if_neg hp]
      obtain ⟨T, t1, t2, t3, _, t4⟩ := tem_spec N k (by omega) p hp
      obtain ⟨D, g1, g2, g3, g4, g5⟩ := mul_exact N c hc T C t2 h2 t3 h3
      refine ⟨D, by rw [t1]; simpa using g1, g2, g3, g4, ?_⟩
      rw [g5, t4, h4, strDen, mul_smul_comm]

theorem zr_apply (N n : ℕ) (ψ : Cfg → K) (b : Cfg) :
    zr N n ψ b = (∏ j ∈ Finset.range n, sg (b (N - 1 - 1 - j))) * ψ b := by
  induction n generalizing ψ with
  | zero => simp [zr]
  | succ n ih =>
    simp only [zr, Module.End.mul_apply]
    rw [site_mZ_apply, ih, Finset.prod_range_succ]
    have : N - n - 1 - 1 = N - 1 - 1 - n := by omega
    rw [this]
    simp only [sg]
    ring

theorem fsign_eq_prod (b : Cfg) (k : ℕ) : (fsign b k : K) = ∏ j ∈ Finset.range k, sg (b j) := by
  induction k with
  | zero => simp [fsign]
  | succ k ih => rw [fsign_succ, ih, Finset.prod_range_succ]; rfl

/-- On the last qubit the loop produces the right Z string. -/
theorem zr_last (N : ℕ) (h : 0 < N) : (zr N (N - 1) : Oper K) = zstr (N - 1) := by
  ext ψ b
  rw [zr_apply, zstr_apply, fsign_eq_prod, ← Finset.prod_range_reflect (fun j => (sg (b j) : K))]

theorem letterDen_good (N q : ℕ) (hN : 0 < N) (p : PL) (h : p.l = true → q = 0 ∨ q = N - 1) :
    (letterDen N q p : Oper K) = site q (pmat p) := by
  have key : p.l = true → ∀ m : M2 K, zr N q * (zstr q * site q m) = site q m := by
    intro hp m
    rcases h hp with rfl | rfl
    · simp [zr, zstr]
    · rw [zr_last N hN, ← mul_assoc, zstr_mul_self, one_mul]
  cases p with
  | I => simp [letterDen, pmat, site_one]
  | X => exact key rfl _
  | Y => exact key rfl _
  | Z => rfl

theorem strDen_good (N : ℕ) (hN : 0 < N) (s : PStr) (k : ℕ)
    (h : ∀ q p, (p, q) ∈ s.zipIdx k → p.l = true → q = 0 ∨ q = N - 1) :
    (strDen N k s : Oper K) = denP k s := by
  induction s generalizing k with
  | nil => rfl
  | cons p s ih =>
    simp only [List.zipIdx_cons, List.mem_cons] at h
    rw [strDen, denP, letterDen_good N k hN p (fun hp => h k p (Or.inl rfl) hp),
      ih (k+1) (fun q p' hm hp => h q p' (Or.inr hm) hp)]

end HQCA.InverseJW
