import Verif.Model.ClassResid
import Verif.Props.MeasResid
import Verif.Props.RDMAlg
import Verif.Props.ACSELayers

/-!
# C159: the residual computed by the classical solver, end to end
-/

namespace HQCA.Props
open HQCA.Tomo HQCA.Prim HQCA.Transform HQCA.Prepare HQCA.Instr HQCA.Ham HQCA.Resid
noncomputable section

theorem rdme3_ne (no : ℕ) (im : Bool) (h : 1 < no) : rdme 3 ⟨true, im⟩ (alpha no) (beta no no) ≠ [] := by
  intro h0
  have h1 := (C27_order3_partial ⟨true, im⟩ no no le_rfl).2 [0, 1, no] [0, 1, no]
    ⟨rfl, by simp; omega, by simp; omega⟩ ⟨rfl, by simp; omega, by simp; omega⟩ rfl
  have h2 : rdme3 ⟨true, im⟩ (alpha no) (beta no no) = [] := h0
  rw [h2] at h1
  simp [Flags.skipDiag] at h1

theorem rdme2_im_ne (no : ℕ) (im : Bool) (h : 0 < no) : rdme 2 ⟨true, im⟩ (alpha no) (beta no no) ≠ [] := by
  intro h0
  have h1 := (C27_order2_partial ⟨true, im⟩ no no le_rfl).2 [0, no] [0, no]
    ⟨rfl, by simpa using h, by simp; omega⟩ ⟨rfl, by simpa using h, by simp; omega⟩ rfl
  have h2 : rdme2 ⟨true, im⟩ (alpha no) (beta no no) = [] := h0
  rw [h2] at h1
  simp [Flags.skipDiag] at h1

theorem target_re (im : Bool) (ψ : Cfg →₀ ℂ) (c a : List ℕ) : (target ⟨true, im⟩ ψ c a).re = (rdm ψ c a).re := by
  cases im <;> simp [target]

/-- Tomography of order 2 or 3 of the state of an ansatz: real parts. -/
theorem tomo_re (p : ℕ) (im : Bool) (no na nb : ℕ) (hp : (p = 2 ∧ 0 < no) ∨ (p = 3 ∧ 1 < no)) (col : List PStr → ℕ → ℕ) (hcol : ColouringOK col)
    (Ψ : Cfg →₀ ℂ) (ph : ℂ) (s5 : ‖ph‖ = 1) (s7 : pair Ψ Ψ = 1) (s8 : InS (InSec no (2 * no) na (na + nb)) Ψ) :
    ∃ D, StateTomo.run p ⟨true, im⟩ (defaultOrbs no).1 (defaultOrbs no).2 col ((ph • Ψ : Cfg →₀ ℂ) : Cfg → ℂ) = some D ∧
      ∀ c a : List ℕ, c.length = p → a.length = p → (∀ x ∈ c, x < 2 * no) → (∀ x ∈ a, x < 2 * no) →
        |(D (c ++ a)).re - (rdm Ψ c a).re| ≤ 2 ^ (2 * no) * 1e-28 := by
  have h2no : no + no = 2 * no := by omega
  obtain ⟨D, hD, hDe⟩ := C96_statevector_tomography_partial p ⟨true, im⟩ (Or.inl rfl) (by tauto) no no le_rfl
    (by rcases hp with ⟨rfl, h⟩ | ⟨rfl, h⟩
        · exact rdme2_im_ne no im h
        · exact rdme3_ne no im h) col hcol
    (ph • Ψ) (by rw [pair_phase ph s5]; exact s7)
    (fun b hb0 i hi => (s8 b (fun h => hb0 (by simp [h]))).2.2 i (by omega)) (na : ℤ)
    (fun b hb0 => by exact_mod_cast (s8 b (fun h => hb0 (by simp [h]))).1)
  rw [h2no] at hDe
  have ho : (defaultOrbs no).1 = alpha no := rfl
  refine ⟨D, by rw [beta_default, ho, hD], fun c a hc ha h1 h2 => ?_⟩
  have := (Complex.abs_re_le_norm _).trans (hDe c a hc ha h1 h2)
  rwa [Complex.sub_re, target_re, rdm_phase ph s5] at this

theorem wsum_a {r : ℕ} (k : Fin r → Fin r → Fin r → Fin r → ℂ) (i : Fin r) :
    ∑ x, ∑ p, ∑ s, ‖wmat k p x i s‖ ≤ 2 * ∑ p, ∑ q, ∑ x, ∑ y, ‖k p q x y‖ := by
  rw [Finset.sum_comm, Finset.mul_sum]
  refine Finset.sum_le_sum fun p _ => ?_
  rw [Finset.mul_sum]
  refine Finset.sum_le_sum fun x _ => ?_
  have e1 : ∑ s, ‖k p x i s‖ ≤ ∑ a, ∑ b, ‖k p x a b‖ :=
    Finset.single_le_sum (f := fun a => ∑ b, ‖k p x a b‖) (fun _ _ => Finset.sum_nonneg fun _ _ => norm_nonneg _) (Finset.mem_univ i)
  have e2 : ∑ s, ‖k p x s i‖ ≤ ∑ a, ∑ b, ‖k p x a b‖ :=
    Finset.sum_le_sum fun a _ => Finset.single_le_sum (f := fun b => ‖k p x a b‖) (fun _ _ => norm_nonneg _) (Finset.mem_univ i)
  have e3 : ∑ s, ‖wmat k p x i s‖ ≤ ∑ s, (‖k p x i s‖ + ‖k p x s i‖) := Finset.sum_le_sum fun s _ => norm_sub_le _ _
  rw [Finset.sum_add_distrib] at e3
  linarith

theorem wsum_b {r : ℕ} (k : Fin r → Fin r → Fin r → Fin r → ℂ) (l : Fin r) :
    ∑ x, ∑ p, ∑ s, ‖wmat k p l x s‖ ≤ 2 * ∑ p, ∑ q, ∑ x, ∑ y, ‖k p q x y‖ := by
  rw [Finset.sum_comm, Finset.mul_sum]
  refine Finset.sum_le_sum fun p _ => ?_
  have e0 : ∑ x, ∑ s, ‖k p l x s‖ ≤ ∑ q, ∑ x, ∑ s, ‖k p q x s‖ :=
    Finset.single_le_sum (f := fun q => ∑ x, ∑ s, ‖k p q x s‖) (fun _ _ => Finset.sum_nonneg fun _ _ => Finset.sum_nonneg fun _ _ => norm_nonneg _) (Finset.mem_univ l)
  have e1 : ∑ x, ∑ s, ‖wmat k p l x s‖ ≤ ∑ x, ∑ s, (‖k p l x s‖ + ‖k p l s x‖) :=
    Finset.sum_le_sum fun x _ => Finset.sum_le_sum fun s _ => norm_sub_le _ _
  simp only [Finset.sum_add_distrib] at e1
  rw [Finset.sum_comm (f := fun x s => ‖k p l s x‖)] at e1
  linarith

theorem bound3 {r : ℕ} (E w : Fin r → Fin r → Fin r → ℂ) (δ B : ℝ) (hδ : 0 ≤ δ) (hE : ∀ x p s, ‖E x p s‖ ≤ δ) (hw : ∑ x, ∑ p, ∑ s, ‖w x p s‖ ≤ B) :
    ‖∑ x, ∑ p, ∑ s, E x p s * w x p s‖ ≤ δ * B := by
  refine le_trans ?_ (mul_le_mul_of_nonneg_left hw hδ)
  rw [Finset.mul_sum]
  refine (norm_sum_le _ _).trans (Finset.sum_le_sum fun x _ => ?_)
  rw [Finset.mul_sum]
  refine (norm_sum_le _ _).trans (Finset.sum_le_sum fun p _ => ?_)
  rw [Finset.mul_sum]
  refine (norm_sum_le _ _).trans (Finset.sum_le_sum fun s _ => ?_)
  rw [norm_mul]
  exact mul_le_mul_of_nonneg_right (hE x p s) (norm_nonneg _)

theorem residual_sub {r : ℕ} (k D D' : Fin r → Fin r → Fin r → Fin r → ℂ) (G G' : Fin r → Fin r → Fin r → Fin r → Fin r → Fin r → ℂ) (i m j l : Fin r) :
    residual k D G i m j l - residual k D' G' i m j l
      = residual k (fun a b c d => D a b c d - D' a b c d) (fun a b c d e f => G a b c d e f - G' a b c d e f) i m j l := by
  unfold Resid.residual
  simp only [sub_mul, Finset.sum_sub_distrib, Finset.sum_add_distrib]
  ring

theorem residual_small {r : ℕ} (k D : Fin r → Fin r → Fin r → Fin r → ℂ) (G : Fin r → Fin r → Fin r → Fin r → Fin r → Fin r → ℂ) (δ η : ℝ)
    (hδ : ∀ a b c d, ‖D a b c d‖ ≤ δ) (hη : ∀ a b c d e f, ‖G a b c d e f‖ ≤ η) (i m j l : Fin r) :
    ‖residual k D G i m j l‖ ≤ (4 * δ + 8 * η) * ∑ p, ∑ q, ∑ x, ∑ y, ‖k p q x y‖ := by
  have hη0 : 0 ≤ η := (norm_nonneg _).trans (hη i i i i i i)
  have b1 := half_bound k D (fun _ _ _ _ => 0) δ (fun a b c d => by rw [sub_zero]; exact hδ a b c d) j l i m (fun _ _ _ => rfl)
  have b2 := half_bound k D (fun _ _ _ _ => 0) δ (fun a b c d => by rw [sub_zero]; exact hδ a b c d) i m j l (fun _ _ _ => rfl)
  have b3 := bound3 (fun x p s => G p x m j l s) (fun x p s => wmat k p x i s) η _ hη0 (fun _ _ _ => hη _ _ _ _ _ _) (wsum_a k i)
  have b4 := bound3 (fun x p s => G p x i j l s) (fun x p s => wmat k p x m s) η _ hη0 (fun _ _ _ => hη _ _ _ _ _ _) (wsum_a k m)
  have b5 := bound3 (fun x p s => G i m p x s j) (fun x p s => wmat k p l x s) η _ hη0 (fun _ _ _ => hη _ _ _ _ _ _) (wsum_b k l)
  have b6 := bound3 (fun x p s => G i m p x s l) (fun x p s => wmat k p j x s) η _ hη0 (fun _ _ _ => hη _ _ _ _ _ _) (wsum_b k j)
  unfold Resid.residual
  rw [Finset.sum_add_distrib, Finset.sum_sub_distrib, Finset.sum_sub_distrib]
  set K := ∑ p, ∑ q, ∑ x, ∑ y, ‖k p q x y‖
  generalize (∑ p, ∑ q, D p q j l * wmat k p q i m) = z1 at *
  generalize (∑ p, ∑ q, D p q i m * wmat k p q j l) = z2 at *
  generalize (∑ x, ∑ p, ∑ s, G p x m j l s * wmat k p x i s) = z3 at *
  generalize (∑ x, ∑ p, ∑ s, G p x i j l s * wmat k p x m s) = z4 at *
  generalize (∑ x, ∑ p, ∑ s, G i m p x s j * wmat k p l x s) = z5 at *
  generalize (∑ x, ∑ p, ∑ s, G i m p x s l * wmat k p j x s) = z6 at *
  have t : ‖0 - z1 + z2 + (z3 - z4 - z5 + z6)‖ ≤ ‖z1‖ + ‖z2‖ + (‖z3‖ + ‖z4‖ + ‖z5‖ + ‖z6‖) := by
    rw [zero_sub]
    refine (norm_add_le _ _).trans (add_le_add ((norm_add_le _ _).trans (by rw [norm_neg])) ?_)
    exact (norm_add_le _ _).trans (add_le_add ((norm_sub_le _ _).trans (add_le_add (norm_sub_le _ _) le_rfl)) le_rfl)
  linarith

theorem rdm_re_real (Ψ : Cfg →₀ ℂ) (h : RealAmp (Ψ : Cfg → ℂ)) (c a : List ℕ) : (((rdm Ψ c a).re : ℝ) : ℂ) = rdm Ψ c a :=
  Complex.conj_eq_iff_re.mp (pair_real Ψ _ h (h.rdmOp _ _))

theorem rdm3_evState {r : ℕ} (ψ : Cfg →₀ ℂ) (a b c d e f : Fin r) :
    rdm3 (evState ψ) a b c d e f = rdm ψ [a.val, b.val, c.val] [d.val, e.val, f.val] := by
  unfold rdm3 rdm rdmOp evState
  simp only [List.map_cons, List.map_nil, List.prod_cons, List.prod_nil, mul_one, List.reverse_cons, List.reverse_nil, List.nil_append,
    List.cons_append, LinearMap.coe_mk, AddHom.coe_mk, mul_assoc]

/-- With fewer than three electrons the three-body matrix is zero. -/
theorem rdm3_few {r n : ℕ} (hn : n < 3) (ψ : Cfg →₀ ℂ) (h : Sector r n (ψ : Cfg → ℂ)) (a b c d e f : Fin r) : rdm3 (evState ψ) a b c d e f = 0 := by
  have s := ((h.ann d.val).ann e.val).ann f.val
  have hz : (ann f.val (ann e.val (ann d.val (ψ : Cfg → ℂ))) : Cfg → ℂ) = 0 := by
    funext x
    by_contra hx
    have := s x hx
    rw [if_pos d.isLt, if_pos e.isLt, if_pos f.isLt] at this
    omega
  show pair ψ ((cre a.val * (cre b.val * (cre c.val * (ann f.val * (ann e.val * ann d.val)))) : Oper ℂ) ψ) = 0
  simp only [Module.End.mul_apply]
  rw [hz]
  simp [pair]

/-- Contracting a three-body matrix that is close to that of a state with other than two electrons. -/
theorem reduce_close {r n : ℕ} (hn : n ≠ 2) (ψ : Cfg →₀ ℂ) (h : Sector r n (ψ : Cfg → ℂ)) (D : List ℕ → ℂ) (ε : ℝ)
    (hD : ∀ c a : List ℕ, c.length = 3 → a.length = 3 → (∀ x ∈ c, x < r) → (∀ x ∈ a, x < r) → |(D (c ++ a)).re - (rdm ψ c a).re| ≤ ε) :
    ∃ D', RDM.reduceOrder 3 r (n : ℤ) D = some D' ∧ ∀ i j k l : Fin r, |(D' [i.val, j.val, k.val, l.val]).re - (rdm ψ [i.val, j.val] [k.val, l.val]).re| ≤ r * ε := by
  obtain ⟨X', hX, hXe⟩ := C31_state_partial 3 (Or.inr rfl) r (n : ℤ) (by push_cast; omega) ψ h (fun t => rdm ψ (t.take 3) (t.drop 3))
    (fun c a hc ha _ _ => by rw [List.take_append_of_le_length (by omega), List.take_of_length_le (by omega), List.drop_append_of_le_length (by omega), List.drop_eq_nil_of_le (by omega), List.nil_append])
  unfold RDM.reduceOrder at hX ⊢
  rw [if_neg (by push_cast; omega)] at hX ⊢
  refine ⟨_, rfl, fun i j k l => ?_⟩
  have e := hXe [i.val, j.val] [k.val, l.val] rfl rfl (by simp [i.isLt, j.isLt]) (by simp [k.isLt, l.isLt])
  rw [← e, ← Option.some.inj hX]
  simp only [List.cons_append, List.nil_append, List.take, List.drop]
  set m : ℤ := (n : ℤ) - (3 : ℕ) + 1 with hm
  have hm1 : 1 ≤ |(m : ℝ)| := by
    have : (1 : ℤ) ≤ |m| := Int.one_le_abs (by rw [hm]; push_cast; omega)
    exact_mod_cast this
  have hc : (1 : ℂ) / (m : ℂ) = (((1 : ℝ) / (m : ℝ) : ℝ) : ℂ) := by push_cast; rfl
  rw [hc, Complex.re_mul_ofReal, Complex.re_mul_ofReal, ← sub_mul, abs_mul]
  have hre : ∀ g : ℕ → ℂ, (((List.range r).map g).sum).re = ∑ x : Fin r, (g x.val).re := by
    intro g
    rw [← Finset.sum_range (fun x => (g x).re), ← Complex.re_sum]
    congr 1
  rw [hre, hre, ← Finset.sum_sub_distrib]
  have hs : |∑ x : Fin r, ((D [i.val, j.val, x.val, k.val, l.val, x.val]).re - (rdm ψ [i.val, j.val, x.val] [k.val, l.val, x.val]).re)| ≤ r * ε := by
    refine (Finset.abs_sum_le_sum_abs _ _).trans ((Finset.sum_le_sum fun x _ => hD [i.val, j.val, x.val] [k.val, l.val, x.val] rfl rfl (by simp [i.isLt, j.isLt, x.isLt])
      (by simp [k.isLt, l.isLt, x.isLt])).trans ?_)
    simp
  have hi : |1 / (m : ℝ)| ≤ 1 := by
    rw [abs_div, abs_one]
    exact div_le_one_of_le₀ hm1 (abs_nonneg _)
  calc _ ≤ (r * ε) * 1 := mul_le_mul hs hi (abs_nonneg _) ((abs_nonneg _).trans hs)
    _ = _ := mul_one _

/-- The accuracy of an entry of the residual: `8·(2·no+1)` times that of an energy. -/
theorem resid_close_state {no n : ℕ} (h1 : Fin (2 * no) → Fin (2 * no) → ℂ) (V : Fin (2 * no) → Fin (2 * no) → Fin (2 * no) → Fin (2 * no) → ℂ) (Ψ : Cfg →₀ ℂ)
    (hΨ : RealAmp (Ψ : Cfg → ℂ)) (D : Fin (2 * no) → Fin (2 * no) → Fin (2 * no) → Fin (2 * no) → ℂ)
    (G : Fin (2 * no) → Fin (2 * no) → Fin (2 * no) → Fin (2 * no) → Fin (2 * no) → Fin (2 * no) → ℂ)
    (hD : ∀ a b c d, ‖D a b c d - rdm2 (evState Ψ) a b c d‖ ≤ (2 * no + 1 : ℕ) * (2 ^ (2 * no) * 1e-28))
    (hG : ∀ a b c d e f, ‖G a b c d e f - rdm3 (evState Ψ) a b c d e f‖ ≤ 2 ^ (2 * no) * 1e-28) (i k j l : Fin (2 * no)) :
    ‖Resid.residual (k2 h1 V (n : ℂ)) D G i k j l - Resid.residual (k2 h1 V (n : ℂ)) (rdm2 (evState Ψ)) (rdm3 (evState Ψ)) i k j l‖ ≤ (8 * no + 12) * tolE no n h1 V := by
  rw [residual_sub]
  refine (residual_small _ _ _ _ _ hD hG i k j l).trans (le_of_eq ?_)
  unfold tolE
  push_cast
  ring

/-- **C159, partial.** The residual of the classical solver for an ansatz, end to end: with a two-body tomography for fewer than three electrons, or a three-body tomography for
other than two electrons, every entry is the expectation value, in the state of the ansatz, of the commutator of the excitation with the Hamiltonian, to `8·no+12` times the
accuracy of an energy.  Missing: one electron (C52); a three-body tomography of two electrons and a two-body tomography of three or more (`C159_raises`); layers as in C115. -/
theorem C159_residual_partial (p : ℕ) (im : Bool) (no na nb : ℕ) (ha : na ≤ no) (hb : nb ≤ no) (hne : na + nb ≠ 1)
    (hp : (p = 2 ∧ 0 < no ∧ na + nb < 3) ∨ (p = 3 ∧ 1 < no ∧ na + nb ≠ 2)) (col : List PStr → ℕ → ℕ) (hcol : ColouringOK col)
    (h1 : Fin (2 * no) → Fin (2 * no) → ℂ) (V : Fin (2 * no) → Fin (2 * no) → Fin (2 * no) → Fin (2 * no) → ℂ) (hh : ∀ a b, h1 a b = h1 b a)
    (hV : ∀ a b c d, V a b c d = V c d a b) (hx : ∀ a b c d, V a b c d = V b a d c) (L : List (OpD FStr ℂ)) (hL : ∀ A ∈ L, LayerOK no A) :
    ∃ (psi : List (Term PStr ℂ)) (Us : List (Oper ℂ)) (Ψ : Cfg →₀ ℂ) (A : Fin (2 * no) → Fin (2 * no) → Fin (2 * no) → Fin (2 * no) → ℂ),
      ACSEEn.strings L = some psi ∧ List.Forall₂ (fun t U => IsExp (t.2 • (denP 0 t.1 : Oper ℂ)) U) psi Us ∧
      (Ψ : Cfg → ℂ) = Us.reverse.prod (ket (hfCfg no na nb)) ∧ pair Ψ Ψ = 1 ∧ InS (InSec no (2 * no) na (na + nb)) Ψ ∧
      ClassResid.tensor p im no na nb col h1 V L = some A ∧
      ∀ i k j l, ‖A i k j l - pair Ψ ((gop i k j l * secondQ h1 V - secondQ h1 V * gop i k j l : Oper ℂ) Ψ)‖ ≤ (8 * no + 12) * tolE no (na + nb) h1 V := by
  obtain ⟨psi, Us, Ψ, ph, s1, s3, s4, s5, s6, s7, s8, s9⟩ := acse_state no na nb ha hb L hL
  have hN : numberOp (2 * no) (Ψ : Cfg → ℂ) = ((na + nb : ℕ) : ℂ) • (Ψ : Cfg → ℂ) := number_sec (2 * no) (na + nb) Ψ fun b hb0 => (s8 b hb0).2.1
  have hsec : Sector (2 * no) ((na + nb : ℕ) : ℤ) (Ψ : Cfg → ℂ) := fun b hb0 => by exact_mod_cast (s8 b hb0).2.1
  have hne' : ((na + nb : ℕ) : ℂ) ≠ 1 := by exact_mod_cast hne
  have hε : (0 : ℝ) ≤ 2 ^ (2 * no) * 1e-28 := by positivity
  have hreal : ∀ (z : ℂ) (c a : List ℕ), ‖((z.re : ℝ) : ℂ) - rdm Ψ c a‖ = |z.re - (rdm Ψ c a).re| := by
    intro z c a
    rw [← rdm_re_real Ψ s9 c a, ← Complex.ofReal_sub, Complex.norm_real, Real.norm_eq_abs, rdm_re_real Ψ s9]
  rcases hp with ⟨rfl, h0, hlt⟩ | ⟨rfl, h0, h2⟩
  · obtain ⟨D, d1, d2⟩ := tomo_re 2 im no na nb (Or.inl ⟨rfl, h0⟩) col hcol Ψ ph s5 s7 s8
    refine ⟨psi, Us, Ψ, Resid.residual (k2 h1 V ((na + nb : ℕ) : ℂ)) (EulerRun.real2 D) (fun _ _ _ _ _ _ => 0), s1, s3, s4, s7, s8, ?_, fun i k j l => ?_⟩
    · unfold ClassResid.tensor
      rw [if_pos ⟨hlt, rfl⟩, s6, Option.bind_some, d1]
      rfl
    · rw [← C74_state Ψ s9 _ hne' hN h1 V hh hV hx]
      refine resid_close_state h1 V Ψ s9 _ _ (fun a b c d => ?_) (fun a b c d e f => ?_) i k j l
      · rw [rdm2_evState]
        unfold EulerRun.real2
        rw [hreal]
        refine (d2 [a.val, b.val] [c.val, d.val] rfl rfl (by simp [a.isLt, b.isLt]) (by simp [c.isLt, d.isLt])).trans ?_
        push_cast
        nlinarith [(Nat.cast_nonneg no : (0 : ℝ) ≤ no)]
      · rw [rdm3_few hlt Ψ hsec, sub_zero, norm_zero]
        exact hε
  · obtain ⟨D, d1, d2⟩ := tomo_re 3 im no na nb (Or.inr ⟨rfl, h0⟩) col hcol Ψ ph s5 s7 s8
    obtain ⟨D2, e1, e2⟩ := reduce_close h2 Ψ hsec D _ d2
    refine ⟨psi, Us, Ψ, Resid.residual (k2 h1 V ((na + nb : ℕ) : ℂ)) (EulerRun.real2 D2) (ClassResid.real3 D), s1, s3, s4, s7, s8, ?_, fun i k j l => ?_⟩
    · unfold ClassResid.tensor
      rw [if_neg (by omega), if_pos rfl, s6, Option.bind_some, d1, Option.bind_some, e1]
      rfl
    · rw [← C74_state Ψ s9 _ hne' hN h1 V hh hV hx]
      refine resid_close_state h1 V Ψ s9 _ _ (fun a b c d => ?_) (fun a b c d e f => ?_) i k j l
      · rw [rdm2_evState]
        unfold EulerRun.real2
        rw [hreal]
        refine (e2 a b c d).trans ?_
        push_cast
        nlinarith [(Nat.cast_nonneg no : (0 : ℝ) ≤ no)]
      · rw [rdm3_evState]
        unfold ClassResid.real3
        rw [hreal]
        exact d2 [a.val, b.val, c.val] [d.val, e.val, f.val] rfl rfl (by simp [a.isLt, b.isLt, c.isLt]) (by simp [d.isLt, e.isLt, f.isLt])

/-- **C159.** For an ansatz whose state is an eigenstate of the Hamiltonian, and a threshold above the accuracy, the solver finds nothing to do: the residual operator is empty.  (Limits as `C159_residual_partial`.) -/
theorem C159_stationary_partial (S : ℝ) (p : ℕ) (im : Bool) (no na nb : ℕ) (ha : na ≤ no) (hb : nb ≤ no) (hne : na + nb ≠ 1)
    (hp : (p = 2 ∧ 0 < no ∧ na + nb < 3) ∨ (p = 3 ∧ 1 < no ∧ na + nb ≠ 2)) (col : List PStr → ℕ → ℕ) (hcol : ColouringOK col)
    (h1 : Fin (2 * no) → Fin (2 * no) → ℂ) (V : Fin (2 * no) → Fin (2 * no) → Fin (2 * no) → Fin (2 * no) → ℂ) (hh : ∀ a b, h1 a b = h1 b a)
    (hV : ∀ a b c d, V a b c d = V c d a b) (hx : ∀ a b c d, V a b c d = V b a d c) (r1 : ∀ a b, (starRingEnd ℂ) (h1 a b) = h1 a b)
    (r2 : ∀ a b c d, (starRingEnd ℂ) (V a b c d) = V a b c d) (L : List (OpD FStr ℂ)) (hL : ∀ A ∈ L, LayerOK no A)
    (hS : (8 * no + 12) * tolE no (na + nb) h1 V < S)
    (hE : ∀ (psi : List (Term PStr ℂ)) (Us : List (Oper ℂ)), ACSEEn.strings L = some psi → List.Forall₂ (fun t U => IsExp (t.2 • (denP 0 t.1 : Oper ℂ)) U) psi Us →
      ∃ E : ℝ, secondQ h1 V (Us.reverse.prod (ket (hfCfg no na nb))) = (E : ℂ) • Us.reverse.prod (ket (hfCfg no na nb))) :
    ∃ x, ClassResid.solve S p im no na nb col h1 V L = some ([], x) := by
  obtain ⟨psi, Us, Ψ, A, s1, s3, s4, _, _, s6, s7⟩ := C159_residual_partial p im no na nb ha hb hne hp col hcol h1 V hh hV hx L hL
  obtain ⟨E, hE⟩ := hE psi Us s1 s3
  rw [← s4] at hE
  have hz : ∀ i k j l : Fin (2 * no), pair Ψ ((gop i k j l * secondQ h1 V - secondQ h1 V * gop i k j l : Oper ℂ) Ψ) = 0 := by
    intro i k j l
    obtain ⟨φ', f1, f2⟩ := isAdj_secondQ h1 V hh hV r1 r2 Ψ
    have hφ : φ' = (E : ℂ) • Ψ := DFunLike.coe_injective (by rw [f1, hE]; rfl)
    have e : ((gop i k j l * secondQ h1 V - secondQ h1 V * gop i k j l : Oper ℂ) Ψ)
        = (gop i k j l : Oper ℂ) (secondQ h1 V Ψ) + (-1 : ℂ) • secondQ h1 V ((gop i k j l : Oper ℂ) Ψ) := by
      funext b
      show (gop i k j l : Oper ℂ) (secondQ h1 V Ψ) b - secondQ h1 V ((gop i k j l : Oper ℂ) Ψ) b = _ + (-1 : ℂ) * _
      ring
    rw [e, pair_add_right, pair_smul_right, f2, hφ, pair_smul_left, hE, map_smul, pair_smul_right, show conj (E : ℂ) = (E : ℂ) from Complex.conj_ofReal E]
    ring
  have hsmall : ∀ i k j l, ‖A i k j l‖ < S := fun i k j l => by
    have := s7 i k j l
    rw [hz, sub_zero] at this
    linarith
  unfold ClassResid.solve
  rw [s6, Option.bind_some]
  have hres : resTerms (Collect.above S) A = [] := by
    unfold resTerms
    simp only [List.flatMap_eq_nil_iff, List.mem_finRange, true_implies]
    intro i k j l
    rw [if_neg]
    rintro ⟨_, h⟩
    unfold Collect.above at h
    have := hsmall i k j l
    simp at h
    linarith
  obtain ⟨B, hB, _⟩ := C114_classical S A
  have hB0 : B = [] := by
    unfold Collect.classical resOp at hB
    rw [hres] at hB
    simp only [List.mapM_nil] at hB
    change (some ([] : OpD FStr ℂ)).bind _ = _ at hB
    rw [Option.bind_some] at hB
    split at hB
    · simp only [Option.some.injEq, Prod.mk.injEq] at hB; exact hB.1.symm
    · simp at hB
  exact ⟨_, by rw [hB, hB0]⟩

/-- **C159, the operator.** The operator the solver returns has a coefficient for every excitation: minus the expectation value of the commutator, to the accuracy of
`C159_residual_partial`, where that value is above the threshold by the accuracy, and zero where it is below by the accuracy.  (Limits as `C159_residual_partial`.) -/
theorem C159_operator_partial (S : ℝ) (p : ℕ) (im : Bool) (no na nb : ℕ) (ha : na ≤ no) (hb : nb ≤ no) (hne : na + nb ≠ 1)
    (hp : (p = 2 ∧ 0 < no ∧ na + nb < 3) ∨ (p = 3 ∧ 1 < no ∧ na + nb ≠ 2)) (col : List PStr → ℕ → ℕ) (hcol : ColouringOK col)
    (h1 : Fin (2 * no) → Fin (2 * no) → ℂ) (V : Fin (2 * no) → Fin (2 * no) → Fin (2 * no) → Fin (2 * no) → ℂ) (hh : ∀ a b, h1 a b = h1 b a)
    (hV : ∀ a b c d, V a b c d = V c d a b) (hx : ∀ a b c d, V a b c d = V b a d c) (L : List (OpD FStr ℂ)) (hL : ∀ A ∈ L, LayerOK no A) :
    ∃ (psi : List (Term PStr ℂ)) (Us : List (Oper ℂ)) (Ψ : Cfg →₀ ℂ) (B : OpD FStr ℂ) (x : ℝ) (c : Fin (2 * no) → Fin (2 * no) → Fin (2 * no) → Fin (2 * no) → ℂ),
      ACSEEn.strings L = some psi ∧ List.Forall₂ (fun t U => IsExp (t.2 • (denP 0 t.1 : Oper ℂ)) U) psi Us ∧
      (Ψ : Cfg → ℂ) = Us.reverse.prod (ket (hfCfg no na nb)) ∧ ClassResid.solve S p im no na nb col h1 V L = some (B, x) ∧ UniqueKeys B ∧
      denD (denF 0) B = ∑ i, ∑ k, ∑ j, ∑ l, (-c i k j l) • (gop i k j l : Oper ℂ) ∧
      ∀ i k j l,
        (S + (8 * no + 12) * tolE no (na + nb) h1 V ≤ ‖pair Ψ ((gop i k j l * secondQ h1 V - secondQ h1 V * gop i k j l : Oper ℂ) Ψ)‖ →
          ‖c i k j l - pair Ψ ((gop i k j l * secondQ h1 V - secondQ h1 V * gop i k j l : Oper ℂ) Ψ)‖ ≤ (8 * no + 12) * tolE no (na + nb) h1 V) ∧
        (‖pair Ψ ((gop i k j l * secondQ h1 V - secondQ h1 V * gop i k j l : Oper ℂ) Ψ)‖ < S - (8 * no + 12) * tolE no (na + nb) h1 V → c i k j l = 0) := by
  obtain ⟨psi, Us, Ψ, A, s1, s3, s4, _, _, s6, s7⟩ := C159_residual_partial p im no na nb ha hb hne hp col hcol h1 V hh hV hx L hL
  obtain ⟨B, b1, b2, b3⟩ := C114_classical S A
  refine ⟨psi, Us, Ψ, B, frob A / 2, cutAt S A, s1, s3, s4, ?_, b2, b3, fun i k j l => ?_⟩
  · unfold ClassResid.solve
    rw [s6, Option.bind_some, b1]
  · have h7 := s7 i k j l
    set z := pair Ψ ((gop i k j l * secondQ h1 V - secondQ h1 V * gop i k j l : Oper ℂ) Ψ)
    have n1 : ‖z‖ ≤ ‖A i k j l‖ + ‖A i k j l - z‖ := by
      have := norm_sub_le (A i k j l) (A i k j l - z)
      rwa [sub_sub_cancel] at this
    have n2 : ‖A i k j l‖ ≤ ‖z‖ + ‖A i k j l - z‖ := by
      have := norm_add_le z (A i k j l - z)
      rwa [add_sub_cancel] at this
    refine ⟨fun h => ?_, fun h => ?_⟩
    · unfold cutAt
      rw [if_pos (by linarith)]
      exact h7
    · unfold cutAt
      rw [if_neg (by linarith)]

/-- **C159 fails:** the orders that do not fit the number of electrons raise, for every ansatz: a two-body tomography of three or more electrons, and a three-body tomography of two. -/
theorem C159_raises (p : ℕ) (im : Bool) (no na nb : ℕ) (hp : (p = 2 ∧ 3 ≤ na + nb) ∨ (p = 3 ∧ na + nb = 2)) (col : List PStr → ℕ → ℕ)
    (h1 : Fin (2 * no) → Fin (2 * no) → ℂ) (V : Fin (2 * no) → Fin (2 * no) → Fin (2 * no) → Fin (2 * no) → ℂ) (L : List (OpD FStr ℂ)) :
    ClassResid.tensor p im no na nb col h1 V L = none := by
  unfold ClassResid.tensor
  rcases hp with ⟨rfl, h⟩ | ⟨rfl, h⟩
  · rw [if_neg (by omega), if_neg (by omega)]
  · rw [if_neg (by omega), if_pos rfl]
    apply Option.bind_eq_none_iff.mpr
    intro prep _
    apply Option.bind_eq_none_iff.mpr
    intro D _
    rw [h, show (((2 : ℕ) : ℤ)) = ((3 : ℕ) : ℤ) - 1 by norm_num, C31_raises]
    rfl

/-- Four electrons in three spatial orbitals, an ansatz of one double excitation, three-body tomography: the hypotheses are met. -/
example : ∃ L A, excLayer 3 [([2, 5, 4, 1], (1 : ℂ))] = some L ∧ ClassResid.tensor 3 false 3 2 2 (fun _ i => i) (fun a b => if a.val % 3 = b.val % 3 then 0 else -1)
    (fun a b c e => if a = c ∧ b = e then 1 else 0) [L] = some A := by
  have hr : conj (1 : ℂ) = 1 := map_one _
  have hl : tinyC (1 : ℂ) = false := by simp [tinyC]; norm_num
  have hg : GoodExc 3 ([2, 5, 4, 1], (1 : ℂ)) :=
    ⟨⟨by dsimp only; decide, by dsimp only; decide, by dsimp only; decide⟩, by dsimp only; decide, by dsimp only; decide, by dsimp only; decide, hr, hl⟩
  obtain ⟨L, _, k1, k2, _⟩ := excLayer_ok 3 [([2, 5, 4, 1], (1 : ℂ))] (by simpa using hg) (List.pairwise_singleton _ _)
  obtain ⟨_, _, _, A, _, _, _, _, _, h, _⟩ := C159_residual_partial 3 false 3 2 2 (by norm_num) (by norm_num) (by norm_num) (Or.inr ⟨rfl, by norm_num, by norm_num⟩)
    (fun _ i => i) colouring_id (fun a b => if a.val % 3 = b.val % 3 then 0 else -1) (fun a b c e => if a = c ∧ b = e then 1 else 0)
    (fun a b => by simp only [eq_comm]) (fun a b c e => by simp only [eq_comm]) (fun a b c e => by simp only [and_comm]) [L] (by simpa using k2)
  exact ⟨L, A, k1, h⟩

/-- The reference is an eigenstate of the number of electrons taken as the Hamiltonian: the solver returns the empty operator. -/
example (S : ℝ) (hS : (8 * (3 : ℕ) + 12) * tolE 3 (2 + 2) (fun a b => if a = b then 1 else 0) (fun _ _ _ _ => 0) < S) :
    ∃ x, ClassResid.solve S 3 false 3 2 2 (fun _ i => i) (fun a b => if a = b then 1 else 0) (fun _ _ _ _ => 0) [] = some ([], x) := by
  refine C159_stationary_partial S 3 false 3 2 2 (by norm_num) (by norm_num) (by norm_num) (Or.inr ⟨rfl, by norm_num, by norm_num⟩)
    (fun _ i => i) colouring_id _ _ (fun a b => by simp only [eq_comm]) (fun _ _ _ _ => rfl) (fun _ _ _ _ => rfl) (fun a b => by split <;> simp) (fun _ _ _ _ => by simp) []
    (by simp) hS (fun psi Us e1 e2 => ?_)
  have : psi = [] := by
    have : ACSEEn.strings [] = some [] := rfl
    rw [this] at e1
    exact (Option.some.inj e1).symm
  subst this
  cases e2
  refine ⟨(4 : ℕ), ?_⟩
  have hH : (secondQ (fun a b : Fin (2 * 3) => if a = b then (1 : ℂ) else 0) (fun _ _ _ _ => 0) : Oper ℂ) = numberOp (2 * 3) := by
    unfold secondQ numberOp
    simp
  rw [hH, List.reverse_nil, List.prod_nil, Module.End.one_apply]
  exact_mod_cast number_sec (2 * 3) 4 _ fun b hb => by
    have : b = hfCfg 3 2 2 := by
      by_contra h
      exact hb (by simp [ket, h])
    rw [this]
    exact (hfCfg_sec 3 2 2 (by norm_num) (by norm_num)).2.1

/-- Four electrons with a two-body tomography, two with a three-body one. -/
example (h1 : Fin (2 * 3) → Fin (2 * 3) → ℂ) (V : Fin (2 * 3) → Fin (2 * 3) → Fin (2 * 3) → Fin (2 * 3) → ℂ) (L : List (OpD FStr ℂ)) :
    ClassResid.tensor 2 true 3 2 2 (fun _ i => i) h1 V L = none ∧ ClassResid.tensor 3 true 3 1 1 (fun _ i => i) h1 V L = none :=
  ⟨C159_raises 2 true 3 2 2 (Or.inl ⟨rfl, by norm_num⟩) _ h1 V L, C159_raises 3 true 3 1 1 (Or.inr ⟨rfl, rfl⟩) _ h1 V L⟩

end
end HQCA.Props
