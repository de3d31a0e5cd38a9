import Verif.Model.EulerQ
import Verif.Props.MeasResid
import Verif.Props.EulerRun3

/-!
# C164: a closed Euler run with the quantum solver
-/

namespace HQCA
namespace Props
open ACSE ACSEEn EulerRun HFStore Ham Prepare Resid UCC Tomo
noncomputable section

/-! ### The measured residual, exactly -/

theorem F_zero (l l' : List ℕ) (h : ¬ l'.Perm l) : (F l l' : ℂ) = 0 := by
  unfold F
  refine List.sum_eq_zero fun x hx => ?_
  obtain ⟨y, hy, rfl⟩ := List.mem_map.mp hx
  rw [if_neg, mul_zero]
  rintro rfl
  exact h (perm_length hy)

theorem nAlpha_perm (no : ℕ) {a b : List ℕ} (h : a.Perm b) : nAlpha no a = nAlpha no b := h.countP_eq _

/-- The elements of an imaginary tomography fill a tensor that is Hermitian, antisymmetric, and zero where the spin is not conserved. -/
theorem imag_fill (no N : ℕ) (L : List (List ℕ)) (hL : ListsUnique 2 no N true L) (l : List (List ℕ × ℂ)) (hl : ∀ x ∈ l, x.1 ∈ L) :
    Herm 2 (entry (build 2 l)) ∧ Antisym 2 (entry (build 2 l)) ∧
      ∀ c a : List ℕ, c.length = 2 → a.length = 2 → nAlpha no c ≠ nAlpha no a → build 2 l (c ++ a) = 0 := by
  set rs : List ((List ℕ × List ℕ) × ℂ) := l.map fun x => ((x.1.take 2, (x.1.drop 2).reverse), x.2) with hrs
  have hspec : ∀ r ∈ rs, Sorted 2 N r.1.1 ∧ Sorted 2 N r.1.2 ∧ nAlpha no r.1.1 = nAlpha no r.1.2 ∧ r.1.1 ≠ r.1.2 := by
    intro r hr
    obtain ⟨x, hx, rfl⟩ := List.mem_map.mp hr
    obtain ⟨c, a, e, hc, ha, hn⟩ := hL.1 x.1 (hl x hx)
    have e1 : x.1.take 2 = c := by rw [e, List.take_left' hc.1]
    have e2 : (x.1.drop 2).reverse = a := by rw [e, List.drop_left' hc.1, List.reverse_reverse]
    simp only [e1, e2]
    refine ⟨hc, ha, hn, ?_⟩
    rintro rfl
    have := hL.2 c c hc ha hn
    rw [if_pos rfl, if_pos ⟨rfl, rfl⟩, add_zero] at this
    exact (List.count_pos_iff.mpr (e ▸ hl x hx)).ne' this
  have hmap : l = rs.map fun r => (r.1.1 ++ r.1.2.reverse, r.2) := by
    rw [hrs, List.map_map]
    conv_lhs => rw [← List.map_id l]
    refine List.map_congr_left fun x _ => ?_
    simp
  have hlen : ∀ r ∈ rs, r.1.1.length = 2 ∧ r.1.2.length = 2 := fun r hr => ⟨(hspec r hr).1.1, (hspec r hr).2.1.1⟩
  have hnd : ∀ c, Sorted 2 N c → c.Nodup := fun c hc => hc.2.1.imp fun h => ne_of_lt h
  refine ⟨?_, ?_, fun c a hc ha hn => ?_⟩
  · rw [hmap]
    refine C28_hermitian_partial 2 (by norm_num) rs hlen (fun r hr => ⟨hnd _ (hspec r hr).1, hnd _ (hspec r hr).2.1⟩) fun r hr he => ?_
    refine absurd ?_ (hspec r hr).2.2.2
    have hp : r.1.1.Perm r.1.2 := (List.perm_ext_iff_of_nodup (hnd _ (hspec r hr).1) (hnd _ (hspec r hr).2.1)).mpr he
    exact hp.eq_of_pairwise (fun a b _ _ h1 h2 => absurd (lt_trans h1 h2) (lt_irrefl _)) (hspec r hr).1.2.1 (hspec r hr).2.1.2.1
  · rw [hmap]
    exact C28_antisymmetric_partial 2 (by norm_num) rs hlen
  · have := build_eq 2 rs hlen c a hc ha
    rw [← hmap] at this
    refine this.trans (List.sum_eq_zero fun x hx => ?_)
    obtain ⟨r, hr, rfl⟩ := List.mem_map.mp hx
    have hsp := (hspec r hr).2.2.1
    have z1 : (F r.1.1 c : ℂ) * F r.1.2 a = 0 := by
      by_cases p1 : c.Perm r.1.1
      · by_cases p2 : a.Perm r.1.2
        · exact absurd (by rw [nAlpha_perm no p1, nAlpha_perm no p2, hsp]) hn
        · rw [F_zero _ _ p2, mul_zero]
      · rw [F_zero _ _ p1, zero_mul]
    have z2 : (F r.1.2 c : ℂ) * F r.1.1 a = 0 := by
      by_cases p1 : c.Perm r.1.2
      · by_cases p2 : a.Perm r.1.1
        · exact absurd (by rw [nAlpha_perm no p1, nAlpha_perm no p2, hsp]) hn
        · rw [F_zero _ _ p2, mul_zero]
      · rw [F_zero _ _ p1, zero_mul]
    rw [mul_assoc, z1, mul_zero, zero_add]
    split
    · rfl
    · rw [mul_assoc, z2, mul_zero]

theorem run_imag_fill (no : ℕ) (col : List PStr → ℕ → ℕ) (prep : Cfg → ℂ) (D : List ℕ → ℂ)
    (h : StateTomo.run 2 ⟨false, true⟩ (defaultOrbs no).1 (defaultOrbs no).2 col prep = some D) :
    Herm 2 (entry D) ∧ Antisym 2 (entry D) ∧ ∀ c a : List ℕ, c.length = 2 → a.length = 2 → nAlpha no c ≠ nAlpha no a → D (c ++ a) = 0 := by
  have h2no : no + no = 2 * no := by omega
  have hLU : ListsUnique 2 no (2 * no) true (rdme 2 ⟨false, true⟩ (alpha no) (beta no no)) := by
    have := C27_order2_partial ⟨false, true⟩ no no le_rfl
    rw [h2no] at this
    exact this
  have ho : (defaultOrbs no).1 = alpha no := rfl
  rw [beta_default, ho] at h
  unfold StateTomo.run StateTomo.runT at h
  simp only at h
  have hN : (alpha no).length + (beta no no).length = 2 * no := by simp [alpha, beta]; omega
  rw [hN] at h
  obtain ⟨els, e1, h⟩ := Option.bind_eq_some_iff.mp h
  obtain ⟨m, _, h⟩ := Option.bind_eq_some_iff.mp h
  obtain ⟨sim, _, h⟩ := Option.bind_eq_some_iff.mp h
  split at h
  · exact absurd h (by simp)
  obtain ⟨l, l1, rfl⟩ := Option.map_eq_some_iff.mp h
  refine imag_fill no (2 * no) _ hLU l fun x hx => ?_
  obtain ⟨e, he, hx'⟩ := mapM_mem_of _ _ _ l1 x hx
  obtain ⟨v, _, rfl⟩ := Option.map_eq_some_iff.mp hx'
  obtain ⟨ind, hind, he'⟩ := mapM_mem_of _ _ _ e1 e he
  obtain ⟨Q, q1, _⟩ := elements_of_unique 2 ⟨false, true⟩ (Or.inr rfl) (Or.inl rfl) no (2 * no) (alpha no) (beta no no) hLU ind hind
  rw [q1] at he'
  obtain rfl := Option.some.inj he'
  exact hind

/-- The tensor the quantum solver takes its generator from: real, odd under exchange of creation and annihilation, and zero unless the pairs are of distinct
orbitals, differ, and have the same number of alpha orbitals. -/
structure ImagTensor (no : ℕ) (A : Fin (2 * no) → Fin (2 * no) → Fin (2 * no) → Fin (2 * no) → ℂ) : Prop where
  real : ∀ i k j l, (starRingEnd ℂ) (A i k j l) = A i k j l
  anti : ∀ i k j l, A j l i k = -A i k j l
  left : ∀ i k j l, A k i j l = -A i k j l
  right : ∀ i k j l, A i k l j = -A i k j l
  spin : ∀ i k j l, A i k j l ≠ 0 → nAlpha no [i.val, k.val] = nAlpha no [j.val, l.val]

theorem measured_imag (no na nb : ℕ) (col : List PStr → ℕ → ℕ) (L : List (OpD FStr ℂ)) (H : List (PStr × ℂ)) (n : ℕ) (d : ℝ)
    (A : Fin (2 * no) → Fin (2 * no) → Fin (2 * no) → Fin (2 * no) → ℂ) (h : MeasResid.statevector no na nb col L H n d = some A) : ImagTensor no A := by
  unfold MeasResid.statevector at h
  obtain ⟨prep, _, h⟩ := Option.bind_eq_some_iff.mp h
  obtain ⟨D, hD, rfl⟩ := Option.map_eq_some_iff.mp h
  obtain ⟨g1, g2, g3⟩ := run_imag_fill no col prep D hD
  refine ⟨fun i k j l => by unfold Collect.measured; exact Complex.conj_ofReal _, fun i k j l => ?_, fun i k j l => ?_, fun i k j l => ?_, fun i k j l hne => ?_⟩
  · have e : D [j.val, l.val, i.val, k.val] = (starRingEnd ℂ) (D [i.val, k.val, j.val, l.val]) := g1 [i.val, k.val] [j.val, l.val] rfl rfl
    unfold Collect.measured
    beta_reduce
    rw [e, Complex.conj_im]
    push_cast
    ring
  · have e : D [k.val, i.val, j.val, l.val] = -D [i.val, k.val, j.val, l.val] := g2.1 [] i.val k.val [] [j.val, l.val] rfl rfl
    unfold Collect.measured
    beta_reduce
    rw [e, Complex.neg_im]
    push_cast
    ring
  · have e : D [i.val, k.val, l.val, j.val] = -D [i.val, k.val, j.val, l.val] := g2.2 [i.val, k.val] [] j.val l.val [] rfl rfl
    unfold Collect.measured
    beta_reduce
    rw [e, Complex.neg_im]
    push_cast
    ring
  · by_contra hn
    have e : D [i.val, k.val, j.val, l.val] = 0 := g3 [i.val, k.val] [j.val, l.val] rfl rfl hn
    refine hne ?_
    unfold Collect.measured
    beta_reduce
    rw [e]
    simp

theorem self_neg {z : ℂ} (h : z = -z) : z = 0 := by
  have : (2 : ℂ) * z = 0 := by linear_combination h
  exact (mul_eq_zero.mp this).resolve_left two_ne_zero

theorem ImagTensor.distinct {no : ℕ} {A : Fin (2 * no) → Fin (2 * no) → Fin (2 * no) → Fin (2 * no) → ℂ} (h : ImagTensor no A) (i k j l : Fin (2 * no))
    (hA : A i k j l ≠ 0) : i ≠ k ∧ j ≠ l ∧ shift no i.val k.val j.val l.val = 0 := by
  refine ⟨?_, ?_, ?_⟩
  · rintro rfl; exact hA (self_neg (h.left i i j l))
  · rintro rfl; exact hA (self_neg (h.right i k j j))
  · have := h.spin i k j l hA
    unfold shift
    unfold nAlpha at this
    by_cases a1 : i.val < no <;> by_cases a2 : k.val < no <;> by_cases a3 : j.val < no <;> by_cases a4 : l.val < no <;>
      simp [List.countP_cons, a1, a2, a3, a4] at this ⊢

/-- In two spatial orbitals two electrons of the same spin have nowhere to go. -/
theorem ImagTensor.two {A : Fin (2 * 2) → Fin (2 * 2) → Fin (2 * 2) → Fin (2 * 2) → ℂ} (h : ImagTensor 2 A) (i k j l : Fin (2 * 2))
    (hA : A i k j l ≠ 0) : ¬(i.val < 2 ↔ k.val < 2) ∧ ¬(j.val < 2 ↔ l.val < 2) := by
  obtain ⟨d1, d2, d3⟩ := h.distinct i k j l hA
  have hd : ¬((j = i ∧ l = k) ∨ (j = k ∧ l = i)) := by
    rintro (⟨rfl, rfl⟩ | ⟨rfl, rfl⟩)
    · exact hA (self_neg (h.anti j l j l))
    · refine hA ?_
      rw [h.right l j l j, self_neg (h.anti l j l j), neg_zero]
  have key : ∀ i k j l : Fin (2 * 2), i ≠ k → j ≠ l → shift 2 i.val k.val j.val l.val = 0 → ¬((j = i ∧ l = k) ∨ (j = k ∧ l = i)) →
      ¬(i.val < 2 ↔ k.val < 2) ∧ ¬(j.val < 2 ↔ l.val < 2) := by
    unfold shift
    decide
  exact key i k j l d1 d2 d3 hd

/-! ### The solver -/

/-- The measurement succeeds for any Hamiltonian operator on the register. -/
theorem measured_exists (no na nb : ℕ) (hno : 1 < no) (ha : na ≤ no) (hb : nb ≤ no) (col : List PStr → ℕ → ℕ) (hcol : ColouringOK col)
    (L : List (OpD FStr ℂ)) (hL : ∀ A ∈ L, LayerOK no A) (H : List (PStr × ℂ)) (hHl : ∀ t ∈ H, t.1.length = 2 * no) (n : ℕ) (d : ℝ) :
    ∃ A, MeasResid.statevector no na nb col L H n d = some A := by
  obtain ⟨psi, Us, Ψ, ph, s1, s3, s4, s5, s6, s7, s8, s9⟩ := acse_state no na nb ha hb L hL
  obtain ⟨φ, f1, f2⟩ := circ_norm (Instr.applyH n d H) Ψ
  have ho : (defaultOrbs no).1 = alpha no := rfl
  have h2no : no + no = 2 * no := by omega
  have hLU : ListsUnique 2 no (2 * no) true (rdme 2 ⟨false, true⟩ (alpha no) (beta no no)) := by
    have := C27_order2_partial ⟨false, true⟩ no no le_rfl
    rw [h2no] at this
    exact this
  have hlenH : ∀ g ∈ Instr.applyH n d H, g.2.length = 2 * no := by
    intro g hg
    unfold Instr.applyH at hg
    obtain ⟨_, _, hg⟩ := List.mem_flatMap.mp hg
    obtain ⟨t, ht, rfl⟩ := List.mem_map.mp hg
    exact hHl t ht
  have hreg : ∀ b, (ph • φ : Cfg →₀ ℂ) b ≠ 0 → ∀ i, 2 * no ≤ i → b i = false := by
    intro b hb0
    have h0 : φ b ≠ 0 := fun h => hb0 (by simp [h])
    rw [f1] at h0
    exact gatesOf_reg (2 * no) _ hlenH _ (fun b hb0 => (s8 b hb0).2.2) b h0
  have hst : MeasResid.state no na nb L H n d = some ((ph • φ : Cfg →₀ ℂ) : Cfg → ℂ) := by
    rw [resid_state, s6, Option.map_some]
    congr 1
    have e1 : ((ph • Ψ : Cfg →₀ ℂ) : Cfg → ℂ) = ph • (Ψ : Cfg → ℂ) := rfl
    have e2 : ((ph • φ : Cfg →₀ ℂ) : Cfg → ℂ) = ph • (φ : Cfg → ℂ) := rfl
    rw [e1, e2, map_smul, f1]
  obtain ⟨D, hD, _⟩ := statevector_any 2 ⟨false, true⟩ (Or.inr rfl) (Or.inl rfl) no (2 * no) (alpha no) (beta no no) (by simp [alpha, beta]; omega)
    hLU (rdme2_imag_ne no hno) col hcol (ph • φ) (by rw [pair_phase ph s5, f2, s7]) hreg
  exact ⟨_, by unfold MeasResid.statevector; rw [hst, Option.bind_some, beta_default, ho, hD, Option.map_some]⟩

/-- The two solvers collect the same operator. -/
theorem quantum_classical {r : ℕ} (S : ℝ) (A : Fin r → Fin r → Fin r → Fin r → ℂ) (x : OpD FStr ℂ × ℝ) (h : Collect.quantum S A = some x) :
    ∃ m, Collect.classical S A = some (x.1, m) := by
  obtain ⟨B, b1, _⟩ := C114_classical S A
  refine ⟨frob A / 2, ?_⟩
  unfold Collect.quantum at h
  obtain ⟨B', b', h⟩ := Option.bind_eq_some_iff.mp h
  split at h
  · obtain rfl := Option.some.inj h
    rw [b1]
    unfold Collect.classical at b1
    rw [b', Option.bind_some] at b1
    split at b1
    · rw [(Prod.mk.inj (Option.some.inj b1)).1]
    · exact absurd b1 (by simp)
  · exact absurd h (by simp)

theorem getQ_ok (o : Opt) (hcol : ColouringOK o.colA) (no na nb : ℕ) (hno : 1 < no) (ha : na ≤ no) (hb : nb ≤ no) (hS : 0 ≤ o.smin)
    (hS' : ((2 * no : ℕ) : ℝ) ^ 2 * o.smin < 1e-8) (H : List (PStr × ℂ)) (hHl : ∀ t ∈ H, t.1.length = 2 * no) (n : ℕ) (d : ℝ)
    (L : List (OpD FStr ℂ)) (hL : ∀ A ∈ L, LayerOK no A) : ∃ x, EulerQ.getA o no na nb H n d L = some x := by
  obtain ⟨A, hA⟩ := measured_exists no na nb hno ha hb o.colA hcol L hL H hHl n d
  obtain ⟨B, m, hB, _⟩ := C114_quantum_safe o.smin hS hS' A
  exact ⟨_, by unfold EulerQ.getA; rw [hA, Option.bind_some, hB]; rfl⟩

/-- In at most three spatial orbitals the search direction moves at most one electron of each spin, whatever the Hamiltonian step. -/
theorem getQ_small (o : Opt) (no na nb : ℕ) (h3 : no ≤ 3) (hS : 0 < o.smin) (H : List (PStr × ℂ)) (n : ℕ) (d : ℝ)
    (L : List (OpD FStr ℂ)) (x : OpD FStr ℂ × ℝ) (e : EulerQ.getA o no na nb H n d L = some x) : GoodOp no x.1 := by
  unfold EulerQ.getA at e
  obtain ⟨A, hA, e⟩ := Option.bind_eq_some_iff.mp e
  obtain ⟨y, hy, rfl⟩ := Option.map_eq_some_iff.mp e
  have hI := measured_imag no na nb o.colA L H n d A hA
  obtain ⟨m, hm⟩ := quantum_classical o.smin A y hy
  refine GoodOp.relTrunc (classical_small h3 o.smin A hI.real (fun i k j l hk => hI.distinct i k j l ?_) y.1 m hm) o.thr
  intro h0
  rw [h0, norm_zero] at hk
  linarith

theorem getQ_min (o : Opt) (na nb : ℕ) (hS : 0 < o.smin) (H : List (PStr × ℂ)) (n : ℕ) (d : ℝ)
    (L : List (OpD FStr ℂ)) (x : OpD FStr ℂ × ℝ) (e : EulerQ.getA o 2 na nb H n d L = some x) : MinOp 2 x.1 := by
  unfold EulerQ.getA at e
  obtain ⟨A, hA, e⟩ := Option.bind_eq_some_iff.mp e
  obtain ⟨y, hy, rfl⟩ := Option.map_eq_some_iff.mp e
  have hI := measured_imag 2 na nb o.colA L H n d A hA
  obtain ⟨m, hm⟩ := quantum_classical o.smin A y hy
  obtain ⟨c1, c2, c3⟩ := classical_anti (no := 2) o.smin A hI.real hI.anti (fun i k j l hk => hI.two i k j l (by
    intro h0
    rw [h0, norm_zero] at hk
    linarith)) y.1 m hm
  exact (MinOp.mk c1 c2 c3).relTrunc o.thr

/-- **C164.** The operator the quantum solver returns from the measured tensor, whatever the ansatz, Hamiltonian operator, step, threshold and number of orbitals: it is
anti-Hermitian and conserves the numbers of alpha and of all electrons, although the measured state does not have definite numbers. -/
theorem C164_direction (no na nb : ℕ) (col : List PStr → ℕ → ℕ) (L : List (OpD FStr ℂ)) (H : List (PStr × ℂ)) (n : ℕ) (d S : ℝ)
    (A : Fin (2 * no) → Fin (2 * no) → Fin (2 * no) → Fin (2 * no) → ℂ) (h : MeasResid.statevector no na nb col L H n d = some A)
    (B : OpD FStr ℂ) (m : ℝ) (hB : Collect.quantum S A = some (B, m)) :
    IsAdj (-denD (denF 0) B : Oper ℂ) (denD (denF 0) B) ∧ Conserves no (denD (denF 0) B) ∧ Conserves (2 * no) (denD (denF 0) B) := by
  have hI := measured_imag no na nb col L H n d A h
  obtain ⟨B', b1, _, b3⟩ := C74_operator (Collect.above S) A
  have hBB : B = B' := by
    unfold Collect.quantum at hB
    rw [b1, Option.bind_some] at hB
    split at hB
    · exact (Prod.mk.inj (Option.some.inj hB)).1.symm
    · cases hB
  have hcon : ∀ r, (r = no ∨ r = 2 * no) → Conserves r (denD (denF 0) B) := by
    intro r hr
    rw [hBB, b3]
    refine Conserves.sum' _ _ fun i _ => Conserves.sum' _ _ fun k _ => Conserves.sum' _ _ fun j _ => Conserves.sum' _ _ fun l _ => ?_
    by_cases h0 : A i k j l = 0
    · have : kept (Collect.above S) (A i k j l) = 0 := by unfold kept; rw [h0]; split <;> rfl
      rw [this, neg_zero, zero_smul]
      exact Conserves.zero
    · refine Conserves.smul' ?_ _
      have hz : shift r i.val k.val j.val l.val = 0 := by
        rcases hr with rfl | rfl
        · exact (hI.distinct i k j l h0).2.2
        · unfold shift
          rw [if_pos i.isLt, if_pos k.isLt, if_pos j.isLt, if_pos l.isLt]
          norm_num
      have := shift_gop r i k j l
      rw [hz, Int.cast_zero, zero_smul, add_zero] at this
      exact this
  refine ⟨?_, hcon no (Or.inl rfl), hcon _ (Or.inr rfl)⟩
  rw [hBB, b3]
  refine residual_antiherm (fun i k j l => kept (Collect.above S) (A i k j l)) ?_ ?_
  · intro i k j l
    unfold kept
    split
    · exact hI.real i k j l
    · exact map_zero _
  · intro i k j l
    unfold kept Collect.above
    rw [hI.anti i k j l, norm_neg]
    split <;> simp

/-! ### The run, for any solver -/

variable (G : List (OpD FStr ℂ) → Option (OpD FStr ℂ × ℝ))

theorem afterQ_len (o : Opt) (no na nb : ℕ) (h1 : Fin (2 * no) → Fin (2 * no) → ℂ) (V : Fin (2 * no) → Fin (2 * no) → Fin (2 * no) → Fin (2 * no) → ℂ) (enc : ℝ)
    (n : ℕ) (s : Euler.St FStr ℂ) (h : EulerQ.after G o no na nb h1 V enc n = some s) : s.psi.length ≤ n := by
  induction n generalizing s with
  | zero =>
    unfold EulerQ.after EulerQ.start at h
    obtain ⟨x, _, rfl⟩ := Option.map_eq_some_iff.mp h
    simp
  | succ n ih =>
    unfold EulerQ.after at h
    obtain ⟨t, t1, t2⟩ := Option.bind_eq_some_iff.mp h
    obtain ⟨y, y1, rfl⟩ := Option.map_eq_some_iff.mp t2
    unfold EulerQ.step at y1
    obtain ⟨e, _, e2⟩ := Option.bind_eq_some_iff.mp y1
    obtain ⟨z, _, rfl⟩ := Option.map_eq_some_iff.mp e2
    exact (ansatz_add_length _ _).trans (by have := ih t t1; omega)

theorem loopQ_obs (P : Par ℝ) (o : Opt) (hcol : ColouringOK o.col) (no na nb : ℕ) (hno : 0 < no) (ha : na ≤ no) (hb : nb ≤ no)
    (hne : na + nb ≠ 1) (hG : ∀ L, (∀ A ∈ L, LayerOK no A) → ∃ x, G L = some x)
    (h1 : Fin (2 * no) → Fin (2 * no) → ℂ) (V : Fin (2 * no) → Fin (2 * no) → Fin (2 * no) → Fin (2 * no) → ℂ) (hh : ∀ a b, h1 a b = h1 b a)
    (hV : ∀ a b c d, V a b c d = V c d a b) (enc : ℝ) (M : ℕ) (hdep : M < o.depth)
    (hi : ∀ n < M, ∀ s, EulerQ.after G o no na nb h1 V enc n = some s → ∀ A ∈ (Euler.step 1 (o.eps : ℂ) s).psi, LayerOK no A) :
    ∀ (n m : ℕ) (s : Euler.St FStr ℂ), m + n = M → EulerQ.after G o no na nb h1 V enc m = some s →
      ∃ os : List (Obs ℝ), os.length = n ∧ (∀ ob ∈ os, ob.deep = false ∧ IsEnergy no na nb h1 V enc ob.en) ∧
        ∀ d, EulerQ.loop G P o no na nb h1 V enc n d s = ACSE.run P os d := by
  intro n
  induction n with
  | zero => exact fun m s _ _ => ⟨[], rfl, by simp, fun d => rfl⟩
  | succ n ih =>
    intro m s hm has
    have hL := hi m (by omega) s has
    obtain ⟨_, _, Ψ, E, _, _, _, a1, a2, a3, a4⟩ := C115_energy_partial no na nb hno ha hb hne o.col hcol h1 V hh hV enc _ hL
    obtain ⟨y, y1⟩ := hG _ hL
    have hlen : (Euler.step 1 (o.eps : ℂ) s).psi.length ≤ m + 1 :=
      (ansatz_add_length _ _).trans (by have := afterQ_len G o no na nb h1 V enc m s has; omega)
    have hstep : EulerQ.step G o no na nb h1 V enc s =
        some (⟨(Euler.step 1 (o.eps : ℂ) s).psi, y.1⟩, ⟨E, y.2, 0, 0, decide ((Euler.step 1 (o.eps : ℂ) s).psi.length = o.depth)⟩) := by
      unfold EulerQ.step
      simp only
      rw [a3, Option.bind_some, y1]
      rfl
    obtain ⟨os, o1, o2, o3⟩ := ih (m + 1) _ (by omega) (by rw [EulerQ.after, has, Option.bind_some, hstep]; rfl)
    refine ⟨⟨E, y.2, 0, 0, decide ((Euler.step 1 (o.eps : ℂ) s).psi.length = o.depth)⟩ :: os, by rw [List.length_cons, o1], ?_, fun d => ?_⟩
    · intro ob hob
      rcases List.mem_cons.mp hob with rfl | hob
      · exact ⟨decide_eq_false (by omega), Ψ, a1, a2, a4⟩
      · exact o2 ob hob
    · unfold EulerQ.loop ACSE.run
      split
      · rfl
      · rw [hstep, Option.bind_some]
        congr 1
        funext d'
        exact o3 d'

theorem runQ_any (P : Par ℝ) (hP : 0 < P.maxIter) (hc : P.conv = .norm) (o : Opt) (hcol : ColouringOK o.col)
    (hdep : P.maxIter < o.depth) (no na nb : ℕ) (hno : 0 < no) (ha : na ≤ no) (hb : nb ≤ no) (hne : na + nb ≠ 1) (hsz : SpinOK na nb)
    (hG : ∀ L, (∀ A ∈ L, LayerOK no A) → ∃ x, G L = some x)
    (h1 : Fin (2 * no) → Fin (2 * no) → ℂ) (V : Fin (2 * no) → Fin (2 * no) → Fin (2 * no) → Fin (2 * no) → ℂ) (hh : ∀ a b, h1 a b = h1 b a)
    (hV : ∀ a b c d, V a b c d = V c d a b) (enc : ℝ)
    (hi : ∀ n < P.maxIter, ∀ s, EulerQ.after G o no na nb h1 V enc n = some s → ∀ A ∈ (Euler.step 1 (o.eps : ℂ) s).psi, LayerOK no A) :
    ∃ s, EulerQ.run G P o no na nb h1 V enc P.maxIter = some s ∧ s.iter ≤ P.maxIter ∧ s.done = true ∧
      s.best ≤ (pair (det (hfCfg no na nb)) (secondQ h1 V (det (hfCfg no na nb) : Cfg →₀ ℂ))).re + enc ∧
      IsEnergy no na nb h1 V enc s.best ∧
      ∀ E0 : ℝ, (∀ φ : Cfg →₀ ℂ, pair φ φ = 1 → (∀ b, φ b ≠ 0 → InSec no (2 * no) na (na + nb) b) → E0 ≤ (pair φ (secondQ h1 V φ)).re) →
        E0 + enc - tolE no (na + nb) h1 V ≤ s.best := by
  obtain ⟨x, x1⟩ := hG [] (by simp)
  have hst : EulerQ.start G = some ⟨[], x.1⟩ := by unfold EulerQ.start; rw [x1]; rfl
  obtain ⟨os, o1, o2, o3⟩ := loopQ_obs G P o hcol no na nb hno ha hb hne hG h1 V hh hV enc P.maxIter hdep hi P.maxIter 0 _ (by omega) hst
  obtain ⟨s, e1, e2, e3, e4⟩ := run_of_obs P hP (by rw [hc]; simp) no na nb ha hb h1 V enc os o2
  refine ⟨s, ?_, e2, e3 (by omega), e4⟩
  unfold EulerQ.run
  rw [C113_acse_partial no na nb ha hb hne hsz h1 V hh hV enc, Option.bind_some, hst, Option.bind_some, o3]
  exact e1

/-- The invariant of a run: what the solver returns holds of every operator in the ansatz, if it is kept by scaling and by adding to the ansatz. -/
theorem afterQ_inv (Good : OpD FStr ℂ → Prop) (o : Opt) (no na nb : ℕ) (h1 : Fin (2 * no) → Fin (2 * no) → ℂ)
    (V : Fin (2 * no) → Fin (2 * no) → Fin (2 * no) → Fin (2 * no) → ℂ) (enc : ℝ) (hG : ∀ L x, G L = some x → Good x.1)
    (hadd : ∀ L O, (∀ A ∈ L, Good A) → Good O → ∀ A ∈ Ansatz.add 1 L (Euler.scaled (o.eps : ℂ) O), Good A) (n : ℕ) (s : Euler.St FStr ℂ)
    (h : EulerQ.after G o no na nb h1 V enc n = some s) : Good s.A ∧ ∀ A ∈ s.psi, Good A := by
  induction n generalizing s with
  | zero =>
    unfold EulerQ.after EulerQ.start at h
    obtain ⟨x, x1, rfl⟩ := Option.map_eq_some_iff.mp h
    exact ⟨hG _ _ x1, by simp⟩
  | succ n ih =>
    unfold EulerQ.after at h
    obtain ⟨t, t1, t2⟩ := Option.bind_eq_some_iff.mp h
    obtain ⟨g1, g2⟩ := ih t t1
    obtain ⟨y, y1, rfl⟩ := Option.map_eq_some_iff.mp t2
    unfold EulerQ.step at y1
    obtain ⟨e, _, e2⟩ := Option.bind_eq_some_iff.mp y1
    obtain ⟨z, z1, rfl⟩ := Option.map_eq_some_iff.mp e2
    exact ⟨hG _ _ z1, hadd _ _ g2 g1⟩

/-- The register length of the qubit Hamiltonian of the storage. -/
theorem qubitOp_len {r : ℕ} (skip : ℂ → Bool) (h1 : Fin r → Fin r → ℂ) (V : Fin r → Fin r → Fin r → Fin r → ℂ) (Q : POp ℂ) (F : OpD FStr ℂ)
    (h : qubitOp Transform.jordanWigner skip h1 V = some (Q, F)) : ∀ t ∈ Q, t.1.length = r := by
  obtain ⟨A, a1, _, a3, _⟩ := C52_fermi_operator skip h1 V
  unfold qubitOp at h
  rw [a1, Option.bind_some] at h
  obtain ⟨C, c1, c2⟩ := Option.map_eq_some_iff.mp h
  obtain ⟨rfl, _⟩ := Prod.mk.inj c2
  exact lengths_foldl_addStr (fun s => s.length = r) C [] (by simp) (SymProj.transform_len _ _ Transform.jw_spec A _ a3 C c1)

/-- **C164, partial.** A closed Euler run with the quantum solver (the driver's default) on the qubit Hamiltonian of the storage, any number of orbitals and electrons, any
Hamiltonian step and number of Trotter steps, in which every ansatz reached is made of layers as in C115: the run completes within `max_iter` iterations; the energy it reports
is not above the Hartree–Fock energy, is within the accuracy of one evaluation the energy of a normalised state with the right numbers of electrons, and not below the lowest
energy of these states by more than that, however inaccurate the measured residual.  The threshold has to be below `1e-8/(2 no)²` (`C164_threshold`).  Missing: layers whose
Trotterised circuit does not conserve the numbers of electrons, one electron, and reaching the maximal depth. -/
theorem C164_run_partial (P : Par ℝ) (hP : 0 < P.maxIter) (hc : P.conv = .norm) (o : Opt) (hcol : ColouringOK o.col) (hcolA : ColouringOK o.colA)
    (hdep : P.maxIter < o.depth) (no na nb : ℕ) (hno : 1 < no) (ha : na ≤ no) (hb : nb ≤ no) (hne : na + nb ≠ 1) (hsz : SpinOK na nb) (hS : 0 ≤ o.smin)
    (hS' : ((2 * no : ℕ) : ℝ) ^ 2 * o.smin < 1e-8)
    (h1 : Fin (2 * no) → Fin (2 * no) → ℂ) (V : Fin (2 * no) → Fin (2 * no) → Fin (2 * no) → Fin (2 * no) → ℂ) (hh : ∀ a b, h1 a b = h1 b a)
    (hV : ∀ a b c d, V a b c d = V c d a b) (enc : ℝ) (skip : ℂ → Bool) (H : POp ℂ) (F : OpD FStr ℂ)
    (hH : qubitOp Transform.jordanWigner skip h1 V = some (H, F)) (trotter : ℕ) (d : ℝ)
    (hi : ∀ n < P.maxIter, ∀ s, EulerQ.after (EulerQ.getA o no na nb H trotter d) o no na nb h1 V enc n = some s →
      ∀ A ∈ (Euler.step 1 (o.eps : ℂ) s).psi, LayerOK no A) :
    ∃ s, EulerQ.run (EulerQ.getA o no na nb H trotter d) P o no na nb h1 V enc P.maxIter = some s ∧ s.iter ≤ P.maxIter ∧ s.done = true ∧
      s.best ≤ (pair (det (hfCfg no na nb)) (secondQ h1 V (det (hfCfg no na nb) : Cfg →₀ ℂ))).re + enc ∧
      IsEnergy no na nb h1 V enc s.best ∧
      ∀ E0 : ℝ, (∀ φ : Cfg →₀ ℂ, pair φ φ = 1 → (∀ b, φ b ≠ 0 → InSec no (2 * no) na (na + nb) b) → E0 ≤ (pair φ (secondQ h1 V φ)).re) →
        E0 + enc - tolE no (na + nb) h1 V ≤ s.best :=
  runQ_any _ P hP hc o hcol hdep no na nb (by omega) ha hb hne hsz
    (fun L hL => getQ_ok o hcolA no na nb hno ha hb hS hS' H (qubitOp_len skip h1 V H F hH) trotter d L hL) h1 V hh hV enc hi

/-- **C164, at most three spatial orbitals, partial.** As `C164_run_partial` in two or three spatial orbitals: the condition on the layers is derived, with no condition on the
accuracy, since the imaginary tomography has no spin-changing and no diagonal elements.  Missing: what is missing from `C164_run_partial`, and layers whose Pauli form keeps a real
coefficient after cancellation (`ImagForm`), which the circuit would use as an angle. -/
theorem C164_small_partial (P : Par ℝ) (hP : 0 < P.maxIter) (hc : P.conv = .norm) (o : Opt) (hcol : ColouringOK o.col) (hcolA : ColouringOK o.colA)
    (hdep : P.maxIter < o.depth) (no na nb : ℕ) (hno : 1 < no) (h3 : no ≤ 3) (ha : na ≤ no) (hb : nb ≤ no) (hne : na + nb ≠ 1) (hsz : SpinOK na nb) (hS : 0 < o.smin)
    (hS' : ((2 * no : ℕ) : ℝ) ^ 2 * o.smin < 1e-8)
    (h1 : Fin (2 * no) → Fin (2 * no) → ℂ) (V : Fin (2 * no) → Fin (2 * no) → Fin (2 * no) → Fin (2 * no) → ℂ) (hh : ∀ a b, h1 a b = h1 b a)
    (hV : ∀ a b c d, V a b c d = V c d a b) (enc : ℝ) (skip : ℂ → Bool) (H : POp ℂ) (F : OpD FStr ℂ)
    (hH : qubitOp Transform.jordanWigner skip h1 V = some (H, F)) (trotter : ℕ) (d : ℝ)
    (hi : ∀ n < P.maxIter, ∀ s, EulerQ.after (EulerQ.getA o no na nb H trotter d) o no na nb h1 V enc n = some s →
      ∀ A ∈ (Euler.step 1 (o.eps : ℂ) s).psi, ImagForm A) :
    ∃ s, EulerQ.run (EulerQ.getA o no na nb H trotter d) P o no na nb h1 V enc P.maxIter = some s ∧ s.iter ≤ P.maxIter ∧ s.done = true ∧
      s.best ≤ (pair (det (hfCfg no na nb)) (secondQ h1 V (det (hfCfg no na nb) : Cfg →₀ ℂ))).re + enc ∧
      IsEnergy no na nb h1 V enc s.best ∧
      ∀ E0 : ℝ, (∀ φ : Cfg →₀ ℂ, pair φ φ = 1 → (∀ b, φ b ≠ 0 → InSec no (2 * no) na (na + nb) b) → E0 ≤ (pair φ (secondQ h1 V φ)).re) →
        E0 + enc - tolE no (na + nb) h1 V ≤ s.best :=
  C164_run_partial P hP hc o hcol hcolA hdep no na nb hno ha hb hne hsz hS.le hS' h1 V hh hV enc skip H F hH trotter d fun n hn s h A hA => by
    obtain ⟨g1, g2⟩ := afterQ_inv _ (GoodOp no) o no na nb h1 V enc (fun L x hx => getQ_small o no na nb h3 hS H trotter d L x hx)
      (fun L O hL hO => add_good hL (hO.scaled o.eps)) n s h
    exact (add_good g2 (g1.scaled o.eps) A hA).ok (hi n hn s h A hA)

/-- **C164, two spatial orbitals, partial.** As `C164_run_partial` for any number of electrons in two spatial orbitals, without any hypothesis on the layers.  Missing: one
electron, three or more orbitals, reaching the maximal depth. -/
theorem C164_minimal_partial (P : Par ℝ) (hP : 0 < P.maxIter) (hc : P.conv = .norm) (o : Opt) (hcol : ColouringOK o.col) (hcolA : ColouringOK o.colA)
    (hdep : P.maxIter < o.depth) (na nb : ℕ) (ha : na ≤ 2) (hb : nb ≤ 2) (hne : na + nb ≠ 1) (hsz : SpinOK na nb) (hS : 0 < o.smin) (hS' : 16 * o.smin < 1e-8)
    (h1 : Fin (2 * 2) → Fin (2 * 2) → ℂ) (V : Fin (2 * 2) → Fin (2 * 2) → Fin (2 * 2) → Fin (2 * 2) → ℂ) (hh : ∀ a b, h1 a b = h1 b a)
    (hV : ∀ a b c d, V a b c d = V c d a b) (enc : ℝ) (skip : ℂ → Bool) (H : POp ℂ) (F : OpD FStr ℂ)
    (hH : qubitOp Transform.jordanWigner skip h1 V = some (H, F)) (trotter : ℕ) (d : ℝ) :
    ∃ s, EulerQ.run (EulerQ.getA o 2 na nb H trotter d) P o 2 na nb h1 V enc P.maxIter = some s ∧ s.iter ≤ P.maxIter ∧ s.done = true ∧
      s.best ≤ (pair (det (hfCfg 2 na nb)) (secondQ h1 V (det (hfCfg 2 na nb) : Cfg →₀ ℂ))).re + enc ∧
      IsEnergy 2 na nb h1 V enc s.best ∧
      ∀ E0 : ℝ, (∀ φ : Cfg →₀ ℂ, pair φ φ = 1 → (∀ b, φ b ≠ 0 → InSec 2 (2 * 2) na (na + nb) b) → E0 ≤ (pair φ (secondQ h1 V φ)).re) →
        E0 + enc - tolE 2 (na + nb) h1 V ≤ s.best :=
  C164_small_partial P hP hc o hcol hcolA hdep 2 na nb (by norm_num) (by norm_num) ha hb hne hsz hS (by push_cast; linarith) h1 V hh hV enc skip H F hH trotter d
    fun n hn s h A hA => by
      obtain ⟨g1, g2⟩ := afterQ_inv _ (fun B => GoodOp 2 B ∧ MinOp 2 B) o 2 na nb h1 V enc
        (fun L x hx => ⟨getQ_small o 2 na nb (by norm_num) hS H trotter d L x hx, getQ_min o na nb hS H trotter d L x hx⟩)
        (fun L O hL hO A hA => ⟨add_good (fun B hB => (hL B hB).1) (hO.1.scaled o.eps) A hA, add_min (fun B hB => (hL B hB).2) (hO.2.scaled o.eps) A hA⟩) n s h
      have g : GoodOp 2 A := add_good (fun B hB => (g2 B hB).1) (g1.1.scaled o.eps) A hA
      have k : MinOp 2 A := add_min (fun B hB => (g2 B hB).2) (g1.2.scaled o.eps) A hA
      exact imag_of_few g k.anti k.uniq k.few

/-- A threshold above the measured residual of the reference, where that is not negligible, ends the run with an error while the driver is built, and so does a single spatial
orbital. -/
theorem C164_threshold (P : Par ℝ) (o : Opt) (no na nb : ℕ) (h1 : Fin (2 * no) → Fin (2 * no) → ℂ)
    (V : Fin (2 * no) → Fin (2 * no) → Fin (2 * no) → Fin (2 * no) → ℂ) (enc : ℝ) (H : POp ℂ) (trotter : ℕ) (d : ℝ)
    (h : no = 1 ∨ ∃ A, MeasResid.statevector no na nb o.colA [] H trotter d = some A ∧ (∀ i k j l, ‖A i k j l‖ < o.smin) ∧ ∃ i k j l, 1e-8 ≤ ‖A i k j l‖) (n : ℕ) :
    EulerQ.run (EulerQ.getA o no na nb H trotter d) P o no na nb h1 V enc n = none := by
  have hg : EulerQ.getA o no na nb H trotter d [] = none := by
    unfold EulerQ.getA
    rcases h with rfl | ⟨A, a1, a2, i, k, j, l, a3⟩
    · rw [(C153_single_orbital na nb o.colA [] H trotter d fun _ => []).1]; rfl
    · rw [a1, Option.bind_some, C114_quantum_fails o.smin A a2 i k j l a3]; rfl
  unfold EulerQ.run EulerQ.start
  rw [hg]
  cases HFStore.acseE0 no na nb h1 V enc <;> rfl

/-- One orbital, two electrons. -/
example (P : Par ℝ) (o : Opt) (enc : ℝ) (H : POp ℂ) : EulerQ.run (EulerQ.getA o 1 1 1 H 1 (1 / 10)) P o 1 1 1 (fun _ _ => -1) (fun _ _ _ _ => 1 / 2) enc 5 = none :=
  C164_threshold P o 1 1 1 _ _ enc H 1 (1 / 10) (Or.inl rfl) 5

/-- With the classical solver this is the run of C160. -/
theorem C164_classical (P : Par ℝ) (p : ℕ) (o : Opt) (no na nb : ℕ) (h1 : Fin (2 * no) → Fin (2 * no) → ℂ)
    (V : Fin (2 * no) → Fin (2 * no) → Fin (2 * no) → Fin (2 * no) → ℂ) (enc : ℝ) (n : ℕ) :
    EulerQ.run (EulerRun3.getA p o no na nb h1 V) P o no na nb h1 V enc n = EulerRun3.run P p o no na nb h1 V enc n := by
  have lp : ∀ n d s, EulerQ.loop (EulerRun3.getA p o no na nb h1 V) P o no na nb h1 V enc n d s = EulerRun3.loop P p o no na nb h1 V enc n d s := by
    intro n
    induction n with
    | zero => exact fun _ _ => rfl
    | succ n ih =>
      intro d s
      unfold EulerQ.loop EulerRun3.loop
      simp only [ih]
      rfl
  unfold EulerQ.run EulerRun3.run
  simp only [lp]
  rfl

/-- Ten Euler steps on a minimal-basis molecule, with the default step, thresholds and Hamiltonian step. -/
example : ∃ H F s, qubitOp Transform.jordanWigner (fun _ => false) exH exV = some (H, F) ∧
    EulerQ.run (EulerQ.getA ⟨1, 1e-10, 1e-1, 100, fun _ i => i, fun _ i => i⟩ 2 1 1 H 1 (1 / 10)) ⟨10, .norm, 1e-3, 0, 0⟩
      ⟨1, 1e-10, 1e-1, 100, fun _ i => i, fun _ i => i⟩ 2 1 1 exH exV (1 / 2) 10 = some s ∧ s.done = true ∧
    s.best ≤ (pair (det (hfCfg 2 1 1)) (secondQ exH exV (det (hfCfg 2 1 1) : Cfg →₀ ℂ))).re + 1 / 2 := by
  have hh : ∀ a b, exH a b = exH b a := fun a b => by
    unfold exH
    by_cases h : a = b
    · rw [h]
    · rw [if_neg h, if_neg (Ne.symm h)]
  have hV : ∀ a b c d, exV a b c d = exV c d a b := fun a b c d => by
    unfold exV
    exact if_congr (and_congr iff_comm iff_comm) (if_congr (and_congr eq_comm eq_comm) rfl (if_congr (and_congr ne_comm ne_comm) rfl rfl)) rfl
  obtain ⟨H, _, F, hH, _⟩ := C153_hamiltonian 2 (fun _ => false) exH exV ex_spin hh hV (fun _ _ h => absurd h (by simp)) (fun _ _ _ _ h => absurd h (by simp))
  obtain ⟨s, e1, _, e3, e4, _⟩ := C164_minimal_partial ⟨10, .norm, 1e-3, 0, 0⟩ (by norm_num) rfl
    ⟨1, 1e-10, 1e-1, 100, fun _ i => i, fun _ i => i⟩ colouring_id colouring_id (by norm_num) 1 1 (by norm_num) (by norm_num) (by norm_num)
    (by unfold SpinOK; simp) (by norm_num) (by norm_num) exH exV hh hV (1 / 2) (fun _ => false) H F hH 1 (1 / 10)
  exact ⟨H, F, s, hH, e1, e3, e4⟩

end
end Props
end HQCA
