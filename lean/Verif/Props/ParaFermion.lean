import Verif.Model.ParaFermion
import Verif.Props.InverseJW

/-!
# C92: qubit-particle strings as fermionic operators
-/

set_option linter.unusedSectionVars false

namespace HQCA.Props
open HQCA.InverseJW (one zr Len)
open HQCA.ParaFermion

/-- The operator multiplied in for one letter. -/
noncomputable def paraLetter (N q : ℕ) (o : FL) : Oper ℂ := if o = .cr ∨ o = .an then zr N q * fop q o else fop q o

/-- Product of the letter operators from position `k` on. -/
noncomputable def paraDen (N : ℕ) (k : ℕ) : FStr → Oper ℂ
  | [] => 1
  | o :: s => paraLetter N k o * paraDen N (k+1) s

theorem para_tem_spec (N q : ℕ) (hq : q < N) (o : FL) :
    ∃ C, tem (K := ℂ) N q o = some C ∧ GIop 1 C ∧ Len N C ∧ UniqueKeys C ∧ denD (denF 0) C = paraLetter N q o := by
  have e : OpD.addStr [] (one N q o, (1 : ℂ)) = [(one N q o, 1)] := rfl
  have g : GIop (1 : ℂ) [(one N q o, (1 : ℂ))] := by
    intro t ht
    simp only [List.mem_singleton] at ht
    exact ⟨1, GI.one, by rw [ht]; simp⟩
  have l : Len N [(one N q o, (1 : ℂ))] := by
    intro t ht
    simp only [List.mem_singleton] at ht
    rw [ht]; exact InverseJW.one_length N q o hq
  have u : UniqueKeys [(one N q o, (1 : ℂ))] := by simp [UniqueKeys]
  have d : denD (denF 0) [(one N q o, (1 : ℂ))] = fop q o := by simp [denD, InverseJW.denF_one]
  unfold tem paraLetter
  rw [e]
  split
  · obtain ⟨C, h1, h2, h3, h4, h5⟩ := InverseJW.zLoop_spec N q hq _ g l u
    exact ⟨C, h1, h2, h3, h4, by rw [h5, d]⟩
  · exact ⟨_, rfl, g, l, u, d⟩

theorem para_loop (N : ℕ) (c : ℂ) (hc : small c = false) (s : FStr) (k : ℕ) (hk : k + s.length = N) :
    ∃ C, (s.zipIdx k).reverse.foldlM (step N) (OpD.addStr [] (List.replicate N .i, c)) = some C ∧ GIop c C ∧
      Len N C ∧ UniqueKeys C ∧ denD (denF 0) C = c • paraDen N k s := by
  induction s generalizing k with
  | nil =>
    refine ⟨_, rfl, ?_, ?_, ?_, ?_⟩
    · intro t ht
      rw [show OpD.addStr [] (List.replicate N FL.i, c) = [(List.replicate N FL.i, c)] from rfl] at ht
      simp only [List.mem_singleton] at ht
      exact ⟨1, GI.one, by rw [ht]; simp⟩
    · intro t ht
      rw [show OpD.addStr [] (List.replicate N FL.i, c) = [(List.replicate N FL.i, c)] from rfl] at ht
      simp only [List.mem_singleton] at ht
      rw [ht]; simp
    · show UniqueKeys [(List.replicate N FL.i, c)]
      simp [UniqueKeys]
    · show denD (denF 0) [(List.replicate N FL.i, c)] = _
      simp only [denD, List.map_cons, List.map_nil, List.sum_cons, List.sum_nil, add_zero, paraDen]
      rw [denF_eq_denW, denW_replicate _ (fun _ => rfl)]
  | cons o s ih =>
    simp only [List.length_cons] at hk
    obtain ⟨C, h1, h2, h3, hu, h4⟩ := ih (k+1) (by omega)
    rw [List.zipIdx_cons, InverseJW.foldlM_reverse_cons, h1]
    simp only [Option.bind_some, step]
    by_cases ho : o = .i
    · rw [if_pos ho]
      refine ⟨C, rfl, h2, h3, hu, ?_⟩
      rw [h4, paraDen, ho]
      simp [paraLetter, fop]
    · rw [if_neg ho]
      obtain ⟨T, t1, t2, t3, _, t4⟩ := para_tem_spec N k (by omega) o
      obtain ⟨D, g1, g2, g3, g4, g5⟩ := InverseJW.mul_exact N c hc T C t2 h2 t3 h3
      refine ⟨D, by rw [t1]; simpa using g1, g2, g3, g4, ?_⟩
      rw [g5, t4, h4, paraDen, mul_smul_comm]

theorem paraLetter_good (N q : ℕ) (hN : 0 < N) (o : FL) (h : o = .cr ∨ o = .an → q = 0 ∨ q = N - 1) :
    paraLetter N q o = site q (qmat o) := by
  unfold paraLetter
  split
  · rename_i ho
    have hodd : o.odd = true := by rcases ho with rfl | rfl <;> rfl
    rw [fop_eq, hodd]
    simp only [zs, if_true]
    rcases h ho with rfl | rfl
    · simp [zr, zstr]
    · rw [InverseJW.zr_last N hN, ← mul_assoc, zstr_mul_self, one_mul]
  · rename_i ho
    have hodd : o.odd = false := by cases o <;> simp_all [FL.odd]
    rw [fop_eq, hodd]
    simp [zs]

theorem paraDen_good (N : ℕ) (hN : 0 < N) (s : FStr) (k : ℕ)
    (h : ∀ q o, (o, q) ∈ s.zipIdx k → o = .cr ∨ o = .an → q = 0 ∨ q = N - 1) : paraDen N k s = denQ k s := by
  induction s generalizing k with
  | nil => rfl
  | cons o s ih =>
    simp only [List.zipIdx_cons, List.mem_cons] at h
    rw [paraDen, denQ, paraLetter_good N k hN o (fun ho => h k o (Or.inl rfl) ho),
      ih (k+1) (fun q o' hm ho => h q o' (Or.inr hm) ho)]

/-- **C92, partial.** For a qubit string whose `+`/`-` letters sit only on the first or last position (`p`, `h`, `i`
anywhere) the result is a fermionic operator with exactly the same action, sign strings included.  Missing: `+`/`-` on an
inner position, where the claim is false (`C92_violated`). -/
theorem C92_para_fermion_partial (s : FStr) (c : ℂ) (hc : 1e-12 < ‖c‖)
    (h : ∀ q o, s[q]? = some o → (o = .cr ∨ o = .an) → q = 0 ∨ q = s.length - 1) :
    ∃ A, paraFermion (s, c) = some A ∧ UniqueKeys A ∧ (∀ t ∈ A, t.1.length = s.length) ∧
      denD (denF 0) A = (c • denQ 0 s : Oper ℂ) := by
  have hc' : small c = false := by simpa [small] using hc
  obtain ⟨C, h1, _, h3, h4, h5⟩ := para_loop s.length c hc' s 0 (by omega)
  refine ⟨C, h1, h4, h3, ?_⟩
  rw [h5]
  rcases Nat.eq_zero_or_pos s.length with h0 | h0
  · rw [List.length_eq_zero_iff.mp h0]; rfl
  · rw [paraDen_good s.length h0 s 0]
    intro q o hm ho
    refine h q o ?_ ho
    have := List.mem_zipIdx_iff_getElem?.mp hm
    simpa using this

/-- A string meeting the hypotheses: `+` first, `-` last, a number operator between. -/
example : paraFermion (K := GQ) ([.cr, .p, .an], 1) = some [([.cr, .p, .an], -1)] := by decide +kernel

theorem paraDen_pad (N k n : ℕ) (t : FStr) : paraDen N k (List.replicate n .i ++ t) = paraDen N (k + n) t := by
  induction n generalizing k with
  | zero => rfl
  | succ n ih =>
    rw [List.replicate_succ, List.cons_append, paraDen, ih]
    simp only [paraLetter, fop]
    rw [if_neg (by simp), one_mul]
    congr 1; omega

theorem paraDen_one (N q : ℕ) (o : FL) : paraDen N 0 (one N q o) = paraLetter N q o := by
  unfold one
  rw [paraDen_pad, zero_add, paraDen]
  have := paraDen_pad N (q+1) (N - q - 1) []
  rw [List.append_nil] at this
  rw [this, paraDen, mul_one]

/-- **C92 (violated).** For every register of at least three orbitals, every inner position and both letters, the
fermionic operator returned for a single `+` or `-` is not that operator: the sign string is put on the wrong
orbitals (`_para_fermion.py:29`). -/
theorem C92_violated (N q : ℕ) (h0 : 0 < q) (hq : q < N - 1) (o : FL) (ho : o = .cr ∨ o = .an) (c : ℂ)
    (hc : 1e-12 < ‖c‖) :
    ∃ A, paraFermion (List.replicate q .i ++ o :: List.replicate (N - q - 1) .i, c) = some A ∧
      denD (denF 0) A ≠ (c • site q (qmat o) : Oper ℂ) := by
  have hl : (one N q o).length = N := InverseJW.one_length N q o (by omega)
  have hc' : small c = false := by simpa [small] using hc
  obtain ⟨C, h1, _, _, _, h5⟩ := para_loop N c hc' (one N q o) 0 (by omega)
  refine ⟨C, by unfold paraFermion; rw [show (List.replicate q FL.i ++ o :: List.replicate (N - q - 1) .i) = one N q o from rfl, hl]; exact h1, ?_⟩
  rw [h5, paraDen_one]
  intro heq
  have hc0 : c ≠ 0 := by
    rintro rfl
    simp at hc
    norm_num at hc
  have heq' := smul_right_injective (Oper ℂ) hc0 heq
  have hodd : o.odd = true := by rcases ho with rfl | rfl <;> rfl
  unfold paraLetter at heq'
  rw [if_pos ho, fop_eq, hodd] at heq'
  simp only [zs, if_true] at heq'
  -- evaluate on a configuration
  have ev : ∀ b : Cfg, (site q (qmat o) : Oper ℂ) (fun _ => 1) b = 1 →
      (∏ j ∈ Finset.range q, (sg (b (N - 1 - 1 - j)) : ℂ)) * ∏ j ∈ Finset.range q, sg (b j) = 1 := by
    intro b hb
    have := congrArg (fun X : Oper ℂ => X (fun _ => 1) b) heq'
    simp only [Module.End.mul_apply] at this
    rw [InverseJW.zr_apply, zstr_apply, hb, InverseJW.fsign_eq_prod, mul_one] at this
    exact this
  -- sign of a configuration with a single occupied orbital `z` in the range
  have single : ∀ (b : Cfg) (f : ℕ → ℕ) (j0 : ℕ), j0 < q → b (f j0) = true → (∀ j < q, j ≠ j0 → b (f j) = false) →
      ∏ j ∈ Finset.range q, (sg (b (f j)) : ℂ) = -1 := by
    intro b f j0 hj0 hb hr
    rw [Finset.prod_eq_single j0]
    · rw [hb]; simp [sg]
    · intro j hj hne
      rw [hr j (Finset.mem_range.mp hj) hne]; simp [sg]
    · intro h; exact absurd (Finset.mem_range.mpr hj0) h
  have none' : ∀ (b : Cfg) (f : ℕ → ℕ), (∀ j < q, b (f j) = false) → ∏ j ∈ Finset.range q, (sg (b (f j)) : ℂ) = 1 := by
    intro b f hr
    apply Finset.prod_eq_one
    intro j hj
    rw [hr j (Finset.mem_range.mp hj)]; simp [sg]
  rcases ho with rfl | rfl
  · by_cases hin : N - 1 - q ≤ q
    · have e := ev (fun j => decide (j = q)) (by simp [site, qmat, mRaise])
      have e1 : ∏ j ∈ Finset.range q, (sg (decide (N - 1 - 1 - j = q)) : ℂ) = -1 :=
        single (fun j => decide (j = q)) (fun j => N - 1 - 1 - j) (N - 1 - 1 - q) (by omega) (by simp; omega)
          (by intro j hj hne; simp; omega)
      have e2 : ∏ j ∈ Finset.range q, (sg (decide (j = q)) : ℂ) = 1 :=
        none' (fun j => decide (j = q)) (fun j => j) (by intro j hj; simp; omega)
      rw [e1, e2] at e
      norm_num at e
    · have e := ev (fun j => decide (j = q ∨ j = 0)) (by simp [site, qmat, mRaise])
      have e1 : ∏ j ∈ Finset.range q, (sg (decide (N - 1 - 1 - j = q ∨ N - 1 - 1 - j = 0)) : ℂ) = 1 :=
        none' (fun j => decide (j = q ∨ j = 0)) (fun j => N - 1 - 1 - j) (by intro j hj; simp; omega)
      have e2 : ∏ j ∈ Finset.range q, (sg (decide (j = q ∨ j = 0)) : ℂ) = -1 :=
        single (fun j => decide (j = q ∨ j = 0)) (fun j => j) 0 h0 (by simp) (by intro j hj hne; simp; omega)
      rw [e1, e2] at e
      norm_num at e
  · have e := ev (fun j => decide (j = 0)) (by simp [site, qmat, mLow]; omega)
    have e1 : ∏ j ∈ Finset.range q, (sg (decide (N - 1 - 1 - j = 0)) : ℂ) = 1 :=
      none' (fun j => decide (j = 0)) (fun j => N - 1 - 1 - j) (by intro j hj; simp; omega)
    have e2 : ∏ j ∈ Finset.range q, (sg (decide (j = 0)) : ℂ) = -1 :=
      single (fun j => decide (j = 0)) (fun j => j) 0 h0 (by simp) (by intro j hj hne; simp; omega)
    rw [e1, e2] at e
    norm_num at e

/-- `+` on the middle of three orbitals: the sign string is put on orbital 1 itself instead of orbital 0. -/
example : paraFermion (K := GQ) ([.i, .cr, .i], 1) = some [([.i, .cr, .i], -1)] := by decide +kernel

end HQCA.Props
