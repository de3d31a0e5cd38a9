import Verif.Proofs.FermiStr

/-!
# Properties C09–C11, C13: fermionic and qubit strings
-/

namespace HQCA.Props
variable {K : Type} [Coef K]

/-- **C09.** `FermiString(coeff=c, indices, ops, N)` is defined for every word over `+ - p h` and
represents `c` times the product of the named ladder operators in the given order; if all indices are
below `N` the string has length `N`. -/
theorem C09_fermi_generate (c : K) (l : List (ℕ × FL)) (N : ℕ) (hok : ∀ a ∈ l, a.2 ≠ .i) :
    ∃ r, Fermi.generate true c l N = some r ∧
      r.2 • denF 0 r.1 = c • ((l.map (fun a => fop a.1 a.2)).prod : Oper K) ∧
      ((∀ a ∈ l, a.1 < N) → r.1.length = N) :=
  generate_spec c l N hok

/-- **C09.** The reported coefficient is zero exactly when the operator is zero. -/
theorem C09_zero_iff (c : K) (l : List (ℕ × FL)) (N : ℕ) (hok : ∀ a ∈ l, a.2 ≠ .i)
    (r : Term FStr K) (hr : Fermi.generate true c l N = some r) :
    r.2 = 0 ↔ c • ((l.map (fun a => fop a.1 a.2)).prod : Oper K) = 0 := by
  obtain ⟨r', h1, h2, _⟩ := C09_fermi_generate c l N hok
  rw [h1] at hr
  cases hr
  rw [← h2]
  constructor
  · intro h; rw [h, zero_smul]
  · intro h; exact (smul_eq_zero.mp h).resolve_right (denF_ne_zero 0 _)

/-- The example of the repository's README: `indices=[0,3,2,0]`, `ops='++--'`. -/
example : Fermi.generate (K := GQ) true 1 [(0, .cr), (3, .cr), (2, .an), (0, .an)] 4 =
    some ([.p, .i, .an, .cr], -1) := by decide +kernel

example : Fermi.generate (K := GQ) true 1 [(2, .cr), (1, .an), (2, .cr)] 3 =
    some ([.i, .i, .i], 0) := by decide +kernel

/-- **C10.** The product of two fermionic strings is defined and is the composition of the two. -/
theorem C10_fermi_mul (A B : Term FStr K) :
    ∃ r, Fermi.mul A B = some r ∧ r.1.length = max A.1.length B.1.length ∧
      r.2 • denF 0 r.1 = (A.2 • denF 0 A.1) * (B.2 • denF 0 B.1 : Oper K) := by
  obtain ⟨oA, iA⟩ := pairsFrom_ok 0 A.1
  obtain ⟨oB, iB⟩ := pairsFrom_ok 0 B.1
  obtain ⟨r, h1, h2, h3⟩ := generate_spec (A.2 * B.2) (Fermi.pairs A.1 ++ Fermi.pairs B.1)
    (max A.1.length B.1.length) (by
      intro a ha
      rcases List.mem_append.mp ha with h | h
      · exact oA a h
      · exact oB a h)
  refine ⟨r, h1, h3 ?_, ?_⟩
  · intro a ha
    rcases List.mem_append.mp ha with h | h
    · have := (iA a h).2; omega
    · have := (iB a h).2; omega
  · rw [h2, smul_mul_smul_comm, denF_eq_denW, denF_eq_denW, ← word_pairsFrom fop (fun _ => rfl),
      ← word_pairsFrom fop (fun _ => rfl)]
    rw [← wordW_append]
    rfl

example : Fermi.mul (K := GQ) ([.cr, .an], 2) ([.an, .cr], 3) = some ([.p, .h], -6) := by
  decide +kernel

/-- **C11.** `H()` is defined for every string and represents the adjoint. -/
theorem C11_fermi_adjoint (A : Term FStr K) :
    ∃ r, Fermi.adj A = some r ∧ r.1.length = A.1.length ∧
      IsAdj (A.2 • denF 0 A.1) (r.2 • denF 0 r.1 : Oper K) := by
  obtain ⟨oA, iA⟩ := pairsFrom_ok 0 A.1
  obtain ⟨r, h1, h2, h3⟩ := generate_spec (conj A.2)
    ((Fermi.pairs A.1).reverse.map (fun x => (x.1, Fermi.conjLetter x.2))) A.1.length (by
      intro a ha
      obtain ⟨x, hx, rfl⟩ := List.mem_map.mp ha
      have := oA x (List.mem_reverse.mp hx)
      revert this
      cases x.2 <;> simp [Fermi.conjLetter])
  refine ⟨r, h1, h3 ?_, ?_⟩
  · intro a ha
    obtain ⟨x, hx, rfl⟩ := List.mem_map.mp ha
    have := (iA x (List.mem_reverse.mp hx)).2
    simpa using this
  · rw [h2]
    apply IsAdj.smul
    rw [denF_eq_denW, ← word_pairsFrom fop (fun _ => rfl)]
    exact isAdj_word (Fermi.pairs A.1)

example : Fermi.adj (K := GQ) ([.cr, .i, .an], ⟨1, 2⟩) = some ([.an, .i, .cr], ⟨-1, 2⟩) := by
  decide +kernel

/-- **C13.** `QubitString` construction represents the product of the single-qubit operators in the given
order, for every non-empty word. -/
theorem C13_qubit_generate (c : K) (l : List (ℕ × FL)) (N : ℕ) (hok : ∀ a ∈ l, a.2 ≠ .i)
    (hne : l ≠ []) :
    ∃ r, Qubit.generate c l N = some r ∧
      r.2 • denQ 0 r.1 = c • ((l.map (fun a => site a.1 (qmat a.2))).prod : Oper K) ∧
      ((∀ a ∈ l, a.1 < N) → r.1.length = N) := by
  obtain ⟨r, h1, h2, h3⟩ := generateCore_spec (laws_qubit (K := K)) (fun k => site_one k) c l N hok hne
  exact ⟨r, h1, by rw [denQ_eq_denW]; exact h2, h3⟩

/-- **C13 (violated).** The empty word (the identity) with a nonzero coefficient raises. -/
theorem C13_empty_raises (c : K) (N : ℕ) (hc : c ≠ 0) : Qubit.generate c [] N = none := by
  have : isZero c = false := by
    rw [← Bool.not_eq_true, Coef.isZero_iff]; exact hc
  simp [Qubit.generate, Fermi.generateCore, Fermi.sortLoop, Fermi.build, this]

/-- **C13, partial.** The product of two qubit strings is the composition, provided at least one of them has
a non-identity letter.  (Missing: two identity strings, for which the code raises `IndexError`,
`C13_mul_identity_raises`.) -/
theorem C13_qubit_mul_partial (A B : Term FStr K) (h : (∃ x ∈ A.1, x ≠ .i) ∨ (∃ x ∈ B.1, x ≠ .i)) :
    ∃ r, Qubit.mul A B = some r ∧ r.1.length = max A.1.length B.1.length ∧
      r.2 • denQ 0 r.1 = (A.2 • denQ 0 A.1) * (B.2 • denQ 0 B.1 : Oper K) := by
  obtain ⟨oA, iA⟩ := pairsFrom_ok 0 A.1
  obtain ⟨oB, iB⟩ := pairsFrom_ok 0 B.1
  have hex : ∀ (s : FStr), (∃ x ∈ s, x ≠ .i) → Fermi.pairs s ≠ [] := by
    intro s ⟨x, hx, hi⟩ h0
    obtain ⟨i, hi', he⟩ := List.getElem_of_mem hx
    have hm : (x, i) ∈ s.zipIdx := by
      rw [List.mem_zipIdx_iff_getElem?]; simp [hi', he]
    have : (i, x) ∈ Fermi.pairs s :=
      List.mem_map.mpr ⟨(x, i), List.mem_filter.mpr ⟨hm, by simpa using hi⟩, rfl⟩
    rw [h0] at this
    cases this
  obtain ⟨r, h1, h2, h3⟩ := C13_qubit_generate (A.2 * B.2) (Fermi.pairs A.1 ++ Fermi.pairs B.1)
    (max A.1.length B.1.length) (by
      intro a ha
      rcases List.mem_append.mp ha with h | h
      · exact oA a h
      · exact oB a h)
    (by
      intro h0
      obtain ⟨e1, e2⟩ := List.append_eq_nil_iff.mp h0
      rcases h with h | h
      · exact hex _ h e1
      · exact hex _ h e2)
  refine ⟨r, h1, h3 ?_, ?_⟩
  · intro a ha
    rcases List.mem_append.mp ha with h | h
    · have := (iA a h).2; omega
    · have := (iB a h).2; omega
  · rw [h2, smul_mul_smul_comm, denQ_eq_denW, denQ_eq_denW,
      ← word_pairsFrom _ (fun k => site_one k), ← word_pairsFrom _ (fun k => site_one k)]
    rw [← wordW_append]
    rfl

/-- **C13 (violated).** Multiplying two identity qubit strings raises. -/
theorem C13_mul_identity_raises (m n : ℕ) (a b : K) (h : a * b ≠ 0) :
    Qubit.mul (List.replicate m .i, a) (List.replicate n .i, b) = none := by
  have hp : ∀ n, Fermi.pairs (List.replicate n .i) = [] := by
    intro n
    unfold Fermi.pairs
    rw [List.map_eq_nil_iff, List.filter_eq_nil_iff]
    intro x hx
    have := (List.mem_zipIdx hx).2.2
    simp at this
    simp [this]
  unfold Qubit.mul
  simp only [hp, List.append_nil]
  exact C13_empty_raises _ _ h

example : Qubit.mul (K := GQ) ([.cr, .an], 2) ([.an, .cr], 3) = some ([.p, .h], 6) := by
  decide +kernel

end HQCA.Props
