import Verif.Proofs.PTracePauli

/-!
# Properties C23 and C24: partial traces
-/

namespace HQCA.Props
open PTrace
variable {K : Type} [Coef K]

/-- **C23.** Tracing out distinct qubits of an `n`-qubit matrix (`n ≥ 1`) succeeds and gives the partial trace. -/
theorem C23_partial_trace (n : ℕ) (hn : 0 < n) (qb : List ℕ) (hd : qb.Nodup) (hq : ∀ q ∈ qb, q < n) (M : Mat K) :
    ∃ P, PTrace.matrix n qb M = some P ∧ IsPTrace n qb M P := matrix_spec n hn qb hd hq M

theorem sub_kept_lt (n : ℕ) (qb : List ℕ) (hd : qb.Nodup) (hq : ∀ q ∈ qb, q < n) (i : ℕ) :
    sub n (keptQ n qb) i < 2 ^ (n - qb.length) := by
  have hr := rank_qb qb n hd hq
  have hr2 := rank_add qb n
  have h : (keptQ n qb).length = n - qb.length := by
    have : (keptQ n qb).length = rank (fun r => decide (r ∉ qb)) n := rfl
    omega
  unfold sub
  rw [h]
  exact idx_lt _ _

/-- **C23, defining property.** The partial trace satisfies `tr(P X) = tr(M (X ⊗ 1))` for every matrix `X` on the
remaining qubits, where `X ⊗ 1` acts as `X` on them and as the identity on the traced ones. -/
theorem C23_universal (n : ℕ) (qb : List ℕ) (hd : qb.Nodup) (hq : ∀ q ∈ qb, q < n) (M P X : Mat K)
    (h : IsPTrace n qb M P) :
    ∑ l ∈ Finset.range (2 ^ (n - qb.length)), ∑ m ∈ Finset.range (2 ^ (n - qb.length)), P l m * X m l =
      ∑ i ∈ Finset.range (2 ^ n), ∑ j ∈ Finset.range (2 ^ n), M i j *
        (if ∀ q ∈ qb, qbit n j q = qbit n i q then X (sub n (keptQ n qb) j) (sub n (keptQ n qb) i) else 0) := by
  have e : ∀ l ∈ Finset.range (2 ^ (n - qb.length)), ∀ m ∈ Finset.range (2 ^ (n - qb.length)),
      P l m * X m l = ∑ i ∈ Finset.range (2 ^ n), ∑ j ∈ Finset.range (2 ^ n),
        if sub n (keptQ n qb) i = l then (if sub n (keptQ n qb) j = m then
          (if ∀ q ∈ qb, qbit n i q = qbit n j q then M i j * X m l else 0) else 0) else 0 := by
    intro l hl m hm
    rw [h l (Finset.mem_range.mp hl) m (Finset.mem_range.mp hm), Finset.sum_mul]
    apply Finset.sum_congr rfl; intro i _
    rw [Finset.sum_mul]
    apply Finset.sum_congr rfl; intro j _
    by_cases h1 : ∀ q ∈ qb, qbit n i q = qbit n j q <;> by_cases h2 : sub n (keptQ n qb) i = l <;>
      by_cases h3 : sub n (keptQ n qb) j = m <;> simp [h1, h2, h3]
  rw [Finset.sum_congr rfl (fun l hl => Finset.sum_congr rfl (fun m hm => e l hl m hm))]
  rw [Finset.sum_congr rfl (fun l _ => Finset.sum_comm), Finset.sum_comm]
  apply Finset.sum_congr rfl; intro i _
  rw [Finset.sum_congr rfl (fun l _ => Finset.sum_comm), Finset.sum_comm]
  apply Finset.sum_congr rfl; intro j _
  rw [Finset.sum_comm]
  have e2 : ∀ m ∈ Finset.range (2 ^ (n - qb.length)), ∑ l ∈ Finset.range (2 ^ (n - qb.length)),
      (if sub n (keptQ n qb) i = l then (if sub n (keptQ n qb) j = m then
          (if ∀ q ∈ qb, qbit n i q = qbit n j q then M i j * X m l else 0) else 0) else 0) =
      if sub n (keptQ n qb) j = m then
          (if ∀ q ∈ qb, qbit n i q = qbit n j q then M i j * X m (sub n (keptQ n qb) i) else 0) else 0 := by
    intro m _
    rw [Finset.sum_ite_eq, if_pos (Finset.mem_range.mpr (sub_kept_lt n qb hd hq i))]
  rw [Finset.sum_congr rfl e2, Finset.sum_ite_eq, if_pos (Finset.mem_range.mpr (sub_kept_lt n qb hd hq j))]
  by_cases h1 : ∀ q ∈ qb, qbit n i q = qbit n j q
  · rw [if_pos h1, if_pos (fun q hq' => (h1 q hq').symm)]
  · rw [if_neg h1, if_neg (fun h2 => h1 (fun q hq' => (h2 q hq').symm)), mul_zero]

theorem eq_of_bits (n i j : ℕ) (hi : i < 2 ^ n) (hj : j < 2 ^ n) (h : ∀ k < n, qbit n i k = qbit n j k) : i = j := by
  rw [← idx_bchar n i hi, ← idx_bchar n j hj]
  exact idx_congr n _ _ h

theorem qbit_of_sub (n : ℕ) (qb : List ℕ) (i j : ℕ)
    (h : sub n (keptQ n qb) i = sub n (keptQ n qb) j) (k : ℕ) (hk : k < n) (hkq : k ∉ qb) :
    qbit n i k = qbit n j k := by
  have h1 := bchar_sub n (fun r => decide (r ∉ qb)) i k hk (by simpa using hkq)
  have h2 := bchar_sub n (fun r => decide (r ∉ qb)) j k hk (by simpa using hkq)
  unfold keptQ at h
  rw [h, h2] at h1
  exact h1.symm

/-- **C23.** The total trace is preserved. -/
theorem C23_trace (n : ℕ) (qb : List ℕ) (hd : qb.Nodup) (hq : ∀ q ∈ qb, q < n) (M P : Mat K)
    (h : IsPTrace n qb M P) :
    ∑ l ∈ Finset.range (2 ^ (n - qb.length)), P l l = ∑ i ∈ Finset.range (2 ^ n), M i i := by
  have := C23_universal n qb hd hq M P (fun a b => if a = b then 1 else 0) h
  have e1 : ∀ l ∈ Finset.range (2 ^ (n - qb.length)),
      ∑ m ∈ Finset.range (2 ^ (n - qb.length)), P l m * (if m = l then 1 else 0) = P l l := by
    intro l hl
    simp only [mul_ite, mul_one, mul_zero]
    rw [Finset.sum_ite_eq', if_pos hl]
  rw [Finset.sum_congr rfl e1] at this
  rw [this]
  apply Finset.sum_congr rfl
  intro i hi
  rw [Finset.sum_eq_single i]
  · simp
  · intro j hj hne
    by_cases h1 : ∀ q ∈ qb, qbit n j q = qbit n i q
    · rw [if_pos h1]
      by_cases h2 : sub n (keptQ n qb) j = sub n (keptQ n qb) i
      · refine absurd (eq_of_bits n j i (Finset.mem_range.mp hj) (Finset.mem_range.mp hi) ?_) hne
        intro k hk
        by_cases hkq : k ∈ qb
        · exact h1 k hkq
        · exact qbit_of_sub n qb j i h2 k hk hkq
      · rw [if_neg h2, mul_zero]
    · rw [if_neg h1, mul_zero]
  · intro h1; exact absurd hi h1

/-- **C23.** The order of the list does not matter. -/
theorem C23_order (n : ℕ) (hn : 0 < n) (qb qb' : List ℕ) (hd : qb.Nodup) (hq : ∀ q ∈ qb, q < n) (hp : qb.Perm qb')
    (M : Mat K) : ∃ P P', PTrace.matrix n qb M = some P ∧ PTrace.matrix n qb' M = some P' ∧
      ∀ l < 2 ^ (n - qb.length), ∀ m < 2 ^ (n - qb.length), P l m = P' l m := by
  obtain ⟨P, h1, h2⟩ := matrix_spec n hn qb hd hq M
  obtain ⟨P', h3, h4⟩ := matrix_spec n hn qb' (hp.nodup_iff.mp hd) (fun q h => hq q (hp.mem_iff.mpr h)) M
  refine ⟨P, P', h1, h3, ?_⟩
  intro l hl m hm
  have hlen := hp.length_eq
  rw [h2 l hl m hm, h4 l (by rw [← hlen]; exact hl) m (by rw [← hlen]; exact hm)]
  have hk : keptQ n qb = keptQ n qb' := by
    unfold keptQ
    apply List.filter_congr
    intro k _
    simp only [hp.mem_iff]
  rw [hk]
  apply Finset.sum_congr rfl; intro i _
  apply Finset.sum_congr rfl; intro j _
  refine if_congr ?_ rfl rfl
  constructor
  · rintro ⟨a, b, c⟩; exact ⟨fun q h => a q (hp.mem_iff.mpr h), b, c⟩
  · rintro ⟨a, b, c⟩; exact ⟨fun q h => a q (hp.mem_iff.mp h), b, c⟩

/-- **C23.** A tensor product, `A` on the remaining qubits and `B` on the traced ones, is mapped to `tr(B) A`. -/
theorem C23_tensor (n : ℕ) (hn : 0 < n) (qb : List ℕ) (hd : qb.Nodup) (hq : ∀ q ∈ qb, q < n) (M A B : Mat K)
    (hM : ∀ i < 2 ^ n, ∀ j < 2 ^ n, M i j = A (sub n (keptQ n qb) i) (sub n (keptQ n qb) j) *
      B (sub n ((List.range n).filter (fun k => k ∈ qb)) i) (sub n ((List.range n).filter (fun k => k ∈ qb)) j)) :
    ∃ P, PTrace.matrix n qb M = some P ∧ ∀ l < 2 ^ (n - qb.length), ∀ m < 2 ^ (n - qb.length),
      P l m = (∑ t ∈ Finset.range (2 ^ qb.length), B t t) * A l m := by
  obtain ⟨P, h1, h2⟩ := matrix_spec n hn qb hd hq M
  refine ⟨P, h1, ?_⟩
  intro l hl m hm
  rw [h2 l hl m hm, ← isPTrace n qb hd hq M l hl m hm, Finset.sum_mul]
  have hr := rank_qb qb n hd hq
  have hr2 := rank_add qb n
  have hr3 : n - qb.length = rank (fun r => decide (r ∉ qb)) n := by omega
  have ek : ∀ v b, v < 2 ^ (n - qb.length) →
      sub n (keptQ n qb) (idx n (mg (n - qb.length) qb.length qb v b)) = v := by
    intro v b hv
    unfold keptQ
    rw [sub_eq n (fun r => decide (r ∉ qb)) _ (Circ.bchar (n - qb.length) v), ← hr3]
    · exact idx_bchar _ v hv
    · intro k _ hp
      have : k ∉ qb := by simpa using hp
      unfold mg; rw [if_neg this]
  have et : ∀ v b, b < 2 ^ qb.length → sub n ((List.range n).filter (fun k => decide (k ∈ qb)))
      (idx n (mg (n - qb.length) qb.length qb v b)) = b := by
    intro v b hb
    rw [sub_eq n _ _ (Circ.bchar qb.length b), hr, idx_bchar _ b hb]
    intro k _ hp
    have : k ∈ qb := by simpa using hp
    unfold mg; rw [if_pos this]
  apply Finset.sum_congr rfl
  intro b hb
  have hb := Finset.mem_range.mp hb
  rw [hM _ (idx_lt _ _) _ (idx_lt _ _), ek l b hl, ek m b hm, et l b hb, et m b hb, mul_comm]

/-- Qubit 1 of two, of a matrix with sixteen different entries. -/
example : (PTrace.matrix (K := GQ) 2 [1] (fun i j => ⟨4 * i + j, 0⟩)).map
    (fun P => [P 0 0, P 0 1, P 1 0, P 1 1]) = some [5, 9, 21, 25] := by decide +kernel

/-- **C23, outside its hypotheses.** A repeated qubit is not rejected: on two qubits `[0,0]` yields a `1 × 1`
matrix that is not the trace. -/
theorem C23_repeated_qubit :
    (PTrace.matrix (K := GQ) 2 [0, 0] (fun i j => if i = j then 1 else 0)).map (fun P => P 0 0) = some 4 ∧
    (PTrace.matrix (K := GQ) 2 [0, 1] (fun i j => if i = j then 1 else 0)).map (fun P => P 0 0) = some 4 ∧
    (PTrace.matrix (K := GQ) 2 [0, 0] (fun i j => if i = 1 ∧ j = 1 then 1 else 0)).map (fun P => P 0 0) = some 0 ∧
    (PTrace.matrix (K := GQ) 2 [0, 1] (fun i j => if i = 1 ∧ j = 1 then 1 else 0)).map (fun P => P 0 0) = some 1 := by
  decide +kernel

/-- **C58, violated.** The symbolic version returns the partial trace of the transposed matrix. -/
theorem C58_symbolic_transposed (n : ℕ) (hn : 0 < n) (qb : List ℕ) (hd : qb.Nodup) (hq : ∀ q ∈ qb, q < n)
    (M : Mat K) : ∃ P P', PTrace.symbolic n qb M = some P ∧ PTrace.matrix n qb M = some P' ∧
      ∀ l < 2 ^ (n - qb.length), ∀ m < 2 ^ (n - qb.length), P l m = P' m l := by
  obtain ⟨P, h1, h2⟩ := matrix_spec n hn qb hd hq (fun i j => M j i)
  obtain ⟨P', h3, h4⟩ := matrix_spec n hn qb hd hq M
  refine ⟨P, P', h1, h3, ?_⟩
  intro l hl m hm
  rw [h2 l hl m hm, h4 m hm l hl, Finset.sum_comm]
  apply Finset.sum_congr rfl; intro i _
  apply Finset.sum_congr rfl; intro j _
  refine if_congr ?_ rfl rfl
  constructor
  · rintro ⟨a, b, c⟩; exact ⟨fun q h => (a q h).symm, c, b⟩
  · rintro ⟨a, b, c⟩; exact ⟨fun q h => (a q h).symm, c, b⟩

/-- A Hermitian matrix for which the two differ. -/
theorem C58_symbolic_differs :
    (PTrace.symbolic (K := GQ) 2 [1] (fun i j => if i = 0 ∧ j = 2 then ⟨0, -1⟩ else if i = 2 ∧ j = 0 then ⟨0, 1⟩
      else 0)).map (fun P => P 0 1) = some ⟨0, 1⟩ ∧
    (PTrace.matrix (K := GQ) 2 [1] (fun i j => if i = 0 ∧ j = 2 then ⟨0, -1⟩ else if i = 2 ∧ j = 0 then ⟨0, 1⟩
      else 0)).map (fun P => P 0 1) = some ⟨0, -1⟩ := by decide +kernel

/-- **C58, partial.** For symmetric matrices both agree. -/
theorem C58_symbolic_partial (n : ℕ) (qb : List ℕ) (M : Mat K) (h : ∀ i j, M i j = M j i) :
    PTrace.symbolic n qb M = PTrace.matrix n qb M := by
  unfold symbolic
  congr 1
  funext i j
  exact h j i

/-- **C24.** The partial trace of a Pauli string has the remaining letters, and its operator times `2^k`
(`k` the number of traced qubits) is the partial trace of the operator of the string. -/
theorem C24_partial_trace (n : ℕ) (qb : List ℕ) (hd : qb.Nodup) (hq : ∀ q ∈ qb, q < n) (s : PStr) (c : K)
    (hs : s.length = n) : ∃ (s' : PStr) (c' : K), Pauli.partialTrace qb (s, c) = (s', c') ∧
      s' = (keptQ n qb).map (fun k => s.getD k .I) ∧ s'.length = n - qb.length ∧
      c' = (if ∃ q ∈ qb, s.getD q .I ≠ .I then 0 else c) ∧
      IsPTrace n qb (entry n (c • denP 0 s : Oper K))
        (fun l m => 2 ^ qb.length * entry (n - qb.length) (c' • denP 0 s' : Oper K) l m) := by
  obtain ⟨h1, h2⟩ := partialTrace_isPTrace n qb hd hq (s, c) hs
  exact ⟨_, _, rfl, (partialTrace_fst qb (s, c)).trans (by rw [hs]), h1,
    partialTrace_snd qb (s, c) (by rw [hs]; exact hq), h2⟩

/-- **C24** for operators (`_partial_trace_operator`, `_operator_tools.py:110-116`): the sum of the partial traces
of the strings, with coefficients of magnitude at most `1e-12` removed. -/
def partialTraceOp (qb : List ℕ) (A : POp K) : POp K :=
  OpD.clean ((A.map (Pauli.partialTrace qb)).foldl OpD.addStr [])

theorem isPTrace_add (n : ℕ) (qb : List ℕ) (M N P Q : Mat K) (h : IsPTrace n qb M P) (h' : IsPTrace n qb N Q) :
    IsPTrace n qb (fun i j => M i j + N i j) (fun l m => P l m + Q l m) := by
  intro l hl m hm
  simp only []
  rw [h l hl m hm, h' l hl m hm, ← Finset.sum_add_distrib]
  apply Finset.sum_congr rfl; intro i _
  rw [← Finset.sum_add_distrib]
  apply Finset.sum_congr rfl; intro j _
  split <;> simp

theorem C24_operator (n : ℕ) (qb : List ℕ) (hd : qb.Nodup) (hq : ∀ q ∈ qb, q < n) (A : POp K)
    (hA : ∀ t ∈ A, t.1.length = n) : ∃ R : POp K, UniqueKeys R ∧ partialTraceOp qb A = OpD.clean R ∧
      IsPTrace n qb (entry n (denPO A)) (fun l m => 2 ^ qb.length * entry (n - qb.length) (denPO R) l m) := by
  refine ⟨_, OpD.foldl_addStr_unique _ [] OpD.uniqueKeys_nil, rfl, ?_⟩
  have e : (denPO ((A.map (Pauli.partialTrace qb)).foldl OpD.addStr []) : Oper K) =
      denPO (A.map (Pauli.partialTrace qb)) := by
    unfold denPO
    rw [OpD.denD_foldl_addStr _ _ [] OpD.uniqueKeys_nil, OpD.denD_nil, zero_add]
  rw [e]
  clear e
  induction A with
  | nil =>
    intro l _ m _
    simp [denPO, denD, entry_zero]
  | cons t A ih =>
    have h1 := ih (fun u hu => hA u (by simp [hu]))
    have h2 := (partialTrace_isPTrace n qb hd hq t (hA t (by simp))).2
    have h3 := isPTrace_add n qb _ _ _ _ h2 h1
    have e1 : (fun i j => entry n (t.2 • denP 0 t.1 : Oper K) i j + entry n (denPO A) i j) =
        entry n (denPO (t :: A)) := by
      funext i j
      unfold denPO
      rw [OpD.denD_cons, entry_add]
    rw [e1] at h3
    intro l hl m hm
    rw [← h3 l hl m hm]
    unfold denPO
    simp only [List.map_cons, OpD.denD_cons, entry_add]
    ring

example : partialTraceOp (K := GQ) [2, 0] [([.I, .X, .I], 3), ([.Z, .X, .I], 5), ([.I, .Y, .I], 2)] =
    [([.X], 3), ([.Y], 2)] := by decide +kernel

end HQCA.Props
