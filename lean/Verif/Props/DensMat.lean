import Verif.Model.DensMat
import Mathlib.Algebra.BigOperators.Group.List.Basic
import Mathlib.Algebra.BigOperators.Ring.List
import Mathlib.Tactic.Ring

/-!
# Property theorems: states and density matrices of qubits (C87)
-/

namespace HQCA.Props
open HQCA HQCA.DensMat
variable {K : Type} [Coef K]

/-! ### Specification -/

/-- The bits of `b` at the positions not in `q`; positions are counted from `k`. -/
def keptFrom (q : List ℕ) : ℕ → List Bool → List Bool
  | _, [] => []
  | k, x :: b => if k ∈ q then keptFrom q (k + 1) b else x :: keptFrom q (k + 1) b

/-- `O ⊗ 1`: the operator `O` on the qubits not in `q`, the identity on those in `q`. -/
def extend (q : List ℕ) (O : List Bool → List Bool → K) : List Bool → List Bool → K := fun i j =>
  if ∀ k ∈ q, i[k]? = j[k]? then O (keptFrom q 0 i) (keptFrom q 0 j) else 0

/-- `Tr (A B)` over the strings of length `n`. -/
def trProd (n : ℕ) (A B : List Bool → List Bool → K) : K :=
  ((strings n).map fun i => ((strings n).map fun j => A i j * B j i).sum).sum

/-! ### Lemmas -/

theorem mem_strings (n : ℕ) (b : List Bool) : b ∈ strings n ↔ b.length = n := by
  induction n generalizing b with
  | zero => simp [strings]
  | succ n ih =>
    cases b with
    | nil => simp [strings]
    | cons x b => cases x <;> simp [strings, ih]

theorem strings_nodup (n : ℕ) : (strings n).Nodup := by
  induction n with
  | zero => simp [strings]
  | succ n ih =>
    rw [strings, List.nodup_append]
    refine ⟨ih.map (fun a b h => by simpa using h), ih.map (fun a b h => by simpa using h), ?_⟩
    intro a ha b hb h
    obtain ⟨a', _, rfl⟩ := List.mem_map.mp ha
    obtain ⟨b', _, rfl⟩ := List.mem_map.mp hb
    simp at h

theorem del_kept (q : List ℕ) (k off : ℕ) (b : List Bool) (hk : k < b.length) (hq : ∀ j ∈ q, off + k < j) :
    del (keptFrom q off b) k = keptFrom ((off + k) :: q) off b := by
  induction b generalizing k off with
  | nil => simp at hk
  | cons x b ih =>
    have h0 : off ∉ q := fun h => by have := hq off h; omega
    cases k with
    | zero =>
      have e : ∀ (b : List Bool) (m : ℕ), off < m → keptFrom (off :: q) m b = keptFrom q m b := by
        intro b
        induction b with
        | nil => intro m _; rfl
        | cons y b ih' =>
          intro m hm
          have : m ≠ off := by omega
          simp only [keptFrom, List.mem_cons, this, false_or]
          rw [ih' (m + 1) (by omega)]
      simp only [keptFrom, if_neg h0, add_zero, List.mem_cons, true_or, if_true]
      rw [e b _ (by omega)]
      simp [del]
    | succ k =>
      have hne : off ≠ off + (k + 1) := by omega
      simp only [keptFrom, if_neg h0, List.mem_cons, hne, false_or, if_false]
      have := ih k (off + 1) (by simpa using hk) (fun j hj => by have := hq j hj; omega)
      rw [show off + (k + 1) = off + 1 + k by ring, ← this]
      simp [del]

theorem kept_nil (k : ℕ) (b : List Bool) : keptFrom [] k b = b := by
  induction b generalizing k with
  | nil => rfl
  | cons x b ih => simp [keptFrom, ih]

/-- Deleting the positions one after the other, last first. -/
theorem reduceStr_eq (q : List ℕ) (hq : q.Pairwise (· < ·)) (b : List Bool) (hb : ∀ k ∈ q, k < b.length) :
    reduceStr b q = keptFrom q 0 b := by
  induction q with
  | nil => simp [reduceStr, kept_nil]
  | cons k q ih =>
    obtain ⟨h1, h2⟩ := List.pairwise_cons.mp hq
    have := ih h2 (fun j hj => hb j (List.mem_cons_of_mem _ hj))
    unfold reduceStr at this ⊢
    rw [List.reverse_cons, List.foldl_append, this, List.foldl_cons, List.foldl_nil,
      del_kept q k 0 b (hb k List.mem_cons_self) (by simpa using h1), zero_add]

theorem del_length (b : List Bool) (k : ℕ) (h : k < b.length) : (del b k).length = b.length - 1 := by
  simp [del]; omega

theorem reduceStr_length (q : List ℕ) (hq : q.Pairwise (· < ·)) (b : List Bool) (hb : ∀ k ∈ q, k < b.length) :
    (reduceStr b q).length = b.length - q.length := by
  have key : ∀ q : List ℕ, q.Pairwise (· < ·) → (∀ k ∈ q, k < b.length) → (reduceStr b q).length + q.length = b.length ∧
      ∀ k, (∀ j ∈ q, k < j) → k < b.length → k < (reduceStr b q).length := by
    intro q
    induction q with
    | nil => intro _ _; exact ⟨by simp [reduceStr], fun k _ h => by simpa [reduceStr] using h⟩
    | cons m q ih =>
      intro hq hb
      obtain ⟨h1, h2⟩ := List.pairwise_cons.mp hq
      obtain ⟨i1, i2⟩ := ih h2 (fun j hj => hb j (List.mem_cons_of_mem _ hj))
      have e : reduceStr b (m :: q) = del (reduceStr b q) m := by simp [reduceStr]
      have hm := i2 m h1 (hb m List.mem_cons_self)
      rw [e, del_length _ _ hm]
      refine ⟨by simp; omega, fun k hk hkb => ?_⟩
      have := hk m List.mem_cons_self
      omega
  have := (key q hq hb).1
  omega

theorem agree_eq (q : List ℕ) (i j : List Bool) (hi : ∀ k ∈ q, k < i.length) (hj : ∀ k ∈ q, k < j.length) :
    agree q i j = some (decide (∀ k ∈ q, i[k]? = j[k]?)) := by
  have key : ∀ (q : List ℕ), (∀ k ∈ q, k < i.length) → (∀ k ∈ q, k < j.length) → ∀ u : Bool,
      q.foldlM (fun use k => match i[k]?, j[k]? with
        | some a, some b => some (use && (a == b))
        | _, _ => none) u = some (u && decide (∀ k ∈ q, i[k]? = j[k]?)) := by
    intro q
    induction q with
    | nil => intro _ _ u; simp
    | cons m q ih =>
      intro hi hj u
      have h1 := List.getElem?_eq_getElem (hi m List.mem_cons_self)
      have h2 := List.getElem?_eq_getElem (hj m List.mem_cons_self)
      rw [List.foldlM_cons]
      simp only [h1, h2, Option.bind_eq_bind, Option.bind_some]
      rw [ih (fun k hk => hi k (List.mem_cons_of_mem _ hk)) (fun k hk => hj k (List.mem_cons_of_mem _ hk))]
      congr 1
      simp only [List.mem_cons, forall_eq_or_imp, h1, h2, Option.some.injEq, Bool.decide_and, Bool.and_assoc]
      congr 2
  have := key q hi hj true
  rw [Bool.true_and] at this
  exact this

theorem foldlM_total' {α β : Type} (f : β → α → Option β) (g : β → α → β) (l : List α) (h : ∀ a ∈ l, ∀ s, f s a = some (g s a))
    (s : β) : l.foldlM f s = some (l.foldl g s) := by
  induction l generalizing s with
  | nil => rfl
  | cons a l ih =>
    rw [List.foldlM_cons, h a List.mem_cons_self]
    exact ih (fun b hb => h b (List.mem_cons_of_mem _ hb)) _

theorem foldl_sum {α : Type} (g : (List Bool → List Bool → K) → α → (List Bool → List Bool → K)) (v : α → K) (x y : List Bool)
    (l : List α) (h : ∀ M, ∀ a ∈ l, g M a x y = M x y + v a) (M : List Bool → List Bool → K) :
    l.foldl g M x y = M x y + (l.map v).sum := by
  induction l generalizing M with
  | nil => simp
  | cons a l ih =>
    rw [List.foldl_cons, ih (fun M b hb => h M b (List.mem_cons_of_mem _ hb)), h M a List.mem_cons_self, List.map_cons,
      List.sum_cons, add_assoc]

/-! ### The theorems -/

/-- **C87, entries.**  For an ascending list of distinct qubits, not all of them, an entry of the reduced matrix is the sum of the entries
whose rows and columns agree on the traced qubits and reduce to the given strings. -/
theorem C87_entries_partial (n : ℕ) (rho : List Bool → List Bool → K) (q : List ℕ) (hq : q.Pairwise (· < ·)) (hn : ∀ k ∈ q, k < n)
    (hl : q.length < n) : ∃ M, partialTrace n rho q = some M ∧ ∀ x y, M x y = ((strings n).map fun i => ((strings n).map fun j =>
      if (∀ k ∈ q, i[k]? = j[k]?) ∧ keptFrom q 0 i = x ∧ keptFrom q 0 j = y then rho i j else 0).sum).sum := by
  have hlen : ∀ b ∈ strings n, ∀ k ∈ q, k < b.length := by
    intro b hb k hk
    rw [(mem_strings n b).mp hb]; exact hn k hk
  unfold partialTrace
  rw [if_neg (by omega), if_pos]
  · have inner : ∀ i ∈ strings n, ∀ M : List Bool → List Bool → K, (strings n).foldlM (fun M j =>
        (agree q i j).map fun use => if use then accum M (reduceStr i q) (reduceStr j q) (rho i j) else M) M
        = some ((strings n).foldl (fun M j => if ∀ k ∈ q, i[k]? = j[k]? then
            accum M (reduceStr i q) (reduceStr j q) (rho i j) else M) M) := by
      intro i hi M
      apply foldlM_total'
      intro j hj M
      rw [agree_eq q i j (hlen i hi) (hlen j hj)]
      simp
    rw [foldlM_total' _ _ _ (fun i hi M => inner i hi M)]
    refine ⟨_, rfl, fun x y => ?_⟩
    rw [foldl_sum (x := x) (y := y) (v := fun i => ((strings n).map fun j =>
      if (∀ k ∈ q, i[k]? = j[k]?) ∧ keptFrom q 0 i = x ∧ keptFrom q 0 j = y then rho i j else 0).sum), zero_add]
    intro M i hi
    apply foldl_sum
    intro M j hj
    rw [reduceStr_eq q hq i (hlen i hi), reduceStr_eq q hq j (hlen j hj)]
    by_cases h1 : ∀ k ∈ q, i[k]? = j[k]?
    · rw [if_pos h1, accum]
      by_cases h2 : x = keptFrom q 0 i ∧ y = keptFrom q 0 j
      · rw [if_pos h2, if_pos ⟨h1, h2.1.symm, h2.2.symm⟩]
      · rw [if_neg h2, if_neg (fun h => h2 ⟨h.2.1.symm, h.2.2.symm⟩), add_zero]
    · rw [if_neg h1, if_neg (fun h => h1 h.1), add_zero]
  · rw [List.all_eq_true]
    intro b hb
    rw [decide_eq_true_eq, reduceStr_length q hq b (hlen b hb), (mem_strings n b).mp hb]

theorem sum_map_comm {α β : Type} (l : List α) (m : List β) (f : α → β → K) :
    (l.map fun a => (m.map fun b => f a b).sum).sum = (m.map fun b => (l.map fun a => f a b).sum).sum := by
  induction l with
  | nil => simp
  | cons a l ih => simp only [List.map_cons, List.sum_cons, ih, List.sum_map_add]

theorem sum_pick {α : Type} [DecidableEq α] (l : List α) (hl : l.Nodup) (a : α) (ha : a ∈ l) (f : α → K) :
    (l.map fun b => if a = b then f b else 0).sum = f a := by
  induction l with
  | nil => simp at ha
  | cons b l ih =>
    obtain ⟨h1, h2⟩ := List.nodup_cons.mp hl
    rw [List.map_cons, List.sum_cons]
    by_cases h : a = b
    · subst h
      have : (l.map fun c => if a = c then f c else 0) = l.map fun _ => (0 : K) := by
        apply List.map_congr_left
        intro c hc
        rw [if_neg]; rintro rfl; exact h1 hc
      rw [this]; simp
    · rw [if_neg h, zero_add]
      rcases List.mem_cons.mp ha with ha | ha
      · exact absurd ha h
      · exact ih h2 ha

/-- **C87, expectation values.**  The reduced matrix gives the expectation value of every operator on the remaining qubits:
`Tr(ρ' O) = Tr(ρ (O ⊗ 1))`. -/
theorem C87_observables_partial (n : ℕ) (rho : List Bool → List Bool → K) (q : List ℕ) (hq : q.Pairwise (· < ·))
    (hn : ∀ k ∈ q, k < n) (hl : q.length < n) : ∃ M, partialTrace n rho q = some M ∧
      ∀ O : List Bool → List Bool → K, trProd (n - q.length) M O = trProd n rho (extend q O) := by
  obtain ⟨M, h1, h2⟩ := C87_entries_partial n rho q hq hn hl
  refine ⟨M, h1, fun O => ?_⟩
  have hk : ∀ b ∈ strings n, keptFrom q 0 b ∈ strings (n - q.length) := by
    intro b hb
    have hb := (mem_strings n b).mp hb
    have hb' : ∀ k ∈ q, k < b.length := fun k hk => by rw [hb]; exact hn k hk
    rw [mem_strings, ← reduceStr_eq q hq b hb', reduceStr_length q hq b hb', hb]
  have hs := strings_nodup (n - q.length)
  unfold trProd
  simp only [h2]
  have e1 : ∀ x y : List Bool, ((strings n).map fun i => ((strings n).map fun j =>
      if (∀ k ∈ q, i[k]? = j[k]?) ∧ keptFrom q 0 i = x ∧ keptFrom q 0 j = y then rho i j else 0).sum).sum * O y x =
      ((strings n).map fun i => ((strings n).map fun j =>
        if keptFrom q 0 i = x then (if keptFrom q 0 j = y then (if ∀ k ∈ q, i[k]? = j[k]? then rho i j * O y x else 0) else 0)
        else 0).sum).sum := by
    intro x y
    rw [← List.sum_map_mul_right]
    congr 1
    apply List.map_congr_left
    intro i _
    rw [← List.sum_map_mul_right]
    congr 1
    apply List.map_congr_left
    intro j _
    by_cases b : keptFrom q 0 i = x <;> by_cases c : keptFrom q 0 j = y <;>
      simp only [b, c, and_true, and_false, if_true, if_false, zero_mul]
    rw [ite_mul, zero_mul]
  simp only [e1]
  -- move the sums over the original strings outside
  have e2 : ∀ x : List Bool, ((strings (n - q.length)).map fun y => ((strings n).map fun i => ((strings n).map fun j =>
        if keptFrom q 0 i = x then (if keptFrom q 0 j = y then (if ∀ k ∈ q, i[k]? = j[k]? then rho i j * O y x else 0) else 0)
        else 0).sum).sum).sum = ((strings n).map fun i => ((strings n).map fun j => if keptFrom q 0 i = x then
          (if ∀ k ∈ q, i[k]? = j[k]? then rho i j * O (keptFrom q 0 j) x else 0) else 0).sum).sum := by
    intro x
    rw [sum_map_comm]
    congr 1
    apply List.map_congr_left
    intro i _
    rw [sum_map_comm]
    congr 1
    apply List.map_congr_left
    intro j hj
    by_cases b : keptFrom q 0 i = x
    · simp only [b, if_true]
      exact sum_pick _ hs _ (hk j hj) (fun y => if ∀ k ∈ q, i[k]? = j[k]? then rho i j * O y x else 0)
    · simp [b]
  simp only [e2]
  rw [sum_map_comm]
  congr 1
  apply List.map_congr_left
  intro i hi
  rw [sum_map_comm]
  congr 1
  apply List.map_congr_left
  intro j _
  rw [sum_pick _ hs _ (hk i hi) (fun x => if ∀ k ∈ q, i[k]? = j[k]? then rho i j * O (keptFrom q 0 j) x else 0)]
  unfold extend
  by_cases a : ∀ k ∈ q, i[k]? = j[k]?
  · rw [if_pos a, if_pos (fun k hk => (a k hk).symm)]
  · rw [if_neg a, if_neg (fun h => a fun k hk => (h k hk).symm), mul_zero]

/-- **C87, trace.**  The partial trace preserves the trace. -/
theorem C87_trace_partial (n : ℕ) (rho : List Bool → List Bool → K) (q : List ℕ) (hq : q.Pairwise (· < ·))
    (hn : ∀ k ∈ q, k < n) (hl : q.length < n) : ∃ M, partialTrace n rho q = some M ∧
      ((strings (n - q.length)).map fun x => M x x).sum = ((strings n).map fun i => rho i i).sum := by
  obtain ⟨M, h1, h2⟩ := C87_entries_partial n rho q hq hn hl
  refine ⟨M, h1, ?_⟩
  have hk : ∀ b ∈ strings n, keptFrom q 0 b ∈ strings (n - q.length) := by
    intro b hb
    have hb := (mem_strings n b).mp hb
    have hb' : ∀ k ∈ q, k < b.length := fun k hk => by rw [hb]; exact hn k hk
    rw [mem_strings, ← reduceStr_eq q hq b hb', reduceStr_length q hq b hb', hb]
  have inj : ∀ (q : List ℕ) (i j : List Bool) (k : ℕ), i.length = j.length → (∀ m ∈ q, k ≤ m → i[m - k]? = j[m - k]?) →
      keptFrom q k i = keptFrom q k j → i = j := by
    intro q i
    induction i with
    | nil => intro j k h _ _; exact (List.length_eq_zero_iff.mp h.symm).symm
    | cons a i ih =>
      intro j k h h1 h2
      match j, h with
      | b :: j, h =>
        have hrest : ∀ m ∈ q, k + 1 ≤ m → i[m - (k + 1)]? = j[m - (k + 1)]? := by
          intro m hm hkm
          have := h1 m hm (by omega)
          rwa [show m - k = (m - (k + 1)) + 1 by omega, List.getElem?_cons_succ, List.getElem?_cons_succ] at this
        by_cases hq : k ∈ q
        · simp only [keptFrom, if_pos hq] at h2
          have := h1 k hq le_rfl
          simp only [Nat.sub_self, List.getElem?_cons_zero, Option.some.injEq] at this
          rw [this, ih j (k + 1) (by simpa using h) hrest h2]
        · simp only [keptFrom, if_neg hq, List.cons.injEq] at h2
          rw [h2.1, ih j (k + 1) (by simpa using h) hrest h2.2]
  simp only [h2]
  rw [sum_map_comm]
  congr 1
  apply List.map_congr_left
  intro i hi
  rw [sum_map_comm]
  have : ∀ j ∈ strings n, ((strings (n - q.length)).map fun x =>
      if (∀ k ∈ q, i[k]? = j[k]?) ∧ keptFrom q 0 i = x ∧ keptFrom q 0 j = x then rho i j else 0).sum =
      if i = j then rho i j else 0 := by
    intro j hj
    have e : (fun x => if (∀ k ∈ q, i[k]? = j[k]?) ∧ keptFrom q 0 i = x ∧ keptFrom q 0 j = x then rho i j else 0) =
        fun x => if keptFrom q 0 i = x then (if i = j then rho i j else 0) else 0 := by
      funext x
      by_cases hx : keptFrom q 0 i = x
      · subst hx
        by_cases hij : i = j
        · subst hij; simp
        · rw [if_neg, if_pos rfl, if_neg hij]
          rintro ⟨h3, _, h4⟩
          exact hij (inj q i j 0 (by rw [(mem_strings n i).mp hi, (mem_strings n j).mp hj]) (fun m hm _ => by simpa using h3 m hm) h4.symm)
      · rw [if_neg (fun h => hx h.2.1), if_neg hx]
    rw [e, sum_pick _ (strings_nodup _) _ (hk i hi) (fun _ => if i = j then rho i j else 0)]
  rw [List.map_congr_left this, sum_pick _ (strings_nodup n) i hi (fun j => rho i j)]

/-- **C87, pure states.**  For the density matrix of a state: expectation values in the state. -/
theorem C87_state (n : ℕ) (s : State K) (O : List Bool → List Bool → K) :
    trProd n (outer s) O = ((strings n).map fun j => Coef.conj (s.m j) * ((strings n).map fun i => O j i * s.m i).sum).sum := by
  unfold trProd outer
  rw [sum_map_comm]
  congr 1
  apply List.map_congr_left
  intro j _
  rw [← List.sum_map_mul_left]
  congr 1
  apply List.map_congr_left
  intro i _
  ring

/-- **C87 violated**: for a list that is not ascending, other qubits are removed than asked for.  Here the state `|000> + |001>` with the qubits
`1` and `0` traced out should leave the matrix of `|0> + |1>` of qubit 2, whose off-diagonal entry is 1. -/
theorem C87_order_violated :
    let rho : List Bool → List Bool → GQ := fun i j => if i.take 2 = [false, false] ∧ j.take 2 = [false, false] then 1 else 0
    (partialTrace 3 rho [0, 1]).map (fun M => M [false] [true]) = some 1 ∧
    (partialTrace 3 rho [1, 0]).map (fun M => M [false] [true]) = some 0 := by
  decide +kernel

/-- Tracing over all qubits raises. -/
theorem C87_all_raises (n : ℕ) (rho : List Bool → List Bool → K) (q : List ℕ) (h : n ≤ q.length) : partialTrace n rho q = none :=
  if_pos h

/-- **C87, applying circuits.**  One multiplication applies the matrix; a second one always raises (the amplitudes have become a
row). -/
theorem C87_second_raises (n : ℕ) (hn : n ≠ 0) (U V : List Bool → List Bool → K) :
    ∃ s : State K, State.mul n U State.new = some s ∧
      (∀ i, s.m i = U i (List.replicate n false)) ∧ State.mul n V s = none := by
  refine ⟨_, rfl, fun i => ?_, by simp [State.mul, hn]⟩
  simp only [State.new]
  have : ∀ j ∈ strings n, U i j * (if j.all (! ·) then 1 else 0) = if List.replicate n false = j then U i j else 0 := by
    intro j hj
    have hj := (mem_strings n j).mp hj
    have : j.all (! ·) = true ↔ List.replicate n false = j := by
      rw [List.all_eq_true, eq_comm, List.eq_replicate_iff]
      simp [hj]
    by_cases h : List.replicate n false = j
    · rw [if_pos h, if_pos (this.mpr h), mul_one]
    · rw [if_neg h, if_neg (fun h' => h (this.mp h')), mul_zero]
  rw [List.map_congr_left this, sum_pick _ (strings_nodup n) _ ((mem_strings n _).mpr (by simp)) (fun j => U i j)]

/-- A case of the hypotheses: qubits 0 and 2 of four. -/
example : ([0, 2] : List ℕ).Pairwise (· < ·) ∧ (∀ k ∈ [0, 2], k < 4) ∧ keptFrom [0, 2] 0 [true, false, true, true] = [false, true] := by
  decide

end HQCA.Props
