import Verif.Proofs.HeapRefine
import Verif.Props.Operators
import Verif.Props.Fermi
import Verif.Props.Homomorphism

/-!
# Properties C05–C07: subtraction, sharing of strings between operators, commutator

`run sm St.init cs = some σ`: `σ` is any state reachable by any history `cs` of commands that raised
no exception.  `σ.val` is what a user sees: the terms of each operator and each string.
-/

namespace HQCA.Props
open Heap
variable {α K : Type} [DecidableEq α] [Coef K] (sm : Term α K → Term α K → Option (Term α K))

/-- Same terms with negated coefficients denote the negated operator. -/
theorem vneg_den (d : α → Oper K) (A : OpD α K) : denD d (vneg A) = -denD d A := by
  induction A with
  | nil => exact (neg_zero (G := Oper K)).symm
  | cons t A ih =>
    have h1 : vneg (t :: A) = (t.1, -t.2) :: vneg A := rfl
    rw [h1, OpD.denD_cons, OpD.denD_cons, ih]
    simp only
    module

/-- **C06.** Any history of constructions, additions, products and commutators shows at its end exactly
what it would show if every operator were an independent value (and raises in the same cases): an
addition changes its target only, whatever strings are shared. -/
theorem C06_additions_refine (cs : List (Cmd α K)) (h : ∀ c ∈ cs, c.isSub = false) :
    (run sm St.init cs).map St.val = vrun sm ⟨[], []⟩ cs :=
  run_refines sm cs WF.init h

/-- **C06.** After any history, subtractions included, `ops[i] += ops[j]` makes operator `i` the sum and
leaves every other operator and every string as it was (also for `i = j`). -/
theorem C06_add_frame (cs : List (Cmd α K)) (σ τ : St α K) (hr : run sm St.init cs = some σ) (i j : ℕ)
    (h : step sm σ (.addOp i j) = some τ) :
    τ.val.op i = (σ.val.op i).add (σ.val.op j) ∧ (∀ k, k ≠ i → τ.val.op k = σ.val.op k) ∧
      τ.val.ops.length = σ.val.ops.length ∧ τ.val.strs = σ.val.strs := by
  have w := run_wf sm cs WF.init σ hr
  have h1 := (step_refines sm w (.addOp i j) rfl).1
  rw [h] at h1
  simp only [Option.map_some, vstep] at h1
  split at h1
  · rename_i hij
    simp only [Option.some.injEq] at h1
    rw [h1]
    refine ⟨?_, ?_, by simp, rfl⟩
    · simp [VSt.op, List.getD_eq_getElem?_getD, List.getElem?_set_self hij.1]
    · intro k hk
      simp [VSt.op, List.getD_eq_getElem?_getD, List.getElem?_set_ne (Ne.symm hk)]
  · simp at h1

/-- The history `S = X; A = Op() + S; B = Op() + A; C = Op(); C - A` changes `B`, although only `C` and `A`
appear in the subtraction. -/
example : (run (K := GQ) Pauli.mul St.init
      [.newStr [PL.X] 1, .newOp, .addStr 0 0, .newOp, .addOp 1 0, .newOp]).map (fun σ => σ.val.op 1) =
        some [([PL.X], 1)] ∧
    (run (K := GQ) Pauli.mul St.init
      [.newStr [PL.X] 1, .newOp, .addStr 0 0, .newOp, .addOp 1 0, .newOp, .subOp 2 0]).map
        (fun σ => σ.val.op 1) = some [([PL.X], -1)] := by decide +kernel

/-- **C05, exact behaviour.** After any history, `ops[i] -= ops[j]` with `i ≠ j`: operator `j` is left
negated; operator `i` becomes the sum of `-B` and of `A` in which the strings shared with `B` are negated;
every other operator has the strings it shares with `B` negated. -/
theorem C05_sub_exact (cs : List (Cmd α K)) (σ τ : St α K) (hr : run sm St.init cs = some σ) (i j : ℕ)
    (hij : i ≠ j) (h : step sm σ (.subOp i j) = some τ) :
    τ.val.op j = vneg (σ.val.op j) ∧
    τ.val.op i = (viewNeg ((σ.op j).map (·.2)) σ.heap (σ.op i)).add (vneg (σ.val.op j)) ∧
    ∀ k, k ≠ i → τ.val.op k = viewNeg ((σ.op j).map (·.2)) σ.heap (σ.op k) := by
  have w := run_wf sm cs WF.init σ hr
  simp only [step] at h
  split at h
  · rename_i hlt
    simp only [Option.some.injEq] at h
    have h2 := (subOp_spec w i j hlt.1).2
    rw [h] at h2
    have hk : ∀ k, k ≠ i → τ.val.op k = viewNeg ((σ.op j).map (·.2)) σ.heap (σ.op k) := by
      intro k hk
      rw [h2]
      simp only [VSt.op, St.op, List.getD_eq_getElem?_getD, List.getElem?_set_ne (Ne.symm hk),
        List.getElem?_map]
      cases σ.ops[k]? <;> rfl
    refine ⟨?_, ?_, hk⟩
    · rw [hk j (Ne.symm hij), val_op]
      unfold viewNeg vneg view
      rw [List.map_map]
      apply List.map_congr_left
      intro r hr'
      simp only [Function.comp]
      rw [if_pos (List.mem_map_of_mem hr')]
    · rw [val_op σ j, h2]
      simp [VSt.op, List.getD_eq_getElem?_getD, List.getElem?_set_self, hlt.1]
  · simp at h

/-- **C05 (partial).** When the two operators hold no common string object, `ops[i] -= ops[j]` makes
operator `i` represent `A - B`, up to dropped small terms.  Missing for C05: `B` is left negated
(`C05_argument_negated`), and the result is wrong when strings are shared (`C05_self_violated`). -/
theorem C05_sub_partial (d : α → Oper K) (cs : List (Cmd α K)) (σ τ : St α K)
    (hr : run sm St.init cs = some σ) (i j : ℕ) (hij : i ≠ j)
    (hdis : ∀ r ∈ σ.op i, ∀ r' ∈ σ.op j, r.2 ≠ r'.2) (h : step sm σ (.subOp i j) = some τ) :
    Rounds d (τ.val.op i) (denD d (σ.val.op i) - denD d (σ.val.op j)) := by
  have w := run_wf sm cs WF.init σ hr
  rw [(C05_sub_exact sm cs σ τ hr i j hij h).2.1, viewNeg_disjoint _ _ _ (by
    intro r hr' hm
    obtain ⟨u, hu, hu2⟩ := List.mem_map.mp hm
    exact hdis r hr' u hu hu2.symm), ← val_op]
  have := OpD.add_rounds d (σ.val.op i) (vneg (σ.val.op j)) (by
    rw [val_op, view_unique]; exact w.op_uk i)
  rwa [vneg_den, ← sub_eq_add_neg] at this

/-- **C05 (partial), history form.** Subtracting any operator from a freshly computed product `A*B` is always
right, whatever was shared before: `(A*B) - C`. -/
theorem C05_sub_from_product (d : α → Oper K) (cs : List (Cmd α K)) (σ ρ τ : St α K)
    (hr : run sm St.init cs = some σ) (i j k : ℕ) (hm : step sm σ (.mul i j) = some ρ)
    (hk : k < σ.ops.length) (h : step sm ρ (.subOp σ.ops.length k) = some τ) :
    Rounds d (τ.val.op σ.ops.length) (denD d (ρ.val.op σ.ops.length) - denD d (ρ.val.op k)) := by
  have w := run_wf sm cs WF.init σ hr
  have hr' : run sm St.init (cs ++ [.mul i j]) = some ρ := by
    have : ∀ (l : List (Cmd α K)) (s : St α K), run sm s (l ++ [.mul i j])
        = (run sm s l).bind (fun t => step sm t (.mul i j)) := by
      intro l
      induction l with
      | nil => intro s; simp only [List.nil_append, run, Option.bind_some]; cases step sm s (.mul i j) <;> rfl
      | cons c l ih =>
        intro s; simp only [List.cons_append, run]
        cases step sm s c with
        | none => rfl
        | some t => simpa using ih t
    rw [this, hr]; exact hm
  apply C05_sub_partial sm d _ ρ τ hr' _ _ (by omega) ?_ h
  simp only [step] at hm
  split at hm
  · cases hp : mulNew sm σ.heap (σ.op i) (σ.op j) with
    | none => simp [hp] at hm
    | some p =>
      simp only [hp, Option.map_some, Option.some.injEq] at hm
      obtain ⟨_, _, _, p5, _⟩ := (mulNew_spec sm σ.Live σ.heap (σ.op i) (σ.op j) w.bnd w.cons).2 p hp
      intro r hr1 r' hr2
      have e1 : ρ.op σ.ops.length = p.2 := by rw [← hm]; simp [St.op, List.getD_eq_getElem?_getD]
      have e2 : ρ.op k = σ.op k := by
        rw [← hm]; simp [St.op, List.getD_eq_getElem?_getD, List.getElem?_append_left hk]
      rw [e1] at hr1
      rw [e2] at hr2
      have := p5 r hr1
      have := w.op_bnd k r' hr2
      omega
  · simp at hm

/-- **C05 violated (argument).** `A - B` leaves `B` with every coefficient negated. -/
theorem C05_argument_negated (cs : List (Cmd α K)) (σ τ : St α K) (hr : run sm St.init cs = some σ)
    (i j : ℕ) (hij : i ≠ j) (h : step sm σ (.subOp i j) = some τ) : τ.val.op j = vneg (σ.val.op j) :=
  (C05_sub_exact sm cs σ τ hr i j hij h).1

/-- **C05 violated (sharing).** `A - A` evaluates to `-2A` (up to dropped small terms) instead of 0. -/
theorem C05_self_violated (d : α → Oper K) (cs : List (Cmd α K)) (σ τ : St α K)
    (hr : run sm St.init cs = some σ) (i : ℕ) (h : step sm σ (.subOp i i) = some τ) :
    Rounds d (τ.val.op i) ((-2 : K) • denD d (σ.val.op i)) := by
  have w := run_wf sm cs WF.init σ hr
  simp only [step] at h
  split at h
  · rename_i hlt
    simp only [Option.some.injEq] at h
    have h2 := (subOp_spec w i i hlt.1).2
    rw [h] at h2
    have hA : viewNeg ((σ.op i).map (·.2)) σ.heap (σ.op i) = vneg (σ.val.op i) := by
      rw [val_op]
      unfold viewNeg vneg view
      rw [List.map_map]
      apply List.map_congr_left
      intro r hr'
      simp only [Function.comp]
      rw [if_pos (List.mem_map_of_mem hr')]
    have hi : τ.val.op i = (vneg (σ.val.op i)).add (vneg (σ.val.op i)) := by
      rw [h2, hA, ← val_op]
      simp [VSt.op, List.getD_eq_getElem?_getD, List.getElem?_set_self, hlt.1]
    rw [hi]
    have := OpD.add_rounds d (vneg (σ.val.op i)) (vneg (σ.val.op i)) (by
      have hk : (vneg (σ.val.op i)).map (·.1) = (σ.val.op i).map (·.1) := by
        simp [vneg, Function.comp_def]
      unfold UniqueKeys
      rw [hk, val_op, view_keys]; exact w.op_uk i)
    rw [vneg_den] at this
    convert this using 1
    module
  · simp at h

/-- `A = X + 2Z; A - A` shows `-2X - 4Z`; `A = X; B = Op() + A; B - A` shows `-2X`. -/
example : (run (K := GQ) Pauli.mul St.init
      [.newStr [PL.X] 1, .newStr [PL.Z] 2, .newOp, .addStr 0 0, .addStr 0 1, .subOp 0 0]).map
        (fun σ => σ.val.op 0) = some [([PL.X], -2), ([PL.Z], -4)] ∧
    (run (K := GQ) Pauli.mul St.init
      [.newStr [PL.X] 1, .newOp, .addStr 0 0, .newOp, .addOp 1 0, .subOp 1 0]).map
        (fun σ => σ.val.op 1) = some [([PL.X], -2)] := by decide +kernel

/-- A case where nothing is shared: `A = X + Z, B = Z + Y` built from separate strings. -/
example : (run (K := GQ) Pauli.mul St.init
      [.newStr [PL.X] 1, .newStr [PL.Z] 2, .newStr [PL.Z] 5, .newStr [PL.Y] 1, .newOp, .newOp, .addStr 0 0,
        .addStr 0 1, .addStr 1 2, .addStr 1 3, .subOp 0 1]).map (fun σ => σ.val.ops) =
      some [[([PL.X], 1), ([PL.Z], -3), ([PL.Y], -1)], [([PL.Z], -5), ([PL.Y], -1)]] := by decide +kernel

/-- **C07.** After any history, `ops[i].commutator(ops[j])` (also `i = j`) changes no operator and no
string, and returns an operator representing `AB - BA`: the two products are computed with small terms
dropped, and small terms of their difference are dropped.  `sm` is any string product that is sound. -/
theorem C07_commutator (d : α → Oper K)
    (hsm : ∀ s t u, sm s t = some u → u.2 • d u.1 = (s.2 • d s.1) * (t.2 • d t.1))
    (cs : List (Cmd α K)) (σ τ : St α K) (hr : run sm St.init cs = some σ) (i j : ℕ)
    (h : step sm σ (.comm i j) = some τ) :
    ∃ C P Q, τ.val = { σ.val with ops := σ.val.ops ++ [C] } ∧
      Rounds d P (denD d (σ.val.op i) * denD d (σ.val.op j)) ∧
      Rounds d Q (denD d (σ.val.op j) * denD d (σ.val.op i)) ∧
      Rounds d C (denD d P - denD d Q) := by
  have w := run_wf sm cs WF.init σ hr
  have h1 := (step_refines sm w (.comm i j) rfl).1
  rw [h] at h1
  simp only [Option.map_some, vstep] at h1
  split at h1
  · cases hP : OpD.mul sm (σ.val.op i) (σ.val.op j) with
    | none => simp [hP] at h1
    | some P =>
      cases hQ : OpD.mul sm (σ.val.op j) (σ.val.op i) with
      | none => simp [hP, hQ] at h1
      | some Q =>
        simp only [hP, hQ, Option.bind_some, Option.map_some, Option.some.injEq] at h1
        refine ⟨P.add (vneg Q), P, Q, h1, OpD.mul_rounds d sm _ _ _ (fun s _ t _ u hu => hsm s t u hu) hP,
          OpD.mul_rounds d sm _ _ _ (fun s _ t _ u hu => hsm s t u hu) hQ, ?_⟩
        have := OpD.add_rounds d P (vneg Q) (OpD.mul_unique sm _ _ _ hP)
        rwa [vneg_den, ← sub_eq_add_neg] at this
  · simp at h1

/-- **C07.** The commutator of an operator with itself is the empty operator. -/
theorem C07_commutator_self (cs : List (Cmd α K)) (σ τ : St α K) (hr : run sm St.init cs = some σ) (i : ℕ)
    (h : step sm σ (.comm i i) = some τ) : τ.val.ops = σ.val.ops ++ [[]] := by
  have w := run_wf sm cs WF.init σ hr
  have h1 := (step_refines sm w (.comm i i) rfl).1
  rw [h] at h1
  simp only [Option.map_some, vstep] at h1
  split at h1
  · cases hP : OpD.mul sm (σ.val.op i) (σ.val.op i) with
    | none => simp [hP] at h1
    | some P =>
      simp only [hP, Option.bind_some, Option.map_some, Option.some.injEq] at h1
      rw [h1]
      simp only [List.append_cancel_left_eq, List.cons.injEq, and_true]
      have hu := OpD.mul_unique sm _ _ _ hP
      obtain ⟨g1, g2⟩ := C03_add_coef P (vneg P) hu
      have hz : ∀ s, coef P s + coef (vneg P) s = 0 := by
        intro s
        unfold coef vneg
        rw [List.filter_map, List.map_map]
        have : ∀ l : OpD α K, (l.map (fun x => x.2)).sum + (l.map ((fun x => x.2) ∘ fun t => (t.1, -t.2))).sum
            = (0 : K) := by
          intro l
          induction l with
          | nil => simp
          | cons t l ih =>
            simp only [List.map_cons, List.sum_cons, Function.comp] at ih ⊢
            linear_combination ih
        exact this _
      rw [List.eq_nil_iff_forall_not_mem]
      intro t ht
      have h3 := OpD.coef_of_mem _ g1 t ht
      rw [g2, hz, Coef.small_zero] at h3
      simp only [if_true] at h3
      have h4 : small t.2 = false := by
        have := (List.mem_filter.mp (show t ∈ OpD.clean _ from ht)).2
        simpa using this
      rw [← h3, Coef.small_zero] at h4
      simp at h4
  · simp at h1

/-- **C07** for Pauli operators. -/
theorem C07_commutator_pauli (cs : List (Cmd PStr K)) (σ τ : St PStr K)
    (hr : run Pauli.mul St.init cs = some σ) (i j : ℕ) (h : step Pauli.mul σ (.comm i j) = some τ) :
    ∃ C P Q, τ.val = { σ.val with ops := σ.val.ops ++ [C] } ∧
      Rounds (denP 0) P (denPO (σ.val.op i) * denPO (σ.val.op j)) ∧
      Rounds (denP 0) Q (denPO (σ.val.op j) * denPO (σ.val.op i)) ∧
      Rounds (denP 0) C (denPO P - denPO Q) := by
  refine C07_commutator Pauli.mul (denP 0) ?_ cs σ τ hr i j h
  intro s t u hu
  by_cases hl : s.1.length = t.1.length
  · obtain ⟨R, hR, _, hd⟩ := C01_pauli_product s t hl
    rw [hR] at hu; cases hu; exact hd
  · rw [C01_length_mismatch s t hl] at hu; simp at hu

/-- **C07** for fermionic operators. -/
theorem C07_commutator_fermi (cs : List (Cmd FStr K)) (σ τ : St FStr K)
    (hr : run Fermi.mul St.init cs = some σ) (i j : ℕ) (h : step Fermi.mul σ (.comm i j) = some τ) :
    ∃ C P Q, τ.val = { σ.val with ops := σ.val.ops ++ [C] } ∧
      Rounds (denF 0) P (denD (denF 0) (σ.val.op i) * denD (denF 0) (σ.val.op j)) ∧
      Rounds (denF 0) Q (denD (denF 0) (σ.val.op j) * denD (denF 0) (σ.val.op i)) ∧
      Rounds (denF 0) C (denD (denF 0) P - denD (denF 0) Q) := by
  refine C07_commutator Fermi.mul (denF 0) ?_ cs σ τ hr i j h
  intro s t u hu
  obtain ⟨R, hR, _, hd⟩ := C10_fermi_mul s t
  rw [hR] at hu; cases hu; exact hd

/-- `[X + Z, Y]` where both operators share the string `X` with a third one. -/
example : (run (K := GQ) Pauli.mul St.init
      [.newStr [PL.X] 1, .newStr [PL.Z] 1, .newStr [PL.Y] 1, .newOp, .newOp, .newOp, .addStr 0 0, .addStr 0 1,
        .addStr 1 2, .addStr 2 0, .comm 0 1]).map (fun σ => σ.val.ops) =
      some [[([PL.X], 1), ([PL.Z], 1)], [([PL.Y], 1)], [([PL.X], 1)],
        [([PL.Z], ⟨0, 2⟩), ([PL.X], ⟨0, -2⟩)]] := by decide +kernel

/-- **C05, definedness.** After any history a subtraction of existing operators is carried out. -/
theorem C05_defined (cs : List (Cmd α K)) (σ : St α K) (_ : run sm St.init cs = some σ) (i j : ℕ) :
    (step sm σ (.subOp i j)).isSome = true ↔ i < σ.val.ops.length ∧ j < σ.val.ops.length := by
  rw [val_length]
  simp only [step]
  split <;> simp_all

/-- **C07, definedness.** The commutator of two Pauli operators whose strings all have one length is always computed. -/
theorem C07_defined_pauli (n : ℕ) (cs : List (Cmd PStr K)) (σ : St PStr K) (hr : run Pauli.mul St.init cs = some σ) (i j : ℕ)
    (hi : i < σ.val.ops.length) (hj : j < σ.val.ops.length) (hA : ∀ t ∈ σ.val.op i, t.1.length = n)
    (hB : ∀ t ∈ σ.val.op j, t.1.length = n) : ∃ τ, step Pauli.mul σ (.comm i j) = some τ := by
  have w := run_wf Pauli.mul cs WF.init σ hr
  obtain ⟨P, hP, _⟩ := C04_mul_den n _ _ hA hB
  obtain ⟨Q, hQ, _⟩ := C04_mul_den n _ _ hB hA
  have h := (commutator_spec Pauli.mul w i j).1
  rw [hP, hQ] at h
  rw [val_length] at hi hj
  simp only [step, if_pos (And.intro hi hj)]
  cases hc : σ.commutator Pauli.mul i j with
  | none => rw [hc] at h; simp at h
  | some τ => exact ⟨τ, rfl⟩

/-- **C07, definedness.** The commutator of two fermionic operators is always computed. -/
theorem C07_defined_fermi (cs : List (Cmd FStr K)) (σ : St FStr K) (hr : run Fermi.mul St.init cs = some σ) (i j : ℕ)
    (hi : i < σ.val.ops.length) (hj : j < σ.val.ops.length) : ∃ τ, step Fermi.mul σ (.comm i j) = some τ := by
  have w := run_wf Fermi.mul cs WF.init σ hr
  obtain ⟨P, hP, _⟩ := C04_mul_fermi (σ.val.op i) (σ.val.op j)
  obtain ⟨Q, hQ, _⟩ := C04_mul_fermi (σ.val.op j) (σ.val.op i)
  have h := (commutator_spec Fermi.mul w i j).1
  rw [hP, hQ] at h
  rw [val_length] at hi hj
  simp only [step, if_pos (And.intro hi hj)]
  cases hc : σ.commutator Fermi.mul i j with
  | none => rw [hc] at h; simp at h
  | some τ => exact ⟨τ, rfl⟩

end HQCA.Props
