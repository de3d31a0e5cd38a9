import Verif.Proofs.SymProject
import Verif.Proofs.Tables

/-!
# C108: the symmetry-projected measurement operators

`SymmetryProjection` replaces the Pauli image of an RDM element by a combination of fewer Pauli strings.  The
expectation value must not change on the states it is meant for: those of fixed particle number and fixed spin
projection.
-/

namespace HQCA.Props
open HQCA.SymProj HQCA.Transform

/-! ### Specification and model -/

theorem change_from (A : Finset ℕ) (k : ℕ) (s : FStr) : dlt A (pairsFrom k s) =
    ∑ j ∈ Finset.range s.length, if k + j ∈ A then
      (if s.getD j .i = .cr then (1 : ℤ) else if s.getD j .i = .an then -1 else 0) else 0 := by
  induction s generalizing k with
  | nil => simp [pairsFrom, dlt]
  | cons x s ih =>
    rw [List.length_cons, Finset.sum_range_succ', pairsFrom_cons]
    have e : ∑ j ∈ Finset.range s.length, (if k + (j + 1) ∈ A then
        (if (x :: s).getD (j + 1) .i = .cr then (1 : ℤ) else if (x :: s).getD (j + 1) .i = .an then -1 else 0) else 0) =
        dlt A (pairsFrom (k + 1) s) := by
      rw [ih]
      apply Finset.sum_congr rfl
      intro j _
      rw [List.getD_cons_succ, show k + (j + 1) = k + 1 + j by ring]
    rw [e]
    cases x <;> simp [dlt, wt, add_comm]

theorem change_dlt (A : Finset ℕ) (s : FStr) : change A s = dlt A (Fermi.pairs s) := by
  rw [pairs_eq, change_from]
  simp [change]

theorem sameKind_spec (k : ℕ) (s s' : FStr) (h : SameKind s s') :
    (pairsFrom k s').map (·.1) = (pairsFrom k s).map (·.1) ∧
      SamePat (s.filter (fun x => x ≠ .i)) (s'.filter (fun x => x ≠ .i)) := by
  unfold SameKind at h
  induction h generalizing k with
  | nil => exact ⟨rfl, .nil⟩
  | @cons x y s s' hxy h ih =>
    obtain ⟨i1, i2⟩ := ih (k + 1)
    rw [pairsFrom_cons, pairsFrom_cons, List.filter_cons, List.filter_cons]
    by_cases hx : x = .i
    · have hy := hxy.1.mp hx
      simp only [hx, hy, if_true, ne_eq, not_true_eq_false, decide_false, Bool.false_eq_true, if_false]
      exact ⟨i1, i2⟩
    · have hy : y ≠ .i := fun e => hx (hxy.1.mpr e)
      rw [if_neg hx, if_neg hy, if_pos (by simpa using hx), if_pos (by simpa using hy)]
      refine ⟨by simp [i1], .cons ⟨hy, ?_⟩ i2⟩
      have := hxy.2
      cases x <;> cases y <;> simp_all [FLodd]

theorem refill_kind (s : FStr) (t : List FL) (h : SamePat (s.filter (fun x => x ≠ .i)) t) : SameKind s (refill s t) := by
  induction s generalizing t with
  | nil => exact .nil
  | cons x s ih =>
    by_cases hx : x = .i
    · subst hx
      have e : refill (FL.i :: s) t = .i :: refill s t := by rw [refill.eq_def]; simp
      rw [e]
      refine .cons (by simp) (ih t ?_)
      simpa using h
    · rw [List.filter_cons, if_pos (by simpa using hx)] at h
      cases h with
      | @cons _ y _ t h1 h2 =>
        have e : refill (x :: s) (y :: t) = y :: refill s t := by rw [refill.eq_def]; simp [hx]
        rw [e]
        refine .cons ⟨⟨fun h => absurd h hx, fun h => absurd h h1.1⟩, ?_⟩ (ih t h2)
        have := h1.2
        have := h1.1
        cases x <;> cases y <;> simp_all [FLodd]

/-! ### The two transforms -/

theorem denPO_two (P Q : PStr) (a b : ℂ) : (denPO [(P, a), (Q, b)] : Oper ℂ) = a • denP 0 P + b • denP 0 Q := by
  unfold denPO
  rw [denD_eq_sum]
  simp

theorem tab_class (tab : Table) (N : ℕ) (D : ℕ → FL → Oper ℂ) (hg : TabGood tab N)
    (hc : ∀ q o, o ≠ .i → tab N q o = tab N q (if FLodd o then .cr else .p))
    (hd : ∀ q < N, ∀ o, o ≠ .i → D q o = denPO (tem tab N q o)) :
    ClassTab N D (fun q b => tab N q (if b then .cr else .p)) where
  len q hq b := by
    apply hg.len q hq
    cases b <;> simp
  den q hq o ho := by
    rw [hd q hq o ho, tem_eq _ _ _ _ (hg.ne hq ho), denPO_two, ← hc q o ho]

theorem prodO_word (D : ℕ → FL → Oper ℂ) (l : List (ℕ × FL)) : prodO true D l = wordW D l := by
  induction l with
  | nil => simp [prodO, wordW]
  | cons a l ih => rw [wordW_cons, ← ih, prodO]; simp

theorem jw_ctx (N : ℕ) : Ctx N true (fun q o => fop q o) (fun q b => jwTab N q (if b then .cr else .p))
    jordanWigner (denF 0) where
  tab := tab_class jwTab N _ (jw_good N) (by intro q o ho; cases o <;> simp_all [jwTab, FLodd])
    (fun q hq o ho => ((encodes_id _ _).mp (jw_letter N q hq o ho)).symm)
  spec t := jw_spec t
  den s _ := by
    rw [prodO_word, pairs_eq, word_pairsFrom _ (fun k => by simp [fop]), denF_eq_denW]

theorem qu_ctx (N : ℕ) : Ctx N true (fun q o => site q (qmat o)) (fun q b => quTab N q (if b then .cr else .p))
    qubit (denQ 0) where
  tab := tab_class quTab N _ (qu_good N) (by intro q o ho; cases o <;> simp_all [quTab, FLodd])
    (fun q hq o ho => ((encodes_id _ _).mp (qu_letter N q hq o ho)).symm)
  spec t := qu_spec t
  den s _ := by
    rw [prodO_word, pairs_eq, word_pairsFrom _ (fun k => by simp [qmat, site_one]), denQ_eq_denW]

/-! ### The property -/

/-- What the projection is asked to do: `Q` is an operator on `N` qubits and, coefficient by coefficient and up to the thresholds of the code, an
operator on `N` qubits with the expectation values of `X` in every state with a fixed number of particles and, unless
`skip`, a fixed number of particles on the sites `alp`. -/
def Represents (N : ℕ) (alp : List ℕ) (skip : Bool) (X : Oper ℂ) (n : ℕ) (Q : POp ℂ) : Prop :=
  (∀ u ∈ Q, u.1.length = N) ∧ ∃ E : POp ℂ, (∀ u ∈ E, u.1.length = N) ∧
    (∀ ψ : Cfg →₀ ℂ, (∃ n, HasOcc (Finset.range N) n ψ) → (skip = false → ∃ n, HasOcc alp.toFinset n ψ) →
      pair ψ (denPO E ψ) = pair ψ (X ψ)) ∧
    ∀ s, ‖coef Q s - coef E s‖ ≤ max (1e-10 : ℝ) (n * 1e-12)

section
variable {N : ℕ} {rev : Bool} {D : ℕ → FL → Oper ℂ} {S : ℕ → Bool → PStr × PStr}
  {T : Term FStr ℂ → Option (POp ℂ)} {F : FStr → Oper ℂ}

theorem count_of_change (s : FStr) (hs : s.length = N) (h : change (Finset.range N) s = 0) :
    s.count .cr = s.count .an := by
  have hEo : ∀ x ∈ (s.filter (fun x => x ≠ .i)).filter FLodd, FLodd x = true := fun x hx => (List.mem_filter.mp hx).2
  rw [change_dlt, dlt_all _ _ (fun a ha => Finset.mem_range.mpr (hs ▸ (good_pairs s a ha).1)), pairs_letters,
    (wt_sum _ hEo).1] at h
  have h2 := (wt_sum _ hEo).2
  have hc : ∀ y, FLodd y = true → ((s.filter (fun x => x ≠ .i)).filter FLodd).count y = s.count y := by
    intro y hy
    rw [List.count_filter hy, List.count_filter]
    simpa using odd_ne y hy
  rw [hc _ rfl, hc _ rfl] at h2
  rw [hc _ rfl] at h
  omega

theorem imbal_both (alp sites : List ℕ) (o : List FL) (ho : ∀ x ∈ o, FLodd x = true) (hl : o.length = sites.length) :
    imbal (fun q => q ∈ alp) sites o + imbal (fun q => q ∉ alp) sites o = - (o.map wt).sum := by
  induction o generalizing sites with
  | nil => simp [imbal]
  | cons x o ih =>
    cases sites with
    | nil => simp at hl
    | cons q sites =>
      have ih' := ih sites (fun y hy => ho y (by simp [hy])) (by simpa using hl)
      have hx := ho x (by simp)
      unfold imbal at ih' ⊢
      simp only [List.zip_cons_cons, List.map_cons, List.sum_cons]
      by_cases hq : q ∈ alp
      · cases x <;> simp [FLodd] at hx <;> simp [hq, wt] at ih' ⊢ <;> omega
      · cases x <;> simp [FLodd] at hx <;> simp [hq, wt] at ih' ⊢ <;> omega

theorem c108_any (C : Ctx N rev D S T F) (hD : Shifts D) (num : Num ℂ) (hn : NumOK num) (hr : RankOK num.rank)
    (hsv : SolveOK num) (loc : Bool) (alp : List ℕ) (skip : Bool) (first : Term FStr ℂ) (rest : OpD FStr ℂ) (hN : 0 < N)
    (hlen : ∀ t ∈ first :: rest, t.1.length = N) (hu : UniqueKeys (first :: rest))
    (hc0 : change (Finset.range N) first.1 = 0) (ha0 : change alp.toFinset first.1 = 0)
    (hk : ∀ t ∈ rest, t.2 ≠ 0 → SameKind first.1 t.1)
    (hc : ∀ t ∈ rest, t.2 ≠ 0 → change (Finset.range N) t.1 = 0)
    (ha : ∀ t ∈ rest, t.2 ≠ 0 → change alp.toFinset t.1 = 0) :
    ∃ Q, project num loc T alp skip (first :: rest) = some Q ∧
      Represents N alp skip (denD F (first :: rest)) (first :: rest).length Q ∧
      (first.1.filter FLodd ≠ [] → (∃ new, OpD.transform T (first :: rest) = some new ∧ ∃ u ∈ new, (1e-10 : ℝ) ≤ ‖u.2‖) →
        ∀ L : List FStr, (∀ s, SameKind first.1 s → change (Finset.range N) s = 0 →
          (skip = false → change alp.toFinset s = 0) → s ∈ L) → Q.length ≤ L.length) := by
  have hsk : ∀ t ∈ rest, t.2 ≠ 0 → (Fermi.pairs t.1).map (·.1) = (Fermi.pairs first.1).map (·.1) ∧
      SamePat (first.1.filter (fun x => x ≠ .i)) (t.1.filter (fun x => x ≠ .i)) := by
    intro t ht hz
    have := sameKind_spec 0 first.1 t.1 (hk t ht hz)
    rw [← pairs_eq, ← pairs_eq] at this
    exact this
  have hs := hlen first (by simp)
  obtain ⟨Q, q1, q2⟩ := project_total C num hn hr hsv loc alp skip first rest hN hlen hu
    (by rw [← change_dlt]; exact hc0) (by rw [← change_dlt]; exact ha0) (fun t ht hz => (hsk t ht hz).1)
    (fun t ht hz => (hsk t ht hz).2) (fun t ht hz => by rw [← change_dlt]; exact hc t ht hz)
    (fun t ht hz => by rw [← change_dlt]; exact ha t ht hz)
  refine ⟨Q, q1, ?_, ?_⟩
  · have := project_spec C hD num hn loc alp skip first rest hlen hu
      (fun t ht hz => by
        rcases List.mem_cons.mp ht with rfl | ht
        · rfl
        · exact (hsk t ht hz).1)
      (count_of_change first.1 hs hc0) Q q1
    exact this
  · rintro hE ⟨new, h1, u, hum, hu1⟩ L hL
    obtain ⟨tops, t1, t2, t3⟩ := q2 hE ⟨new, h1, by
      rw [← Bool.not_eq_true, OpD.null, List.all_eq_true]
      intro h
      have := (hn.tiny u.2).mp (h u hum)
      linarith⟩
    refine t2.trans ?_
    have hnd : (tops.map (refill first.1)).Nodup := by
      refine List.Nodup.map_on ?_ t1
      intro a ham b hbm he
      have h1 := (refill_spec first.1 a (t3 a ham).1).1
      have h2 := (refill_spec first.1 b (t3 b hbm).1).1
      have h4 := congrArg (fun s => (Fermi.pairs s).map (·.2)) he
      rw [h1, h2, List.map_snd_zip, List.map_snd_zip] at h4
      · exact h4
      · rw [List.length_map, ← (t3 b hbm).1.length_eq, ← pairs_letters, List.length_map]
      · rw [List.length_map, ← (t3 a ham).1.length_eq, ← pairs_letters, List.length_map]
    rw [← List.length_map (refill first.1)]
    apply (List.subperm_of_subset hnd ?_).length_le
    intro s hsm
    obtain ⟨t, htm, rfl⟩ := List.mem_map.mp hsm
    obtain ⟨p1, p2⟩ := t3 t htm
    obtain ⟨r1, _, r3⟩ := refill_spec first.1 t p1
    obtain ⟨p3, p4⟩ := (mem_perms _ _ _ _ _).mp p2
    have hgood := vars_good (N := N) (Fermi.pairs first.1) (hs ▸ good_pairs first.1) _ r3
    have hfst := (mem_vars (Fermi.pairs first.1) _ (fun a ha => (good_pairs first.1 a ha).2)).mp r3
    have hsnd : (((Fermi.pairs first.1).map (·.1)).zip t).map (·.2) = t := by
      rw [List.map_snd_zip]
      rw [List.length_map, ← p1.length_eq, ← pairs_letters, List.length_map]
    have hw : ((t.filter FLodd).map wt).sum = 0 := by
      have h1 := hc0
      rw [change_dlt, dlt_all _ _ (fun a ha => Finset.mem_range.mpr (hs ▸ (good_pairs first.1 a ha).1)), pairs_letters] at h1
      rw [← h1]
      exact (p3.map wt).sum_eq
    refine hL _ (refill_kind _ _ p1) ?_ ?_
    · rw [change_dlt, r1, dlt_all _ _ (fun a ha => Finset.mem_range.mpr (hgood a ha).1), hsnd]
      exact hw
    · intro hsk0
      have hbad := p4 hsk0
      rw [change_dlt, r1, imbal_dlt alp (Fermi.pairs first.1) _ hfst.1 hfst.2, hsnd]
      have hlen' : (t.filter FLodd).length =
          (((Fermi.pairs first.1).filter (fun x => FLodd x.2)).map (fun x => x.1)).length := by
        rw [p3.length_eq, List.length_map, ← pairs_letters, List.filter_map, List.length_map]
        rfl
      have hb := imbal_both alp _ (t.filter FLodd) (fun x hx => (List.mem_filter.mp hx).2) hlen'
      rw [hw] at hb
      unfold szBad at hbad
      rw [Bool.and_eq_false_iff, decide_eq_false_iff_not, decide_eq_false_iff_not, not_not, not_not] at hbad
      omega

end

/-- **C108.** Project an element of an RDM (fermionic operators, Jordan–Wigner) all of whose strings with a nonzero coefficient have
their `+`/`-` and their `p`/`h` at the same places and conserve the number of particles and the number of alpha particles.  With exact
linear algebra (`RankOK`, `SolveOK`, `NumOK`) the construction returns, the Pauli operator has the expectation values of
the element on every state with a fixed number of particles (and of alpha particles, unless `skip_sz`), and it has at
most one Pauli string for each such string of the family. -/
theorem C108_jordan_wigner_partial (num : Num ℂ) (hn : NumOK num) (hr : RankOK num.rank) (hsv : SolveOK num) (loc : Bool)
    (alp : List ℕ) (skip : Bool) (N : ℕ) (hN : 0 < N) (first : Term FStr ℂ) (rest : OpD FStr ℂ)
    (hlen : ∀ t ∈ first :: rest, t.1.length = N) (hu : UniqueKeys (first :: rest))
    (hc0 : change (Finset.range N) first.1 = 0) (ha0 : change alp.toFinset first.1 = 0)
    (hk : ∀ t ∈ rest, t.2 ≠ 0 → SameKind first.1 t.1)
    (hc : ∀ t ∈ rest, t.2 ≠ 0 → change (Finset.range N) t.1 = 0)
    (ha : ∀ t ∈ rest, t.2 ≠ 0 → change alp.toFinset t.1 = 0) :
    ∃ Q, project num loc jordanWigner alp skip (first :: rest) = some Q ∧
      Represents N alp skip (denD (denF 0) (first :: rest)) (first :: rest).length Q ∧
      (first.1.filter FLodd ≠ [] →
        (∃ new, OpD.transform jordanWigner (first :: rest) = some new ∧ ∃ u ∈ new, (1e-10 : ℝ) ≤ ‖u.2‖) →
        ∀ L : List FStr, (∀ s, SameKind first.1 s → change (Finset.range N) s = 0 →
          (skip = false → change alp.toFinset s = 0) → s ∈ L) → Q.length ≤ L.length) :=
  c108_any (jw_ctx N) shifts_fop num hn hr hsv loc alp skip first rest hN hlen hu hc0 ha0 hk hc ha

/-- **C108, qubit operators.** The same for `local_tomography` (qubit strings and the qubit transform). -/
theorem C108_qubit_partial (num : Num ℂ) (hn : NumOK num) (hr : RankOK num.rank) (hsv : SolveOK num) (loc : Bool)
    (alp : List ℕ) (skip : Bool) (N : ℕ) (hN : 0 < N) (first : Term FStr ℂ) (rest : OpD FStr ℂ)
    (hlen : ∀ t ∈ first :: rest, t.1.length = N) (hu : UniqueKeys (first :: rest))
    (hc0 : change (Finset.range N) first.1 = 0) (ha0 : change alp.toFinset first.1 = 0)
    (hk : ∀ t ∈ rest, t.2 ≠ 0 → SameKind first.1 t.1)
    (hc : ∀ t ∈ rest, t.2 ≠ 0 → change (Finset.range N) t.1 = 0)
    (ha : ∀ t ∈ rest, t.2 ≠ 0 → change alp.toFinset t.1 = 0) :
    ∃ Q, project num loc qubit alp skip (first :: rest) = some Q ∧
      Represents N alp skip (denD (denQ 0) (first :: rest)) (first :: rest).length Q ∧
      (first.1.filter FLodd ≠ [] →
        (∃ new, OpD.transform qubit (first :: rest) = some new ∧ ∃ u ∈ new, (1e-10 : ℝ) ≤ ‖u.2‖) →
        ∀ L : List FStr, (∀ s, SameKind first.1 s → change (Finset.range N) s = 0 →
          (skip = false → change alp.toFinset s = 0) → s ∈ L) → Q.length ≤ L.length) :=
  c108_any (qu_ctx N) shifts_site num hn hr hsv loc alp skip first rest hN hlen hu hc0 ha0 hk hc ha

/-- **C108, whatever the linear algebra.** If the rank routine or the solver of the linear system is not exact but every
solution returned solves the system, a result is still right whenever there is one. -/
theorem C108_any_result (num : Num ℂ) (hn : NumOK num) (loc : Bool) (alp : List ℕ) (skip : Bool) (N : ℕ)
    (first : Term FStr ℂ) (rest : OpD FStr ℂ) (hlen : ∀ t ∈ first :: rest, t.1.length = N) (hu : UniqueKeys (first :: rest))
    (hk : ∀ t ∈ rest, t.2 ≠ 0 → SameKind first.1 t.1) (hc : change (Finset.range N) first.1 = 0) (Q : POp ℂ)
    (h : project num loc jordanWigner alp skip (first :: rest) = some Q) :
    Represents N alp skip (denD (denF 0) (first :: rest)) (first :: rest).length Q := by
  refine project_spec (jw_ctx N) shifts_fop num hn loc alp skip first rest hlen hu ?_
    (count_of_change first.1 (hlen first (by simp)) hc) Q h
  intro t ht hz
  rcases List.mem_cons.mp ht with rfl | ht
  · rfl
  have := sameKind_spec 0 first.1 t.1 (hk t ht hz)
  rw [← pairs_eq, ← pairs_eq] at this
  exact this.1

/-- **C108 fails for spin flips.** An element that changes the number of alpha particles by an odd number is rejected
with an exception, with or without `skip_sz`, though it conserves the number of particles. -/
theorem C108_fails_spin_flip (num : Num ℂ) (loc : Bool) (T : Term FStr ℂ → Option (POp ℂ)) (alp : List ℕ) (skip : Bool)
    (first : Term FStr ℂ) (rest : OpD FStr ℂ) (h : change alp.toFinset first.1 % 2 = 1) :
    project num loc T alp skip (first :: rest) = none := by
  rw [change_dlt] at h
  obtain ⟨a, ha⟩ := parity_in alp (Fermi.pairs first.1)
  unfold project
  simp only
  split
  · rfl
  rw [if_neg, if_pos]
  · left; omega
  · intro hE
    have : ((Fermi.pairs first.1).filter (fun x => FLodd x.2)) = [] := by
      rw [← pairs_letters, List.filter_map, List.map_eq_nil_iff] at hE
      exact hE
    rw [this] at ha
    simp at ha
    omega

/-! ### The hypotheses can be met -/

/-- Exact linear algebra exists. -/
theorem exact_num : ∃ num : Num ℂ, NumOK num ∧ RankOK num.rank ∧ SolveOK num := by
  classical
  refine ⟨{ tiny := fun c => decide (‖c‖ < (1e-10 : ℝ)), keep := fun c => decide ((1e-10 : ℝ) < ‖c‖),
            rank := fun A => if Indep (A.headD []).length A then A.length else 0,
            solve := fun cols v => if h : ∃ x : List ℂ, x.length = cols.length ∧
              ∀ i < v.length, ((cols.zip x).map (fun y => y.2 * y.1.getD i 0)).sum = v.getD i 0 then some h.choose else none },
    ⟨fun c => by simp, fun c => by simp, ?_⟩, ?_, ?_⟩
  · intro cols v x h
    simp only at h
    split at h
    · rename_i hx
      cases h
      exact hx.choose_spec
    · simp at h
  · intro m A hA
    simp only
    cases A with
    | nil => simp [indep_nil]
    | cons c A =>
      have : (List.headD (c :: A) []).length = m := hA c (by simp)
      rw [this]
      split
      · rename_i h; simp [h]
      · rename_i h; simp [h]
  · intro m cols v hc hl hv hi
    simp only
    rw [dif_pos]
    · rfl
    · have htop := indep_spn_top m cols hi hl
      have hm : vec m v ∈ spn m cols := by rw [htop]; trivial
      obtain ⟨f, hf⟩ := (Submodule.mem_span_range_iff_exists_fun ℂ).mp hm
      refine ⟨List.ofFn f, by simp, ?_⟩
      intro i hi'
      have h1 := congrFun hf ⟨i, by omega⟩
      rw [Finset.sum_apply] at h1
      have h2 : vec m v ⟨i, by omega⟩ = v.getD i 0 := rfl
      rw [h2] at h1
      rw [← h1]
      have e : cols.zip (List.ofFn f) = List.ofFn (fun j : Fin cols.length => (cols.get j, f j)) := by
        apply List.ext_getElem
        · simp
        · intro k hk1 hk2
          simp
      rw [e, List.map_ofFn, List.sum_ofFn]
      rfl

/-- The two-electron element `+ - - +` on four spin orbitals, with its adjoint: all hypotheses hold. -/
example : ∃ (num : Num ℂ) (Q : POp ℂ),
    project num false jordanWigner [0, 1] false [([.cr, .an, .an, .cr], 1), ([.an, .cr, .cr, .an], 1)] = some Q ∧
      Represents 4 [0, 1] false (denD (denF 0) [([.cr, .an, .an, .cr], 1), ([.an, .cr, .cr, .an], 1)]) 2 Q := by
  obtain ⟨num, h1, h2, h3⟩ := exact_num
  have := C108_jordan_wigner_partial num h1 h2 h3 false [0, 1] false 4 (by norm_num) ([.cr, .an, .an, .cr], 1)
    [([.an, .cr, .cr, .an], 1)] (by simp) (by simp [UniqueKeys]) (by decide) (by decide) (by simp [SameKind])
    (by
      intro t ht _
      rw [List.mem_singleton.mp ht]
      decide)
    (by
      intro t ht _
      rw [List.mem_singleton.mp ht]
      decide)
  obtain ⟨Q, q1, q2, _⟩ := this
  exact ⟨num, Q, q1, q2⟩

/-- A spin flip on two orbitals conserves the particle number and is rejected. -/
example (num : Num ℂ) (skip : Bool) : change (Finset.range 2) [.cr, .an] = 0 ∧
    project num false jordanWigner [0] skip [([.cr, .an], 1)] = none :=
  ⟨by decide, C108_fails_spin_flip num false _ [0] skip _ [] (by decide)⟩

end HQCA.Props
