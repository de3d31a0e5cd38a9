import Verif.Model.StateTomo
import Verif.Props.Measure
import Verif.Props.Gadget
import Verif.Props.Tomography

/-!
# Properties C94 and C95: tomography with the state-vector backend
-/

namespace HQCA.Props
open HQCA.Prim HQCA.Process HQCA.Tomo HQCA.StateTomo HQCA.Transform
noncomputable section

/-! ### Dictionaries -/

theorem dget_mem {β : Type} (d : List (PStr × β)) (s : PStr) (v : β) (h : dget d s = some v) : (s, v) ∈ d := by
  unfold dget at h
  obtain ⟨x, hx, rfl⟩ := Option.map_eq_some_iff.mp h
  have h1 := List.mem_of_find?_eq_some hx
  have h2 := List.find?_some hx
  simp only [decide_eq_true_eq] at h2
  rw [← h2]
  exact List.mem_reverse.mp h1

theorem dget_isSome {β : Type} (d : List (PStr × β)) (s : PStr) (h : s ∈ d.map (·.1)) : ∃ v, dget d s = some v := by
  obtain ⟨x, hx, rfl⟩ := List.mem_map.mp h
  unfold dget
  cases hf : d.reverse.find? (fun y => y.1 = x.1) with
  | some y => exact ⟨y.2, rfl⟩
  | none =>
    have := List.find?_eq_none.mp hf x (List.mem_reverse.mpr hx)
    simp at this

/-! ### The rotations -/

/-- The phase of `s sx s` against a Hadamard gate. -/
def om : ℂ := (1 + Complex.I) * r2

theorem om_norm : ‖om‖ = 1 := by
  have h : ‖om‖ * ‖om‖ = 1 := by
    have h2 : om * om = Complex.I := by
      unfold om
      linear_combination (1 + Complex.I) ^ 2 * r2_sq + (1 / 2) * Complex.I_mul_I
    rw [← norm_mul, h2, Complex.norm_I]
  nlinarith [norm_nonneg om]

theorem UpToPhase.mul {U V P Q : Oper ℂ} (h1 : UpToPhase U P) (h2 : UpToPhase V Q) : UpToPhase (U * V) (P * Q) := by
  obtain ⟨c, hc, rfl⟩ := h1
  obtain ⟨d, hd, rfl⟩ := h2
  exact ⟨c * d, by rw [norm_mul, hc, hd, one_mul], by rw [smul_mul_smul_comm]⟩

theorem UpToPhase.refl (U : Oper ℂ) : UpToPhase U U := ⟨1, by simp, by simp⟩

/-- Closing the entries of the two-by-two identities. -/
local macro "fin2" : tactic => `(tactic| (
  apply M2.ext <;> simp [mat2, om] <;> ring_nf <;>
    simp only [show r2 ^ 2 = 1 / 2 by rw [pow_two, r2_sq], Complex.I_sq, show Complex.I ^ 3 = -Complex.I by
      rw [pow_succ, Complex.I_sq]; ring, show Complex.I ^ 4 = 1 by rw [show 4 = 2 * 2 from rfl, pow_mul, Complex.I_sq]; ring,
      show Complex.I ^ 5 = Complex.I by rw [show 5 = 2 * 2 + 1 from rfl, pow_succ, pow_mul, Complex.I_sq]; ring] <;> ring_nf))

theorem undoLetter_op (n : ℕ) (p : PL) : UpToPhase (circOp (undoLetter n p)) (circOp (pauliOp n p true)) := by
  rw [circOp_pauliOp_inv]
  cases p
  · simpa [undoLetter, circOp, wm, site_one] using UpToPhase.refl 1
  · refine ⟨om, om_norm, ?_⟩
    rw [← site_smul]
    simp only [undoLetter, circOp, opQ, wm, one_mul, ← site_mul, mat2_mul]
    congr 1
    fin2
  · refine ⟨om, om_norm, ?_⟩
    rw [← site_smul]
    simp only [undoLetter, circOp, opQ, wm, one_mul, ← site_mul, mat2_mul]
    congr 1
    fin2
  · simpa [undoLetter, circOp, wm, site_one] using UpToPhase.refl 1

theorem redoLetter_op (n : ℕ) (p : PL) : UpToPhase (circOp (redoLetter n p)) (circOp (pauliOp n p false)) := by
  rw [circOp_pauliOp]
  cases p
  · simpa [redoLetter, circOp, vm, site_one] using UpToPhase.refl 1
  · refine ⟨om, om_norm, ?_⟩
    rw [← site_smul]
    simp only [redoLetter, circOp, opQ, vm, one_mul, ← site_mul, mat2_mul]
    congr 1
    fin2
  · refine ⟨om, om_norm, ?_⟩
    rw [← site_smul]
    simp only [redoLetter, circOp, opQ, vm, one_mul, ← site_mul, mat2_mul]
    congr 1
    fin2
  · simpa [redoLetter, circOp, vm, site_one] using UpToPhase.refl 1

theorem undoFrom_op (s : PStr) (k : ℕ) : UpToPhase (circOp (undoFrom k s)) (circOp (invFrom k s)) := by
  induction s generalizing k with
  | nil => exact UpToPhase.refl _
  | cons p s ih =>
    rw [undoFrom, invFrom, circOp_append, circOp_append]
    exact (ih (k + 1)).mul (undoLetter_op k p)

theorem redoFrom_op (s : PStr) (k : ℕ) : UpToPhase (circOp (redoFrom k s)) (circOp (measFrom k s)) := by
  induction s generalizing k with
  | nil => exact UpToPhase.refl _
  | cons p s ih =>
    rw [redoFrom, measFrom, circOp_append, circOp_append]
    exact (ih (k + 1)).mul (redoLetter_op k p)

/-! ### The amplitudes stored for each basis -/

/-- `v` lists the amplitudes of `φ` up to one phase factor. -/
def SameState (v : ℕ → ℂ) (φ : Cfg → ℂ) : Prop := ∃ c : ℂ, ‖c‖ = 1 ∧ ∀ l, v l = c * φ (cfgOf l)

/-- **C94.**  For every prepared state and every list of bases: the simulation returns exactly when there is a basis and
no basis is longer than the register; what it stores for a basis are the amplitudes after that basis's own gates, up to
a phase, although only the first circuit was run; and the state kept as `psi` is the prepared one, up to a phase. -/
theorem C94_amplitudes (Nq : ℕ) (bases : List PStr) (prep : Cfg → ℂ) :
    ((∃ r, simulate Nq bases prep = some r) ↔ bases ≠ [] ∧ ∀ b ∈ bases, b.length ≤ Nq) ∧
    ∀ cnt psi, simulate Nq bases prep = some (cnt, psi) →
      (∀ b ∈ bases, ∃ v, dget cnt b = some v ∧ SameState v (circOp (measFrom 0 b) prep)) ∧
      (∀ b v, dget cnt b = some v → b ∈ bases) ∧
      (2 ≤ bases.length → ∃ v, psi = some v ∧ SameState v prep) := by
  cases bases with
  | nil => simp [simulate]
  | cons c0 rest =>
    have hundo : UpToPhase (circOp (undoFrom 0 c0) * circOp (measFrom 0 c0)) 1 := by
      have := (undoFrom_op c0 0).mul (UpToPhase.refl (circOp (measFrom 0 c0)))
      rwa [inv_meas] at this
    constructor
    · unfold simulate
      simp only
      split
      · rename_i h
        rw [List.any_eq_true] at h
        obtain ⟨c, hc, h⟩ := h
        simp only [decide_eq_true_eq] at h
        constructor
        · rintro ⟨r, hr⟩; cases hr
        · rintro ⟨_, h'⟩; exact absurd (h' c hc) (by omega)
      · rename_i h
        refine ⟨fun _ => ⟨by simp, ?_⟩, fun _ => ⟨_, rfl⟩⟩
        intro b hb
        by_contra hlt
        exact h (List.any_eq_true.mpr ⟨b, hb, by simp only [decide_eq_true_eq]; omega⟩)
    · intro cnt psi h
      unfold simulate at h
      simp only at h
      split at h
      · cases h
      · obtain ⟨rfl, rfl⟩ := Prod.mk.inj (Option.some.inj h)
        have hkeys : (((c0 :: rest).zip (circOp (measFrom 0 c0) prep :: rest.map (fun c =>
            circOp (undoFrom 0 c0 ++ redoFrom 0 c) (circOp (measFrom 0 c0) prep)))).map
            (fun x => (x.1, fun l => x.2 (cfgOf l)))).map (·.1) = c0 :: rest := by
          rw [List.map_map]
          exact List.map_fst_zip (by simp)
        have hval : ∀ x ∈ (c0 :: rest).zip (circOp (measFrom 0 c0) prep :: rest.map (fun c =>
            circOp (undoFrom 0 c0 ++ redoFrom 0 c) (circOp (measFrom 0 c0) prep))),
            SameState (fun l => x.2 (cfgOf l)) (circOp (measFrom 0 x.1) prep) := by
          intro x hx
          rw [List.zip_cons_cons, List.mem_cons] at hx
          rcases hx with rfl | hx
          · exact ⟨1, by simp, by simp⟩
          · rw [← List.map_id rest, List.map_id, List.zip_map_right, List.mem_map] at hx
            obtain ⟨y, hy, rfl⟩ := hx
            have hyy : y.1 = y.2 := by
              have : ∀ (l : List PStr) (y : PStr × PStr), y ∈ l.zip l → y.1 = y.2 := by
                intro l
                induction l with
                | nil => simp
                | cons a l ih =>
                  intro y hy
                  rw [List.zip_cons_cons, List.mem_cons] at hy
                  rcases hy with rfl | hy
                  · rfl
                  · exact ih y hy
              exact this _ _ hy
            obtain ⟨c, hc, e⟩ := (redoFrom_op y.1 0).mul hundo
            refine ⟨c, hc, ?_⟩
            intro l
            simp only [Prod.map, id, ← hyy]
            rw [circOp_append, Module.End.mul_apply, ← Module.End.mul_apply (circOp (undoFrom 0 c0)), ←
              Module.End.mul_apply, e, mul_one]
            rfl
        refine ⟨?_, ?_, ?_⟩
        · intro b hb
          obtain ⟨v, hv⟩ := dget_isSome _ b (hkeys.symm ▸ hb)
          refine ⟨v, hv, ?_⟩
          obtain ⟨x, hx, e⟩ := List.mem_map.mp (dget_mem _ _ _ hv)
          obtain ⟨rfl, rfl⟩ := Prod.mk.inj e
          exact hval x hx
        · intro b v hv
          rw [← hkeys]
          exact List.mem_map_of_mem (f := (·.1)) (dget_mem _ _ _ hv)
        · intro h2
          have : rest.isEmpty = false := by
            cases rest with
            | nil => simp at h2
            | cons a l => rfl
          rw [this]
          refine ⟨_, rfl, ?_⟩
          obtain ⟨c, hc, e⟩ := hundo
          exact ⟨c, hc, fun l => by rw [← Module.End.mul_apply, e]; rfl⟩

theorem statevector_phase (n : ℕ) (s : PStr) (v : ℕ → ℂ) (φ : Cfg → ℂ) (h : SameState v φ) :
    statevector n s v = statevector n s (fun l => φ (cfgOf l)) := by
  obtain ⟨c, hc, h⟩ := h
  rw [statevector_eq, statevector_eq]
  apply Finset.sum_congr rfl
  intro l _
  rw [h l, norm_mul, hc, one_mul]

/-- **C94, values.**  The value read from the stored amplitudes for any string recoverable from a measured basis is
`⟨ψ|P|ψ⟩` of the prepared state, up to the skipped amplitudes. -/
theorem C94_values (Nq : ℕ) (bases : List PStr) (prep : Cfg → ℂ) (cnt : List (PStr × (ℕ → ℂ))) (psi : Option (ℕ → ℂ))
    (h : simulate Nq bases prep = some (cnt, psi)) (b : PStr) (hb : b ∈ bases) (s : PStr) (hs : Recoverable s b) :
    ∃ v, dget cnt b = some v ∧
      ‖(statevector Nq s v : ℂ) - innerQ Nq prep ((denP 0 s : Oper ℂ) prep)‖ ≤ 2 ^ Nq * 1e-28 := by
  obtain ⟨hiff, hc⟩ := C94_amplitudes Nq bases prep
  have hl := (hiff.mp ⟨_, h⟩).2 b hb
  obtain ⟨v, hv, hsame⟩ := (hc cnt psi h).1 b hb
  refine ⟨v, hv, ?_⟩
  rw [statevector_phase Nq s v _ hsame, ← C61_measurement Nq s b hs hl, ← innerQ_z]
  exact C26_statevector Nq s (by rw [hs.1]; omega) _

/-- Two qubits, three bases, `(|00⟩ + i|11⟩)/√2`-like state: the simulation returns. -/
example : ∃ r, simulate 2 [[.X, .Y], [.Z, .Z], [.Y, .X]] (fun b => if b 0 = b 1 then (if b 0 then Complex.I else 1) else 0) = some r :=
  (C94_amplitudes _ _ _).1.mpr ⟨by simp, by simp⟩

/-! ### The measurement plan -/

theorem distinct_mem (Qs : List (POp ℂ)) (s : PStr) : s ∈ distinct Qs ↔ ∃ Q ∈ Qs, s ∈ Q.map (·.1) := by
  have : ∀ (l acc : List PStr), s ∈ l.foldl (fun acc s => if s ∈ acc then acc else acc ++ [s]) acc ↔ s ∈ acc ∨ s ∈ l := by
    intro l
    induction l with
    | nil => simp
    | cons x l ih =>
      intro acc
      rw [List.foldl_cons, ih]
      by_cases h : x ∈ acc
      · rw [if_pos h, List.mem_cons]
        constructor
        · rintro (h1 | h1)
          · exact Or.inl h1
          · exact Or.inr (Or.inr h1)
        · rintro (h1 | rfl | h1)
          · exact Or.inl h1
          · exact Or.inl h
          · exact Or.inr h1
      · rw [if_neg h]
        simp only [List.mem_append, List.mem_cons, List.not_mem_nil, or_false]
        tauto
  unfold distinct
  rw [this]
  simp

/-- What is asked of the graph library: a proper colouring of every graph. -/
def ColouringOK (col : List PStr → ℕ → ℕ) : Prop :=
  ∀ items E, Grouping.edges .qwc items = some E → Grouping.Proper E items.length (col items)

/-- Giving every vertex its own colour is proper. -/
theorem colouring_id : ColouringOK (fun _ i => i) := by
  intro items E hE
  refine ⟨?_, items.length, fun v => ⟨fun h => ⟨v, h, rfl⟩, ?_⟩⟩
  · intro e he
    unfold Grouping.edges at hE
    obtain ⟨l, hl, rfl⟩ := Option.map_eq_some_iff.mp hE
    obtain ⟨x, hx, rfl⟩ := List.mem_map.mp he
    obtain ⟨q, hq, e1⟩ := mapM_mem_right _ _ _ hl x (List.mem_filter.mp hx).1
    obtain ⟨r, _, rfl⟩ := Option.map_eq_some_iff.mp e1
    unfold Grouping.visited at hq
    simp only [List.mem_flatMap, List.mem_range, List.mem_map] at hq
    obtain ⟨j, _, i, hi, rfl⟩ := hq
    show i ≠ j
    omega
  · rintro ⟨i, hi, rfl⟩
    exact hi

theorem simplify_ops_length (rel : Grouping.Rel) (col : ℕ → ℕ) (items : List PStr) (n : ℕ) (hn : ∀ s ∈ items, s.length = n)
    (ops : List PStr) (d : List (PStr × PStr)) (h : Grouping.simplify rel col items = some (ops, d)) :
    ∀ b ∈ ops, b.length = n := by
  unfold Grouping.simplify at h
  split at h
  · rename_i op
    obtain ⟨rfl, rfl⟩ : [op] = ops ∧ [(op, op)] = d := by simpa using h
    simpa using hn
  · split at h
    · cases h
    · split at h
      · cases h
      · rename_i ops' hb
        split at h
        · cases h
        · split at h
          · obtain ⟨rfl, rfl⟩ := Prod.mk.inj (Option.some.inj h)
            exact bases_length items col n hn ops' hb
          · cases h

theorem recoverable_z (s : PStr) (h : ztype s = true) : Recoverable s (List.replicate s.length .Z) := by
  refine ⟨by simp, ?_⟩
  induction s with
  | nil => simp
  | cons x s ih =>
    unfold ztype at h
    rw [List.all_cons, Bool.and_eq_true] at h
    intro p hp
    rw [List.length_cons, List.replicate_succ, List.zip_cons_cons, List.mem_cons] at hp
    rcases hp with rfl | hp
    · simpa using h.1
    · exact ih h.2 p hp

/-- **C95.**  For every list of element operators on `Nq` qubits and every proper colouring, the measurement plan is
made; every string of every element is assigned a basis that is measured and from which the string can be read off; all
bases have one letter per qubit. -/
theorem C95_plan (real : Bool) (Nq : ℕ) (col : List PStr → ℕ → ℕ) (hcol : ColouringOK col) (Qs : List (POp ℂ))
    (hQ : ∀ Q ∈ Qs, ∀ u ∈ Q, u.1.length = Nq) :
    ∃ ops mp, measurements real Nq col Qs = some (ops, mp) ∧
      (∀ Q ∈ Qs, ∀ u ∈ Q, ∃ b, dget mp u.1 = some b ∧ b ∈ ops ∧ Recoverable u.1 b) ∧
      (∀ b ∈ ops, b.length = Nq) ∧ ((real = true ∨ ∃ Q ∈ Qs, Q ≠ []) → ops ≠ []) := by
  have hlen : ∀ s ∈ distinct Qs, s.length = Nq := by
    intro s hs
    obtain ⟨Q, hQ', hs⟩ := (distinct_mem Qs s).mp hs
    obtain ⟨u, hu, rfl⟩ := List.mem_map.mp hs
    exact hQ Q hQ' u hu
  set rest := if real then (distinct Qs).filter (fun s => !ztype s) else distinct Qs with hrest
  have hrlen : ∀ s ∈ rest, s.length = Nq := by
    intro s hs
    apply hlen
    rw [hrest] at hs
    cases real
    · exact hs
    · exact (List.mem_filter.mp hs).1
  obtain ⟨E, hE, hcomp⟩ := C25_complete_qwc (col rest) rest Nq hrlen
  obtain ⟨ops, d, hs⟩ := hcomp (hcol rest E hE)
  obtain ⟨snd1, snd2⟩ := C25_sound .qwc (col rest) rest Nq hrlen ops d hs
  have hol := simplify_ops_length .qwc (col rest) rest Nq hrlen ops d hs
  have hm : measurements real Nq col Qs = some (if real then ops ++ [List.replicate Nq .Z] else ops,
      d ++ (if real then ((distinct Qs).filter ztype).reverse else []).map (fun z => (z, List.replicate Nq .Z))) := by
    unfold measurements
    simp only
    rw [← hrest, hs]
    rfl
  refine ⟨_, _, hm, ?_, ?_, ?_⟩
  · intro Q hQ' u hu
    have hu' : u.1 ∈ distinct Qs := (distinct_mem Qs u.1).mpr ⟨Q, hQ', List.mem_map_of_mem hu⟩
    have hkey : u.1 ∈ (d ++ (if real then ((distinct Qs).filter ztype).reverse else []).map
        (fun z => (z, List.replicate Nq PL.Z))).map (·.1) := by
      rw [List.map_append, List.mem_append]
      by_cases hr : u.1 ∈ rest
      · left
        obtain ⟨b, hb, _⟩ := snd1 u.1 hr
        exact List.mem_map_of_mem (f := (·.1)) hb
      · right
        rw [hrest] at hr
        cases real
        · exact absurd hu' hr
        · simp only [if_true, List.mem_filter, not_and, Bool.not_eq_true', Bool.not_eq_false] at hr
          simp only [if_true, List.map_map, List.mem_map, List.mem_reverse, List.mem_filter]
          exact ⟨u.1, ⟨hu', hr hu'⟩, rfl⟩
    obtain ⟨b, hb⟩ := dget_isSome _ u.1 hkey
    refine ⟨b, hb, ?_⟩
    have := dget_mem _ _ _ hb
    rw [List.mem_append] at this
    rcases this with h | h
    · obtain ⟨_, h2, h3⟩ := snd2 u.1 b h
      refine ⟨?_, h3⟩
      cases real
      · exact h2
      · exact List.mem_append_left _ h2
    · cases real
      · simp at h
      · obtain ⟨z, hz, e⟩ := List.mem_map.mp h
        obtain ⟨rfl, rfl⟩ := Prod.mk.inj e
        simp only [if_true, List.mem_reverse, List.mem_filter] at hz
        refine ⟨by simp, ?_⟩
        have := recoverable_z u.1 hz.2
        rwa [hlen u.1 hu'] at this
  · intro b hb
    cases real
    · exact hol b hb
    · simp only [if_true, List.mem_append, List.mem_singleton] at hb
      rcases hb with hb | rfl
      · exact hol b hb
      · simp
  · intro h
    cases real
    · obtain ⟨Q, hQ', hne⟩ := h.resolve_left (by simp)
      obtain ⟨u, hu⟩ := List.exists_mem_of_ne_nil Q hne
      have hu' : u.1 ∈ distinct Qs := (distinct_mem Qs u.1).mpr ⟨Q, hQ', List.mem_map_of_mem hu⟩
      obtain ⟨b, hb, _⟩ := snd1 u.1 (by rw [hrest]; exact hu')
      have := (snd2 u.1 b hb).2.1
      intro he
      simp only [Bool.false_eq_true, if_false] at he
      rw [he] at this
      cases this
    · simp

/-! ### Total size of the coefficients -/

/-- Sum of the moduli of the coefficients. -/
def l1 {α : Type} (A : OpD α ℂ) : ℝ := (A.map (fun t => ‖t.2‖)).sum

theorem l1_nil {α : Type} : l1 ([] : OpD α ℂ) = 0 := rfl

theorem l1_cons {α : Type} (t : Term α ℂ) (A : OpD α ℂ) : l1 (t :: A) = ‖t.2‖ + l1 A := by simp [l1]

theorem l1_addStr {α : Type} [DecidableEq α] (A : OpD α ℂ) (hA : UniqueKeys A) (t : Term α ℂ) :
    l1 (OpD.addStr A t) ≤ l1 A + ‖t.2‖ := by
  unfold OpD.addStr
  split
  · rename_i hk
    have key : ∀ A : OpD α ℂ, UniqueKeys A →
        l1 (A.map (fun u => if u.1 = t.1 then (u.1, u.2 + t.2) else u)) ≤
          l1 A + (if t.1 ∈ A.map (·.1) then ‖t.2‖ else 0) := by
      intro A hA
      induction A with
      | nil => simp [l1]
      | cons u A ih =>
        have hu : u.1 ∉ A.map (·.1) := (List.nodup_cons.mp hA).1
        have ih := ih (List.nodup_cons.mp hA).2
        rw [List.map_cons, l1_cons, l1_cons]
        by_cases h : u.1 = t.1
        · rw [if_neg (by rw [← h]; exact hu)] at ih
          rw [if_pos h, if_pos (by simp [h])]
          have := norm_add_le u.2 t.2
          simp only
          linarith
        · have e : (t.1 ∈ (u :: A).map (·.1)) ↔ t.1 ∈ A.map (·.1) := by
            rw [List.map_cons, List.mem_cons]
            constructor
            · rintro (h' | h')
              · exact absurd h'.symm h
              · exact h'
            · exact Or.inr
          rw [if_neg h]
          simp only [e]
          linarith
    refine (key A hA).trans ?_
    split
    · exact le_rfl
    · have := norm_nonneg t.2
      linarith
  · unfold l1
    rw [List.map_append, List.sum_append]
    simp

theorem l1_foldl {α : Type} [DecidableEq α] (B A : OpD α ℂ) (hA : UniqueKeys A) :
    l1 (B.foldl OpD.addStr A) ≤ l1 A + l1 B := by
  induction B generalizing A with
  | nil => simp [l1]
  | cons t B ih =>
    rw [List.foldl_cons, l1_cons]
    have h1 := ih (OpD.addStr A t) (OpD.addStr_unique A t hA)
    have h2 := l1_addStr A hA t
    linarith

theorem l1_filter {α : Type} (A : OpD α ℂ) (P : Term α ℂ → Bool) : l1 (A.filter P) ≤ l1 A := by
  induction A with
  | nil => simp [l1]
  | cons t A ih =>
    rw [List.filter_cons, l1_cons]
    have := norm_nonneg t.2
    split
    · rw [l1_cons]; linarith
    · linarith

theorem l1_add {α : Type} [DecidableEq α] (A B : OpD α ℂ) (hA : UniqueKeys A) : l1 (OpD.add A B) ≤ l1 A + l1 B :=
  (l1_filter _ _).trans (l1_foldl B A hA)

theorem l1_spec (T : Term FStr ℂ → Option (POp ℂ)) (t : Term FStr ℂ) (R : Oper ℂ) (h : Spec T t R) (r : POp ℂ)
    (hr : T t = some r) : l1 r ≤ ‖t.2‖ := by
  by_cases hc : nLetters t.1 = 0 ∨ small (t.2 / 2 ^ nLetters t.1) = false
  · obtain ⟨r', e1, _, _, e4, e5, _⟩ := h.above hc
    obtain rfl : r = r' := by rw [hr] at e1; exact Option.some.inj e1
    have hn : ∀ u ∈ r, ‖u.2‖ = ‖t.2‖ / 2 ^ nLetters t.1 := by
      intro u hu
      obtain ⟨e, he⟩ := e5 u hu
      have hI : ‖(I : ℂ)‖ = 1 := Complex.norm_I
      rw [he, norm_mul, norm_zpow, hI, one_zpow, mul_one, norm_div, norm_pow]
      simp
    have : l1 r = r.length * (‖t.2‖ / 2 ^ nLetters t.1) := by
      unfold l1
      rw [List.map_congr_left hn, List.map_const', List.sum_replicate, nsmul_eq_mul]
    rw [this, e4]
    push_cast
    rw [mul_div_cancel₀ _ (by positivity)]
  · push Not at hc
    have h0 := h.below hc.1 (by simpa using hc.2)
    obtain rfl : r = [] := by rw [hr] at h0; exact Option.some.inj h0
    rw [l1_nil]; exact norm_nonneg _

theorem l1_transform (T : Term FStr ℂ → Option (POp ℂ)) (R : FStr → Oper ℂ) (hT : ∀ t, Spec T t (R t.1))
    (A : OpD FStr ℂ) (C : POp ℂ) (h : OpD.transform T A = some C) : l1 C ≤ l1 A := by
  unfold OpD.transform at h
  obtain ⟨rs, hrs, rfl⟩ := Option.map_eq_some_iff.mp h
  have : ∀ (A : OpD FStr ℂ) (rs : List (POp ℂ)), A.mapM T = some rs → ∀ B : POp ℂ, UniqueKeys B →
      l1 (rs.foldl OpD.add B) ≤ l1 B + l1 A := by
    intro A
    induction A with
    | nil =>
      intro rs h B _
      simp at h
      subst h
      simp [l1]
    | cons t A ih =>
      intro rs h B hB
      rw [List.mapM_cons] at h
      cases ht : T t with
      | none => rw [ht] at h; cases h
      | some r =>
        cases hA : A.mapM T with
        | none => rw [ht, hA] at h; cases h
        | some rs' =>
          rw [ht, hA] at h
          obtain rfl : r :: rs' = rs := Option.some.inj h
          rw [List.foldl_cons, l1_cons]
          have h1 := ih rs' hA (OpD.add B r) (OpD.add_unique B r hB)
          have h2 := l1_add B r hB
          have h3 := l1_spec T t _ (hT t) r ht
          linarith
  simpa [l1_nil] using this A rs hrs [] OpD.uniqueKeys_nil

/-- The coefficients of an element's qubit operator add up to at most 1. -/
theorem l1_rdmeQub (T : Term FStr ℂ → Option (POp ℂ)) (R : FStr → Oper ℂ) (hT : ∀ t, Spec T t (R t.1)) (f : Flags)
    (ind ind' : List ℕ) (N : ℕ) (Q : POp ℂ) (h : rdmeQubT T f ind N = some (ind', Q)) : l1 Q ≤ 1 := by
  unfold rdmeQubT at h
  obtain ⟨r, hr, h⟩ := Option.bind_eq_some_iff.mp h
  obtain ⟨q, hq, e⟩ := Option.map_eq_some_iff.mp h
  obtain ⟨_, rfl⟩ := Prod.mk.inj e
  refine (l1_transform T R hT _ _ hq).trans ?_
  unfold rdmeOp at hr
  split at hr
  · rename_i hf
    simp only at hr
    split at hr
    · cases hr
    · obtain ⟨a, ha, hr⟩ := Option.bind_eq_some_iff.mp hr
      split at hr
      · cases hr
      · obtain ⟨b, hb, rfl⟩ := Option.map_eq_some_iff.mp hr
        have ca := (generate_size _ _ _ _ ha).2
        have cb := (generate_size _ _ _ _ hb).2
        have hn : ∀ (r : Term FStr ℂ) (w : ℂ), (r.2 = w ∨ r.2 = -w ∨ r.2 = 0) → ‖r.2‖ ≤ ‖w‖ := by
          rintro r w (h | h | h) <;> rw [h] <;> simp
        have ha' := hn _ _ ca
        have hb' := hn _ _ cb
        have h1 := l1_addStr (OpD.addStr [] a) (OpD.addStr_unique _ _ OpD.uniqueKeys_nil) b
        have h2 := l1_addStr [] OpD.uniqueKeys_nil a
        rw [l1_nil] at h2
        have h3 : ‖(half f.real + half f.imag : ℂ)‖ + ‖(half f.real - half f.imag : ℂ)‖ ≤ 1 := by
          obtain ⟨r, i⟩ := f
          cases r <;> cases i <;> simp [half] at hf ⊢ <;> norm_num
        simp only
        linarith
  · cases hr

/-! ### From amplitudes to expectation values -/

theorem exists_cfgOf (N : ℕ) (b : Cfg) (h : ∀ i, N ≤ i → b i = false) : ∃ l < 2 ^ N, cfgOf l = b := by
  refine ⟨Nat.ofBits (fun i : Fin N => b i), Nat.ofBits_lt_two_pow _, ?_⟩
  funext i
  unfold cfgOf
  by_cases hi : i < N
  · rw [Nat.testBit_ofBits_lt _ _ hi]
  · rw [Nat.testBit_ofBits_ge _ _ (by omega), h i (by omega)]

theorem cfgOf_inj {l m : ℕ} (h : cfgOf l = cfgOf m) : l = m := Nat.eq_of_testBit_eq (fun i => congrFun h i)

/-- On a register of `N` qubits the two inner products agree. -/
theorem pair_eq_innerQ (N : ℕ) (ψ : Cfg →₀ ℂ) (hψ : ∀ b, ψ b ≠ 0 → ∀ i, N ≤ i → b i = false) (φ : Cfg → ℂ) :
    pair ψ φ = innerQ N ψ φ := by
  classical
  unfold pair innerQ
  have hinj : Set.InjOn cfgOf (Finset.range (2 ^ N) : Set ℕ) := fun _ _ _ _ h => cfgOf_inj h
  rw [Finsupp.sum, ← Finset.sum_image (f := fun b => (starRingEnd ℂ) (ψ b) * φ b) hinj]
  apply Finset.sum_subset
  · intro b hb
    obtain ⟨l, hl, e⟩ := exists_cfgOf N b (hψ b (Finsupp.mem_support_iff.mp hb))
    exact Finset.mem_image.mpr ⟨l, Finset.mem_range.mpr hl, e⟩
  · intro b _ hb
    rw [Finsupp.notMem_support_iff.mp hb]
    show (starRingEnd ℂ) 0 * φ b = 0
    rw [map_zero, zero_mul]

/-! ### Errors in the filled tensor -/

open Classical in
theorem F_norm (l l' : List ℕ) (hne : l ≠ []) (h3 : l.length ≤ 3) (hn : l.Nodup) :
    ‖(F l l' : ℂ)‖ ≤ if l'.Perm l then 1 else 0 := by
  have hs : ∀ x ∈ Rec.unorderedPermute l, ‖((x.2 : ℤ) : ℂ)‖ ≤ 1 := by
    match l, hne, h3 with
    | [a], _, _ => rw [up1]; simp
    | [a, b], _, _ => rw [up2]; simp
    | [a, b, c], _, _ => rw [up3]; simp
    | _ :: _ :: _ :: _ :: _, _, h => simp at h; omega
  have key : ∀ L : List (List ℕ × ℤ), (∀ x ∈ L, ‖((x.2 : ℤ) : ℂ)‖ ≤ 1) →
      ‖(L.map (fun x => ((x.2 : ℤ) : ℂ) * if x.1 = l' then 1 else 0)).sum‖ ≤ ((L.map (·.1)).count l' : ℝ) := by
    intro L
    induction L with
    | nil => simp
    | cons x L ih =>
      intro h
      rw [List.map_cons, List.sum_cons, List.map_cons, List.count_cons]
      have h1 := ih (fun y hy => h y (List.mem_cons_of_mem _ hy))
      have h2 := h x List.mem_cons_self
      refine (norm_add_le _ _).trans ?_
      by_cases he : x.1 = l'
      · simp only [he, if_true, mul_one, beq_self_eq_true]
        push_cast
        linarith
      · simpa [he] using h1
  unfold F
  refine (key _ hs).trans ?_
  rw [(C29_nodup l hne hn).count]
  by_cases hm : l'.Perm l
  · rw [if_pos hm, if_pos ((C29_all_permutations l hne l').mpr hm)]; simp
  · rw [if_neg hm, if_neg (fun h => hm ((C29_all_permutations l hne l').mp h))]; simp

/-- An entry of the filled tensor as a sum over the elements. -/
theorem fill_sum (p Na N : ℕ) (skip : Bool) (L : List (List ℕ)) (hL : ListsUnique p Na N skip L) (v : List ℕ → ℂ)
    (c' a' : List ℕ) (hc' : c'.length = p) (ha' : a'.length = p) :
    build p (L.map (fun ind => (ind, v ind))) (c' ++ a') =
      (L.map (fun ind => v ind * F (split p ind).1 c' * F (split p ind).2 a' +
        if sameSet (split p ind).2 (split p ind).1 then 0 else
          conj (v ind) * F (split p ind).2 c' * F (split p ind).1 a')).sum := by
  have hs : ∀ ind ∈ L, Sorted p N (split p ind).1 ∧ Sorted p N (split p ind).2 := by
    intro ind hind
    obtain ⟨c, a, rfl, h1, h2, h3⟩ := hL.1 ind hind
    have : split p (c ++ a.reverse) = (c, a) := by simp [split, List.take_left' h1.1, List.drop_left' h1.1]
    rw [this]
    exact ⟨h1, h2⟩
  rw [build_split p L v]
  have := build_eq p (L.map (fun ind => (split p ind, v ind))) (by
    intro r hr
    obtain ⟨ind, hind, rfl⟩ := List.mem_map.mp hr
    exact ⟨(hs ind hind).1.1, (hs ind hind).2.1⟩) c' a' hc' ha'
  unfold entry at this
  rw [this, List.map_map]
  rfl

/-- Every entry takes its error from at most one element. -/
theorem fill_local (p Na N : ℕ) (hp0 : 0 < p) (hp : p ≤ 3) (skip : Bool) (L : List (List ℕ))
    (hL : ListsUnique p Na N skip L)
    (c' a' : List ℕ) (hc' : c'.length = p) (ha' : a'.length = p) (hcN : ∀ x ∈ c', x < N) (haN : ∀ x ∈ a', x < N) :
    ∃ n : List ℕ → ℕ, (L.map n).sum ≤ 1 ∧ ∀ v w : List ℕ → ℂ,
      ‖build p (L.map (fun ind => (ind, v ind))) (c' ++ a') - build p (L.map (fun ind => (ind, w ind))) (c' ++ a')‖ ≤
        (L.map fun ind => (n ind : ℝ) * ‖v ind - w ind‖).sum := by
  classical
  have hs : ∀ ind ∈ L, Sorted p N (split p ind).1 ∧ Sorted p N (split p ind).2 ∧
      nAlpha Na (split p ind).1 = nAlpha Na (split p ind).2 ∧
      ind = (split p ind).1 ++ (split p ind).2.reverse := by
    intro ind hind
    obtain ⟨c, a, rfl, h1, h2, h3⟩ := hL.1 ind hind
    have : split p (c ++ a.reverse) = (c, a) := by simp [split, List.take_left' h1.1, List.drop_left' h1.1]
    rw [this]
    exact ⟨h1, h2, h3, rfl⟩
  refine ⟨fun ind => (if c'.Perm (split p ind).1 ∧ a'.Perm (split p ind).2 then 1 else 0) +
        (if (split p ind).1 = (split p ind).2 then 0 else
          if c'.Perm (split p ind).2 ∧ a'.Perm (split p ind).1 then 1 else 0), ?_, ?_⟩
  swap
  · intro v w
    rw [fill_sum p Na N skip L hL v c' a' hc' ha', fill_sum p Na N skip L hL w c' a' hc' ha']
    -- which elements contribute
    have hterm : ∀ ind ∈ L, ‖(v ind * F (split p ind).1 c' * F (split p ind).2 a' +
          if sameSet (split p ind).2 (split p ind).1 then 0 else
            conj (v ind) * F (split p ind).2 c' * F (split p ind).1 a') -
        (w ind * F (split p ind).1 c' * F (split p ind).2 a' +
          if sameSet (split p ind).2 (split p ind).1 then 0 else
            conj (w ind) * F (split p ind).2 c' * F (split p ind).1 a')‖ ≤
        ‖v ind - w ind‖ * ((if c'.Perm (split p ind).1 ∧ a'.Perm (split p ind).2 then 1 else 0) +
          (if (split p ind).1 = (split p ind).2 then 0 else
            if c'.Perm (split p ind).2 ∧ a'.Perm (split p ind).1 then 1 else 0)) := by
      intro ind hind
      obtain ⟨h1, h2, _, _⟩ := hs ind hind
      set c := (split p ind).1
      set a := (split p ind).2
      have hne : ∀ {l : List ℕ}, Sorted p N l → l ≠ [] := by
        intro l hl he
        have := hl.1
        rw [he] at this
        simp at this
        omega
      have nd : ∀ {l : List ℕ}, Sorted p N l → l.Nodup := fun hl => hl.2.1.imp (fun h => by omega)
      have fn : ∀ {l : List ℕ} (l' : List ℕ), Sorted p N l → ‖(F l l' : ℂ)‖ ≤ if l'.Perm l then 1 else 0 :=
        fun l' hl => F_norm _ l' (hne hl) (by rw [hl.1]; omega) (nd hl)
      have bound : ∀ (z : ℂ) (l m : List ℕ), ‖z‖ ≤ ‖v ind - w ind‖ → Sorted p N l → Sorted p N m →
          ‖z * F l c' * F m a'‖ ≤ ‖v ind - w ind‖ * (if c'.Perm l ∧ a'.Perm m then 1 else 0) := by
        intro z l m hz hl hm
        rw [norm_mul, norm_mul, mul_assoc]
        have e : (if c'.Perm l ∧ a'.Perm m then (1 : ℝ) else 0) = (if c'.Perm l then 1 else 0) * (if a'.Perm m then 1 else 0) := by
          by_cases h : c'.Perm l <;> by_cases h' : a'.Perm m <;> simp [h, h']
        rw [e]
        have := fn c' hl
        have := fn a' hm
        gcongr
      have hsame : sameSet a c = true ↔ c = a := by
        constructor
        · intro h
          simp [sameSet] at h
          exact sorted_perm_eq h1 h2 ((List.perm_ext_iff_of_nodup (nd h1) (nd h2)).mpr (fun x => ⟨h.2 x, h.1 x⟩))
        · intro h; simp [sameSet, h]
      have b1 := bound (v ind - w ind) c a le_rfl h1 h2
      have hcj : ∀ z : ℂ, (conj z : ℂ) = (starRingEnd ℂ) z := fun z => rfl
      have b2 := bound (conj (v ind) - conj (w ind)) a c (by rw [hcj, hcj, ← map_sub, RCLike.norm_conj]) h2 h1
      by_cases he : c = a
      · rw [if_pos (hsame.mpr he), if_pos (hsame.mpr he), if_pos he, add_zero, add_zero, add_zero]
        rw [← sub_mul, ← sub_mul]
        exact b1
      · rw [if_neg (fun h => he (hsame.mp h)), if_neg (fun h => he (hsame.mp h)), if_neg he]
        have e : ∀ x y z u : ℂ, (x + y) - (z + u) = (x - z) + (y - u) := by intros; ring
        rw [e, ← sub_mul, ← sub_mul, ← sub_mul, ← sub_mul, mul_add]
        exact (norm_add_le _ _).trans (add_le_add b1 b2)
    have hfin : ∀ (M : List (List ℕ)) (x y : List ℕ → ℂ) (n : List ℕ → ℕ), (∀ i ∈ M, ‖x i - y i‖ ≤ ‖v i - w i‖ * n i) →
        ‖(M.map x).sum - (M.map y).sum‖ ≤ (M.map fun i => (n i : ℝ) * ‖v i - w i‖).sum := by
      intro M x y n h
      induction M with
      | nil => simp
      | cons i M ih =>
        have h1 := ih (fun j hj => h j (List.mem_cons_of_mem _ hj))
        have h2 := h i List.mem_cons_self
        simp only [List.map_cons, List.sum_cons]
        have e : x i + (M.map x).sum - (y i + (M.map y).sum) = (x i - y i) + ((M.map x).sum - (M.map y).sum) := by ring
        rw [e]
        exact (norm_add_le _ _).trans (add_le_add (h2.trans (le_of_eq (mul_comm _ _))) h1)
    refine hfin L _ _ _ (fun ind hind => (hterm ind hind).trans (le_of_eq ?_))
    push_cast
    rfl
  by_cases hnd : c'.Nodup ∧ a'.Nodup
  swap
  · have hz : ∀ ind ∈ L, ((if c'.Perm (split p ind).1 ∧ a'.Perm (split p ind).2 then 1 else 0) +
      (if (split p ind).1 = (split p ind).2 then 0 else
        if c'.Perm (split p ind).2 ∧ a'.Perm (split p ind).1 then 1 else 0) : ℕ) = 0 := by
      intro ind hind
      obtain ⟨h1, h2, _, _⟩ := hs ind hind
      have nd : ∀ {l : List ℕ}, Sorted p N l → l.Nodup := fun hl => hl.2.1.imp (fun h => by omega)
      have n1 : ¬(c'.Perm (split p ind).2 ∧ a'.Perm (split p ind).1) := by
        rintro ⟨q1, q2⟩
        exact hnd ⟨q1.nodup_iff.mpr (nd h2), q2.nodup_iff.mpr (nd h1)⟩
      have n2 : ¬(c'.Perm (split p ind).1 ∧ a'.Perm (split p ind).2) := by
        rintro ⟨q1, q2⟩
        exact hnd ⟨q1.nodup_iff.mpr (nd h1), q2.nodup_iff.mpr (nd h2)⟩
      rw [if_neg n1, if_neg n2, ite_self]
    rw [List.map_congr_left hz]
    simp
  obtain ⟨c0, hc0, hpc⟩ := exists_sorted p N c' hc' hnd.1 hcN
  obtain ⟨a0, ha0, hpa⟩ := exists_sorted p N a' ha' hnd.2 haN
  have hcond : ∀ ind ∈ L, ((if c'.Perm (split p ind).1 ∧ a'.Perm (split p ind).2 then 1 else 0) +
      (if (split p ind).1 = (split p ind).2 then 0 else
        if c'.Perm (split p ind).2 ∧ a'.Perm (split p ind).1 then 1 else 0) : ℕ) =
      (if ind = c0 ++ a0.reverse then 1 else 0) + (if c0 = a0 then 0 else if ind = a0 ++ c0.reverse then 1 else 0) := by
    intro ind hind
    obtain ⟨h1, h2, _, h4⟩ := hs ind hind
    have q : ∀ {l m m0 : List ℕ}, Sorted p N l → Sorted p N m0 → m.Perm m0 → (m.Perm l ↔ l = m0) :=
      fun hl hm h => ⟨fun h' => sorted_perm_eq hl hm (h'.symm.trans h), fun h' => h' ▸ h⟩
    have e1 := q h1 hc0 hpc
    have e2 := q h2 ha0 hpa
    have e3 := q h2 hc0 hpc
    have e4 := q h1 ha0 hpa
    have i1 : ind = c0 ++ a0.reverse ↔ (split p ind).1 = c0 ∧ (split p ind).2 = a0 := by
      constructor
      · rintro rfl; simp [split, List.take_left' hc0.1, List.drop_left' hc0.1]
      · rintro ⟨x, y⟩; rw [h4, x, y]
    have i2 : ind = a0 ++ c0.reverse ↔ (split p ind).1 = a0 ∧ (split p ind).2 = c0 := by
      constructor
      · rintro rfl; simp [split, List.take_left' ha0.1, List.drop_left' ha0.1]
      · rintro ⟨x, y⟩; rw [h4, x, y]
    simp only [e1, e2, e3, e4, i1, i2]
    congr 1
    by_cases h : (split p ind).1 = a0 ∧ (split p ind).2 = c0
    · have h2' : (split p ind).2 = c0 ∧ (split p ind).1 = a0 := ⟨h.2, h.1⟩
      simp only [if_pos h, if_pos h2']
      rw [h.1, h.2]
      by_cases h' : a0 = c0
      · rw [if_pos h', if_pos h'.symm]
      · rw [if_neg h', if_neg (Ne.symm h')]
    · have h2' : ¬((split p ind).2 = c0 ∧ (split p ind).1 = a0) := fun h' => h ⟨h'.2, h'.1⟩
      simp only [if_neg h, if_neg h2', ite_self]
  rw [List.map_congr_left hcond]
  have ck : ∀ (M : List (List ℕ)) (q : List ℕ), (M.map (fun x => if x = q then 1 else 0)).sum = M.count q := by
    intro M q
    induction M with
    | nil => rfl
    | cons x M ih =>
      rw [List.map_cons, List.sum_cons, ih, List.count_cons]
      by_cases h : x = q <;> simp [h, add_comm]
  rw [List.sum_map_add, ck]
  have c2 : (L.map (fun ind => if c0 = a0 then 0 else if ind = a0 ++ c0.reverse then 1 else 0)).sum =
      if c0 = a0 then 0 else L.count (a0 ++ c0.reverse) := by
    by_cases h : c0 = a0
    · simp [h]
    · simp only [if_neg h]; exact ck L _
  rw [c2]
  by_cases hal : nAlpha Na c0 = nAlpha Na a0
  · have := hL.2 c0 a0 hc0 ha0 hal
    rw [this]
    split <;> simp
  · have z1 : L.count (c0 ++ a0.reverse) = 0 := by
      rw [List.count_eq_zero]
      intro hm
      have := (hs _ hm).2.2.1
      simp only [split, List.take_left' hc0.1, List.drop_left' hc0.1, List.reverse_reverse] at this
      exact hal this
    have z2 : L.count (a0 ++ c0.reverse) = 0 := by
      rw [List.count_eq_zero]
      intro hm
      have := (hs _ hm).2.2.1
      simp only [split, List.take_left' ha0.1, List.drop_left' ha0.1, List.reverse_reverse] at this
      exact hal this.symm
    rw [z1, z2]
    simp

/-- Values wrong by at most `ε` give entries wrong by at most `ε`. -/
theorem fill_error (p Na N : ℕ) (hp0 : 0 < p) (hp : p ≤ 3) (skip : Bool) (L : List (List ℕ))
    (hL : ListsUnique p Na N skip L) (v w : List ℕ → ℂ) (ε : ℝ) (hε : 0 ≤ ε) (hvw : ∀ ind ∈ L, ‖v ind - w ind‖ ≤ ε)
    (c' a' : List ℕ) (hc' : c'.length = p) (ha' : a'.length = p) (hcN : ∀ x ∈ c', x < N) (haN : ∀ x ∈ a', x < N) :
    ‖build p (L.map (fun ind => (ind, v ind))) (c' ++ a') - build p (L.map (fun ind => (ind, w ind))) (c' ++ a')‖ ≤ ε := by
  obtain ⟨n, h1, h2⟩ := fill_local p Na N hp0 hp skip L hL c' a' hc' ha' hcN haN
  refine (h2 v w).trans ?_
  have h3 : (L.map fun ind => (n ind : ℝ) * ‖v ind - w ind‖).sum ≤ ((L.map n).sum : ℕ) * ε := by
    clear h1 h2 hL
    induction L with
    | nil => simp
    | cons i L ih =>
      have i1 := ih fun j hj => hvw j (List.mem_cons_of_mem _ hj)
      simp only [List.map_cons, List.sum_cons, Nat.cast_add, add_mul]
      exact add_le_add (mul_le_mul_of_nonneg_left (hvw i List.mem_cons_self) (Nat.cast_nonneg _)) i1
  refine h3.trans ?_
  have : ((L.map n).sum : ℝ) ≤ 1 := by exact_mod_cast h1
  nlinarith

/-! ### The element operators are not zero -/

/-- Creating the occupied orbitals `c` of `b`, in order. -/
theorem cre_prod_apply (c : List ℕ) (hc : c.Nodup) (ψ : Cfg → ℂ) (b : Cfg) (hb : ∀ x ∈ c, b x = true) :
    ∃ e : ℂ, e ≠ 0 ∧ (c.map (cre (K := ℂ))).prod ψ b = e * ψ (fun i => b i && !(c.contains i)) := by
  induction c generalizing b with
  | nil => exact ⟨1, one_ne_zero, by simp⟩
  | cons k c ih =>
    have hk : k ∉ c := (List.nodup_cons.mp hc).1
    obtain ⟨e, he, h⟩ := ih (List.nodup_cons.mp hc).2 (Function.update b k false) (by
      intro x hx
      have : x ≠ k := fun h => hk (h ▸ hx)
      rw [Function.update_of_ne this]
      exact hb x (List.mem_cons_of_mem _ hx))
    refine ⟨fsign b k * e, mul_ne_zero (pow_ne_zero _ (by norm_num)) he, ?_⟩
    rw [List.map_cons, List.prod_cons, Module.End.mul_apply]
    show (if b k then fsign b k * ((c.map (cre (K := ℂ))).prod ψ) (Function.update b k false) else 0) = _
    rw [if_pos (hb k List.mem_cons_self), h, mul_assoc]
    congr 3
    funext i
    by_cases hi : i = k
    · subst hi; simp
    · rw [Function.update_of_ne hi]; simp [hi]

/-- Creating an orbital that is empty in `b` gives amplitude zero at `b`. -/
theorem cre_prod_zero (c : List ℕ) (ψ : Cfg → ℂ) (b : Cfg) (hb : ∃ x ∈ c, b x = false) :
    (c.map (cre (K := ℂ))).prod ψ b = 0 := by
  induction c generalizing b with
  | nil => obtain ⟨x, hx, _⟩ := hb; cases hx
  | cons k c ih =>
    rw [List.map_cons, List.prod_cons, Module.End.mul_apply]
    show (if b k then fsign b k * ((c.map (cre (K := ℂ))).prod ψ) (Function.update b k false) else 0) = _
    by_cases hk : b k = true
    · rw [if_pos hk, ih, mul_zero]
      obtain ⟨x, hx, hx'⟩ := hb
      rcases List.mem_cons.mp hx with rfl | hx
      · rw [hk] at hx'; cases hx'
      · refine ⟨x, hx, ?_⟩
        by_cases he : x = k
        · subst he; simp
        · rw [Function.update_of_ne he]; exact hx'
    · rw [if_neg hk]

/-- Annihilating the orbitals `a`, empty in `b`. -/
theorem ann_prod_apply (a : List ℕ) (ha : a.Nodup) (ψ : Cfg → ℂ) (b : Cfg) (hb : ∀ x ∈ a, b x = false) :
    ∃ e : ℂ, e ≠ 0 ∧ (a.map (ann (K := ℂ))).prod ψ b = e * ψ (fun i => b i || a.contains i) := by
  induction a generalizing b with
  | nil => exact ⟨1, one_ne_zero, by simp⟩
  | cons k a ih =>
    have hk : k ∉ a := (List.nodup_cons.mp ha).1
    obtain ⟨e, he, h⟩ := ih (List.nodup_cons.mp ha).2 (Function.update b k true) (by
      intro x hx
      have : x ≠ k := fun h => hk (h ▸ hx)
      rw [Function.update_of_ne this]
      exact hb x (List.mem_cons_of_mem _ hx))
    refine ⟨fsign b k * e, mul_ne_zero (pow_ne_zero _ (by norm_num)) he, ?_⟩
    rw [List.map_cons, List.prod_cons, Module.End.mul_apply]
    show (if b k then 0 else fsign b k * ((a.map (ann (K := ℂ))).prod ψ) (Function.update b k true)) = _
    rw [if_neg (by rw [hb k List.mem_cons_self]; simp), h, mul_assoc]
    congr 3
    funext i
    by_cases hi : i = k
    · subst hi; simp
    · rw [Function.update_of_ne hi]; simp [hi]

/-- An off-diagonal element is not proportional to its adjoint. -/
theorem rdmOp_ne (p N : ℕ) (c a : List ℕ) (hc : Sorted p N c) (ha : Sorted p N a) (hne : c ≠ a) (x y : ℂ) (hx : x ≠ 0) :
    x • rdmOp c a + y • rdmOp a c ≠ (0 : Oper ℂ) := by
  classical
  intro h
  have nc : c.Nodup := hc.2.1.imp (fun h => by omega)
  have na : a.Nodup := ha.2.1.imp (fun h => by omega)
  have h := congrFun (LinearMap.congr_fun h (fun b => if b = (fun i => a.contains i) then (1 : ℂ) else 0))
    (fun i => c.contains i)
  obtain ⟨e, he, h1⟩ := cre_prod_apply c nc ((a.reverse.map (ann (K := ℂ))).prod
    (fun b => if b = (fun i => a.contains i) then (1 : ℂ) else 0)) (fun i => c.contains i) (by intro x hx; simpa using hx)
  obtain ⟨e', he', h2⟩ := ann_prod_apply a.reverse (List.nodup_reverse.mpr na)
    (fun b => if b = (fun i => a.contains i) then (1 : ℂ) else 0) (fun _ => false) (by simp)
  have hz : ∃ x ∈ a, (fun i => c.contains i) x = false := by
    by_contra hcon
    push Not at hcon
    apply hne
    have hsub : a ⊆ c := by
      intro x hx
      have := hcon x hx
      simpa using this
    have := (List.subperm_of_subset na hsub).perm_of_length_le (by rw [hc.1, ha.1])
    exact sorted_perm_eq hc ha this.symm
  have h3 := cre_prod_zero a ((c.reverse.map (ann (K := ℂ))).prod
    (fun b => if b = (fun i => a.contains i) then (1 : ℂ) else 0)) _ hz
  simp only [rdmOp, LinearMap.add_apply, LinearMap.smul_apply, Module.End.mul_apply, Pi.add_apply, Pi.smul_apply,
    smul_eq_mul, LinearMap.zero_apply, Pi.zero_apply] at h
  rw [h1, h3, mul_zero, add_zero] at h
  have e0 : (fun i => c.contains i && !c.contains i) = fun _ : ℕ => false := by funext i; simp
  rw [e0, h2] at h
  have e1 : (fun i => false || a.reverse.contains i) = fun i => a.contains i := by funext i; simp
  rw [if_pos e1, mul_one] at h
  exact mul_ne_zero hx (mul_ne_zero he he') h

/-! ### End to end -/

/-- The value of an element read from the plan and the stored amplitudes. -/
theorem valueSV_spec (Nq : ℕ) (prep : Cfg → ℂ) (mp : List (PStr × PStr)) (cnt : List (PStr × (ℕ → ℂ))) (ε : ℝ) (hε : 0 ≤ ε)
    (Q : POp ℂ) (h : ∀ u ∈ Q, ∃ b v, dget mp u.1 = some b ∧ dget cnt b = some v ∧
      ‖(statevector Nq u.1 v : ℂ) - innerQ Nq prep ((denP 0 u.1 : Oper ℂ) prep)‖ ≤ ε) :
    ∃ x, valueSV Nq mp cnt Q = some x ∧
      ‖x - value (fun s => innerQ Nq prep ((denP 0 s : Oper ℂ) prep)) Q‖ ≤ ε * l1 Q := by
  unfold valueSV value
  induction Q with
  | nil => exact ⟨0, by simp, by simp [l1]⟩
  | cons t Q ih =>
    obtain ⟨x, hx, hb⟩ := ih (fun u hu => h u (List.mem_cons_of_mem _ hu))
    obtain ⟨xs, hxs, rfl⟩ := Option.map_eq_some_iff.mp hx
    obtain ⟨b, v, h1, h2, h3⟩ := h t List.mem_cons_self
    rw [List.mapM_cons, hxs, List.map_cons, List.sum_cons, l1_cons]
    by_cases hI : t.1.all (· = .I) = true
    · rw [if_pos hI, if_pos hI]
      refine ⟨t.2 + xs.sum, by simp, ?_⟩
      rw [add_sub_add_left_eq_sub]
      have := norm_nonneg t.2
      nlinarith
    · rw [if_neg hI, if_neg hI, h1, Option.bind_some, h2, Option.map_some]
      refine ⟨(statevector Nq t.1 v : ℂ) * t.2 + xs.sum, by simp, ?_⟩
      have e : ∀ x y z w : ℂ, x + y - (z + w) = (x - z) + (y - w) := by intros; ring
      rw [e, ← sub_mul, mul_add]
      refine (norm_add_le _ _).trans (add_le_add ?_ hb)
      rw [norm_mul]
      exact mul_le_mul_of_nonneg_right h3 (norm_nonneg _)

/-- Tomography with the state-vector backend returns what exact expectation values of the same state would give, up to
the skipped amplitudes; for every transform. -/
theorem statevector_of_exact (T : Term FStr ℂ → Option (POp ℂ)) (p : ℕ) (f : Flags) (hp0 : 0 < p) (hp3 : p ≤ 3)
    (Na N : ℕ) (alp bet : List ℕ) (hlen : alp.length + bet.length = N) (hL : ListsUnique p Na N f.skipDiag (rdme p f alp bet))
    (hL0 : rdme p f alp bet ≠ []) (col : List PStr → ℕ → ℕ) (hcol : ColouringOK col)
    (ψ : Cfg →₀ ℂ) (hreg : ∀ b, ψ b ≠ 0 → ∀ i, N ≤ i → b i = false)
    (hel : ∀ ind ∈ rdme p f alp bet, ∃ Q : POp ℂ, rdmeQubT T f ind (N) = some (ind, Q) ∧
      (∀ u ∈ Q, u.1.length = N) ∧ l1 Q ≤ 1 ∧ (f.real = false → Q ≠ []))
    (D0 : List ℕ → ℂ)
    (hD0 : tomographyT T p f alp bet (fun s => pair ψ (denP 0 s ψ)) = some D0) :
    ∃ D, runT T p f alp bet col ψ = some D ∧
      ∀ c a : List ℕ, c.length = p → a.length = p → (∀ x ∈ c, x < N) → (∀ x ∈ a, x < N) →
        ‖D (c ++ a) - D0 (c ++ a)‖ ≤ 2 ^ (N) * 1e-28 := by
  set L := rdme p f alp bet with hLdef
  choose! Qof hQ1 hQ2 hQ3 hQ4 using hel
  have hels : L.mapM (fun ind => rdmeQubT T f ind N) = some (L.map (fun ind => (ind, Qof ind))) :=
    mapM_eq_map L _ _ hQ1
  -- the plan
  obtain ⟨ops, mp, hm, hm1, hm2, hm3⟩ := C95_plan f.real N col hcol (L.map Qof) (by
    intro Q hQ
    obtain ⟨ind, hind, rfl⟩ := List.mem_map.mp hQ
    exact hQ2 ind hind)
  have hops : ops ≠ [] := by
    apply hm3
    by_cases hr : f.real = true
    · exact Or.inl hr
    · right
      obtain ⟨ind, hind⟩ := List.exists_mem_of_ne_nil L hL0
      exact ⟨Qof ind, List.mem_map_of_mem hind, hQ4 ind hind (by simpa using hr)⟩
  -- the simulation
  obtain ⟨⟨cnt, psi⟩, hsim⟩ := (C94_amplitudes N ops ψ).1.mpr ⟨hops, fun b hb => (hm2 b hb).le⟩
  have hε : (0 : ℝ) ≤ 2 ^ N * 1e-28 := by positivity
  -- the values
  have hmeas : (fun s => innerQ N ψ ((denP 0 s : Oper ℂ) ψ)) = fun s => pair ψ (denP 0 s ψ) := by
    funext s
    exact (pair_eq_innerQ N ψ hreg _).symm
  have hval : ∀ ind ∈ L, ∃ x, valueSV N mp cnt (Qof ind) = some x ∧
      ‖x - value (fun s => pair ψ (denP 0 s ψ)) (Qof ind)‖ ≤ 2 ^ N * 1e-28 := by
    intro ind hind
    obtain ⟨x, hx, hb⟩ := valueSV_spec N ψ mp cnt (2 ^ N * 1e-28) hε (Qof ind) (by
      intro u hu
      obtain ⟨b, hb1, hb2, hb3⟩ := hm1 (Qof ind) (List.mem_map_of_mem hind) u hu
      obtain ⟨v, hv1, hv2⟩ := C94_values N ops ψ cnt psi hsim b hb2 u.1 hb3
      exact ⟨b, v, hb1, hv1, hv2⟩)
    rw [hmeas] at hb
    refine ⟨x, hx, hb.trans ?_⟩
    have := hQ3 ind hind
    nlinarith
  choose! val hv1 hv2 using hval
  have hvals : (L.map (fun ind => (ind, Qof ind))).mapM (fun e => (valueSV N mp cnt e.2).map (fun v => (e.1, v))) =
      some (L.map (fun ind => (ind, val ind))) := by
    have := mapM_eq_map (L.map (fun ind => (ind, Qof ind))) (fun e => (valueSV N mp cnt e.2).map (fun v => (e.1, v)))
      (fun e => (e.1, val e.1)) (by
        intro e he
        obtain ⟨ind, hind, rfl⟩ := List.mem_map.mp he
        rw [hv1 ind hind]
        rfl)
    rw [this, List.map_map]
    rfl
  refine ⟨build p (L.map (fun ind => (ind, val ind))), ?_, ?_⟩
  · unfold runT
    simp only [hlen]
    rw [← hLdef, hels, Option.bind_some, List.map_map]
    rw [show ((fun x : List ℕ × POp ℂ => x.2) ∘ fun ind => (ind, Qof ind)) = Qof from rfl, hm, Option.bind_some, hsim,
      Option.bind_some, hvals, if_neg (by simpa using hL0)]
    rfl
  · intro c a hc ha hcN haN
    have hD0' : D0 = build p (L.map (fun ind => (ind, value (fun s => pair ψ (denP 0 s ψ)) (Qof ind)))) := by
      unfold tomographyT at hD0
      rw [hlen, ← hLdef, mapM_eq_map L _ (fun ind => (ind, value (fun s => pair ψ (denP 0 s ψ)) (Qof ind)))
        (fun ind hind => by rw [hQ1 ind hind]; rfl)] at hD0
      exact (Option.some.inj hD0).symm
    rw [hD0']
    exact fill_error p Na N hp0 hp3 f.skipDiag L hL val _ _ hε hv2 c a hc ha hcN haN

/-- The elements of tomography with Jordan–Wigner: strings of the length of the register with coefficients of modulus at most one in total. -/
theorem elements_of_unique (p : ℕ) (f : Flags) (hf : f.real = true ∨ f.imag = true)
    (hp : p = 2 ∨ p = 3 ∨ (p = 1 ∧ f.real = false)) (Na N : ℕ) (alp bet : List ℕ)
    (hL : ListsUnique p Na N f.skipDiag (rdme p f alp bet)) :
    ∀ ind ∈ rdme p f alp bet, ∃ Q : POp ℂ, rdmeQubT jordanWigner f ind N = some (ind, Q) ∧ (∀ u ∈ Q, u.1.length = N) ∧ l1 Q ≤ 1 ∧
      (f.real = false → Q ≠ []) := by
  set L := rdme p f alp bet with hLdef
  have hskip : f.real = false → ∀ c a, c ++ a.reverse ∈ L → Sorted p N c → Sorted p N a → nAlpha Na c = nAlpha Na a →
      c ≠ a := by
    rintro hr c _ hind hc ha hn rfl
    have hskip : f.skipDiag = true := by
      simp only [Flags.skipDiag, hr]
      simpa [hr] using hf
    have := hL.2 c c hc ha hn
    rw [if_pos rfl, if_pos ⟨rfl, hskip⟩, add_zero] at this
    exact (List.count_pos_iff.mpr hind).ne' this
  intro ind hind
  obtain ⟨c, a, rfl, hc, ha, hn⟩ := hL.1 ind hind
  have hne : 2 ≤ p ∨ (p = 1 ∧ c ≠ a) := by
    rcases hp with h | h | ⟨rfl, hr⟩
    · left; omega
    · left; omega
    · exact Or.inr ⟨rfl, hskip hr c a hind hc ha hn⟩
  obtain ⟨Q, q1, q2, q3⟩ := rdmeQub_full p N f hf (by omega) c a hc ha hne
  refine ⟨Q, q1, q2, l1_rdmeQub jordanWigner (denF 0) jw_spec f _ _ N Q q1, ?_⟩
  rintro hr rfl
  have hi : f.imag = true := by simpa [hr] using hf
  rw [hr, hi] at q3
  exact rdmOp_ne p N c a hc ha (hskip hr c a hind hc ha hn) _ _ (by simp [half]) q3.symm

/-- Tomography of any normalised state of the register with the state-vector backend. -/
theorem statevector_any (p : ℕ) (f : Flags) (hf : f.real = true ∨ f.imag = true)
    (hp : p = 2 ∨ p = 3 ∨ (p = 1 ∧ f.real = false)) (Na N : ℕ) (alp bet : List ℕ) (hlen : alp.length + bet.length = N)
    (hL : ListsUnique p Na N f.skipDiag (rdme p f alp bet))
    (hL0 : rdme p f alp bet ≠ []) (col : List PStr → ℕ → ℕ) (hcol : ColouringOK col)
    (ψ : Cfg →₀ ℂ) (h1 : pair ψ ψ = 1) (hreg : ∀ b, ψ b ≠ 0 → ∀ i, N ≤ i → b i = false) :
    ∃ D, run p f alp bet col ψ = some D ∧
      ∀ c a : List ℕ, c.length = p → a.length = p → (∀ x ∈ c, x < N) → (∀ x ∈ a, x < N) →
        ‖D (c ++ a) - (if nAlpha Na c = nAlpha Na a then target f ψ c a else 0)‖ ≤ 2 ^ N * 1e-28 := by
  obtain ⟨D0, hD0, hD0e⟩ := tomography_any p f hf hp Na N alp bet hlen hL ψ h1
    (fun s => pair ψ (denP 0 s ψ)) (fun _ => rfl)
  have hp0 : 0 < p := by omega
  have hp3 : p ≤ 3 := by omega
  obtain ⟨D, hD, hDe⟩ := statevector_of_exact jordanWigner p f hp0 hp3 Na N alp bet hlen hL hL0 col hcol ψ hreg
    (elements_of_unique p f hf hp Na N alp bet hL) D0 hD0
  exact ⟨D, hD, fun c a hc ha hcN haN => by rw [← hD0e c a hc ha hcN haN]; exact hDe c a hc ha hcN haN⟩

/-- Tomography with the state-vector backend for any pair of orbital lists whose elements are the unique ones. -/
theorem statevector_of_unique (p : ℕ) (f : Flags) (hf : f.real = true ∨ f.imag = true)
    (hp : p = 2 ∨ p = 3 ∨ (p = 1 ∧ f.real = false)) (Na N : ℕ) (alp bet : List ℕ) (hlen : alp.length + bet.length = N)
    (hL : ListsUnique p Na N f.skipDiag (rdme p f alp bet))
    (hL0 : rdme p f alp bet ≠ []) (col : List PStr → ℕ → ℕ) (hcol : ColouringOK col)
    (ψ : Cfg →₀ ℂ) (h1 : pair ψ ψ = 1) (hreg : ∀ b, ψ b ≠ 0 → ∀ i, N ≤ i → b i = false)
    (n : ℤ) (hs : Sector Na n ψ) :
    ∃ D, run p f alp bet col ψ = some D ∧
      ∀ c a : List ℕ, c.length = p → a.length = p → (∀ x ∈ c, x < N) → (∀ x ∈ a, x < N) →
        ‖D (c ++ a) - target f ψ c a‖ ≤ 2 ^ N * 1e-28 := by
  obtain ⟨D, hD, h⟩ := statevector_any p f hf hp Na N alp bet hlen hL hL0 col hcol ψ h1 hreg
  refine ⟨D, hD, fun c a hc ha hcN haN => ?_⟩
  have := h c a hc ha hcN haN
  by_cases hn : nAlpha Na c = nAlpha Na a
  · rwa [if_pos hn] at this
  · rw [if_neg hn] at this
    rw [← target_eq, rdm_sector ψ Na n hs c a hn, rdm_sector ψ Na n hs a c (Ne.symm hn), mul_zero, mul_zero, add_zero]
    exact this

/-- **C96.**  Tomography with the state-vector backend, end to end: for every proper colouring and every normalised state
of the register with a fixed number of alpha electrons, it returns the tensor of `⟨ψ|a†…a|ψ⟩` (or its real or imaginary
part) at every index, up to `2^N · 1e-28` from skipped amplitudes, provided there is something to measure.  Missing: order
1 with real parts, order 4, more beta than alpha orbitals (see C62, C27). -/
theorem C96_statevector_tomography_partial (p : ℕ) (f : Flags) (hf : f.real = true ∨ f.imag = true)
    (hp : p = 2 ∨ p = 3 ∨ (p = 1 ∧ f.real = false)) (Na Nb : ℕ) (hN : Nb ≤ Na)
    (hL0 : rdme p f (alpha Na) (beta Na Nb) ≠ []) (col : List PStr → ℕ → ℕ) (hcol : ColouringOK col)
    (ψ : Cfg →₀ ℂ) (h1 : pair ψ ψ = 1) (hreg : ∀ b, ψ b ≠ 0 → ∀ i, Na + Nb ≤ i → b i = false)
    (n : ℤ) (hs : Sector Na n ψ) :
    ∃ D, run p f (alpha Na) (beta Na Nb) col ψ = some D ∧
      ∀ c a : List ℕ, c.length = p → a.length = p → (∀ x ∈ c, x < Na + Nb) → (∀ x ∈ a, x < Na + Nb) →
        ‖D (c ++ a) - target f ψ c a‖ ≤ 2 ^ (Na + Nb) * 1e-28 := by
  refine statevector_of_unique p f hf hp Na (Na + Nb) (alpha Na) (beta Na Nb) (by simp [alpha, beta]) ?_ hL0 col hcol ψ h1 hreg n hs
  rcases hp with rfl | rfl | ⟨rfl, _⟩
  · exact C27_order2_partial f Na Nb hN
  · exact C27_order3_partial f Na Nb hN
  · exact C27_order1 f Na Nb

/-- A case meeting the hypotheses: two alpha and two beta orbitals, order 2, both parts, `exState`. -/
theorem exState_reg : rdme 2 ⟨true, true⟩ (alpha 2) (beta 2 2) ≠ [] ∧ (∀ b, exState b ≠ 0 → ∀ i, 2 + 2 ≤ i → b i = false) := by
  constructor
  · decide
  · classical
    intro b hb i hi
    unfold exState at hb
    rw [Finsupp.add_apply, Finsupp.single_apply, Finsupp.single_apply] at hb
    by_cases h1 : (fun i : ℕ => decide (i = 0 ∨ i = 2)) = b
    · subst h1; simp; omega
    · by_cases h2 : (fun i : ℕ => decide (i = 1 ∨ i = 3)) = b
      · subst h2; simp; omega
      · rw [if_neg h1, if_neg h2, add_zero] at hb
        exact absurd rfl hb

/-- **C96**: with nothing to measure the program exits. -/
theorem C96_nothing (p : ℕ) (f : Flags) (alp bet : List ℕ) (hL0 : rdme p f alp bet = []) (col : List PStr → ℕ → ℕ)
    (prep : Cfg → ℂ) : run p f alp bet col prep = none := by
  unfold run runT
  simp only
  rw [hL0, List.mapM_nil]
  show Option.bind (some []) _ = none
  rw [Option.bind_some]
  apply Option.bind_eq_none_iff.mpr
  intro m _
  apply Option.bind_eq_none_iff.mpr
  intro sim _
  rfl

end
end HQCA.Props
