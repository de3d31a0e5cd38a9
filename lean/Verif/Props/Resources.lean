import Verif.Model.Resources
import Verif.Props.Instructions

/-!
# The estimate of two-qubit gates (C104)
-/

namespace HQCA
namespace Props
open Resources Instr Prim
noncomputable section

/-- The controlled-not gates of a circuit. -/
def cxCount : List QG → ℕ
  | [] => 0
  | .cx _ _ :: gs => cxCount gs + 1
  | _ :: gs => cxCount gs

theorem cxCount_append (a b : List QG) : cxCount (a ++ b) = cxCount a + cxCount b := by
  induction a with
  | nil => simp [cxCount]
  | cons g a ih => cases g <;> simp [cxCount, ih] <;> omega

theorem cxCount_reverse (a : List QG) : cxCount a.reverse = cxCount a := by
  induction a with
  | nil => rfl
  | cons g a ih => rw [List.reverse_cons, cxCount_append, ih]; cases g <;> simp [cxCount]

theorem cxCount_basis (L : List (ℕ × PL)) (b : Bool) : cxCount (L.flatMap fun x => pauliOp x.1 x.2 b) = 0 := by
  induction L with
  | nil => rfl
  | cons x L ih =>
    rw [List.flatMap_cons, cxCount_append, ih]
    obtain ⟨n, p⟩ := x
    cases p <;> cases b <;> rfl

theorem cxCount_ladder (ind : List ℕ) : cxCount (ladder ind) = ind.length - 1 := by
  unfold ladder
  have : ∀ l : List ℕ, cxCount (l.map fun n => QG.cx (ind.getD n 0) (ind.getD (n + 1) 0)) = l.length := by
    intro l
    induction l with
    | nil => rfl
    | cons a l ih => rw [List.map_cons, List.length_cons, ← ih]; rfl
  rw [this, List.length_range]

theorem nonI_length (k : ℕ) (s : PStr) : (nonI k s).length = weight s := by
  induction s generalizing k with
  | nil => rfl
  | cons p s ih =>
    unfold nonI weight
    rw [List.countP_cons]
    split
    · rename_i h; rw [ih]; simp [h, weight]
    · rename_i h; rw [List.length_cons, ih]; simp [h, weight]

/-- A Pauli gadget has `2 (l - 1)` controlled-not gates, `l` the number of letters that are not the identity. -/
theorem cxCount_gadget (v : ℝ) (s : PStr) : cxCount (gadget v s) = 2 * (weight s - 1) := by
  have hm : cxCount (gadgetMany v s) = 2 * (weight s - 1) := by
    unfold gadgetMany
    dsimp only
    rw [nonI_length]
    split
    · rename_i h; rw [h]; rfl
    · simp only [cxCount_append, cxCount_basis, cxCount_reverse, cxCount_ladder, List.length_map, nonI_length]
      have : cxCount [QG.rz (v * -2) (((nonI 0 s).map (·.1)).getLastD 0)] = 0 := rfl
      omega
  unfold gadget
  split
  · rfl
  · rfl
  · rfl
  · rfl
  · exact hm

theorem cxCount_gates (gs : List (ℝ × PStr)) : cxCount (gatesOf gs) = (gs.map fun g => 2 * (weight g.2 - 1)).sum := by
  induction gs with
  | nil => rfl
  | cons g gs ih =>
    have : gatesOf (g :: gs) = gadget g.1 g.2 ++ gatesOf gs := rfl
    rw [this, cxCount_append, cxCount_gadget, ih, List.map_cons, List.sum_cons]

theorem countOp_eq {K : Type} (A : OpD PStr K) : countOp A = ((A.map fun t => 2 * (weight t.1 - 1)).sum : ℕ) := by
  have h : ∀ (A : OpD PStr K) (u : ℤ), A.foldl (fun u t => if weight t.1 = 0 then u else u + 2 * ((weight t.1 : ℤ) - 1)) u
      = u + ((A.map fun t => 2 * (weight t.1 - 1)).sum : ℕ) := by
    intro A
    induction A with
    | nil => intro u; simp
    | cons t A ih =>
      intro u
      rw [List.foldl_cons, ih, List.map_cons, List.sum_cons]
      push_cast
      split <;> omega
  unfold countOp
  rw [h, zero_add]

theorem applyOp_strings (d : ℝ) (op : List (PStr × ℂ)) (prev : Option ℝ) (gs : List (ℝ × PStr))
    (h : applyOp d prev op = some gs) : (gs.map (·.2)).Sublist (op.map (·.1)) := by
  induction op generalizing prev gs with
  | nil => cases h; exact .slnil
  | cons t op ih =>
    unfold applyOp at h
    split at h
    · cases h
    · rename_i v _
      split at h
      · cases h2 : applyOp d (some v) op with
        | none => rw [h2] at h; cases h
        | some l =>
          rw [h2] at h
          cases h
          exact (ih _ _ h2).cons_cons _
      · exact (ih _ _ h).cons _

/-- **C104.** For every Pauli operator the instruction set accepts, the estimate is an upper bound for the number of
controlled-not gates of its circuit, and it is exact when no term is skipped. -/
theorem C104_operator (op : List (PStr × ℂ)) (gs : List (ℝ × PStr)) (h : applyOp 1 none op = some gs) :
    (cxCount (gatesOf gs) : ℤ) ≤ countOp op ∧ (gs.length = op.length → (cxCount (gatesOf gs) : ℤ) = countOp op) := by
  have hs := applyOp_strings 1 op none gs h
  have e1 : cxCount (gatesOf gs) = ((gs.map (·.2)).map fun s => 2 * (weight s - 1)).sum := by
    rw [cxCount_gates, List.map_map]; rfl
  have e2 : countOp op = (((op.map (·.1)).map fun s => 2 * (weight s - 1)).sum : ℕ) := by
    rw [countOp_eq, List.map_map]; rfl
  rw [e1, e2]
  constructor
  · exact_mod_cast (hs.map _).sum_le_sum (by simp)
  · intro hl
    rw [hs.eq_of_length (by simpa using hl)]

/-- With imaginary coefficients above `1e-14` no term is skipped. -/
theorem C104_exact (op : List (PStr × ℂ)) (h : ∀ t ∈ op, t.2.re = 0 ∧ (1e-14 : ℝ) < |t.2.im|) :
    ∃ gs, applyOp 1 none op = some gs ∧ (cxCount (gatesOf gs) : ℤ) = countOp op := by
  obtain ⟨gs, Us, _, h1, _, _, _⟩ := C76_circuit_partial op h
  refine ⟨gs, h1, (C104_operator op gs h1).2 ?_⟩
  have : ∀ (op : List (PStr × ℂ)) (prev : Option ℝ) (gs : List (ℝ × PStr)), (∀ t ∈ op, t.2.re = 0 ∧ (1e-14 : ℝ) < |t.2.im|) →
      applyOp 1 prev op = some gs → gs.length = op.length := by
    intro op
    induction op with
    | nil => intro prev gs _ e; cases e; rfl
    | cons t op ih =>
      intro prev gs h e
      obtain ⟨h1, h2⟩ := h t (by simp)
      have ha : angleOf prev t.2 = some t.2.im := by
        unfold angleOf
        rw [if_neg (not_lt.mpr (le_of_lt h2)), if_pos (by rw [h1, abs_zero]; norm_num)]
      unfold applyOp at e
      rw [ha] at e
      dsimp only at e
      rw [if_pos h2] at e
      cases h3 : applyOp 1 (some t.2.im) op with
      | none => rw [h3] at e; cases e
      | some l =>
        rw [h3] at e
        cases e
        simp [ih _ _ (fun u hu => h u (by simp [hu])) h3]
  exact this op none gs h h1

/-- **C104, partial**, for a list of operators such as an ansatz of Pauli operators: the estimate is the sum of the
estimates of the operators, provided no operator has an identity term.  Otherwise `C104_fails_identity`. -/
theorem C104_list_partial {K : Type} (L : List (OpD PStr K)) (h : ∀ A ∈ L, ∀ t ∈ A, ∃ p ∈ t.1, p ≠ PL.I) :
    countList (L.map .op) = (L.map countOp).sum := by
  have one : ∀ (A : OpD PStr K) (u : ℤ), (∀ t ∈ A, ∃ p ∈ t.1, p ≠ PL.I) →
      A.foldl (fun u t => u + 2 * ((weight t.1 : ℤ) - 1)) u = u + countOp A := by
    intro A
    induction A with
    | nil => intro u _; simp [countOp]
    | cons t A ih =>
      intro u ha
      rw [List.foldl_cons, ih _ (fun t ht => ha t (by simp [ht])), countOp_eq, countOp_eq, List.map_cons, List.sum_cons]
      have hw : 0 < weight t.1 := by
        unfold weight
        rw [List.countP_pos_iff]
        obtain ⟨p, hp, hn⟩ := ha t (by simp)
        exact ⟨p, hp, by simpa using hn⟩
      push_cast
      omega
  have all : ∀ (L : List (OpD PStr K)) (u : ℤ), (∀ A ∈ L, ∀ t ∈ A, ∃ p ∈ t.1, p ≠ PL.I) →
      (L.map Item.op).foldl (fun u i => match i with
        | .op A => A.foldl (fun u t => u + 2 * ((weight t.1 : ℤ) - 1)) u
        | .other => u) u = u + (L.map countOp).sum := by
    intro L
    induction L with
    | nil => intro u _; simp
    | cons A L ih =>
      intro u hl
      rw [List.map_cons, List.foldl_cons, ih _ (fun B hB => hl B (by simp [hB])), List.map_cons, List.sum_cons]
      dsimp only
      rw [one A u (hl A (by simp))]
      ring
  unfold countList
  exact (all L 0 h).trans (zero_add _)

/-- **C104 fails** for a list with an identity term: the term counts minus two gates. -/
theorem C104_fails_identity {K : Type} (n : ℕ) (c : K) : countList [.op [(List.replicate n PL.I, c)]] = -2 := by
  have : weight (List.replicate n PL.I) = 0 := by
    unfold weight
    rw [List.countP_eq_zero]
    intro p hp
    rw [List.eq_of_mem_replicate hp]
    decide
  unfold countList
  simp [this]

/-- **C104 fails** for what the ansatz returns after the transform: the estimate is zero whatever the circuit. -/
theorem C104_fails_transformed {K : Type} (layers : List (OpD PStr K)) : countList (transformed layers) = 0 := by
  unfold countList transformed
  induction layers.flatten with
  | nil => rfl
  | cons t l ih => exact ih

/-- `XXY` and `ZIZ` need four and two gates. -/
example : countOp (K := GQ) [([.X, .X, .Y], 1), ([.Z, .I, .Z], 2), ([.I, .I, .I], 5)] = 6 := by decide +kernel

example : (∀ t ∈ [([PL.X, PL.X, PL.Y], Complex.I), ([PL.Z, PL.I, PL.Z], 2 * Complex.I)], t.2.re = 0 ∧ (1e-14 : ℝ) < |t.2.im|) := by
  intro t ht
  simp only [List.mem_cons, List.not_mem_nil, or_false] at ht
  rcases ht with rfl | rfl <;> norm_num

end
end Props
end HQCA
