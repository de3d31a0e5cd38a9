import Verif.Model.AnsatzCut
import Verif.Props.Ansatz
import Verif.Props.ACSEEnergy

/-!
# C161: cutting back an ansatz
-/

namespace HQCA
namespace Props
noncomputable section
open AnsatzCut
variable {α K : Type} [DecidableEq α] [Coef K]

/-- **C161.** What `truncate` keeps: the first `d` layers for `d ≥ 0`, all but the last `-d` for `d < 0`, all without an argument. -/
theorem C161_truncate (L : List (OpD α K)) (i : ℕ) :
    (truncate L none)[i]? = L[i]? ∧
    (∀ d : ℕ, (truncate L (some d))[i]? = if i < d then L[i]? else none) ∧
    (∀ d : ℕ, (truncate L (some (-(d : ℤ) - 1)))[i]? = if i + (d + 1) < L.length then L[i]? else none) := by
  refine ⟨?_, fun d => ?_, fun d => ?_⟩
  · simp only [truncate, AnsatzCut.slice]
    rw [if_neg (by omega), Int.natAbs_natCast, List.take_length]
  · simp only [truncate, AnsatzCut.slice]
    rw [if_neg (by omega), List.getElem?_take, Int.natAbs_natCast]
  · simp only [truncate, AnsatzCut.slice]
    rw [if_pos (by omega), List.getElem?_take]
    have : (-(d : ℤ) - 1).natAbs = d + 1 := by omega
    rw [this]
    exact if_congr (by omega) rfl rfl

/-- **C161.** The circuit of a truncated ansatz is a first part of the circuit: the strings are a prefix, and the state of the full ansatz is reached from the state of
the truncated one by the remaining exponentials. -/
theorem C161_prefix (L : List (OpD FStr ℂ)) (d : Option ℤ) (psi : List (Term PStr ℂ)) (h : ACSEEn.strings L = some psi) :
    ∃ psi' rest, ACSEEn.strings (truncate L d) = some psi' ∧ psi = psi' ++ rest ∧
      ∀ Us : List (Oper ℂ), List.Forall₂ (fun t U => IsExp (t.2 • (denP 0 t.1 : Oper ℂ)) U) psi Us →
        ∃ Us' R, List.Forall₂ (fun t U => IsExp (t.2 • (denP 0 t.1 : Oper ℂ)) U) psi' Us' ∧
          List.Forall₂ (fun t U => IsExp (t.2 • (denP 0 t.1 : Oper ℂ)) U) rest R ∧ Us.reverse.prod = R.reverse.prod * Us'.reverse.prod := by
  obtain ⟨n, hn⟩ : ∃ n, truncate L d = L.take n := by
    cases d with
    | none => exact ⟨_, by simp only [truncate, AnsatzCut.slice]; rw [if_neg (by omega)]⟩
    | some d =>
      by_cases hd : d < 0
      · exact ⟨_, by simp only [truncate, AnsatzCut.slice]; rw [if_pos hd]⟩
      · exact ⟨_, by simp only [truncate, AnsatzCut.slice]; rw [if_neg hd]⟩
  unfold ACSEEn.strings at h
  obtain ⟨rs, r1, rfl⟩ := Option.map_eq_some_iff.mp h
  have e : L.mapM (OpD.transform Transform.jordanWigner) = ((L.take n).mapM (OpD.transform Transform.jordanWigner)).bind fun a =>
      ((L.drop n).mapM (OpD.transform Transform.jordanWigner)).bind fun b => some (a ++ b) := by
    conv_lhs => rw [← List.take_append_drop n L]
    rw [List.mapM_append]
    rfl
  rw [e] at r1
  obtain ⟨a, a1, a2⟩ := Option.bind_eq_some_iff.mp r1
  obtain ⟨b, b1, b2⟩ := Option.bind_eq_some_iff.mp a2
  obtain rfl := Option.some.inj b2
  refine ⟨a.flatten, b.flatten, by unfold ACSEEn.strings; rw [hn, a1]; rfl, List.flatten_append, fun Us hU => ?_⟩
  rw [List.flatten_append] at hU
  refine ⟨Us.take a.flatten.length, Us.drop a.flatten.length, ?_, ?_, ?_⟩
  · exact (List.forall₂_take_append Us _ _ (List.Forall₂.flip hU)).flip
  · exact (List.forall₂_drop_append Us _ _ (List.Forall₂.flip hU)).flip
  · conv_lhs => rw [← List.take_append_drop a.flatten.length Us]
    rw [List.reverse_append, List.prod_append]

/-- **C161, partial.** For a closed ansatz, cutting back to the former length undoes an addition: the layers are those from before, with small coefficients removed as every
addition does.  Needs that no former layer consists of small coefficients only.  Missing: ansätze that are not closed (`C161_open_fails`), vanishing layers (`C161_vanish_fails`). -/
theorem C161_undo_partial (L : List (OpD α K)) (O : OpD α K) (hL : ∀ A ∈ L, OpD.clean A ≠ []) :
    truncate (Ansatz.add 1 L O) (some L.length) = L.map OpD.clean := by
  simp only [truncate, AnsatzCut.slice]
  rw [if_neg (by omega), Int.natAbs_natCast]
  unfold Ansatz.add
  split
  · rename_i h; subst h; rfl
  · rename_i h
    unfold Ansatz.clean Ansatz.layers
    rw [if_neg h, if_pos rfl, List.map_append, List.filter_append, List.filter_eq_self.mpr]
    · rw [List.take_append_of_le_length (by simp), List.take_of_length_le (by simp)]
    · intro A hA
      obtain ⟨B, hB, rfl⟩ := List.mem_map.mp hA
      cases hc : OpD.clean B with
      | nil => exact absurd hc (hL B hB)
      | cons _ _ => rfl

/-- An ansatz without small coefficients is restored exactly. -/
theorem C161_undo_exact_partial (L : List (OpD α K)) (O : OpD α K) (hL : ∀ A ∈ L, A ≠ [] ∧ ∀ t ∈ A, small t.2 = false) :
    truncate (Ansatz.add 1 L O) (some L.length) = L := by
  have hc : ∀ A ∈ L, OpD.clean A = A := fun A hA => List.filter_eq_self.mpr fun t ht => by rw [(hL A hA).2 t ht]; rfl
  rw [C161_undo_partial L O fun A hA => by rw [hc A hA]; exact (hL A hA).1]
  exact (List.map_congr_left hc).trans (List.map_id L)

/-- **C161 fails for ansätze that are not closed.** The addition changes the layers that are kept. -/
theorem C161_open_fails : truncate (Ansatz.add 0 [[([FL.cr, FL.an], (1 : GQ))]] [([FL.cr, FL.an], (1 : GQ))]) (some 1) ≠
    ([[([FL.cr, FL.an], (1 : GQ))]] : List (OpD FStr GQ)) := by decide +kernel

/-- **C161 fails for vanishing layers.** After a first step with an empty operator the next addition removes the empty layer, and cutting back to the former length
keeps the operator that was to be removed. -/
theorem C161_vanish_fails : truncate (Ansatz.add 1 (Ansatz.add 1 [] []) [([FL.cr, FL.an], (1 : GQ))]) (some 1) =
    ([[([FL.cr, FL.an], (1 : GQ))]] : List (OpD FStr GQ)) := by decide +kernel

/-- **C161.** The layers visited below the limit are existing layers, each once, and are the ones an addition may change. -/
theorem C161_limit (closed : ℤ) (hc : closed ≤ 1) (L : List (OpD α K)) :
    getLim closed L ≤ 0 ∧ (visited (getLim closed L) L.length).Nodup ∧
      ∀ k, k ∈ visited (getLim closed L) L.length ↔
        0 ≤ k ∧ k < L.length ∧ (closed = 0 ∨ (closed < 0 ∧ (L.length : ℤ) + closed ≤ k)) := by
  refine ⟨?_, ?_, fun k => ?_⟩
  · unfold getLim; split_ifs <;> omega
  · unfold visited
    exact List.Nodup.map (fun i j h => by have h' : (L.length : ℤ) - 1 - i = (L.length : ℤ) - 1 - j := h; omega) List.nodup_range
  · unfold visited getLim
    rw [List.mem_map]
    constructor
    · rintro ⟨i, hi, rfl⟩
      rw [List.mem_range] at hi
      split_ifs at hi <;> omega
    · rintro ⟨h0, h1, h2⟩
      refine ⟨(L.length - 1 - k).toNat, ?_, by omega⟩
      rw [List.mem_range]
      split_ifs <;> omega

/-- **C161.** Which ansätze can be created, and with what depth. -/
theorem C161_create (closed : ℤ) (p : Option ℤ) (q : ℤ) : initP closed p = some q ↔
    closed ≤ 1 ∧ 0 ≤ q ∧ ((p = some q) ∨ (p = none ∧ ((closed = 1 ∧ q = 0) ∨ (closed = 0 ∧ q = 1000) ∨ (closed < 0 ∧ q = -closed)))) := by
  unfold initP
  cases p with
  | none =>
    simp only [reduceCtorEq, false_or, true_and]
    split_ifs <;> simp only [Option.some.injEq, reduceCtorEq, false_iff] <;> omega
  | some r =>
    simp only [Option.some.injEq, reduceCtorEq, false_and, or_false]
    split_ifs <;> simp only [Option.some.injEq, reduceCtorEq, false_iff] <;> omega

/-- Two layers, the second cut off. -/
example : truncate (Ansatz.add 1 [[([FL.cr, FL.an], (1 : GQ))]] [([FL.an, FL.cr], (1 : GQ))]) (some 1) = [[([FL.cr, FL.an], (1 : GQ))]] :=
  C161_undo_exact_partial _ _ (by decide +kernel)

end
end Props
end HQCA
