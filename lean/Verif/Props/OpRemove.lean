import Verif.Model.OpRemove
import Verif.Proofs.Operator

/-!
# C167: removing a term of an operator
-/

namespace HQCA
namespace Props
open OpD
variable {α K : Type} [DecidableEq α] [Coef K]

omit [Coef K] in
/-- With keys that occur once the deletion is a filter. -/
theorem remove_filter (A : OpD α K) (hA : UniqueKeys A) (s : α) : A.remove (.key s) = A.filter (fun t => decide (t.1 ≠ s)) := by
  show A.eraseP (fun t => decide (t.1 = s)) = _
  induction A with
  | nil => rfl
  | cons t A ih =>
    have h1 : UniqueKeys A := (List.nodup_cons.mp hA).2
    have h2 : t.1 ∉ A.map (·.1) := (List.nodup_cons.mp hA).1
    by_cases h : t.1 = s
    · rw [List.eraseP_cons_of_pos (by simpa using h), List.filter_cons_of_neg (by simpa using h), List.filter_eq_self.mpr]
      intro u hu
      simp only [ne_eq, decide_eq_true_eq]
      intro e
      exact h2 (h ▸ e ▸ List.mem_map_of_mem hu)
    · rw [List.eraseP_cons_of_neg (by simpa using h), List.filter_cons_of_pos (by simpa using h), ih h1]

omit [Coef K] in
/-- **C167.** After removing a key exactly the terms with other keys are left, in their order; in particular the key is absent, and removing an absent key changes nothing. -/
theorem C167_terms (A : OpD α K) (hA : UniqueKeys A) (s : α) :
    (∀ t, t ∈ A.remove (.key s) ↔ t ∈ A ∧ t.1 ≠ s) ∧ (A.remove (.key s)).Sublist A ∧ UniqueKeys (A.remove (.key s)) ∧
      (s ∉ A.map (·.1) → A.remove (.key s) = A) := by
  rw [remove_filter A hA s]
  refine ⟨fun t => by simp [List.mem_filter], List.filter_sublist, ?_, fun h => ?_⟩
  · exact hA.sublist (List.filter_sublist.map _)
  · rw [List.filter_eq_self]
    intro t ht
    simp only [ne_eq, decide_eq_true_eq]
    rintro rfl
    exact h (List.mem_map_of_mem ht)

/-- **C167.** The operator after removing the key of a term is the operator without that term, for any meaning of the strings; adding the term again gives the operator back. -/
theorem C167_operator (d : α → Oper K) (A : OpD α K) (hA : UniqueKeys A) (t : Term α K) (ht : t ∈ A) :
    denD d (A.remove (.key t.1)) = denD d A - t.2 • d t.1 ∧ denD d ((A.remove (.key t.1)).addStr t) = denD d A := by
  have h1 : denD d (A.remove (.key t.1)) = denD d A - t.2 • d t.1 := by
    induction A with
    | nil => cases ht
    | cons u A ih =>
      have h1 : UniqueKeys A := (List.nodup_cons.mp hA).2
      have h2 : u.1 ∉ A.map (·.1) := (List.nodup_cons.mp hA).1
      by_cases h : u.1 = t.1
      · have hu : u = t := by
          rcases List.mem_cons.mp ht with e | e
          · exact e.symm
          · exact absurd (h ▸ List.mem_map_of_mem e) h2
        subst hu
        show denD d ((u :: A).eraseP (fun v => decide (v.1 = u.1))) = _
        rw [List.eraseP_cons_of_pos (by simp), denD_cons, add_sub_cancel_left]
      · have ht' : t ∈ A := (List.mem_cons.mp ht).resolve_left (fun e => h (e ▸ rfl))
        have e : OpD.remove (u :: A) (.key t.1) = u :: OpD.remove A (.key t.1) := List.eraseP_cons_of_neg (p := fun v : Term α K => decide (v.1 = t.1)) (by simpa using h)
        rw [e, denD_cons, denD_cons, ih h1 ht', add_sub_assoc]
  refine ⟨h1, ?_⟩
  have h3 : (A.remove (.key t.1)).hasKey t.1 = false := by
    rw [Bool.eq_false_iff]
    intro h
    obtain ⟨u, hu, e⟩ := List.any_eq_true.mp h
    exact (((C167_terms A hA t.1).1 u).mp hu).2 (by simpa using e)
  unfold addStr
  rw [if_neg (by rw [h3]; simp), denD_append, h1, denD_cons, denD_nil, add_zero, sub_add_cancel]

omit [Coef K] in
/-- **C167 fails** for string objects, which `in` accepts: the term is still there after `remove`, without an error. -/
theorem C167_fails_string (A : OpD α K) (t : Term α K) (ht : t ∈ A) : A.remove (.str t) = A ∧ (A.remove (.str t)).hasKey t.1 = true :=
  ⟨rfl, List.any_eq_true.mpr ⟨t, ht, by simp⟩⟩

/-- Removing the middle one of three terms. -/
example : UniqueKeys ([("XX", 1), ("YY", 2), ("ZZ", 3)] : OpD String GQ) ∧
    OpD.remove ([("XX", 1), ("YY", 2), ("ZZ", 3)] : OpD String GQ) (.key "YY") = [("XX", 1), ("ZZ", 3)] := by
  refine ⟨?_, rfl⟩
  show List.Nodup ["XX", "YY", "ZZ"]
  decide

end Props
end HQCA
