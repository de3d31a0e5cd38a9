import Verif.Model.Symplectic
import Verif.Props.Operators

/-!
# C157: symplectic helpers of Pauli strings
-/

namespace HQCA.Props
open HQCA.Pauli
variable {K : Type} [Coef K]

/-- **C157.** The symplectic product of the bits of two strings of one length are the bits of the product of the operators, with its phase. -/
theorem C157_symplectic (s t : PStr) (c d : K) (h : s.length = t.length) :
    ∃ l r e, symplecticProduct (s.map PL.l) (s.map PL.r) (t.map PL.l) (t.map PL.r) c d = some (l, r, e) ∧ l.length = s.length ∧ r.length = s.length ∧
      e • (denP 0 (construct l r) : Oper K) = (c • denP 0 s) * (d • denP 0 t) := by
  have hz : ∀ (l m : List Bool), List.zipWith (fun a b => b2i (a && b)) l m = List.zipWith (fun a b => b2i (a && b)) m l := by
    intro l m
    rw [List.zipWith_comm]
    congr 1
    funext a b
    rw [Bool.and_comm]
  refine ⟨_, _, _, if_pos ⟨by simp, by simp [h], by simp [h]⟩, by simp [h], by simp [h], ?_⟩
  rw [hz (t.map PL.r) (s.map PL.l), smul_mul_smul_comm, denP_mul 0 s t h, smul_smul, zpow_add₀ I_ne_zero]
  rfl

/-- Arrays of different length raise. -/
theorem C157_symplectic_raises (s t : PStr) (c d : K) (h : s.length ≠ t.length) :
    symplecticProduct (s.map PL.l) (s.map PL.r) (t.map PL.l) (t.map PL.r) c d = none := by
  unfold symplecticProduct
  rw [if_neg (by simp [Ne.symm h])]

theorem foldl_bind_none {α β : Type} (f : α → β → Option β) (l : List α) : l.foldl (fun v i => v.bind fun v => f i v) (none : Option β) = none := by
  induction l with
  | nil => rfl
  | cons a l ih => exact ih

/-- **C157, partial** (methods of a string): the methods `skew` and `symm` look for the second half of a check vector in an array that only has the first half: for two strings of one length, at least
one qubit, they raise; there is no answer to compare with the commutator. -/
theorem C157_skew_partial (s t : PStr) (h : s.length = t.length) (h0 : s ≠ []) : skew s t = none ∧ Pauli.symm s t = none := by
  have hl : 0 < s.length := List.length_pos_iff.mpr h0
  obtain ⟨n, hn⟩ : ∃ n, s.length = n + 1 := ⟨s.length - 1, by omega⟩
  have hb : ∀ i, (t.map PL.r)[i + s.length]? = none := by
    intro i
    rw [List.getElem?_eq_none_iff, List.length_map]
    omega
  constructor
  · unfold skew
    simp only [hb, Option.bind_none]
    rw [hn, List.range_succ_eq_map, List.foldl_cons]
    have : ((some (0 : ℤ)).bind fun v => (s.map PL.r)[0]?.bind fun _ => (none : Option ℤ)) = none := by
      rw [Option.bind_some]; cases (s.map PL.r)[0]? <;> rfl
    rw [this]
    exact foldl_bind_none (fun i v => (s.map PL.r)[i]?.bind fun _ => (none : Option ℤ)) _
  · unfold Pauli.symm
    simp only [hb, Option.bind_none]
    rw [hn, List.range_succ_eq_map, List.foldl_cons]
    have : ((some (0 : ℤ)).bind fun v => (s.map PL.r)[0]?.bind fun _ => (none : Option ℤ)) = none := by
      rw [Option.bind_some]; cases (s.map PL.r)[0]? <;> rfl
    rw [this, foldl_bind_none (fun i v => (s.map PL.r)[i]?.bind fun _ => (none : Option ℤ)) _]
    rfl

example : symplecticProduct (K := GQ) [true, true] [false, true] [true, false] [true, true] 2 3 = some ([false, true], [true, false], 6 * (I ^ (-2 : ℤ) * I ^ (4 : ℤ))) := by
  decide +kernel

end HQCA.Props
