import Verif.Model.IntegralsLR
import Verif.Props.Integrals

/-!
# C155: one-body integrals between two sets of orbitals
-/

namespace HQCA.Props
open HQCA.Ints
variable {R : Type} [CommRing R]

/-- Spec: the integral between orbital `p` of the left set and orbital `q` of the right set. -/
def rot1LR (N : ℕ) (Ul Ur ei : ℕ → ℕ → R) (p q : ℕ) : R := ∑ a ∈ Finset.range N, ∑ b ∈ Finset.range N, Ul p a * ei a b * Ur b q

theorem block1LR_loop (N : ℕ) (Ul Ur ei : ℕ → ℕ → R) (s2s : ℕ → ℕ) (orbs : List ℕ) (x : ℕ × ℕ) : ∀ (l : List ℕ) (st : St1 R),
    l.Nodup → (∀ i ∈ l, ∀ j ∈ l, s2s i = s2s j → i = j) → (∀ i ∈ l, ∀ c, st.temp (s2s i) c = 0) →
    (l.foldl (step1LR N Ul Ur ei s2s orbs) st).new x
      = if x.1 ∈ l ∧ x.2 ∈ orbs then rot1LR N Ul Ur ei (s2s x.1) (s2s x.2) else st.new x
  | [], st, _, _, _ => by simp
  | i :: l, st, hn, hi, ht => by
    rw [List.foldl_cons, block1LR_loop N Ul Ur ei s2s orbs x l _ (List.nodup_cons.mp hn).2
      (fun a ha b hb => hi a (by simp [ha]) b (by simp [hb]))]
    · have hrow : accRow N (Ul (s2s i)) ei (st.temp (s2s i)) = fun c => ∑ a ∈ Finset.range N, Ul (s2s i) a * ei a c := by
        funext c; rw [accRow_eq, ht i (by simp), zero_add]
      have hnew : (step1LR N Ul Ur ei s2s orbs st i).new x
          = if x.1 = i ∧ x.2 ∈ orbs then rot1LR N Ul Ur ei (s2s i) (s2s x.2) else st.new x := by
        unfold step1LR
        simp only [Function.update_self, hrow]
        rw [setLoop (fun j => accEntry N (fun b => Ur b (s2s j)) (fun c => ∑ a ∈ Finset.range N, Ul (s2s i) a * ei a c) 0)]
        refine if_congr Iff.rfl ?_ rfl
        rw [accEntry_eq, zero_add]
        unfold rot1LR
        rw [Finset.sum_comm]
        refine Finset.sum_congr rfl fun b _ => ?_
        rw [Finset.mul_sum]
        refine Finset.sum_congr rfl fun a _ => by ring
      rw [hnew]
      by_cases h1 : x.1 ∈ l ∧ x.2 ∈ orbs
      · rw [if_pos h1, if_pos ⟨by simp [h1.1], h1.2⟩]
      · rw [if_neg h1]
        by_cases h2 : x.1 = i ∧ x.2 ∈ orbs
        · rw [if_pos h2, if_pos ⟨by simp [h2.1], h2.2⟩, h2.1]
        · rw [if_neg h2, if_neg]
          rintro ⟨h3, h4⟩
          rcases List.mem_cons.mp h3 with h3 | h3
          · exact h2 ⟨h3, h4⟩
          · exact h1 ⟨h3, h4⟩
    · intro j hj c
      have hne : s2s j ≠ s2s i := by
        intro h
        have := hi j (by simp [hj]) i (by simp) h
        subst this
        exact (List.nodup_cons.mp hn).1 hj
      show Function.update st.temp (s2s i) _ (s2s j) c = 0
      rw [Function.update_of_ne hne, ht j (by simp [hj])]

theorem block1LR_eq (N : ℕ) (Ul Ur ei : ℕ → ℕ → R) (s2s : ℕ → ℕ) (orbs : List ℕ) (new : ℕ × ℕ → R) (x : ℕ × ℕ) (hn : orbs.Nodup)
    (hi : ∀ i ∈ orbs, ∀ j ∈ orbs, s2s i = s2s j → i = j) :
    block1LR N Ul Ur ei s2s orbs new x
      = if x.1 ∈ orbs ∧ x.2 ∈ orbs then rot1LR N Ul Ur ei (s2s x.1) (s2s x.2) else new x :=
  block1LR_loop N Ul Ur ei s2s orbs x orbs _ hn hi (fun _ _ _ => rfl)

/-- **C155, partial.** Entries between two occupied or active orbitals of one spin are the integrals between the left orbital of the first and the right orbital of the second; all other
entries are zero.  Missing: the virtual orbitals, which are left out although the region is called full (`C155_virtual`). -/
theorem C155_full_partial (N : ℕ) (Ual Uar Ubl Ubr ei : ℕ → ℕ → R) (s2s : ℕ → ℕ) (alpha beta : Orbs) (new : Option (ℕ × ℕ → R))
    (g : GoodOrbs s2s (alpha.inactive ++ alpha.active) (beta.inactive ++ beta.active)) :
    ∃ e, spin1LR N Ual Uar Ubl Ubr ei s2s true alpha beta new = some e ∧ ∀ i j,
      e (i, j) = if i ∈ alpha.inactive ++ alpha.active ∧ j ∈ alpha.inactive ++ alpha.active then rot1LR N Ual Uar ei (s2s i) (s2s j)
        else if i ∈ beta.inactive ++ beta.active ∧ j ∈ beta.inactive ++ beta.active then rot1LR N Ubl Ubr ei (s2s i) (s2s j) else 0 := by
  refine ⟨_, rfl, fun i j => ?_⟩
  simp only [if_true]
  rw [block1LR_eq N Ubl Ubr ei s2s _ _ _ g.nodupB g.injB, block1LR_eq N Ual Uar ei s2s _ _ _ g.nodupA g.injA]
  by_cases ha : i ∈ alpha.inactive ++ alpha.active ∧ j ∈ alpha.inactive ++ alpha.active
  · rw [if_neg (fun h => g.apart i ha.1 h.1), if_pos ha, if_pos ha]
  · rw [if_neg ha, if_neg ha]

/-- On the active space the routine overwrites the active block of one spin in the array given to it, and nothing else. -/
theorem C155_active (N : ℕ) (Ual Uar Ubl Ubr ei : ℕ → ℕ → R) (s2s : ℕ → ℕ) (alpha beta : Orbs) (new : ℕ × ℕ → R)
    (g : GoodOrbs s2s alpha.active beta.active) :
    ∃ e, spin1LR N Ual Uar Ubl Ubr ei s2s false alpha beta (some new) = some e ∧ ∀ i j,
      e (i, j) = if i ∈ alpha.active ∧ j ∈ alpha.active then rot1LR N Ual Uar ei (s2s i) (s2s j)
        else if i ∈ beta.active ∧ j ∈ beta.active then rot1LR N Ubl Ubr ei (s2s i) (s2s j) else new (i, j) := by
  refine ⟨_, rfl, fun i j => ?_⟩
  simp only [Bool.false_eq_true, if_false]
  rw [block1LR_eq N Ubl Ubr ei s2s _ _ _ g.nodupB g.injB, block1LR_eq N Ual Uar ei s2s _ _ _ g.nodupA g.injA]
  by_cases ha : i ∈ alpha.active ∧ j ∈ alpha.active
  · rw [if_neg (fun h => g.apart i ha.1 h.1), if_pos ha, if_pos ha]
  · rw [if_neg ha, if_neg ha]

/-- With the default argument (no array) the active region never gives integrals. -/
theorem C155_active_raises (N : ℕ) (Ual Uar Ubl Ubr ei : ℕ → ℕ → R) (s2s : ℕ → ℕ) (alpha beta : Orbs) :
    spin1LR N Ual Uar Ubl Ubr ei s2s false alpha beta none = none := rfl

/-- With the transposed matrix on the right and no virtual orbitals the result is that of the ordinary routine. -/
theorem C155_agrees (N : ℕ) (Ua Ub ei : ℕ → ℕ → R) (s2s : ℕ → ℕ) (alpha beta : Orbs) (new : Option (ℕ × ℕ → R)) (hva : alpha.virt = []) (hvb : beta.virt = [])
    (g : GoodOrbs s2s alpha.full beta.full) :
    spin1LR N Ua (fun b q => Ua q b) Ub (fun b q => Ub q b) ei s2s true alpha beta new = some (spin1Full N Ua Ub ei s2s alpha beta) := by
  have ea : alpha.full = alpha.inactive ++ alpha.active := by unfold Orbs.full; rw [hva, List.append_nil]
  have eb : beta.full = beta.inactive ++ beta.active := by unfold Orbs.full; rw [hvb, List.append_nil]
  have hr : ∀ U : ℕ → ℕ → R, ∀ p q, rot1LR N U (fun b q => U q b) ei p q = rot1 N U ei p q := by
    intro U p q
    unfold rot1LR rot1
    refine Finset.sum_congr rfl fun a _ => Finset.sum_congr rfl fun b _ => by ring
  obtain ⟨e, h1, h2⟩ := C155_full_partial N Ua (fun b q => Ua q b) Ub (fun b q => Ub q b) ei s2s alpha beta new (by rw [← ea, ← eb]; exact g)
  rw [h1]
  congr 1
  funext ⟨i, j⟩
  unfold spin1Full
  rw [h2, C56_one_body _ _ _ _ _ _ _ _ g, hr, hr, ea, eb]

/-- An integral between virtual orbitals is missing: two spatial orbitals, the second virtual; its one-body integral is 5, the routine returns 0 and the ordinary one 5. -/
theorem C155_virtual :
    ∃ e, spin1LR (R := ℤ) 2 (fun a b => if a = b then 1 else 0) (fun a b => if a = b then 1 else 0) (fun a b => if a = b then 1 else 0) (fun a b => if a = b then 1 else 0)
      (fun a b => if a = b then 5 else 0) (fun i => i % 2) true ⟨[], [0], [1]⟩ ⟨[], [2], [3]⟩ none = some e ∧ e (0, 0) = 5 ∧ e (1, 1) = 0 ∧
      spin1Full (R := ℤ) 2 (fun a b => if a = b then 1 else 0) (fun a b => if a = b then 1 else 0) (fun a b => if a = b then 5 else 0) (fun i => i % 2)
        ⟨[], [0], [1]⟩ ⟨[], [2], [3]⟩ (1, 1) = 5 := by
  refine ⟨_, rfl, ?_, ?_, ?_⟩ <;> decide

/-- Hypotheses met: two spatial orbitals, one inactive and one active. -/
example : GoodOrbs (fun i => i % 2) ([0] ++ [1]) ([2] ++ [3]) := by
  constructor <;> decide

end HQCA.Props
