import Verif.Proofs.SymTotal
import Verif.Proofs.TransformExact
import Verif.Spec.Count

/-!
# The letters of a string built from a word
-/

namespace HQCA.SymProj
open HQCA.Transform

theorem pairsFrom_append (k : ℕ) (s t : FStr) : pairsFrom k (s ++ t) = pairsFrom k s ++ pairsFrom (k + s.length) t := by
  induction s generalizing k with
  | nil => simp [pairsFrom]
  | cons x s ih =>
    rw [List.cons_append, pairsFrom_cons, pairsFrom_cons, ih, List.length_cons, show k + 1 + s.length = k + (s.length + 1) by ring]
    split <;> simp

theorem pairsFrom_replicate (k n : ℕ) : pairsFrom k (List.replicate n .i) = [] := by
  induction n generalizing k with
  | zero => simp [pairsFrom]
  | succ n ih => rw [List.replicate_succ, pairsFrom_cons, if_pos rfl, ih]

theorem pairs_buildRest (N : ℕ) (a : ℕ × FL) (l : List (ℕ × FL)) (h : (a :: l).Pairwise (fun a b => a.1 < b.1))
    (hok : ∀ x ∈ a :: l, x.2 ≠ .i) : pairsFrom a.1 (Fermi.buildRest N a l) = a :: l := by
  induction l generalizing a with
  | nil => rw [Fermi.buildRest, pairsFrom_cons, if_neg (hok a (by simp)), pairsFrom_replicate]
  | cons b l ih =>
    have hp := List.pairwise_cons.mp h
    have hab := hp.1 b List.mem_cons_self
    rw [Fermi.buildRest, pairsFrom_cons, if_neg (hok a (by simp)), pairsFrom_append, pairsFrom_replicate,
      List.length_replicate, List.nil_append, show a.1 + 1 + (b.1 - a.1 - 1) = b.1 by omega,
      ih b hp.2 (fun x hx => hok x (List.mem_cons_of_mem _ hx))]

theorem pairs_build (N : ℕ) (l : List (ℕ × FL)) (s : FStr) (hb : Fermi.build N l = some s)
    (h : l.Pairwise (fun a b => a.1 < b.1)) (hok : ∀ x ∈ l, x.2 ≠ .i) : Fermi.pairs s = l := by
  cases l with
  | nil => simp [Fermi.build] at hb
  | cons a l =>
    simp only [Fermi.build, Option.some.injEq] at hb
    subst hb
    rw [pairs_eq, pairsFrom_append, pairsFrom_replicate, List.length_replicate, List.nil_append, Nat.zero_add,
      pairs_buildRest N a l h hok]

section
variable {M : Type} [AddCommMonoid M]

/-- A weight of letters that adds up in contractions. -/
def Additive (f : ℕ → FL → M) : Prop := ∀ k x y z, Fermi.contr x y = some (some z) → f k x + f k y = f k z

theorem contractStep_sum (f : ℕ → FL → M) (hf : Additive f) (l l' : List (ℕ × FL)) (h : Fermi.contractStep l = .next l') :
    (l'.map (fun a => f a.1 a.2)).sum = (l.map (fun a => f a.1 a.2)).sum := by
  induction l generalizing l' with
  | nil => simp [Fermi.contractStep] at h
  | cons a l ih =>
    cases l with
    | nil => simp [Fermi.contractStep] at h
    | cons b l =>
      unfold Fermi.contractStep at h
      split at h
      · rename_i he
        rcases hc : Fermi.contr a.2 b.2 with _ | _ | z
        · simp [hc] at h
        · simp [hc] at h
        · simp only [hc, Fermi.CStep.next.injEq] at h
          subst h
          simp only [List.map_cons, List.sum_cons]
          rw [← hf a.1 _ _ _ hc, ← he, add_assoc]
      · rcases hs : Fermi.contractStep (b :: l) with _ | _ | _ | l1
        · simp [hs] at h
        · simp [hs] at h
        · simp [hs] at h
        · simp only [hs, Fermi.CStep.next.injEq] at h
          subst h
          have := ih l1 hs
          simp only [List.map_cons, List.sum_cons] at this ⊢
          rw [this]

theorem contractLoop_sum (f : ℕ → FL → M) (hf : Additive f) (n : ℕ) (l l' : List (ℕ × FL))
    (h : Fermi.contractLoop n l = some (some l')) : (l'.map (fun a => f a.1 a.2)).sum = (l.map (fun a => f a.1 a.2)).sum := by
  induction n generalizing l with
  | zero => simp [Fermi.contractLoop] at h; rw [h]
  | succ n ih =>
    unfold Fermi.contractLoop at h
    rcases hs : Fermi.contractStep l with _ | _ | _ | l1
    · simp [hs] at h; rw [h]
    · simp [hs] at h
    · simp [hs] at h
    · simp only [hs] at h
      rw [ih l1 h, contractStep_sum f hf l l1 hs]

end

/-- A string with nonzero coefficient built from a non-empty word: the sites are those of the word, and every weight
that adds up in contractions is that of the word. -/
theorem generate_letters (fermi : Bool) (c : ℂ) (l : List (ℕ × FL)) (N : ℕ) (hok : okLetters l) (r : Term FStr ℂ)
    (h : Fermi.generateCore fermi c l N = some r) (hr : r.2 ≠ 0) :
    (∀ k, k ∈ (Fermi.pairs r.1).map (·.1) ↔ k ∈ l.map (·.1)) ∧
      ∀ (M : Type) [AddCommMonoid M] (f : ℕ → FL → M), Additive f →
        ((Fermi.pairs r.1).map (fun a => f a.1 a.2)).sum = (l.map (fun a => f a.1 a.2)).sum := by
  unfold Fermi.generateCore at h
  obtain ⟨hsorted, hperm⟩ := sortLoop_sorted fermi (l.length * l.length) c l (inv_le l)
  simp only at h
  generalize hsr : Fermi.sortLoop fermi (l.length * l.length) c l = sr at h hsorted hperm
  have hok' : okLetters sr.2 := fun x hx => hok x (hperm.mem_iff.mp hx)
  have fin : ∀ l2 : List (ℕ × FL), l2.Pairwise (fun a b => a.1 < b.1) → okLetters l2 →
      (∀ x, x ∈ l2.map (·.1) ↔ x ∈ sr.2.map (·.1)) →
      (∀ (M : Type) [AddCommMonoid M] (f : ℕ → FL → M), Additive f →
        (l2.map (fun a => f a.1 a.2)).sum = (sr.2.map (fun a => f a.1 a.2)).sum) →
      (if isZero sr.1 then some (List.replicate N FL.i, sr.1) else (Fermi.build N l2).map (fun s => (s, sr.1))) = some r →
      (∀ k, k ∈ (Fermi.pairs r.1).map (·.1) ↔ k ∈ l.map (·.1)) ∧
      ∀ (M : Type) [AddCommMonoid M] (f : ℕ → FL → M), Additive f →
        ((Fermi.pairs r.1).map (fun a => f a.1 a.2)).sum = (l.map (fun a => f a.1 a.2)).sum := by
    intro l2 h1 h2 h3 h4 h5
    split at h5
    · rename_i hz
      rw [← Option.some.inj h5] at hr
      exact absurd ((Coef.isZero_iff _).mp hz) hr
    · obtain ⟨s, hs, rfl⟩ := Option.map_eq_some_iff.mp h5
      rw [pairs_build N l2 s hs h1 h2]
      refine ⟨fun k => (h3 k).trans (hperm.map _).mem_iff, ?_⟩
      intro M _ f hf
      rw [h4 M f hf]
      exact (hperm.map _).sum_eq
  by_cases hd : (sr.2.map (·.1)).dedup.length = sr.2.length
  · simp only [hd, if_true] at h
    exact fin sr.2 (sorted_dedup sr.2 hsorted hd) hok' (fun _ => Iff.rfl) (fun _ _ _ _ => rfl) h
  · simp only [hd, if_false] at h
    obtain ⟨k1, k2⟩ := contractLoop_ok sr.2.length sr.2 le_rfl hok' hsorted
    obtain ⟨w1, _⟩ := contractLoop_word (laws_fermi (K := GQ)) sr.2.length sr.2 hok'
    rcases hc : Fermi.contractLoop sr.2.length sr.2 with _ | _ | l2
    · exact absurd hc k1
    · rw [hc] at h
      simp only [Option.some.injEq] at h
      rw [← h] at hr
      exact absurd rfl hr
    · rw [hc] at h
      obtain ⟨p1, p2⟩ := k2 l2 hc
      exact fin l2 p1 (w1 l2 hc).1 p2 (fun M _ f hf => contractLoop_sum f hf _ _ _ hc) h

end HQCA.SymProj

namespace HQCA.SymProj
open HQCA.Transform

theorem mem_pairsFrom (k : ℕ) (s : FStr) (j : ℕ) : j ∈ (pairsFrom k s).map (·.1) ↔ k ≤ j ∧ s.getD (j - k) .i ≠ .i := by
  induction s generalizing k with
  | nil => simp [pairsFrom]
  | cons x s ih =>
    rw [pairsFrom_cons]
    have hstep : j ∈ (pairsFrom (k + 1) s).map (·.1) ↔ k < j ∧ (x :: s).getD (j - k) .i ≠ .i := by
      rw [ih]
      constructor
      · rintro ⟨h1, h2⟩
        refine ⟨by omega, ?_⟩
        rw [show j - k = (j - (k + 1)) + 1 by omega, List.getD_cons_succ]
        exact h2
      · rintro ⟨h1, h2⟩
        rw [show j - k = (j - (k + 1)) + 1 by omega, List.getD_cons_succ] at h2
        exact ⟨by omega, h2⟩
    by_cases hx : x = .i
    · rw [if_pos hx, hstep]
      constructor
      · rintro ⟨h1, h2⟩; exact ⟨h1.le, h2⟩
      · rintro ⟨h1, h2⟩
        refine ⟨?_, h2⟩
        rcases Nat.lt_or_eq_of_le h1 with h | rfl
        · exact h
        · simp [hx] at h2
    · rw [if_neg hx, List.map_cons, List.mem_cons, hstep]
      constructor
      · rintro (rfl | ⟨h1, h2⟩)
        · exact ⟨le_rfl, by simpa using hx⟩
        · exact ⟨h1.le, h2⟩
      · rintro ⟨h1, h2⟩
        rcases Nat.lt_or_eq_of_le h1 with h | rfl
        · exact Or.inr ⟨h, h2⟩
        · exact Or.inl rfl

theorem sum_pairsFrom {M : Type} [AddCommMonoid M] (g : FL → M) (g0 : g .i = 0) (k : ℕ) (s : FStr) (j : ℕ) (hj : k ≤ j) :
    ((pairsFrom k s).map (fun a => if a.1 = j then g a.2 else 0)).sum = g (s.getD (j - k) .i) := by
  induction s generalizing k with
  | nil => simp [pairsFrom, g0]
  | cons x s ih =>
    rw [pairsFrom_cons]
    rcases Nat.lt_or_eq_of_le hj with h | rfl
    · have := ih (k + 1) (by omega)
      rw [show j - k = (j - (k + 1)) + 1 by omega, List.getD_cons_succ]
      split
      · exact this
      · rw [List.map_cons, List.sum_cons, this, if_neg (by simp only; omega), zero_add]
    · have hz : ((pairsFrom (k + 1) s).map (fun a => if a.1 = k then g a.2 else 0)).sum = 0 := by
        apply List.sum_eq_zero
        intro y hy
        obtain ⟨a, ha, rfl⟩ := List.mem_map.mp hy
        have := (pairsFrom_ge (k + 1) s a ha).1
        rw [if_neg (by omega)]
      rw [Nat.sub_self, List.getD_cons_zero]
      split
      · rename_i hx; rw [hz, hx, g0]
      · rw [List.map_cons, List.sum_cons, hz, add_zero, if_pos rfl]

/-- 1 for `+` and `-`. -/
def oddW (x : FL) : ZMod 2 := if FLodd x then 1 else 0

theorem oddW_additive (j : ℕ) : Additive (fun k x => if k = j then oddW x else 0) := by
  intro k x y z h
  by_cases hk : k = j
  · simp only [if_pos hk]
    cases x <;> cases y <;> simp [Fermi.contr] at h <;> subst h <;> decide
  · simp [hk]

theorem wt_additive (A : Finset ℕ) : Additive (fun k x => if k ∈ A then wt x else 0) := by
  intro k x y z h
  by_cases hk : k ∈ A
  · simp only [if_pos hk]
    cases x <;> cases y <;> simp [Fermi.contr] at h <;> subst h <;> decide
  · simp [hk]

/-- Two strings of the same length with the same sites and the same parities of `+`/`-` have the same kind. -/
theorem sameKind_of (s s' : FStr) (hl : s.length = s'.length)
    (h1 : ∀ k, k ∈ (Fermi.pairs s).map (·.1) ↔ k ∈ (Fermi.pairs s').map (·.1))
    (h2 : ∀ k, ((Fermi.pairs s).map (fun a => if a.1 = k then oddW a.2 else 0)).sum =
      ((Fermi.pairs s').map (fun a => if a.1 = k then oddW a.2 else 0)).sum) : SameKind s s' := by
  unfold SameKind
  rw [List.forall₂_iff_get]
  refine ⟨hl, ?_⟩
  intro k hk hk'
  have a1 := h1 k
  have a2 := h2 k
  rw [pairs_eq, pairs_eq, mem_pairsFrom, mem_pairsFrom] at a1
  rw [pairs_eq, pairs_eq, sum_pairsFrom _ rfl 0 s k (Nat.zero_le _), sum_pairsFrom _ rfl 0 s' k (Nat.zero_le _)] at a2
  have g1 : s.getD (k - 0) .i = s.get ⟨k, hk⟩ := by
    simp [List.getD_eq_getElem?_getD, List.getElem?_eq_getElem hk]
  have g2 : s'.getD (k - 0) .i = s'.get ⟨k, hk'⟩ := by
    simp [List.getD_eq_getElem?_getD, List.getElem?_eq_getElem hk']
  rw [g1, g2] at a1 a2
  simp only [Nat.zero_le, true_and] at a1
  generalize s.get ⟨k, hk⟩ = x at *
  generalize s'.get ⟨k, hk'⟩ = y at *
  constructor
  · tauto
  · clear a1 g1 g2 h1 h2
    cases x <;> cases y <;> first | exact absurd a2 (by decide) | simp

end HQCA.SymProj
