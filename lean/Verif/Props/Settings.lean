import Verif.Model.Settings
import Mathlib.Tactic.Common
import Mathlib.Tactic.FinCases

/-!
# C168: settings of the ACSE driver
-/

namespace HQCA
namespace Props
open Settings

/-- The solvers by the names of the keyword (specification). -/
def quantumNames : List String := ["quantum", "Q", "q", "qso", "qfo"]
def classicalNames : List String := ["class", "classical", "c", "C"]
def particleNames : List String := ["para", "p"]

/-- Methods whose search direction is a vector (specification). -/
def vectorMethods : List String := ["bfgs", "lbfgs", "cg"]
/-- Methods whose search direction is an operator (specification). -/
def operatorMethods : List String := ["newton", "euler"]

/-- The settings a calculation can be started with (specification). -/
def Usable (o : Opt) : Prop :=
  (o.update ∈ quantumNames ∨ o.update ∈ classicalNames ∨ o.update ∈ particleNames) ∧ (o.conv = "norm" ∨ o.conv = "S-norm" ∨ (o.conv = "trust" ∧ o.method = "newton")) ∧
    ((o.method ∈ vectorMethods ∧ (o.norm = .two ∨ o.norm = .none)) ∨
      (o.method ∈ operatorMethods ∧ o.split = false ∧ o.norm ≠ .other ∧ (o.update ∈ particleNames → o.norm = .none)))

theorem letter_spec (u : String) :
    (u ∈ quantumNames ∧ letter u = some "q" ∧ u ∉ particleNames) ∨ (u ∈ classicalNames ∧ letter u = some "c" ∧ u ∉ particleNames) ∨ (u ∈ particleNames ∧ letter u = some "p") ∨
      ((letter u = some "u" ∨ letter u = some "h" ∨ letter u = none) ∧ u ∉ quantumNames ∧ u ∉ classicalNames ∧ u ∉ particleNames) := by
  unfold letter quantumNames classicalNames particleNames
  by_cases h1 : u ∈ ["quantum", "Q", "q", "qso", "qfo"]
  · refine Or.inl ⟨h1, if_pos h1, ?_⟩
    fin_cases h1 <;> decide
  by_cases h2 : u ∈ ["class", "classical", "c", "C"]
  · refine Or.inr (Or.inl ⟨h2, by rw [if_neg h1, if_pos h2], ?_⟩)
    fin_cases h2 <;> decide
  by_cases h3 : u ∈ ["para", "p"]
  · exact Or.inr (Or.inr (Or.inl ⟨h3, by rw [if_neg h1, if_neg h2, if_pos h3]⟩))
  refine Or.inr (Or.inr (Or.inr ⟨?_, h1, h2, h3⟩))
  rw [if_neg h1, if_neg h2, if_neg h3]
  split
  · exact Or.inl rfl
  · split
    · exact Or.inr (Or.inl rfl)
    · exact Or.inr (Or.inr rfl)

theorem start_unknown (o : Opt) (h : letter o.update = some "u" ∨ letter o.update = some "h" ∨ letter o.update = none) : start o = none := by
  have hg : ∀ l, l = "u" ∨ l = "h" → getA o l = none := by
    intro l hl
    unfold getA
    rw [if_neg]
    rcases hl with rfl | rfl <;> decide
  have : ∀ l, construct o = some l → l = "u" ∨ l = "h" := by
    intro l hl
    unfold construct at hl
    obtain ⟨x, x1, x2⟩ := Option.bind_eq_some_iff.mp hl
    have e : x = l := by
      split at x2
      · split at x2
        · cases x2
        · exact Option.some.inj x2
      · cases x2
    rw [x1, e] at h
    rcases h with h | h | h
    · exact Or.inl (Option.some.inj h)
    · exact Or.inr (Option.some.inj h)
    · cases h
  unfold start
  cases hc : construct o with
  | none => rfl
  | some l =>
    rw [Option.bind_some, build, hg l (this l hc)]
    rfl

/-- **C168, partial.** The settings with which the constructor, `build` and the first step raise no exception are exactly the usable ones, for all values of the keywords.  Missing: that the constructor refuses the
others (`C168_fails_late`). -/
theorem C168_start_partial (o : Opt) : start o = some () ↔ Usable o := by
  obtain ⟨u, m, n, cv, sp⟩ := o
  by_cases hm : m ∈ ["newton", "euler", "bfgs", "lbfgs", "cg"]
  swap
  · constructor
    · intro h
      simp only [start, construct, if_neg hm] at h
      cases hl : letter u <;> rw [hl] at h <;> cases h
    · rintro ⟨_, _, h⟩
      refine absurd ?_ hm
      rcases h with ⟨h, _⟩ | ⟨h, _⟩
      · simp only [vectorMethods, List.mem_cons, List.not_mem_nil, or_false] at h ⊢
        tauto
      · simp only [operatorMethods, List.mem_cons, List.not_mem_nil, or_false] at h ⊢
        tauto
  have hcv : (cv = "trust") ∨ (cv = "norm") ∨ (cv = "S-norm") ∨ (cv ≠ "trust" ∧ cv ≠ "norm" ∧ cv ≠ "S-norm") := by tauto
  rcases letter_spec u with ⟨h1, h2, h3⟩ | ⟨h1, h2, h3⟩ | ⟨h1, h2⟩ | ⟨h2, h3⟩
  · have hu : (u ∈ quantumNames ∨ u ∈ classicalNames ∨ u ∈ particleNames) = True := eq_true (Or.inl h1)
    have hp : (u ∈ particleNames) = False := eq_false h3
    simp only [List.mem_cons, List.not_mem_nil, or_false] at hm
    unfold Usable start construct build getA checkRoutine step criterion asMatrix vectorMethods operatorMethods
    simp only [hu, hp, h2]
    rcases hm with rfl | rfl | rfl | rfl | rfl <;> rcases hcv with rfl | rfl | rfl | ⟨c1, c2, c3⟩ <;> cases n <;> cases sp <;> simp [getA, asMatrix, *]
  · have hu : (u ∈ quantumNames ∨ u ∈ classicalNames ∨ u ∈ particleNames) = True := eq_true (Or.inr (Or.inl h1))
    have hp : (u ∈ particleNames) = False := eq_false h3
    simp only [List.mem_cons, List.not_mem_nil, or_false] at hm
    unfold Usable start construct build getA checkRoutine step criterion asMatrix vectorMethods operatorMethods
    simp only [hu, hp, h2]
    rcases hm with rfl | rfl | rfl | rfl | rfl <;> rcases hcv with rfl | rfl | rfl | ⟨c1, c2, c3⟩ <;> cases n <;> cases sp <;> simp [getA, asMatrix, *]
  · have hu : (u ∈ quantumNames ∨ u ∈ classicalNames ∨ u ∈ particleNames) = True := eq_true (Or.inr (Or.inr h1))
    have hp : (u ∈ particleNames) = True := eq_true h1
    simp only [List.mem_cons, List.not_mem_nil, or_false] at hm
    unfold Usable start construct build getA checkRoutine step criterion asMatrix vectorMethods operatorMethods
    simp only [hu, hp, h2]
    rcases hm with rfl | rfl | rfl | rfl | rfl <;> rcases hcv with rfl | rfl | rfl | ⟨c1, c2, c3⟩ <;> cases n <;> cases sp <;> simp [getA, asMatrix, *]
  · constructor
    · intro h
      exfalso
      rw [start_unknown _ h2] at h
      cases h
    · rintro ⟨h, _⟩
      exact (not_or.mpr ⟨h3.1, not_or.mpr h3.2⟩ h).elim

/-- **C168 fails:** settings the constructor accepts and that end in an exception later: the updates `user` and `hybrid`, the default convergence type, the trust criterion with another method than `newton`, and the
norm `inf` with a vector method. -/
theorem C168_fails_late (o : Opt) (h : (construct o).isSome)
    (hb : o.update ∈ ["user", "u", "hybrid", "h"] ∨ o.conv = "default" ∨ (o.conv = "trust" ∧ o.method ≠ "newton") ∨ (o.norm = .inf ∧ o.method ∈ vectorMethods)) :
    start o = none := by
  rcases e : start o with _ | ⟨⟩
  · rfl
  exfalso
  obtain ⟨h1, h2, h3⟩ := (C168_start_partial o).mp e
  rcases hb with hb | hb | ⟨hb, hb'⟩ | ⟨hb, hb'⟩
  · generalize o.update = u at h1 hb
    fin_cases hb <;> exact absurd h1 (by decide)
  · rw [hb] at h2
    rcases h2 with h2 | h2 | ⟨h2, _⟩ <;> exact absurd h2 (by decide)
  · rw [hb] at h2
    rcases h2 with h2 | h2 | ⟨_, h2⟩
    · exact absurd h2 (by decide)
    · exact absurd h2 (by decide)
    · exact hb' h2
  · rcases h3 with ⟨_, h3⟩ | ⟨h3, _⟩
    · rcases h3 with h3 | h3 <;> rw [hb] at h3 <;> cases h3
    · generalize o.method = m at h3 hb'
      fin_cases hb' <;> exact absurd h3 (by decide)

/-- The settings of the quantum Newton method with the trust criterion are usable; the same with the Euler method are accepted by the constructor, but not usable. -/
example : Usable ⟨"q", "newton", .none, "trust", false⟩ ∧ (construct ⟨"q", "euler", .none, "trust", false⟩).isSome ∧ start ⟨"q", "euler", .none, "trust", false⟩ = none :=
  ⟨⟨Or.inl (by decide), Or.inr (Or.inr ⟨rfl, rfl⟩), Or.inr ⟨by decide, rfl, by decide, fun h => absurd h (by decide)⟩⟩, by decide, by decide⟩

end Props
end HQCA
