import Verif.Model.RDM
import Mathlib.Data.List.Nodup
import Mathlib.Data.List.Count
import Mathlib.Tactic.Linarith

/-!
# Property C27: the unique RDM elements
-/

namespace HQCA.Props
open Tomo

/-- The alpha orbitals `0 … Na-1` and the beta orbitals `Na … Na+Nb-1`. -/
def alpha (Na : ℕ) : List ℕ := List.range Na
def beta (Na Nb : ℕ) : List ℕ := (List.range Nb).map (Na + ·)

/-- Increasing index lists of length `p` below `N`. -/
def Sorted (p N : ℕ) (c : List ℕ) : Prop := c.length = p ∧ c.Pairwise (· < ·) ∧ ∀ x ∈ c, x < N

/-- Number of alpha indices. -/
def nAlpha (Na : ℕ) (c : List ℕ) : ℕ := c.countP (fun x => x < Na)

/-- `L` holds, up to exchanging `c` and `a`, each spin-conserving pair of increasing index lists exactly once (without
the diagonal ones if `skip`), and nothing else. -/
def ListsUnique (p Na N : ℕ) (skip : Bool) (L : List (List ℕ)) : Prop :=
  (∀ x ∈ L, ∃ c a, x = c ++ a.reverse ∧ Sorted p N c ∧ Sorted p N a ∧ nAlpha Na c = nAlpha Na a) ∧
  (∀ c a, Sorted p N c → Sorted p N a → nAlpha Na c = nAlpha Na a →
    L.count (c ++ a.reverse) + (if c = a then 0 else L.count (a ++ c.reverse)) =
      if c = a ∧ skip = true then 0 else 1)

theorem mem_alpha (Na x : ℕ) : x ∈ alpha Na ↔ x < Na := List.mem_range
theorem mem_beta (Na Nb x : ℕ) : x ∈ beta Na Nb ↔ Na ≤ x ∧ x < Na + Nb := by
  simp only [beta, List.mem_map, List.mem_range]
  constructor
  · rintro ⟨y, hy, rfl⟩; omega
  · rintro ⟨h1, h2⟩; exact ⟨x - Na, by omega, by omega⟩
theorem nodup_alpha (Na : ℕ) : (alpha Na).Nodup := List.nodup_range
theorem nodup_beta (Na Nb : ℕ) : (beta Na Nb).Nodup :=
  List.nodup_range.map (fun a b h => by simpa using h)
theorem length_alpha (Na : ℕ) : (alpha Na).length = Na := List.length_range

theorem nodup_flatMap_tag (n : ℕ) (g : List ℕ) (G : ℕ → List (List ℕ)) (hg : g.Nodup) (h1 : ∀ i, (G i).Nodup)
    (h2 : ∀ i, ∀ x ∈ G i, x[n]? = some i) : (g.flatMap G).Nodup := by
  rw [List.nodup_flatMap]
  refine ⟨fun i _ => h1 i, hg.imp ?_⟩
  intro a b hab x hx hx'
  have e1 := h2 a x hx
  have e2 := h2 b x hx'
  rw [e1] at e2
  exact hab (Option.some.inj e2)

theorem nodup_ite_nil (P : Prop) [Decidable P] (l : List (List ℕ)) (h : l.Nodup) : (if P then [] else l).Nodup := by
  split
  · exact List.nodup_nil
  · exact h

theorem key_inj {N k l : ℕ} (i j : ℕ) (h1 : k < l + N) (h2 : l < k + N) : i * N + k = j * N + l ↔ i = j ∧ k = l := by
  constructor
  · intro h
    have hij : i = j := by
      rcases lt_trichotomy i j with hlt | heq | hlt
      · exfalso
        have : (i + 1) * N ≤ j * N := Nat.mul_le_mul_right N hlt
        rw [Nat.succ_mul] at this
        omega
      · exact heq
      · exfalso
        have : (j + 1) * N ≤ i * N := Nat.mul_le_mul_right N hlt
        rw [Nat.succ_mul] at this
        omega
    subst hij
    exact ⟨rfl, by omega⟩
  · rintro ⟨rfl, rfl⟩; rfl

/-! ### Order 1 -/

theorem mem_rdme1 (f : Flags) (Na Nb : ℕ) (x : List ℕ) :
    x ∈ rdme1 f (alpha Na) (beta Na Nb) ↔ ∃ i j, x = [i, j] ∧ i < Na + Nb ∧ j < Na + Nb ∧ (i < Na ↔ j < Na) ∧ i ≤ j ∧
      ¬(f.skipDiag = true ∧ i = j) := by
  simp only [rdme1, block1, List.mem_append, List.mem_flatMap, mem_alpha, mem_beta, List.mem_ite_nil_left,
    List.mem_singleton, Bool.and_eq_true, beq_iff_eq]
  constructor
  · rintro (⟨i, hi, j, hj, h1, h2, rfl⟩ | ⟨i, hi, j, hj, h1, h2, rfl⟩) <;>
      exact ⟨i, j, rfl, by omega, by omega, by omega, by omega, h2⟩
  · rintro ⟨i, j, rfl, h1, h2, h3, h4, h5⟩
    by_cases hi : i < Na
    · exact Or.inl ⟨i, by omega, j, by omega, by omega, h5, rfl⟩
    · exact Or.inr ⟨i, by omega, j, by omega, by omega, h5, rfl⟩

theorem nodup_block1 (f : Flags) (g : List ℕ) (hg : g.Nodup) : (block1 f g).Nodup := by
  unfold block1
  refine nodup_flatMap_tag 0 g _ hg (fun i => nodup_flatMap_tag 1 g _ hg (fun j => ?_) ?_) ?_
  · exact nodup_ite_nil _ _ (nodup_ite_nil _ _ (List.nodup_singleton _))
  · intro j x hx
    simp only [List.mem_ite_nil_left, List.mem_singleton] at hx
    rw [hx.2.2]; rfl
  · intro i x hx
    simp only [List.mem_flatMap, List.mem_ite_nil_left, List.mem_singleton] at hx
    obtain ⟨j, _, _, _, rfl⟩ := hx
    rfl

theorem nodup_rdme1 (f : Flags) (Na Nb : ℕ) : (rdme1 f (alpha Na) (beta Na Nb)).Nodup := by
  unfold rdme1
  refine List.Nodup.append (nodup_block1 f _ (nodup_alpha Na)) (nodup_block1 f _ (nodup_beta Na Nb)) ?_
  intro x hx hx'
  simp only [block1, List.mem_flatMap, mem_alpha, mem_beta, List.mem_ite_nil_left, List.mem_singleton] at hx hx'
  obtain ⟨i, hi, j, hj, _, _, rfl⟩ := hx
  obtain ⟨i', hi', j', hj', _, _, e⟩ := hx'
  simp at e
  omega

theorem sorted_one {N : ℕ} {c : List ℕ} : Sorted 1 N c ↔ ∃ i, c = [i] ∧ i < N := by
  constructor
  · rintro ⟨h1, h2, h3⟩
    match c, h1 with
    | [i], _ => exact ⟨i, rfl, h3 i (by simp)⟩
  · rintro ⟨i, rfl, h⟩
    exact ⟨rfl, by simp, by simpa using h⟩

theorem sorted_two {N : ℕ} {c : List ℕ} : Sorted 2 N c ↔ ∃ i k, c = [i, k] ∧ i < k ∧ k < N := by
  constructor
  · rintro ⟨h1, h2, h3⟩
    match c, h1 with
    | [i, k], _ => exact ⟨i, k, rfl, by simpa using h2, h3 k (by simp)⟩
  · rintro ⟨i, k, rfl, h, h'⟩
    exact ⟨rfl, by simpa using h, by simp; omega⟩

theorem sorted_three {N : ℕ} {c : List ℕ} : Sorted 3 N c ↔ ∃ i k m, c = [i, k, m] ∧ i < k ∧ k < m ∧ m < N := by
  constructor
  · rintro ⟨h1, h2, h3⟩
    match c, h1 with
    | [i, k, m], _ =>
      simp at h2
      exact ⟨i, k, m, rfl, h2.1.1, h2.2, h3 m (by simp)⟩
  · rintro ⟨i, k, m, rfl, h, h', h''⟩
    exact ⟨rfl, by simp; omega, by simp; omega⟩

/-- **C27, order 1**, any numbers of orbitals. -/
theorem C27_order1 (f : Flags) (Na Nb : ℕ) :
    ListsUnique 1 Na (Na + Nb) f.skipDiag (rdme1 f (alpha Na) (beta Na Nb)) := by
  constructor
  · intro x hx
    obtain ⟨i, j, rfl, h1, h2, h3, h4, h5⟩ := (mem_rdme1 f Na Nb x).mp hx
    refine ⟨[i], [j], rfl, sorted_one.mpr ⟨i, rfl, h1⟩, sorted_one.mpr ⟨j, rfl, h2⟩, ?_⟩
    simp [nAlpha, List.countP_cons, h3]
  · intro c a hc ha hn
    obtain ⟨i, rfl, hi⟩ := sorted_one.mp hc
    obtain ⟨j, rfl, hj⟩ := sorted_one.mp ha
    have hij : i < Na ↔ j < Na := by
      simp [nAlpha, List.countP_cons] at hn
      by_cases h1 : i < Na <;> by_cases h2 : j < Na <;> simp_all <;> omega
    have e1 : ([i] ++ [j].reverse ∈ rdme1 f (alpha Na) (beta Na Nb)) ↔ i ≤ j ∧ ¬(f.skipDiag = true ∧ i = j) := by
      rw [mem_rdme1]
      constructor
      · rintro ⟨i', j', e, h⟩; simp at e; obtain ⟨rfl, rfl⟩ := e; exact ⟨h.2.2.2.1, h.2.2.2.2⟩
      · rintro ⟨h1, h2⟩; exact ⟨i, j, rfl, hi, hj, hij, h1, h2⟩
    have e2 : ([j] ++ [i].reverse ∈ rdme1 f (alpha Na) (beta Na Nb)) ↔ j ≤ i ∧ ¬(f.skipDiag = true ∧ j = i) := by
      rw [mem_rdme1]
      constructor
      · rintro ⟨i', j', e, h⟩; simp at e; obtain ⟨rfl, rfl⟩ := e; exact ⟨h.2.2.2.1, h.2.2.2.2⟩
      · rintro ⟨h1, h2⟩; exact ⟨j, i, rfl, hj, hi, hij.symm, h1, h2⟩
    rw [(nodup_rdme1 f Na Nb).count, (nodup_rdme1 f Na Nb).count]
    simp only [e1, e2, List.cons.injEq, and_true]
    cases f.skipDiag <;> simp <;> split_ifs <;> omega

/-! ### Order 2 -/

theorem mem_rdme2 (f : Flags) (Na Nb : ℕ) (x : List ℕ) :
    x ∈ rdme2 f (alpha Na) (beta Na Nb) ↔ ∃ i k l j, x = [i, k, l, j] ∧ i < k ∧ j < l ∧ k < Na + Nb ∧ l < Na + Nb ∧
      (i < Na ↔ j < Na) ∧ (k < Na ↔ l < Na) ∧ i * Na + k ≤ j * Na + l ∧
      ¬(f.skipDiag = true ∧ i * Na + k = j * Na + l) := by
  simp only [rdme2, block2, blockAB, List.mem_append, List.mem_flatMap, mem_alpha, mem_beta, List.mem_ite_nil_left,
    List.mem_singleton, Bool.and_eq_true, beq_iff_eq, length_alpha]
  constructor
  · rintro ((⟨i, hi, k, hk, h1, l, hl, j, hj, h2, h3, rfl⟩ | ⟨i, hi, k, hk, h1, l, hl, j, hj, h2, h3, rfl⟩) |
      ⟨i, hi, k, hk, l, hl, j, hj, h2, h3, rfl⟩) <;>
      exact ⟨i, k, l, j, rfl, by omega, by omega, by omega, by omega, by omega, by omega, by omega, h3⟩
  · rintro ⟨i, k, l, j, rfl, h1, h2, h3, h4, h5, h6, h7, h8⟩
    by_cases hk : k < Na
    · exact Or.inl (Or.inl ⟨i, by omega, k, by omega, by omega, l, by omega, j, by omega, by omega, h8, rfl⟩)
    · by_cases hi : i < Na
      · exact Or.inr ⟨i, by omega, k, by omega, l, by omega, j, by omega, by omega, h8, rfl⟩
      · exact Or.inl (Or.inr ⟨i, by omega, k, by omega, by omega, l, by omega, j, by omega, by omega, h8, rfl⟩)

theorem nodup_block2 (f : Flags) (N : ℕ) (g : List ℕ) (hg : g.Nodup) : (block2 f N g).Nodup := by
  unfold block2
  refine nodup_flatMap_tag 0 g _ hg (fun i => nodup_flatMap_tag 1 g _ hg (fun k => nodup_ite_nil _ _
    (nodup_flatMap_tag 2 g _ hg (fun l => nodup_flatMap_tag 3 g _ hg (fun j => ?_) ?_) ?_)) ?_) ?_
  · exact nodup_ite_nil _ _ (nodup_ite_nil _ _ (List.nodup_singleton _))
  all_goals
    intro i x hx
    simp only [List.mem_flatMap, List.mem_ite_nil_left, List.mem_singleton] at hx
  · rw [hx.2.2]; rfl
  · obtain ⟨j, _, _, _, rfl⟩ := hx; rfl
  · obtain ⟨_, l, _, j, _, _, _, rfl⟩ := hx; rfl
  · obtain ⟨k, _, _, l, _, j, _, _, _, rfl⟩ := hx; rfl

theorem nodup_blockAB (f : Flags) (N : ℕ) (g g' : List ℕ) (hg : g.Nodup) (hg' : g'.Nodup) : (blockAB f N g g').Nodup := by
  unfold blockAB
  refine nodup_flatMap_tag 0 g _ hg (fun i => nodup_flatMap_tag 1 g' _ hg' (fun k =>
    (nodup_flatMap_tag 2 g' _ hg' (fun l => nodup_flatMap_tag 3 g _ hg (fun j => ?_) ?_) ?_)) ?_) ?_
  · exact nodup_ite_nil _ _ (nodup_ite_nil _ _ (List.nodup_singleton _))
  all_goals
    intro i x hx
    simp only [List.mem_flatMap, List.mem_ite_nil_left, List.mem_singleton] at hx
  · rw [hx.2.2]; rfl
  · obtain ⟨j, _, _, _, rfl⟩ := hx; rfl
  · obtain ⟨l, _, j, _, _, _, rfl⟩ := hx; rfl
  · obtain ⟨k, _, l, _, j, _, _, _, rfl⟩ := hx; rfl

theorem nodup_rdme2 (f : Flags) (Na Nb : ℕ) : (rdme2 f (alpha Na) (beta Na Nb)).Nodup := by
  unfold rdme2
  refine List.Nodup.append (List.Nodup.append (nodup_block2 f _ _ (nodup_alpha Na)) (nodup_block2 f _ _ (nodup_beta Na Nb)) ?_)
    (nodup_blockAB f _ _ _ (nodup_alpha Na) (nodup_beta Na Nb)) ?_
  · intro x hx hx'
    simp only [block2, List.mem_flatMap, mem_alpha, mem_beta, List.mem_ite_nil_left, List.mem_singleton] at hx hx'
    obtain ⟨i, hi, k, hk, _, l, hl, j, hj, _, _, rfl⟩ := hx
    obtain ⟨i', hi', k', hk', _, l', hl', j', hj', _, _, e⟩ := hx'
    simp at e
    omega
  · intro x hx hx'
    simp only [block2, blockAB, List.mem_append, List.mem_flatMap, mem_alpha, mem_beta, List.mem_ite_nil_left,
      List.mem_singleton] at hx hx'
    obtain ⟨i', hi', k', hk', l', hl', j', hj', _, _, e⟩ := hx'
    rcases hx with ⟨i, hi, k, hk, _, l, hl, j, hj, _, _, rfl⟩ | ⟨i, hi, k, hk, _, l, hl, j, hj, _, _, rfl⟩ <;>
      (simp at e; omega)

/-- **C27, order 2**, with no more beta than alpha orbitals.  Missing: more beta than alpha orbitals, where it is false
(`C27_fails_order2`). -/
theorem C27_order2_partial (f : Flags) (Na Nb : ℕ) (hN : Nb ≤ Na) :
    ListsUnique 2 Na (Na + Nb) f.skipDiag (rdme2 f (alpha Na) (beta Na Nb)) := by
  constructor
  · intro x hx
    obtain ⟨i, k, l, j, rfl, h1, h2, h3, h4, h5, h6, h7, h8⟩ := (mem_rdme2 f Na Nb x).mp hx
    refine ⟨[i, k], [j, l], rfl, sorted_two.mpr ⟨i, k, rfl, h1, h3⟩, sorted_two.mpr ⟨j, l, rfl, h2, h4⟩, ?_⟩
    simp [nAlpha, List.countP_cons, h5, h6]
  · intro c a hc ha hn
    obtain ⟨i, k, rfl, hi, hk⟩ := sorted_two.mp hc
    obtain ⟨j, l, rfl, hj, hl⟩ := sorted_two.mp ha
    have hij : (i < Na ↔ j < Na) ∧ (k < Na ↔ l < Na) := by
      simp only [nAlpha, List.countP_cons, List.countP_nil, decide_eq_true_eq] at hn
      split_ifs at hn <;> omega
    obtain ⟨hij, hkl⟩ := hij
    have e1 : ([i, k] ++ [j, l].reverse ∈ rdme2 f (alpha Na) (beta Na Nb)) ↔
        i * Na + k ≤ j * Na + l ∧ ¬(f.skipDiag = true ∧ i * Na + k = j * Na + l) := by
      rw [mem_rdme2]
      constructor
      · rintro ⟨i', k', l', j', e, h⟩
        simp at e
        obtain ⟨rfl, rfl, rfl, rfl⟩ := e
        exact h.2.2.2.2.2.2
      · rintro ⟨h1, h2⟩
        exact ⟨i, k, l, j, rfl, hi, hj, hk, hl, hij, hkl, h1, h2⟩
    have e2 : ([j, l] ++ [i, k].reverse ∈ rdme2 f (alpha Na) (beta Na Nb)) ↔
        j * Na + l ≤ i * Na + k ∧ ¬(f.skipDiag = true ∧ j * Na + l = i * Na + k) := by
      rw [mem_rdme2]
      constructor
      · rintro ⟨i', k', l', j', e, h⟩
        simp at e
        obtain ⟨rfl, rfl, rfl, rfl⟩ := e
        exact h.2.2.2.2.2.2
      · rintro ⟨h1, h2⟩
        exact ⟨j, l, k, i, rfl, hj, hi, hl, hk, hij.symm, hkl.symm, h1, h2⟩
    have hkey : i * Na + k = j * Na + l ↔ ([i, k] : List ℕ) = [j, l] := by
      rw [key_inj i j (by omega) (by omega)]
      simp
    rw [(nodup_rdme2 f Na Nb).count, (nodup_rdme2 f Na Nb).count]
    simp only [e1, e2, ← hkey, eq_comm (a := j * Na + l)]
    cases f.skipDiag <;> simp <;> split_ifs <;> omega

/-! ### Order 3 -/

theorem mem_block3 (f : Flags) (N : ℕ) (g1 g2 g3 : List ℕ) (x : List ℕ) :
    x ∈ block3 f N g1 g2 g3 ↔ ∃ i k m n l j, x = [i, k, m, n, l, j] ∧ (i ∈ g1 ∧ k ∈ g2 ∧ m ∈ g3 ∧ n ∈ g3 ∧ l ∈ g2 ∧ j ∈ g1) ∧
      (i < k ∧ k < m ∧ j < l ∧ l < n) ∧ i * N ^ 2 + k * N + m ≤ j * N ^ 2 + l * N + n ∧
      ¬(f.skipDiag = true ∧ i * N ^ 2 + k * N + m = j * N ^ 2 + l * N + n) := by
  simp only [block3, List.mem_flatMap, List.mem_ite_nil_left, List.mem_singleton, Bool.and_eq_true, beq_iff_eq, not_or,
    not_le, not_lt, ge_iff_le, gt_iff_lt]
  constructor
  · rintro ⟨i, hi, k, hk, h1, m, hm, h2, n, hn, l, hl, h3, j, hj, ⟨h4, h5⟩, h6, rfl⟩
    exact ⟨i, k, m, n, l, j, rfl, ⟨hi, hk, hm, hn, hl, hj⟩, ⟨h1, h2, h5, h3⟩, h4, h6⟩
  · rintro ⟨i, k, m, n, l, j, rfl, ⟨hi, hk, hm, hn, hl, hj⟩, ⟨h1, h2, h5, h3⟩, h4, h6⟩
    exact ⟨i, hi, k, hk, h1, m, hm, h2, n, hn, l, hl, h3, j, hj, ⟨h4, h5⟩, h6, rfl⟩

theorem nodup_block3 (f : Flags) (N : ℕ) (g1 g2 g3 : List ℕ) (h1 : g1.Nodup) (h2 : g2.Nodup) (h3 : g3.Nodup) :
    (block3 f N g1 g2 g3).Nodup := by
  unfold block3
  refine nodup_flatMap_tag 0 _ _ h1 (fun i => nodup_flatMap_tag 1 _ _ h2 (fun k => nodup_ite_nil _ _
    (nodup_flatMap_tag 2 _ _ h3 (fun m => nodup_ite_nil _ _ (nodup_flatMap_tag 3 _ _ h3 (fun n =>
      nodup_flatMap_tag 4 _ _ h2 (fun l => nodup_ite_nil _ _ (nodup_flatMap_tag 5 _ _ h1 (fun j => ?_) ?_)) ?_) ?_)) ?_)) ?_) ?_
  · exact nodup_ite_nil _ _ (nodup_ite_nil _ _ (List.nodup_singleton _))
  all_goals
    intro i x hx
    simp only [List.mem_flatMap, List.mem_ite_nil_left, List.mem_singleton] at hx
  · rw [hx.2.2]; rfl
  · obtain ⟨_, _, _, _, _, rfl⟩ := hx; rfl
  · obtain ⟨_, _, _, _, _, _, _, rfl⟩ := hx; rfl
  · obtain ⟨_, _, _, _, _, _, _, _, _, _, rfl⟩ := hx; rfl
  · obtain ⟨_, _, _, _, _, _, _, _, _, _, _, _, _, rfl⟩ := hx; rfl
  · obtain ⟨_, _, _, _, _, _, _, _, _, _, _, _, _, _, _, rfl⟩ := hx; rfl

theorem mem_rdme3 (f : Flags) (Na Nb : ℕ) (x : List ℕ) :
    x ∈ rdme3 f (alpha Na) (beta Na Nb) ↔ ∃ i k m n l j, x = [i, k, m, n, l, j] ∧ i < k ∧ k < m ∧ j < l ∧ l < n ∧
      m < Na + Nb ∧ n < Na + Nb ∧ (i < Na ↔ j < Na) ∧ (k < Na ↔ l < Na) ∧ (m < Na ↔ n < Na) ∧
      i * Na ^ 2 + k * Na + m ≤ j * Na ^ 2 + l * Na + n ∧
      ¬(f.skipDiag = true ∧ i * Na ^ 2 + k * Na + m = j * Na ^ 2 + l * Na + n) := by
  simp only [rdme3, List.mem_append, mem_block3, mem_alpha, mem_beta, length_alpha]
  constructor
  · rintro (((⟨i, k, m, n, l, j, rfl, h1, h2, h3, h4⟩ | ⟨i, k, m, n, l, j, rfl, h1, h2, h3, h4⟩) |
      ⟨i, k, m, n, l, j, rfl, h1, h2, h3, h4⟩) | ⟨i, k, m, n, l, j, rfl, h1, h2, h3, h4⟩) <;>
    exact ⟨i, k, m, n, l, j, rfl, by omega, by omega, by omega, by omega, by omega, by omega, by omega, by omega,
      by omega, h3, h4⟩
  · rintro ⟨i, k, m, n, l, j, rfl, h1, h2, h3, h4, h5, h6, h7, h8, h9, h10, h11⟩
    by_cases hm : m < Na
    · exact Or.inl (Or.inl (Or.inl ⟨i, k, m, n, l, j, rfl, by omega, by omega, h10, h11⟩))
    · by_cases hk : k < Na
      · exact Or.inl (Or.inl (Or.inr ⟨i, k, m, n, l, j, rfl, by omega, by omega, h10, h11⟩))
      · by_cases hi : i < Na
        · exact Or.inl (Or.inr ⟨i, k, m, n, l, j, rfl, by omega, by omega, h10, h11⟩)
        · exact Or.inr ⟨i, k, m, n, l, j, rfl, by omega, by omega, h10, h11⟩

theorem nodup_rdme3 (f : Flags) (Na Nb : ℕ) : (rdme3 f (alpha Na) (beta Na Nb)).Nodup := by
  have ha := nodup_alpha Na
  have hb := nodup_beta Na Nb
  unfold rdme3
  refine List.Nodup.append (List.Nodup.append (List.Nodup.append (nodup_block3 f _ _ _ _ ha ha ha)
    (nodup_block3 f _ _ _ _ ha ha hb) ?_) (nodup_block3 f _ _ _ _ ha hb hb) ?_) (nodup_block3 f _ _ _ _ hb hb hb) ?_
  all_goals
    intro x hx hx'
    simp only [List.mem_append, mem_block3, mem_alpha, mem_beta] at hx hx'
    obtain ⟨i', k', m', n', l', j', e, h1', _⟩ := hx'
  · obtain ⟨i, k, m, n, l, j, rfl, h1, _⟩ := hx
    simp at e; omega
  · rcases hx with ⟨i, k, m, n, l, j, rfl, h1, _⟩ | ⟨i, k, m, n, l, j, rfl, h1, _⟩ <;>
      (simp at e; omega)
  · rcases hx with (⟨i, k, m, n, l, j, rfl, h1, _⟩ | ⟨i, k, m, n, l, j, rfl, h1, _⟩) | ⟨i, k, m, n, l, j, rfl, h1, _⟩ <;>
      (simp at e; omega)

theorem key3_inj {N : ℕ} (i j k l m n : ℕ) (h1 : k < l + N) (h2 : l < k + N) (h3 : m < n + N) (h4 : n < m + N) :
    i * N ^ 2 + k * N + m = j * N ^ 2 + l * N + n ↔ i = j ∧ k = l ∧ m = n := by
  have e1 : i * N ^ 2 + k * N + m = (i * N + k) * N + m := by ring
  have e2 : j * N ^ 2 + l * N + n = (j * N + l) * N + n := by ring
  rw [e1, e2, key_inj _ _ h3 h4, key_inj _ _ h1 h2, and_assoc]

/-- **C27, order 3**, with no more beta than alpha orbitals. -/
theorem C27_order3_partial (f : Flags) (Na Nb : ℕ) (hN : Nb ≤ Na) :
    ListsUnique 3 Na (Na + Nb) f.skipDiag (rdme3 f (alpha Na) (beta Na Nb)) := by
  constructor
  · intro x hx
    obtain ⟨i, k, m, n, l, j, rfl, h1, h2, h3, h4, h5, h6, h7, h8, h9, h10, h11⟩ := (mem_rdme3 f Na Nb x).mp hx
    refine ⟨[i, k, m], [j, l, n], rfl, sorted_three.mpr ⟨i, k, m, rfl, h1, h2, h5⟩,
      sorted_three.mpr ⟨j, l, n, rfl, h3, h4, h6⟩, ?_⟩
    simp [nAlpha, List.countP_cons, h7, h8, h9]
  · intro c a hc ha hn
    obtain ⟨i, k, m, rfl, hi, hk, hm⟩ := sorted_three.mp hc
    obtain ⟨j, l, n, rfl, hj, hl, hn'⟩ := sorted_three.mp ha
    have hij : (i < Na ↔ j < Na) ∧ (k < Na ↔ l < Na) ∧ (m < Na ↔ n < Na) := by
      simp only [nAlpha, List.countP_cons, List.countP_nil, decide_eq_true_eq] at hn
      split_ifs at hn <;> omega
    obtain ⟨hij, hkl, hmn⟩ := hij
    have e1 : ([i, k, m] ++ [j, l, n].reverse ∈ rdme3 f (alpha Na) (beta Na Nb)) ↔
        i * Na ^ 2 + k * Na + m ≤ j * Na ^ 2 + l * Na + n ∧
          ¬(f.skipDiag = true ∧ i * Na ^ 2 + k * Na + m = j * Na ^ 2 + l * Na + n) := by
      rw [mem_rdme3]
      constructor
      · rintro ⟨i', k', m', n', l', j', e, h⟩
        simp at e
        obtain ⟨rfl, rfl, rfl, rfl, rfl, rfl⟩ := e
        exact h.2.2.2.2.2.2.2.2.2
      · rintro ⟨h1, h2⟩
        exact ⟨i, k, m, n, l, j, rfl, hi, hk, hj, hl, hm, hn', hij, hkl, hmn, h1, h2⟩
    have e2 : ([j, l, n] ++ [i, k, m].reverse ∈ rdme3 f (alpha Na) (beta Na Nb)) ↔
        j * Na ^ 2 + l * Na + n ≤ i * Na ^ 2 + k * Na + m ∧
          ¬(f.skipDiag = true ∧ j * Na ^ 2 + l * Na + n = i * Na ^ 2 + k * Na + m) := by
      rw [mem_rdme3]
      constructor
      · rintro ⟨i', k', m', n', l', j', e, h⟩
        simp at e
        obtain ⟨rfl, rfl, rfl, rfl, rfl, rfl⟩ := e
        exact h.2.2.2.2.2.2.2.2.2
      · rintro ⟨h1, h2⟩
        exact ⟨j, l, n, m, k, i, rfl, hj, hl, hi, hk, hn', hm, hij.symm, hkl.symm, hmn.symm, h1, h2⟩
    have hkey : i * Na ^ 2 + k * Na + m = j * Na ^ 2 + l * Na + n ↔ ([i, k, m] : List ℕ) = [j, l, n] := by
      rw [key3_inj i j k l m n (by omega) (by omega) (by omega) (by omega)]
      simp
    rw [(nodup_rdme3 f Na Nb).count, (nodup_rdme3 f Na Nb).count]
    simp only [e1, e2, ← hkey, eq_comm (a := j * Na ^ 2 + l * Na + n)]
    cases f.skipDiag <;> simp <;> split_ifs <;> omega

/-- All elements for two alpha and two beta orbitals, real part. -/
example : rdme2 ⟨true, false⟩ (alpha 2) (beta 2 2) = [[0, 1, 1, 0], [2, 3, 3, 2], [0, 2, 2, 0], [0, 2, 2, 1], [0, 2, 3, 0],
    [0, 2, 3, 1], [0, 3, 2, 1], [0, 3, 3, 0], [0, 3, 3, 1], [1, 2, 2, 1], [1, 2, 3, 1], [1, 3, 3, 1]] := by decide +kernel

/-- **C27 is violated at order 2 with more beta than alpha orbitals**: with one alpha and four beta orbitals the element
`[1,4],[2,3]` is requested in both Hermitian forms (and filled twice). -/
theorem C27_fails_order2 : ¬ ListsUnique 2 1 5 false (rdme2 ⟨true, false⟩ (alpha 1) (beta 1 4)) := by
  intro h
  have := h.2 [1, 4] [2, 3] (sorted_two.mpr ⟨1, 4, rfl, by omega, by omega⟩) (sorted_two.mpr ⟨2, 3, rfl, by omega, by omega⟩)
    (by decide)
  revert this
  decide +kernel

/-- The general form of the order-2 violation: with one alpha orbital and `Nb ≥ 4` beta orbitals two keys coincide. -/
theorem C27_fails_order2_beta (Nb : ℕ) (h : 4 ≤ Nb) (f : Flags) (hf : f.skipDiag = false) :
    ¬ ListsUnique 2 1 (1 + Nb) f.skipDiag (rdme2 f (alpha 1) (beta 1 Nb)) := by
  intro hu
  have h1 := hu.2 [1, 4] [2, 3] (sorted_two.mpr ⟨1, 4, rfl, by omega, by omega⟩)
    (sorted_two.mpr ⟨2, 3, rfl, by omega, by omega⟩) (by decide)
  have m1 : [1, 4] ++ [2, 3].reverse ∈ rdme2 f (alpha 1) (beta 1 Nb) :=
    (mem_rdme2 f 1 Nb _).mpr ⟨1, 4, 3, 2, rfl, by omega, by omega, by omega, by omega, by omega, by omega, by omega,
      by simp [hf]⟩
  have m2 : [2, 3] ++ [1, 4].reverse ∈ rdme2 f (alpha 1) (beta 1 Nb) :=
    (mem_rdme2 f 1 Nb _).mpr ⟨2, 3, 4, 1, rfl, by omega, by omega, by omega, by omega, by omega, by omega, by omega,
      by simp [hf]⟩
  rw [(nodup_rdme2 f 1 Nb).count, (nodup_rdme2 f 1 Nb).count, if_pos m1, if_pos m2] at h1
  simp [hf] at h1

/-- **C27 is violated at order 3 when spin groups interleave** (`alpha = 0,2`, `beta = 1,3`): the element `0,1,2` (two
alpha, one beta) is not requested. -/
theorem C27_fails_interleaved : ∀ x ∈ rdme3 ⟨true, false⟩ [0, 2] [1, 3], x.toFinset ≠ {0, 1, 2} := by decide +kernel

/-- **C27 is violated at order 4**, for every Hamiltonian with at least four alpha orbitals: the diagonal element
`0,1,2,3` is never requested, because the loops require the fourth index to be below the third. -/
theorem C27_fails_order4 (f : Flags) (Na Nb : ℕ) (hN : 4 ≤ Na) (hf : f.skipDiag = false) :
    ¬ ListsUnique 4 Na (Na + Nb) f.skipDiag (rdme4 f (alpha Na) (beta Na Nb)) := by
  intro hu
  have hs : Sorted 4 (Na + Nb) [0, 1, 2, 3] := ⟨rfl, by decide, by simp; omega⟩
  have h1 := hu.2 [0, 1, 2, 3] [0, 1, 2, 3] hs hs rfl
  simp only [if_true, hf] at h1
  have h0 : [0, 1, 2, 3] ++ [0, 1, 2, 3].reverse ∉ rdme4 f (alpha Na) (beta Na Nb) := by
    have hb : ∀ N g1 g2 g3 g4, [0, 1, 2, 3, 3, 2, 1, 0] ∉ block4 f N g1 g2 g3 g4 := by
      intro N g1 g2 g3 g4 hx
      simp only [block4, List.mem_flatMap, List.mem_ite_nil_left, List.mem_singleton] at hx
      obtain ⟨i, _, k, _, _, m, _, _, o, _, ho, p, _, n, _, _, l, _, _, j, _, _, _, e⟩ := hx
      simp at e
      omega
    unfold rdme4
    simp only [List.mem_append, not_or]
    exact ⟨⟨⟨⟨hb _ _ _ _ _, hb _ _ _ _ _⟩, hb _ _ _ _ _⟩, hb _ _ _ _ _⟩, hb _ _ _ _ _⟩
  rw [List.count_eq_zero_of_not_mem h0] at h1
  simp at h1

end HQCA.Props
