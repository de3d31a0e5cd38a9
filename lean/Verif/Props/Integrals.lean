import Mathlib.Algebra.BigOperators.Group.Finset.Sigma
import Mathlib.Algebra.BigOperators.Ring.Finset
import Mathlib.Tactic.Ring
import Verif.Model.Integrals

/-!
# Spin-orbital integrals (C56)
-/

namespace HQCA
namespace Props
open Ints
variable {R : Type} [CommRing R]

/-! ### Specification -/

/-- Spec: rotation of a one-body matrix by `U` on both sides. -/
def rot1 (N : ℕ) (U ei : ℕ → ℕ → R) (p q : ℕ) : R :=
  ∑ a ∈ Finset.range N, ∑ b ∈ Finset.range N, U p a * ei a b * U q b

/-- Spec: rotation of a two-body tensor (chemists' order), `U` for electron one and `U'` for electron two. -/
def rot2 (N : ℕ) (U U' : ℕ → ℕ → R) (ei : ℕ → ℕ → ℕ → ℕ → R) (p q p' q' : ℕ) : R :=
  ∑ a ∈ Finset.range N, ∑ b ∈ Finset.range N, ∑ c ∈ Finset.range N, ∑ d ∈ Finset.range N,
    U p a * U q b * U' p' c * U' q' d * ei a b c d

/-! ### The loops -/

theorem accRow_eq {ι : Type} (N : ℕ) (u : ℕ → R) (x : ℕ → ι → R) (row : ι → R) (c : ι) :
    accRow N u x row c = row c + ∑ a ∈ Finset.range N, u a * x a c := by
  unfold accRow
  induction N with
  | zero => simp
  | succ n ih => rw [List.range_succ, List.foldl_append, List.foldl_cons, List.foldl_nil, ih, Finset.sum_range_succ]; ring

theorem accEntry_eq (N : ℕ) (u x : ℕ → R) (e : R) : accEntry N u x e = e + ∑ b ∈ Finset.range N, u b * x b := by
  unfold accEntry
  induction N with
  | zero => simp
  | succ n ih => rw [List.range_succ, List.foldl_append, List.foldl_cons, List.foldl_nil, ih, Finset.sum_range_succ]; ring

theorem setLoop (f : ℕ → R) (i : ℕ) (x : ℕ × ℕ) : ∀ (l : List ℕ) (e : ℕ × ℕ → R),
    l.foldl (fun e j => Function.update e (i, j) (f j)) e x = if x.1 = i ∧ x.2 ∈ l then f x.2 else e x
  | [], e => by simp
  | j :: l, e => by
    rw [List.foldl_cons, setLoop f i x l]
    by_cases h1 : x.1 = i
    · by_cases h2 : x.2 ∈ l
      · rw [if_pos ⟨h1, h2⟩, if_pos ⟨h1, by simp [h2]⟩]
      · rw [if_neg (by tauto)]
        by_cases h3 : x.2 = j
        · rw [if_pos ⟨h1, by simp [h3]⟩]
          have : x = (i, j) := by ext <;> simp [h1, h3]
          rw [this]; simp
        · rw [if_neg (by simp [h2, h3]), Function.update_of_ne (fun h => h3 (by rw [h]))]
    · rw [if_neg (by tauto), if_neg (by tauto), Function.update_of_ne (fun h => h1 (by rw [h]))]

theorem block1_loop (N : ℕ) (U ei : ℕ → ℕ → R) (s2s : ℕ → ℕ) (orbs : List ℕ) (x : ℕ × ℕ) : ∀ (l : List ℕ) (st : St1 R),
    l.Nodup → (∀ i ∈ l, ∀ j ∈ l, s2s i = s2s j → i = j) → (∀ i ∈ l, ∀ c, st.temp (s2s i) c = 0) →
    (l.foldl (step1 N U ei s2s orbs) st).new x
      = if x.1 ∈ l ∧ x.2 ∈ orbs then rot1 N U ei (s2s x.1) (s2s x.2) else st.new x
  | [], st, _, _, _ => by simp
  | i :: l, st, hn, hi, ht => by
    rw [List.foldl_cons, block1_loop N U ei s2s orbs x l _ (List.nodup_cons.mp hn).2
      (fun a ha b hb => hi a (by simp [ha]) b (by simp [hb]))]
    · have hrow : accRow N (U (s2s i)) ei (st.temp (s2s i)) = fun c => ∑ a ∈ Finset.range N, U (s2s i) a * ei a c := by
        funext c; rw [accRow_eq, ht i (by simp), zero_add]
      have hnew : (step1 N U ei s2s orbs st i).new x
          = if x.1 = i ∧ x.2 ∈ orbs then rot1 N U ei (s2s i) (s2s x.2) else st.new x := by
        unfold step1
        simp only [Function.update_self, hrow]
        rw [setLoop (fun j => accEntry N (U (s2s j)) (fun c => ∑ a ∈ Finset.range N, U (s2s i) a * ei a c) 0)]
        refine if_congr Iff.rfl ?_ rfl
        rw [accEntry_eq, zero_add]
        unfold rot1
        rw [Finset.sum_comm]
        refine Finset.sum_congr rfl fun b _ => ?_
        rw [Finset.mul_sum]
        refine Finset.sum_congr rfl fun a _ => by ring
      rw [hnew]
      by_cases h1 : x.1 ∈ l ∧ x.2 ∈ orbs
      · rw [if_pos h1, if_pos ⟨by simp [h1.1], h1.2⟩]
      · rw [if_neg h1]
        by_cases h2 : x.1 = i ∧ x.2 ∈ orbs
        · rw [if_pos h2, if_pos ⟨by simp [h2.1], h2.2⟩, h2.1]
        · rw [if_neg h2, if_neg]
          rintro ⟨h3, h4⟩
          rcases List.mem_cons.mp h3 with h3 | h3
          · exact h2 ⟨h3, h4⟩
          · exact h1 ⟨h3, h4⟩
    · intro j hj c
      have hne : s2s j ≠ s2s i := by
        intro h
        have := hi j (by simp [hj]) i (by simp) h
        subst this
        exact (List.nodup_cons.mp hn).1 hj
      show Function.update st.temp (s2s i) _ (s2s j) c = 0
      rw [Function.update_of_ne hne, ht j (by simp [hj])]

/-- One spin block of the one-body integrals. -/
theorem block1_eq (N : ℕ) (U ei : ℕ → ℕ → R) (s2s : ℕ → ℕ) (orbs : List ℕ) (new : ℕ × ℕ → R) (x : ℕ × ℕ) (hn : orbs.Nodup)
    (hi : ∀ i ∈ orbs, ∀ j ∈ orbs, s2s i = s2s j → i = j) :
    block1 N U ei s2s orbs new x
      = if x.1 ∈ orbs ∧ x.2 ∈ orbs then rot1 N U ei (s2s x.1) (s2s x.2) else new x :=
  block1_loop N U ei s2s orbs x orbs _ hn hi (fun _ _ _ => rfl)

/-- Assumptions on the orbital lists that the Hamiltonian classes establish: no spin orbital twice, the two spins apart, and
the spatial orbital of a spin orbital unique within a spin. -/
structure GoodOrbs (s2s : ℕ → ℕ) (alpha beta : List ℕ) : Prop where
  nodupA : alpha.Nodup
  nodupB : beta.Nodup
  apart : ∀ i ∈ alpha, i ∉ beta
  injA : ∀ i ∈ alpha, ∀ j ∈ alpha, s2s i = s2s j → i = j
  injB : ∀ i ∈ beta, ∀ j ∈ beta, s2s i = s2s j → i = j

/-- **C56, one body.** Entries between alpha orbitals are the rotation by the alpha matrix, between beta orbitals by the
beta matrix; all others keep the value of the array worked on. -/
theorem C56_one_body (N : ℕ) (Ua Ub ei : ℕ → ℕ → R) (s2s : ℕ → ℕ) (alpha beta : List ℕ) (new : ℕ × ℕ → R)
    (g : GoodOrbs s2s alpha beta) (i j : ℕ) :
    spin1 N Ua Ub ei s2s alpha beta new (i, j)
      = if i ∈ alpha ∧ j ∈ alpha then rot1 N Ua ei (s2s i) (s2s j)
        else if i ∈ beta ∧ j ∈ beta then rot1 N Ub ei (s2s i) (s2s j) else new (i, j) := by
  unfold spin1
  rw [block1_eq N Ub ei s2s beta _ _ g.nodupB g.injB, block1_eq N Ua ei s2s alpha _ _ g.nodupA g.injA]
  by_cases ha : i ∈ alpha ∧ j ∈ alpha
  · rw [if_neg (fun h => g.apart i ha.1 h.1), if_pos ha, if_pos ha]
  · rw [if_neg ha, if_neg ha]

/-- **C56.** Mixed-spin entries vanish. -/
theorem C56_mixed_spin (N : ℕ) (Ua Ub ei : ℕ → ℕ → R) (s2s : ℕ → ℕ) (alpha beta : Orbs)
    (g : GoodOrbs s2s alpha.full beta.full) (i j : ℕ)
    (h : (i ∈ alpha.full ∧ j ∈ beta.full) ∨ (i ∈ beta.full ∧ j ∈ alpha.full)) :
    spin1Full N Ua Ub ei s2s alpha beta (i, j) = 0 := by
  unfold spin1Full
  rw [C56_one_body _ _ _ _ _ _ _ _ g]
  rcases h with h | h
  · rw [if_neg (fun h' => g.apart j h'.2 h.2), if_neg (fun h' => g.apart i h.1 h'.1)]
  · rw [if_neg (fun h' => g.apart i h'.1 h.1), if_neg (fun h' => g.apart j h.2 h'.2)]

theorem rot1_symm (N : ℕ) (U ei : ℕ → ℕ → R) (hs : ∀ a b, ei a b = ei b a) (p q : ℕ) : rot1 N U ei p q = rot1 N U ei q p := by
  unfold rot1
  rw [Finset.sum_comm]
  refine Finset.sum_congr rfl fun a _ => Finset.sum_congr rfl fun b _ => ?_
  rw [hs]; ring

/-- **C56.** A symmetric matrix of spatial integrals gives a symmetric matrix of spin-orbital integrals. -/
theorem C56_symmetric (N : ℕ) (Ua Ub ei : ℕ → ℕ → R) (s2s : ℕ → ℕ) (alpha beta : Orbs)
    (g : GoodOrbs s2s alpha.full beta.full) (hs : ∀ a b, ei a b = ei b a) (i j : ℕ) :
    spin1Full N Ua Ub ei s2s alpha beta (i, j) = spin1Full N Ua Ub ei s2s alpha beta (j, i) := by
  unfold spin1Full
  rw [C56_one_body _ _ _ _ _ _ _ _ g, C56_one_body _ _ _ _ _ _ _ _ g, rot1_symm N Ua ei hs, rot1_symm N Ub ei hs,
    if_congr (and_comm (a := i ∈ alpha.full)) rfl rfl, if_congr (and_comm (a := i ∈ beta.full)) rfl rfl]

/-- **C56.** The one-body integrals of the active space overwrite a given array: applying the routine again to its own
result with another rotation gives the integrals of the second rotation. -/
theorem C56_one_body_rerun (N : ℕ) (Ua Ub Va Vb ei : ℕ → ℕ → R) (s2s : ℕ → ℕ) (alpha beta : Orbs)
    (g : GoodOrbs s2s alpha.act beta.act) :
    spin1Active N Va Vb ei s2s alpha beta (some (spin1Active N Ua Ub ei s2s alpha beta none))
      = spin1Active N Va Vb ei s2s alpha beta none := by
  funext ⟨i, j⟩
  unfold spin1Active
  simp only [Option.getD_some, Option.getD_none]
  rw [C56_one_body _ _ _ _ _ _ _ _ g, C56_one_body _ _ _ _ _ _ _ _ g, C56_one_body _ _ _ _ _ _ _ _ g]
  split
  · rfl
  split <;> rfl

/-! ### Two-body loops -/

theorem loopL_eq (N : ℕ) (U' : ℕ → ℕ → R) (s2s : ℕ → ℕ) (same : Bool) (i j k : ℕ) (row : ℕ → R) (x : ℕ × ℕ × ℕ × ℕ) :
    ∀ (l : List ℕ) (e : ℕ × ℕ × ℕ × ℕ → R), l.Nodup →
    loopL N U' s2s same l i j k row e x
      = e x + if (x.1 = i ∧ x.2.1 = k ∧ x.2.2.1 = j ∧ x.2.2.2 ∈ l) ∧ ¬ (same = true ∧ j = x.2.2.2)
          then ∑ d ∈ Finset.range N, U' (s2s x.2.2.2) d * row d else 0
  | [], e, _ => by simp [loopL]
  | m :: l, e, hn => by
    have hcons : loopL N U' s2s same (m :: l) i j k row e = loopL N U' s2s same l i j k row
        (if same = true ∧ j = m then e else Function.update e (i, k, j, m) (accEntry N (U' (s2s m)) row (e (i, k, j, m)))) := rfl
    rw [hcons, loopL_eq N U' s2s same i j k row x l _ (List.nodup_cons.mp hn).2]
    obtain ⟨x1, x2, x3, x4⟩ := x
    simp only
    by_cases hx : x1 = i ∧ x2 = k ∧ x3 = j
    · obtain ⟨rfl, rfl, rfl⟩ := hx
      by_cases hm : x4 = m
      · subst hm
        have : x4 ∉ l := (List.nodup_cons.mp hn).1
        by_cases hs : same = true ∧ x3 = x4
        · simp [hs]
        · rw [if_neg hs]
          simp [this, hs, accEntry_eq]
      · have e1 : (if same = true ∧ x3 = m then e else
            Function.update e (x1, x2, x3, m) (accEntry N (U' (s2s m)) row (e (x1, x2, x3, m)))) (x1, x2, x3, x4)
            = e (x1, x2, x3, x4) := by
          split
          · rfl
          · rw [Function.update_of_ne]; simp [hm]
        rw [e1]
        simp [hm]
    · have e1 : (if same = true ∧ j = m then e else
          Function.update e (i, k, j, m) (accEntry N (U' (s2s m)) row (e (i, k, j, m)))) (x1, x2, x3, x4)
          = e (x1, x2, x3, x4) := by
        split
        · rfl
        · rw [Function.update_of_ne]
          intro h
          simp only [Prod.mk.injEq] at h
          tauto
      rw [e1, if_neg (by tauto), if_neg (by tauto)]

theorem loopK_eq (N : ℕ) (U' : ℕ → ℕ → R) (s2s : ℕ → ℕ) (same : Bool) (orbs' : List ℕ) (i j : ℕ) (m : ℕ × ℕ → R)
    (hn' : orbs'.Nodup) (x : ℕ × ℕ × ℕ × ℕ) : ∀ (l : List ℕ) (st : (ℕ × ℕ × ℕ → ℕ → R) × (ℕ × ℕ × ℕ × ℕ → R)), l.Nodup →
    (∀ a ∈ l, ∀ b ∈ l, s2s a = s2s b → a = b) → (∀ k ∈ l, ∀ c, st.1 (s2s i, s2s j, s2s k) c = 0) →
    let f := fun (st : (ℕ × ℕ × ℕ → ℕ → R) × (ℕ × ℕ × ℕ × ℕ → R)) k => if same = true ∧ i = k then st else
      let key := (s2s i, s2s j, s2s k)
      let t3 := Function.update st.1 key (accRow N (U' (s2s k)) (fun c d => m (c, d)) (st.1 key))
      (t3, loopL N U' s2s same orbs' i j k (t3 key) st.2)
    (l.foldl f st).2 x
      = st.2 x + (if (x.1 = i ∧ x.2.1 ∈ l ∧ x.2.2.1 = j ∧ x.2.2.2 ∈ orbs') ∧ ¬ (same = true ∧ (i = x.2.1 ∨ j = x.2.2.2))
          then ∑ d ∈ Finset.range N, ∑ c ∈ Finset.range N, U' (s2s x.2.2.2) d * (U' (s2s x.2.1) c * m (c, d)) else 0) ∧
      ∀ key : ℕ × ℕ × ℕ, (key.1, key.2.1) ≠ (s2s i, s2s j) → (l.foldl f st).1 key = st.1 key
  | [], st, _, _, _ => by simp
  | k :: l, st, hn, hi, ht => by
    intro f
    rw [List.foldl_cons]
    obtain ⟨x1, x2, x3, x4⟩ := x
    have hk : k ∉ l := (List.nodup_cons.mp hn).1
    have ht' : ∀ k' ∈ l, ∀ c, (f st k).1 (s2s i, s2s j, s2s k') c = 0 := by
      intro k' hk' c
      have hne : s2s k' ≠ s2s k := fun h => hk ((hi k' (by simp [hk']) k (by simp) h) ▸ hk')
      show (if same = true ∧ i = k then st else _).1 _ c = 0
      split
      · exact ht k' (by simp [hk']) c
      · simp only
        rw [Function.update_of_ne (by simp [hne])]
        exact ht k' (by simp [hk']) c
    obtain ⟨h1, h2⟩ := loopK_eq N U' s2s same orbs' i j m hn' (x1, x2, x3, x4) l (f st k) (List.nodup_cons.mp hn).2
      (fun a ha b hb => hi a (by simp [ha]) b (by simp [hb])) ht'
    constructor
    · rw [h1]
      simp only
      by_cases hs : same = true ∧ i = k
      · have e1 : f st k = st := by show (if same = true ∧ i = k then st else _) = st; rw [if_pos hs]
        rw [e1]
        congr 1
        refine if_congr ?_ rfl rfl
        simp only [List.mem_cons]
        constructor
        · tauto
        · rintro ⟨⟨a1, a2, a3, a4⟩, a5⟩
          refine ⟨⟨a1, ?_, a3, a4⟩, a5⟩
          rcases a2 with a2 | a2
          · exact absurd ⟨hs.1, Or.inl (hs.2.trans a2.symm)⟩ a5
          · exact a2
      · have e1 : (f st k).2 = loopL N U' s2s same orbs' i j k
            (fun d => ∑ c ∈ Finset.range N, U' (s2s k) c * m (c, d)) st.2 := by
          show (if same = true ∧ i = k then st else _).2 = _
          rw [if_neg hs]
          simp only [Function.update_self]
          congr 1
          funext d
          rw [accRow_eq, ht k (by simp), zero_add]
        rw [e1, loopL_eq N U' s2s same i j k _ _ orbs' _ hn']
        simp only
        rw [add_assoc]
        congr 1
        by_cases hx : x2 = k
        · subst hx
          rw [if_neg (t := ∑ d ∈ Finset.range N, ∑ c ∈ Finset.range N, U' (s2s x4) d * (U' (s2s x2) c * m (c, d)))
            (c := (x1 = i ∧ x2 ∈ l ∧ x3 = j ∧ x4 ∈ orbs') ∧ ¬ (same = true ∧ (i = x2 ∨ j = x4))) (by tauto), add_zero]
          refine if_congr ?_ ?_ rfl
          · simp only [List.mem_cons]; tauto
          · refine Finset.sum_congr rfl fun d _ => ?_
            rw [Finset.mul_sum]
        · rw [if_neg (by tauto), zero_add]
          refine if_congr ?_ rfl rfl
          simp [hx]
    · intro key hkey
      rw [h2 key hkey]
      show (if same = true ∧ i = k then st else _).1 key = _
      split
      · rfl
      · simp only
        rw [Function.update_of_ne]
        intro h
        apply hkey
        rw [h]

theorem loopJ_eq (N : ℕ) (U U' : ℕ → ℕ → R) (s2s : ℕ → ℕ) (same : Bool) (orbs' : List ℕ) (i : ℕ) (m : ℕ × ℕ × ℕ → R)
    (hn' : orbs'.Nodup) (hi' : ∀ a ∈ orbs', ∀ b ∈ orbs', s2s a = s2s b → a = b) (x : ℕ × ℕ × ℕ × ℕ) : ∀ (l : List ℕ)
    (st : (ℕ × ℕ → ℕ × ℕ → R) × (ℕ × ℕ × ℕ → ℕ → R) × (ℕ × ℕ × ℕ × ℕ → R)), l.Nodup →
    (∀ a ∈ l, ∀ b ∈ l, s2s a = s2s b → a = b) → (∀ j ∈ l, ∀ c, st.1 (s2s i, s2s j) c = 0) →
    (∀ j ∈ l, ∀ k c, st.2.1 (s2s i, s2s j, k) c = 0) →
    let f := fun (st : (ℕ × ℕ → ℕ × ℕ → R) × (ℕ × ℕ × ℕ → ℕ → R) × (ℕ × ℕ × ℕ × ℕ → R)) j =>
      let key := (s2s i, s2s j)
      let t2 := Function.update st.1 key (accRow N (U (s2s j)) (fun b x => m (b, x.1, x.2)) (st.1 key))
      (t2, loopK N U' s2s same orbs' i j (t2 key) st.2)
    (l.foldl f st).2.2 x
      = st.2.2 x + (if (x.1 = i ∧ x.2.1 ∈ orbs' ∧ x.2.2.1 ∈ l ∧ x.2.2.2 ∈ orbs')
            ∧ ¬ (same = true ∧ (i = x.2.1 ∨ x.2.2.1 = x.2.2.2))
          then ∑ d ∈ Finset.range N, ∑ c ∈ Finset.range N, ∑ b ∈ Finset.range N,
            U' (s2s x.2.2.2) d * (U' (s2s x.2.1) c * (U (s2s x.2.2.1) b * m (b, c, d))) else 0) ∧
      (∀ key : ℕ × ℕ, key.1 ≠ s2s i → (l.foldl f st).1 key = st.1 key) ∧
      ∀ key : ℕ × ℕ × ℕ, key.1 ≠ s2s i → (l.foldl f st).2.1 key = st.2.1 key
  | [], st, _, _, _, _ => by simp
  | j :: l, st, hn, hi, ht, hu => by
    intro f
    rw [List.foldl_cons]
    obtain ⟨x1, x2, x3, x4⟩ := x
    have hj : j ∉ l := (List.nodup_cons.mp hn).1
    have hrow : accRow N (U (s2s j)) (fun b (x : ℕ × ℕ) => m (b, x.1, x.2)) (st.1 (s2s i, s2s j))
        = fun x => ∑ b ∈ Finset.range N, U (s2s j) b * m (b, x.1, x.2) := by
      funext x; rw [accRow_eq, ht j (by simp), zero_add]
    have hne : ∀ j' ∈ l, s2s j' ≠ s2s j := fun j' hj' h => hj ((hi j' (by simp [hj']) j (by simp) h) ▸ hj')
    have hK : (f st j).2 = loopK N U' s2s same orbs' i j (fun x => ∑ b ∈ Finset.range N, U (s2s j) b * m (b, x.1, x.2)) st.2 := by
      show loopK N U' s2s same orbs' i j (Function.update st.1 _ _ _) st.2 = _
      rw [Function.update_self, hrow]
    obtain ⟨k1, k2⟩ := loopK_eq N U' s2s same orbs' i j (fun x => ∑ b ∈ Finset.range N, U (s2s j) b * m (b, x.1, x.2)) hn'
      (x1, x2, x3, x4) orbs' st.2 hn' hi' (fun k _ c => hu j (by simp) _ c)
    have k2' : ∀ key : ℕ × ℕ × ℕ, (key.1, key.2.1) ≠ (s2s i, s2s j) → (f st j).2.1 key = st.2.1 key := by
      rw [hK]; exact k2
    obtain ⟨h1, h2, h3⟩ := loopJ_eq N U U' s2s same orbs' i m hn' hi' (x1, x2, x3, x4) l (f st j) (List.nodup_cons.mp hn).2
      (fun a ha b hb => hi a (by simp [ha]) b (by simp [hb]))
      (fun j' hj' c => by
        show Function.update st.1 _ _ _ c = 0
        rw [Function.update_of_ne (by simp [hne j' hj'])]
        exact ht j' (by simp [hj']) c)
      (fun j' hj' k c => by
        rw [k2' _ (by simp [hne j' hj'])]
        exact hu j' (by simp [hj']) k c)
    refine ⟨?_, ?_, ?_⟩
    · rw [h1, hK]
      refine (congrArg (· + _) k1).trans ?_
      simp only
      rw [add_assoc]
      congr 1
      by_cases hx : x3 = j
      · subst hx
        rw [if_neg (c := (x1 = i ∧ x2 ∈ orbs' ∧ x3 ∈ l ∧ x4 ∈ orbs') ∧ ¬ (same = true ∧ (i = x2 ∨ x3 = x4))) (by tauto),
          add_zero]
        refine if_congr ?_ ?_ rfl
        · simp only [List.mem_cons]; tauto
        · refine Finset.sum_congr rfl fun d _ => Finset.sum_congr rfl fun c _ => ?_
          rw [Finset.mul_sum, Finset.mul_sum]
      · rw [if_neg (by tauto), zero_add]
        refine if_congr ?_ rfl rfl
        simp [hx]
    · intro key hkey
      rw [h2 key hkey]
      show Function.update st.1 _ _ key = _
      rw [Function.update_of_ne]
      intro h; apply hkey; rw [h]
    · intro key hkey
      rw [h3 key hkey, k2']
      intro h
      apply hkey
      simp only [Prod.mk.injEq] at h
      exact h.1

theorem block2_loop (N : ℕ) (U U' : ℕ → ℕ → R) (ei : ℕ → ℕ → ℕ → ℕ → R) (s2s : ℕ → ℕ) (same : Bool) (orbs orbs' : List ℕ)
    (hn : orbs.Nodup) (hi : ∀ a ∈ orbs, ∀ b ∈ orbs, s2s a = s2s b → a = b)
    (hn' : orbs'.Nodup) (hi' : ∀ a ∈ orbs', ∀ b ∈ orbs', s2s a = s2s b → a = b) (x : ℕ × ℕ × ℕ × ℕ) : ∀ (l : List ℕ)
    (st : St2 R), l.Nodup → (∀ a ∈ l, ∀ b ∈ l, s2s a = s2s b → a = b) → (∀ i ∈ l, ∀ c, st.t1 (s2s i) c = 0) →
    (∀ i ∈ l, ∀ q c, st.t2 (s2s i, q) c = 0) → (∀ i ∈ l, ∀ q c, st.t3 (s2s i, q) c = 0) →
    (l.foldl (step2 N U U' ei s2s same orbs orbs') st).new x
      = st.new x + if (x.1 ∈ l ∧ x.2.1 ∈ orbs' ∧ x.2.2.1 ∈ orbs ∧ x.2.2.2 ∈ orbs')
            ∧ ¬ (same = true ∧ (x.1 = x.2.1 ∨ x.2.2.1 = x.2.2.2))
          then rot2 N U U' ei (s2s x.1) (s2s x.2.2.1) (s2s x.2.1) (s2s x.2.2.2) else 0
  | [], st, _, _, _, _, _ => by simp
  | i :: l, st, hnl, hil, h1, h2, h3 => by
    obtain ⟨x1, x2, x3, x4⟩ := x
    have hil' : i ∉ l := (List.nodup_cons.mp hnl).1
    have hne : ∀ j ∈ l, s2s j ≠ s2s i := fun j hj h => hil' ((hil j (by simp [hj]) i (by simp) h) ▸ hj)
    have hrow : accRow N (U (s2s i)) (fun a (x : ℕ × ℕ × ℕ) => ei a x.1 x.2.1 x.2.2) (st.t1 (s2s i))
        = fun x => ∑ a ∈ Finset.range N, U (s2s i) a * ei a x.1 x.2.1 x.2.2 := by
      funext x; rw [accRow_eq, h1 i (by simp), zero_add]
    obtain ⟨j1, j2, j3⟩ := loopJ_eq N U U' s2s same orbs' i
      (fun x => ∑ a ∈ Finset.range N, U (s2s i) a * ei a x.1 x.2.1 x.2.2) hn' hi' (x1, x2, x3, x4) orbs
      (st.t2, st.t3, st.new) hn hi (fun j _ c => h2 i (by simp) _ c) (fun j _ k c => h3 i (by simp) _ c)
    have hstep : step2 N U U' ei s2s same orbs orbs' st i
        = ⟨Function.update st.t1 (s2s i) (fun x => ∑ a ∈ Finset.range N, U (s2s i) a * ei a x.1 x.2.1 x.2.2),
          (loopJ N U U' s2s same orbs orbs' i (fun x => ∑ a ∈ Finset.range N, U (s2s i) a * ei a x.1 x.2.1 x.2.2)
            (st.t2, st.t3, st.new)).1,
          (loopJ N U U' s2s same orbs orbs' i (fun x => ∑ a ∈ Finset.range N, U (s2s i) a * ei a x.1 x.2.1 x.2.2)
            (st.t2, st.t3, st.new)).2.1,
          (loopJ N U U' s2s same orbs orbs' i (fun x => ∑ a ∈ Finset.range N, U (s2s i) a * ei a x.1 x.2.1 x.2.2)
            (st.t2, st.t3, st.new)).2.2⟩ := by
      unfold step2
      simp only [Function.update_self, hrow]
    rw [List.foldl_cons, hstep, block2_loop N U U' ei s2s same orbs orbs' hn hi hn' hi' (x1, x2, x3, x4) l _
      (List.nodup_cons.mp hnl).2 (fun a ha b hb => hil a (by simp [ha]) b (by simp [hb]))
      (fun j hj c => by
        simp only
        rw [Function.update_of_ne (hne j hj)]
        exact h1 j (by simp [hj]) c)
      (fun j hj q c => (congrFun (j2 (s2s j, q) (hne j hj)) c).trans (h2 j (by simp [hj]) q c))
      (fun j hj q c => (congrFun (j3 (s2s j, q) (hne j hj)) c).trans (h3 j (by simp [hj]) q c))]
    refine (congrArg (· + _) j1).trans ?_
    simp only
    rw [add_assoc]
    congr 1
    by_cases hx : x1 = i
    · subst hx
      rw [if_neg (c := (x1 ∈ l ∧ x2 ∈ orbs' ∧ x3 ∈ orbs ∧ x4 ∈ orbs') ∧ ¬ (same = true ∧ (x1 = x2 ∨ x3 = x4))) (by tauto),
        add_zero]
      refine if_congr ?_ ?_ rfl
      · simp only [List.mem_cons]; tauto
      · unfold rot2
        simp only [Finset.mul_sum]
        calc _ = ∑ d ∈ Finset.range N, ∑ c ∈ Finset.range N, ∑ a ∈ Finset.range N, ∑ b ∈ Finset.range N,
              U' (s2s x4) d * (U' (s2s x2) c * (U (s2s x3) b * (U (s2s x1) a * ei a b c d))) :=
              Finset.sum_congr rfl fun d _ => Finset.sum_congr rfl fun c _ => Finset.sum_comm
          _ = ∑ d ∈ Finset.range N, ∑ a ∈ Finset.range N, ∑ c ∈ Finset.range N, ∑ b ∈ Finset.range N,
              U' (s2s x4) d * (U' (s2s x2) c * (U (s2s x3) b * (U (s2s x1) a * ei a b c d))) :=
              Finset.sum_congr rfl fun d _ => Finset.sum_comm
          _ = ∑ a ∈ Finset.range N, ∑ d ∈ Finset.range N, ∑ c ∈ Finset.range N, ∑ b ∈ Finset.range N,
              U' (s2s x4) d * (U' (s2s x2) c * (U (s2s x3) b * (U (s2s x1) a * ei a b c d))) := Finset.sum_comm
          _ = ∑ a ∈ Finset.range N, ∑ d ∈ Finset.range N, ∑ b ∈ Finset.range N, ∑ c ∈ Finset.range N,
              U' (s2s x4) d * (U' (s2s x2) c * (U (s2s x3) b * (U (s2s x1) a * ei a b c d))) :=
              Finset.sum_congr rfl fun a _ => Finset.sum_congr rfl fun d _ => Finset.sum_comm
          _ = ∑ a ∈ Finset.range N, ∑ b ∈ Finset.range N, ∑ d ∈ Finset.range N, ∑ c ∈ Finset.range N,
              U' (s2s x4) d * (U' (s2s x2) c * (U (s2s x3) b * (U (s2s x1) a * ei a b c d))) :=
              Finset.sum_congr rfl fun a _ => Finset.sum_comm
          _ = _ := Finset.sum_congr rfl fun a _ => Finset.sum_congr rfl fun b _ => by
              rw [Finset.sum_comm]
              refine Finset.sum_congr rfl fun c _ => Finset.sum_congr rfl fun d _ => by ring
    · rw [if_neg (by tauto), zero_add]
      refine if_congr ?_ rfl rfl
      simp [hx]

theorem block2_eq (N : ℕ) (U U' : ℕ → ℕ → R) (ei : ℕ → ℕ → ℕ → ℕ → R) (s2s : ℕ → ℕ) (same : Bool) (orbs orbs' : List ℕ)
    (new : ℕ × ℕ × ℕ × ℕ → R) (hn : orbs.Nodup) (hi : ∀ a ∈ orbs, ∀ b ∈ orbs, s2s a = s2s b → a = b)
    (hn' : orbs'.Nodup) (hi' : ∀ a ∈ orbs', ∀ b ∈ orbs', s2s a = s2s b → a = b) (i k j l : ℕ) :
    block2 N U U' ei s2s same orbs orbs' new (i, k, j, l)
      = new (i, k, j, l) + if (i ∈ orbs ∧ k ∈ orbs' ∧ j ∈ orbs ∧ l ∈ orbs') ∧ ¬ (same = true ∧ (i = k ∨ j = l))
          then rot2 N U U' ei (s2s i) (s2s j) (s2s k) (s2s l) else 0 :=
  block2_loop N U U' ei s2s same orbs orbs' hn hi hn' hi' (i, k, j, l) orbs _ hn hi (fun _ _ _ => rfl)
    (fun _ _ _ _ => rfl) (fun _ _ _ _ => rfl)

/-! ### Two-body integrals -/

/-- Spec: the two-body integral of four spin orbitals, `<ik|jl>`: electron one in `i`, `j`, electron two in `k`, `l`; zero
unless the spins match, and zero where Pauli exclusion makes it irrelevant. -/
def spinInt (N : ℕ) (Ua Ub : ℕ → ℕ → R) (ei : ℕ → ℕ → ℕ → ℕ → R) (s2s : ℕ → ℕ) (alpha beta : List ℕ) (i k j l : ℕ) : R :=
  if i ∈ alpha ∧ j ∈ alpha ∧ k ∈ alpha ∧ l ∈ alpha then
    (if i = k ∨ j = l then 0 else rot2 N Ua Ua ei (s2s i) (s2s j) (s2s k) (s2s l))
  else if i ∈ alpha ∧ j ∈ alpha ∧ k ∈ beta ∧ l ∈ beta then rot2 N Ua Ub ei (s2s i) (s2s j) (s2s k) (s2s l)
  else if i ∈ beta ∧ j ∈ beta ∧ k ∈ alpha ∧ l ∈ alpha then rot2 N Ub Ua ei (s2s i) (s2s j) (s2s k) (s2s l)
  else if i ∈ beta ∧ j ∈ beta ∧ k ∈ beta ∧ l ∈ beta then
    (if i = k ∨ j = l then 0 else rot2 N Ub Ub ei (s2s i) (s2s j) (s2s k) (s2s l))
  else 0

/-- **C56, two bodies.** The routine adds the spin-orbital integrals to the array it works on. -/
theorem C56_two_body (N : ℕ) (Ua Ub : ℕ → ℕ → R) (ei : ℕ → ℕ → ℕ → ℕ → R) (s2s : ℕ → ℕ) (alpha beta : List ℕ)
    (new : ℕ × ℕ × ℕ × ℕ → R) (g : GoodOrbs s2s alpha beta) (i k j l : ℕ) :
    spin2 N Ua Ub ei s2s alpha beta new (i, k, j, l)
      = new (i, k, j, l) + spinInt N Ua Ub ei s2s alpha beta i k j l := by
  unfold spin2
  rw [block2_eq _ _ _ _ _ _ _ _ _ g.nodupB g.injB g.nodupB g.injB, block2_eq _ _ _ _ _ _ _ _ _ g.nodupB g.injB g.nodupA g.injA,
    block2_eq _ _ _ _ _ _ _ _ _ g.nodupA g.injA g.nodupB g.injB, block2_eq _ _ _ _ _ _ _ _ _ g.nodupA g.injA g.nodupA g.injA]
  simp only [add_assoc]
  congr 1
  unfold spinInt
  have gi := g.apart i
  have gj := g.apart j
  have gk := g.apart k
  have gl := g.apart l
  by_cases a1 : i ∈ alpha <;> by_cases a2 : j ∈ alpha <;> by_cases a3 : k ∈ alpha <;> by_cases a4 : l ∈ alpha <;>
    by_cases b1 : i ∈ beta <;> by_cases b2 : j ∈ beta <;> by_cases b3 : k ∈ beta <;> by_cases b4 : l ∈ beta <;>
    first
    | (exact absurd b1 (gi a1))
    | (exact absurd b2 (gj a2))
    | (exact absurd b3 (gk a3))
    | (exact absurd b4 (gl a4))
    | (by_cases hs : i = k ∨ j = l <;> simp [a1, a2, a3, a4, b1, b2, b3, b4, hs])

theorem rot2_exchange (N : ℕ) (U U' : ℕ → ℕ → R) (ei : ℕ → ℕ → ℕ → ℕ → R) (h : ∀ a b c d, ei a b c d = ei c d a b)
    (p q p' q' : ℕ) : rot2 N U U' ei p q p' q' = rot2 N U' U ei p' q' p q := by
  unfold rot2
  calc _ = ∑ a ∈ Finset.range N, ∑ c ∈ Finset.range N, ∑ b ∈ Finset.range N, ∑ d ∈ Finset.range N,
        U p a * U q b * U' p' c * U' q' d * ei a b c d := Finset.sum_congr rfl fun a _ => Finset.sum_comm
    _ = ∑ c ∈ Finset.range N, ∑ a ∈ Finset.range N, ∑ b ∈ Finset.range N, ∑ d ∈ Finset.range N,
        U p a * U q b * U' p' c * U' q' d * ei a b c d := Finset.sum_comm
    _ = ∑ c ∈ Finset.range N, ∑ a ∈ Finset.range N, ∑ d ∈ Finset.range N, ∑ b ∈ Finset.range N,
        U p a * U q b * U' p' c * U' q' d * ei a b c d :=
        Finset.sum_congr rfl fun c _ => Finset.sum_congr rfl fun a _ => Finset.sum_comm
    _ = ∑ c ∈ Finset.range N, ∑ d ∈ Finset.range N, ∑ a ∈ Finset.range N, ∑ b ∈ Finset.range N,
        U p a * U q b * U' p' c * U' q' d * ei a b c d := Finset.sum_congr rfl fun c _ => Finset.sum_comm
    _ = _ := Finset.sum_congr rfl fun c _ => Finset.sum_congr rfl fun d _ => Finset.sum_congr rfl fun a _ =>
        Finset.sum_congr rfl fun b _ => by rw [h]; ring

theorem rot2_hermitian (N : ℕ) (U U' : ℕ → ℕ → R) (ei : ℕ → ℕ → ℕ → ℕ → R) (h : ∀ a b c d, ei a b c d = ei b a d c)
    (p q p' q' : ℕ) : rot2 N U U' ei p q p' q' = rot2 N U U' ei q p q' p' := by
  unfold rot2
  rw [Finset.sum_comm]
  refine Finset.sum_congr rfl fun b _ => Finset.sum_congr rfl fun a _ => ?_
  rw [Finset.sum_comm]
  refine Finset.sum_congr rfl fun d _ => Finset.sum_congr rfl fun c _ => ?_
  rw [h]; ring

/-- **C56.** Exchanging the electrons leaves the spin-orbital integrals unchanged. -/
theorem C56_two_body_exchange (N : ℕ) (Ua Ub : ℕ → ℕ → R) (ei : ℕ → ℕ → ℕ → ℕ → R) (s2s : ℕ → ℕ) (alpha beta : Orbs)
    (g : GoodOrbs s2s alpha.full beta.full) (h : ∀ a b c d, ei a b c d = ei c d a b) (i k j l : ℕ) :
    spin2Full N Ua Ub ei s2s alpha beta (i, k, j, l) = spin2Full N Ua Ub ei s2s alpha beta (k, i, l, j) := by
  unfold spin2Full
  rw [C56_two_body _ _ _ _ _ _ _ _ g, C56_two_body _ _ _ _ _ _ _ _ g]
  congr 1
  unfold spinInt
  rw [rot2_exchange N Ua Ua ei h, rot2_exchange N Ub Ub ei h, rot2_exchange N Ub Ua ei h (s2s i), rot2_exchange N Ua Ub ei h (s2s i)]
  have c1 : (i = k ∨ j = l) ↔ (k = i ∨ l = j) := by constructor <;> rintro (h | h) <;> simp [h]
  simp only [c1]
  have gi := g.apart i
  have gk := g.apart k
  by_cases a1 : i ∈ alpha.full <;> by_cases a3 : k ∈ alpha.full <;>
    by_cases a2 : j ∈ alpha.full <;> by_cases a4 : l ∈ alpha.full <;>
    by_cases b1 : i ∈ beta.full <;> by_cases b3 : k ∈ beta.full <;> by_cases b2 : j ∈ beta.full <;>
    by_cases b4 : l ∈ beta.full <;>
    first
    | (exact absurd b1 (gi a1))
    | (exact absurd b3 (gk a3))
    | simp [a1, a2, a3, a4, b1, b2, b3, b4]

/-- **C56.** The spin-orbital integrals of real orbitals are symmetric as a matrix of pairs. -/
theorem C56_two_body_symmetric (N : ℕ) (Ua Ub : ℕ → ℕ → R) (ei : ℕ → ℕ → ℕ → ℕ → R) (s2s : ℕ → ℕ) (alpha beta : Orbs)
    (g : GoodOrbs s2s alpha.full beta.full) (h : ∀ a b c d, ei a b c d = ei b a d c) (i k j l : ℕ) :
    spin2Full N Ua Ub ei s2s alpha beta (i, k, j, l) = spin2Full N Ua Ub ei s2s alpha beta (j, l, i, k) := by
  unfold spin2Full
  rw [C56_two_body _ _ _ _ _ _ _ _ g, C56_two_body _ _ _ _ _ _ _ _ g]
  congr 1
  unfold spinInt
  rw [rot2_hermitian N Ua Ua ei h, rot2_hermitian N Ub Ub ei h, rot2_hermitian N Ub Ua ei h, rot2_hermitian N Ua Ub ei h]
  have c1 : (i = k ∨ j = l) ↔ (j = l ∨ i = k) := or_comm
  simp only [c1]
  refine if_congr (by tauto) rfl (if_congr (by tauto) rfl (if_congr (by tauto) rfl (if_congr (by tauto) rfl rfl)))

theorem antisym_aux (x y : R) (i k j l : ℕ) (h1 : i = k → x = y) (h2 : j = l → x = y) :
    (0 + if i = k ∨ j = l then 0 else x) - (0 + if i = k ∨ l = j then 0 else y) = x - y := by
  by_cases hs : i = k ∨ j = l
  · rw [if_pos hs, if_pos (hs.imp id Eq.symm)]
    have : x = y := hs.elim h1 h2
    rw [this]; ring
  · rw [if_neg hs, if_neg (fun h => hs (h.imp id Eq.symm))]
    ring

/-- **C56.** Leaving out the entries excluded by the Pauli principle does not change any antisymmetrized integral: for
orbitals of one spin, those of the routine are those of the full rotation. -/
theorem C56_two_body_antisym (N : ℕ) (Ua Ub : ℕ → ℕ → R) (ei : ℕ → ℕ → ℕ → ℕ → R) (s2s : ℕ → ℕ) (alpha beta : Orbs)
    (g : GoodOrbs s2s alpha.full beta.full) (h : ∀ a b c d, ei a b c d = ei c d a b) (i k j l : ℕ) :
    (i ∈ alpha.full → k ∈ alpha.full → j ∈ alpha.full → l ∈ alpha.full →
      spin2Full N Ua Ub ei s2s alpha beta (i, k, j, l) - spin2Full N Ua Ub ei s2s alpha beta (i, k, l, j)
        = rot2 N Ua Ua ei (s2s i) (s2s j) (s2s k) (s2s l) - rot2 N Ua Ua ei (s2s i) (s2s l) (s2s k) (s2s j)) ∧
    (i ∈ beta.full → k ∈ beta.full → j ∈ beta.full → l ∈ beta.full →
      spin2Full N Ua Ub ei s2s alpha beta (i, k, j, l) - spin2Full N Ua Ub ei s2s alpha beta (i, k, l, j)
        = rot2 N Ub Ub ei (s2s i) (s2s j) (s2s k) (s2s l) - rot2 N Ub Ub ei (s2s i) (s2s l) (s2s k) (s2s j)) := by
  unfold spin2Full
  rw [C56_two_body _ _ _ _ _ _ _ _ g, C56_two_body _ _ _ _ _ _ _ _ g]
  unfold spinInt
  constructor
  · intro hi hk hj hl
    rw [if_pos (show i ∈ alpha.full ∧ j ∈ alpha.full ∧ k ∈ alpha.full ∧ l ∈ alpha.full from ⟨hi, hj, hk, hl⟩),
      if_pos (show i ∈ alpha.full ∧ l ∈ alpha.full ∧ k ∈ alpha.full ∧ j ∈ alpha.full from ⟨hi, hl, hk, hj⟩)]
    refine antisym_aux _ _ i k j l ?_ ?_
    · rintro rfl; rw [rot2_exchange N Ua Ua ei h]
    · rintro rfl; rfl
  · intro hi hk hj hl
    have na : i ∉ alpha.full := fun ha => g.apart i ha hi
    simp only [na, false_and, if_false]
    have nk : k ∉ alpha.full := fun ha => g.apart k ha hk
    simp only [nk, false_and, and_false, if_false]
    rw [if_pos (show i ∈ beta.full ∧ j ∈ beta.full ∧ k ∈ beta.full ∧ l ∈ beta.full from ⟨hi, hj, hk, hl⟩),
      if_pos (show i ∈ beta.full ∧ l ∈ beta.full ∧ k ∈ beta.full ∧ j ∈ beta.full from ⟨hi, hl, hk, hj⟩)]
    refine antisym_aux _ _ i k j l ?_ ?_
    · rintro rfl; rw [rot2_exchange N Ub Ub ei h]
    · rintro rfl; rfl

/-- Unlike the one-body routine, rerunning the two-body routine of the active space on its own result adds the new integrals
to the old ones instead of replacing them. -/
theorem C56_two_body_accumulates (N : ℕ) (Ua Ub Va Vb : ℕ → ℕ → R) (ei : ℕ → ℕ → ℕ → ℕ → R) (s2s : ℕ → ℕ) (alpha beta : Orbs)
    (g : GoodOrbs s2s alpha.act beta.act) (x : ℕ × ℕ × ℕ × ℕ) :
    spin2Active N Va Vb ei s2s alpha beta (some (spin2Active N Ua Ub ei s2s alpha beta none)) x
      = spin2Active N Ua Ub ei s2s alpha beta none x + spin2Active N Va Vb ei s2s alpha beta none x := by
  obtain ⟨i, k, j, l⟩ := x
  unfold spin2Active
  simp only [Option.getD_some, Option.getD_none]
  rw [C56_two_body _ _ _ _ _ _ _ _ g, C56_two_body _ _ _ _ _ _ _ _ g, C56_two_body _ _ _ _ _ _ _ _ g]
  ring

/-! ### The lists built by the Hamiltonian classes -/

/-- The dictionary `s2s` and the lists `alpha_mo`, `beta_mo` (`molecular.py:240-272`, `fermionic.py:193-223`) for `core`
core, `act` active and `virt` virtual orbitals. -/
def hamAlpha (core act virt : ℕ) : Orbs :=
  ⟨List.range core, (List.range act).map (· + core), (List.range virt).map (core + act + ·)⟩
def hamBeta (core act virt : ℕ) : Orbs :=
  ⟨(List.range core).map (· + (core + act + virt)), (List.range act).map (· + core + (core + act + virt)),
    (List.range virt).map (fun i => i + 2 * (core + act + virt) - virt)⟩
def hamS2s (tot i : ℕ) : ℕ := if i < tot then i else i - tot

theorem hamAlpha_mem (core act virt i : ℕ) : i ∈ (hamAlpha core act virt).full ↔ i < core + act + virt := by
  simp only [hamAlpha, Orbs.full, List.mem_append, List.mem_range, List.mem_map]
  constructor
  · rintro ((h | ⟨a, h, rfl⟩) | ⟨a, h, rfl⟩) <;> omega
  · intro h
    by_cases h1 : i < core
    · exact Or.inl (Or.inl h1)
    · by_cases h2 : i < core + act
      · exact Or.inl (Or.inr ⟨i - core, by omega, by omega⟩)
      · exact Or.inr ⟨i - (core + act), by omega, by omega⟩

theorem hamBeta_mem (core act virt i : ℕ) :
    i ∈ (hamBeta core act virt).full ↔ core + act + virt ≤ i ∧ i < 2 * (core + act + virt) := by
  simp only [hamBeta, Orbs.full, List.mem_append, List.mem_range, List.mem_map]
  constructor
  · rintro ((⟨a, h, rfl⟩ | ⟨a, h, rfl⟩) | ⟨a, h, rfl⟩) <;> omega
  · intro h
    by_cases h1 : i < core + (core + act + virt)
    · exact Or.inl (Or.inl ⟨i - (core + act + virt), by omega, by omega⟩)
    · by_cases h2 : i < core + act + (core + act + virt)
      · exact Or.inl (Or.inr ⟨i - core - (core + act + virt), by omega, by omega⟩)
      · exact Or.inr ⟨i + virt - 2 * (core + act + virt), by omega, by omega⟩

/-- The lists of the Hamiltonian classes meet the assumptions, for every size of the core, active and virtual spaces. -/
theorem hamOrbs_good (core act virt : ℕ) :
    GoodOrbs (hamS2s (core + act + virt)) (hamAlpha core act virt).full (hamBeta core act virt).full := by
  refine ⟨?_, ?_, ?_, ?_, ?_⟩
  · refine List.Nodup.append (List.Nodup.append List.nodup_range (List.nodup_range.map ?_) ?_) (List.nodup_range.map ?_) ?_
    · intro a b h; simpa using h
    · intro a ha hb
      simp only [hamAlpha, List.mem_map, List.mem_range] at ha hb
      obtain ⟨b, hb, rfl⟩ := hb; omega
    · intro a b h; simpa using h
    · intro a ha hb
      simp only [hamAlpha, List.mem_append, List.mem_map, List.mem_range] at ha hb
      obtain ⟨b, hb, rfl⟩ := hb
      rcases ha with ha | ⟨c, hc, h⟩ <;> omega
  · refine List.Nodup.append (List.Nodup.append (List.nodup_range.map ?_) (List.nodup_range.map ?_) ?_)
      (List.nodup_range.map ?_) ?_
    · intro a b h; simpa using h
    · intro a b h; simpa using h
    · intro a ha hb
      simp only [hamBeta, List.mem_map, List.mem_range] at ha hb
      obtain ⟨b, hb, rfl⟩ := hb
      obtain ⟨c, hc, h⟩ := ha; omega
    · intro a b h; simp only at h; omega
    · intro a ha hb
      simp only [hamBeta, List.mem_append, List.mem_map, List.mem_range] at ha hb
      obtain ⟨b, hb, rfl⟩ := hb
      rcases ha with ⟨c, hc, h⟩ | ⟨c, hc, h⟩ <;> omega
  · intro i hi hb
    rw [hamAlpha_mem] at hi; rw [hamBeta_mem] at hb; omega
  · intro i hi j hj h
    rw [hamAlpha_mem] at hi hj
    simpa [hamS2s, hi, hj] using h
  · intro i hi j hj h
    rw [hamBeta_mem] at hi hj
    simp only [hamS2s] at h
    rw [if_neg (by omega), if_neg (by omega)] at h
    omega

/-- Two spatial orbitals, exchanged for beta. -/
example : spin1Full (R := ℤ) 2 (fun i j => if i = j then 1 else 0) (fun i j => if i = j then 0 else 1)
    (fun i j => if i = 0 ∧ j = 0 then 5 else if i = 1 ∧ j = 1 then 7 else 2) (hamS2s 2) (hamAlpha 1 1 0) (hamBeta 1 1 0) (2, 2)
    = 7 := by decide +kernel

example : spin2Full (R := ℤ) 2 (fun i j => if i = j then 1 else 0) (fun i j => if i = j then 1 else 0)
    (fun a b c d => a + 2 * b + 4 * c + 8 * d) (hamS2s 2) (hamAlpha 1 1 0) (hamBeta 1 1 0) (1, 2, 0, 3) = 9 := by decide +kernel

end Props
end HQCA
