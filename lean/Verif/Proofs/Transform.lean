import Verif.Model.Transform
import Verif.Proofs.Pauli
import Verif.Proofs.Operator

set_option linter.unusedSectionVars false

namespace HQCA
variable {K : Type} [Coef K]

theorem small_I_nat (n : ℕ) (c : K) : small (I ^ n * c) = small c := by
  induction n with
  | zero => simp
  | succ n ih => rw [pow_succ', mul_assoc, Coef.small_I, ih]

theorem I_zpow_eq (e : ℤ) : ∃ n : ℕ, (I : K) ^ e = I ^ n := by
  refine ⟨(e % 4).toNat, ?_⟩
  have h := Int.emod_add_mul_ediv e 4
  conv_lhs => rw [← h]
  rw [zpow_add₀ I_ne_zero, I_pow_four_mul, mul_one]
  have : ((e % 4).toNat : ℤ) = e % 4 := Int.toNat_of_nonneg (Int.emod_nonneg _ (by norm_num))
  rw [← zpow_natCast, this]

theorem small_unit (e : ℤ) (c : K) : small (c * I ^ e) = small c := by
  obtain ⟨n, h⟩ := I_zpow_eq (K := K) e
  rw [h, mul_comm, small_I_nat]

/-- Value of a Pauli product on strings of equal length. -/
def pm (P Q : Term PStr K) : Term PStr K :=
  (List.zipWith posLetter P.1 Q.1,
    P.2 * Q.2 * (I ^ Pauli.exp1 (P.1.map PL.l) (P.1.map PL.r) (Q.1.map PL.l) (Q.1.map PL.r) *
      I ^ Pauli.exp2 (P.1.map PL.l) (P.1.map PL.r) (Q.1.map PL.l) (Q.1.map PL.r)))

theorem construct_eq (s t : PStr) :
    Pauli.construct (List.zipWith xor (s.map PL.l) (t.map PL.l))
      (List.zipWith xor (s.map PL.r) (t.map PL.r)) = List.zipWith posLetter s t := by
  induction s generalizing t with
  | nil => simp [Pauli.construct]
  | cons p s ih =>
    cases t with
    | nil => simp [Pauli.construct]
    | cons q t =>
      have := ih t
      simp only [Pauli.construct] at this
      simp only [Pauli.construct, List.map_cons, List.zipWith_cons_cons, this, posLetter]

theorem mul_eq_pm (P Q : Term PStr K) (h : P.1.length = Q.1.length) :
    Pauli.mul P Q = some (pm P Q) := by
  unfold Pauli.mul pm
  rw [if_pos h]
  simp only [construct_eq]

theorem pm_den (P Q : Term PStr K) (h : P.1.length = Q.1.length) (k : ℕ) :
    (pm P Q).2 • denP k (pm P Q).1 = (P.2 • denP k P.1) * (Q.2 • denP k Q.1 : Oper K) := by
  rw [smul_mul_smul_comm, denP_mul k _ _ h, construct_eq, smul_smul, zpow_add₀ I_ne_zero]
  rfl

theorem posLetter_cancel (p a b : PL) (h : posLetter p a = posLetter p b) : a = b := by
  revert h; cases p <;> cases a <;> cases b <;> decide

theorem posLetter_cancel_right (p a b : PL) (h : posLetter a p = posLetter b p) : a = b := by
  revert h; cases p <;> cases a <;> cases b <;> decide

theorem zipWith_cancel (s a b : PStr) (ha : s.length = a.length) (hb : s.length = b.length)
    (h : List.zipWith posLetter s a = List.zipWith posLetter s b) : a = b := by
  induction s generalizing a b with
  | nil => cases a <;> cases b <;> simp_all
  | cons p s ih =>
    cases a with
    | nil => simp at ha
    | cons x a =>
      cases b with
      | nil => simp at hb
      | cons y b =>
        simp only [List.zipWith_cons_cons, List.cons.injEq] at h
        rw [posLetter_cancel _ _ _ h.1, ih a b (by simpa using ha) (by simpa using hb) h.2]

theorem OpD.mapM_total {β γ : Type} (f : β → Option γ) (g : β → γ) (l : List β)
    (h : ∀ x ∈ l, f x = some (g x)) : l.mapM f = some (l.map g) := by
  rw [OpD.mapM_option, List.forall₂_map_right_iff]
  exact List.forall₂_same.mpr h

theorem OpD.foldl_addStr_fresh {α : Type} [DecidableEq α] (B A : OpD α K)
    (h : ((A ++ B).map (·.1)).Nodup) : B.foldl OpD.addStr A = A ++ B := by
  induction B generalizing A with
  | nil => simp
  | cons t B ih =>
    have hk : A.hasKey t.1 = false := by
      rw [← Bool.not_eq_true, OpD.hasKey_iff]
      intro hm
      rw [List.map_append, List.map_cons, List.nodup_append] at h
      exact h.2.2 _ hm _ List.mem_cons_self rfl
    have e : OpD.addStr A t = A ++ [t] := by simp [OpD.addStr, hk]
    rw [List.foldl_cons, e, ih _ (by simpa using h)]
    simp

/-- Two terms whose keys have length `N`, with coefficients `1/2` and `1/2·i^e`. -/
structure IsTem (N q : ℕ) (T : POp K) (s1 s2 : PStr) : Prop where
  eq : ∃ c2 : K, T = [(s1, 1/2), (s2, c2)] ∧ ∃ e : ℤ, c2 = 1/2 * I ^ e
  len1 : s1.length = N
  len2 : s2.length = N
  diff : s1[q]? ≠ s2[q]?

/-- Invariant of the accumulated operator: distinct keys of length `N`, all coefficients `d·i^e`. -/
structure Acc (N : ℕ) (d : K) (new : POp K) : Prop where
  nodup : UniqueKeys new
  len : ∀ t ∈ new, t.1.length = N
  mag : ∀ t ∈ new, ∃ e : ℤ, t.2 = d * I ^ e

/-- All keys carry the same letter at `q`. -/
def AgreeAt (new : POp K) (q : ℕ) : Prop := ∀ t ∈ new, ∀ u ∈ new, t.1[q]? = u.1[q]?

/-- The list of products of `tem*new`. -/
def prods (T new : POp K) : List (Term PStr K) := (OpD.mulPairs T new).map (fun p => pm p.1 p.2)

theorem mul_prods (N : ℕ) (T new : POp K) (hT : ∀ t ∈ T, t.1.length = N)
    (hn : ∀ t ∈ new, t.1.length = N) :
    OpD.mul Pauli.mul T new = some (OpD.clean ((prods T new).foldl OpD.addStr [])) := by
  unfold OpD.mul prods
  rw [OpD.mapM_total (g := fun p => pm p.1 p.2)]
  · rfl
  · intro p hp
    obtain ⟨h1, h2⟩ := (OpD.mem_mulPairs _ _ p).mp hp
    exact mul_eq_pm _ _ (by rw [hT _ h1, hn _ h2])

theorem zipWith_get (s a : PStr) (q : ℕ) (x y : PL) (hx : s[q]? = some x) (hy : a[q]? = some y) :
    (List.zipWith posLetter s a)[q]? = some (posLetter x y) := by
  rw [List.getElem?_zipWith, hx, hy]

theorem acc_step (N q : ℕ) (d : K) (T new : POp K) (s1 s2 : PStr) (hT : IsTem N q T s1 s2)
    (hq : q < N) (hn : Acc N d new) (ha : AgreeAt new q) :
    Acc N (d/2) (prods T new) ∧ (prods T new).length = 2 * new.length := by
  obtain ⟨c2, rfl, e, rfl⟩ := hT.eq
  have key : ∀ s : PStr, s.length = N → s[q]? = some (s[q]?.getD .I) := by
    intro s hs
    rw [List.getElem?_eq_getElem (by omega)]; rfl
  have hne : ∀ t ∈ new, ∀ u ∈ new,
      List.zipWith posLetter s1 t.1 ≠ List.zipWith posLetter s2 u.1 := by
    intro t ht u hu h
    have h1 := zipWith_get s1 t.1 q _ _ (key s1 hT.len1) (key t.1 (hn.len t ht))
    have h2 := zipWith_get s2 u.1 q _ _ (key s2 hT.len2) (key u.1 (hn.len u hu))
    rw [h, h2, ha t ht u hu] at h1
    have := posLetter_cancel_right _ _ _ (Option.some.inj h1)
    apply hT.diff
    rw [key s1 hT.len1, key s2 hT.len2, this]
  refine ⟨⟨?_, ?_, ?_⟩, ?_⟩
  · unfold UniqueKeys prods OpD.mulPairs
    rw [List.map_map, List.map_flatMap, List.nodup_flatMap]
    constructor
    · intro a ha'
      simp only [List.map_cons, List.map_nil, Function.comp, pm]
      rw [List.nodup_cons, List.mem_singleton]
      exact ⟨hne a ha' a ha', by simp⟩
    · have hp : new.Pairwise (fun a b => a.1 ≠ b.1) := by
        have := hn.nodup
        unfold UniqueKeys at this
        rw [List.Nodup, List.pairwise_map] at this
        exact this
      have hp' := List.Pairwise.and_mem.mp hp
      apply hp'.imp
      rintro a b ⟨ma, mb, hab⟩
      simp only [Function.onFun, List.map_cons, List.map_nil, Function.comp, pm, List.disjoint_cons_left,
        List.mem_cons, List.not_mem_nil, or_false, not_or, List.disjoint_nil_left, and_true]
      refine ⟨⟨?_, hne a ma b mb⟩, fun h => hne b mb a ma h.symm, ?_⟩
      · intro h
        exact hab (zipWith_cancel s1 _ _ (by rw [hT.len1, hn.len a ma]) (by rw [hT.len1, hn.len b mb]) h)
      · intro h
        exact hab (zipWith_cancel s2 _ _ (by rw [hT.len2, hn.len a ma]) (by rw [hT.len2, hn.len b mb]) h)
  · intro t ht
    obtain ⟨p, hp, rfl⟩ := List.mem_map.mp ht
    obtain ⟨h1, h2⟩ := (OpD.mem_mulPairs _ _ p).mp hp
    have : p.1.1.length = N := by
      rcases List.mem_cons.mp h1 with h | h
      · rw [h]; exact hT.len1
      · rw [List.mem_singleton.mp h]; exact hT.len2
    simp [pm, this, hn.len _ h2]
  · intro t ht
    obtain ⟨p, hp, rfl⟩ := List.mem_map.mp ht
    obtain ⟨h1, h2⟩ := (OpD.mem_mulPairs _ _ p).mp hp
    obtain ⟨e2, he2⟩ := hn.mag _ h2
    obtain ⟨e1, he1⟩ : ∃ e1 : ℤ, p.1.2 = 1/2 * I ^ e1 := by
      rcases List.mem_cons.mp h1 with h | h
      · exact ⟨0, by rw [h]; simp⟩
      · exact ⟨e, by rw [List.mem_singleton.mp h]⟩
    refine ⟨e1 + (e2 + (Pauli.exp1 (p.1.1.map PL.l) (p.1.1.map PL.r) (p.2.1.map PL.l) (p.2.1.map PL.r) +
      Pauli.exp2 (p.1.1.map PL.l) (p.1.1.map PL.r) (p.2.1.map PL.l) (p.2.1.map PL.r))), ?_⟩
    simp only [pm]
    rw [he1, he2, zpow_add₀ I_ne_zero, zpow_add₀ I_ne_zero, zpow_add₀ I_ne_zero]
    ring
  · unfold prods OpD.mulPairs
    rw [List.length_map, List.length_flatMap]
    simp [mul_comm]

theorem agree_step (q' : ℕ) (T new : POp K) (hT : ∀ t ∈ T, ∀ u ∈ T, t.1[q']? = u.1[q']?)
    (ha : AgreeAt new q') : AgreeAt (prods T new) q' := by
  intro t ht u hu
  obtain ⟨p, hp, rfl⟩ := List.mem_map.mp ht
  obtain ⟨p', hp', rfl⟩ := List.mem_map.mp hu
  obtain ⟨h1, h2⟩ := (OpD.mem_mulPairs _ _ p).mp hp
  obtain ⟨h1', h2'⟩ := (OpD.mem_mulPairs _ _ p').mp hp'
  simp only [pm, List.getElem?_zipWith]
  rw [hT _ h1 _ h1', ha _ h2 _ h2']

theorem clean_acc (N : ℕ) (d : K) (new : POp K) (h : Acc N d new) :
    OpD.clean new = if small d then [] else new := by
  unfold OpD.clean
  have : ∀ t ∈ new, small t.2 = small d := by
    intro t ht
    obtain ⟨e, he⟩ := h.mag t ht
    rw [he, small_unit]
  by_cases hs : small d = true
  · rw [if_pos hs, List.filter_eq_nil_iff]
    intro t ht
    simp [this t ht, hs]
  · rw [if_neg hs, List.filter_eq_self]
    intro t ht
    simp [this t ht, hs]

theorem mul_acc (N q : ℕ) (d : K) (T new : POp K) (s1 s2 : PStr) (hT : IsTem N q T s1 s2)
    (hq : q < N) (hn : Acc N d new) (ha : AgreeAt new q) :
    OpD.mul Pauli.mul T new = some (if small (d/2) then [] else prods T new) ∧
    denPO (prods T new) = (denPO T * denPO new : Oper K) := by
  have hT' : ∀ t ∈ T, t.1.length = N := by
    obtain ⟨c2, rfl, e, rfl⟩ := hT.eq
    intro t ht
    rcases List.mem_cons.mp ht with h | h
    · rw [h]; exact hT.len1
    · rw [List.mem_singleton.mp h]; exact hT.len2
  obtain ⟨hacc, _⟩ := acc_step N q d T new s1 s2 hT hq hn ha
  constructor
  · rw [mul_prods N T new hT' hn.len, OpD.foldl_addStr_fresh _ _ (by rw [List.nil_append]; exact hacc.nodup),
      List.nil_append, clean_acc N (d/2) _ hacc]
  · unfold denPO
    apply OpD.denD_products (denP 0) Pauli.mul
    · intro s hs t ht u hu
      have hl : s.1.length = t.1.length := by rw [hT' s hs, hn.len t ht]
      rw [mul_eq_pm s t hl] at hu
      cases hu
      exact pm_den s t hl 0
    · unfold prods
      apply OpD.mapM_total
      intro p hp
      obtain ⟨h1, h2⟩ := (OpD.mem_mulPairs _ _ p).mp hp
      exact mul_eq_pm _ _ (by rw [hT' _ h1, hn.len _ h2])

namespace Transform

/-- Number of non-identity letters. -/
def weight (l : List (ℕ × FL)) : ℕ := (l.filter (fun a => a.2 ≠ .i)).length

/-- The operators of the letters in the order in which the loop composes them (last one leftmost). -/
def revProd (D : ℕ → FL → Oper K) : List (ℕ × FL) → Oper K
  | [] => 1
  | a :: l => revProd D l * (if a.2 = .i then 1 else D a.1 a.2)

/-- What the generic loop needs from its two-term operators. -/
structure TabOK (N : ℕ) (tm : ℕ → FL → POp K) (l : List (ℕ × FL)) : Prop where
  lt : ∀ a ∈ l, a.1 < N
  tem : ∀ a ∈ l, a.2 ≠ .i → ∃ s1 s2, IsTem N a.1 (tm a.1 a.2) s1 s2
  later : l.Pairwise (fun a b => a.2 ≠ .i → b.2 ≠ .i →
    ∀ t ∈ tm a.1 a.2, ∀ u ∈ tm a.1 a.2, t.1[b.1]? = u.1[b.1]?)

theorem loop_nil_acc (tm : ℕ → FL → POp K) (l : List (ℕ × FL)) : loop tm [] l = some [] := by
  induction l with
  | nil => rfl
  | cons a l ih =>
    unfold loop at *
    rw [List.foldlM_cons]
    have : step tm [] a = some [] := by
      unfold step
      split
      · rfl
      · simp [OpD.mul, OpD.mulPairs, OpD.clean]
    rw [this]
    exact ih

theorem weight_cons (a : ℕ × FL) (l : List (ℕ × FL)) :
    weight (a :: l) = (if a.2 = .i then 0 else 1) + weight l := by
  unfold weight
  by_cases h : a.2 = .i
  · rw [List.filter_cons_of_neg (by simp [h])]; simp [h]
  · rw [List.filter_cons_of_pos (by simp [h])]; simp [h, add_comm]

theorem small_div_pow (d : K) (n : ℕ) (h : small d = true) : small (d / 2 ^ n) = true := by
  induction n with
  | zero => simpa using h
  | succ n ih =>
    have : d / 2 ^ (n+1) = d / 2 ^ n / 2 := by rw [pow_succ, div_div]
    rw [this]; exact Coef.small_half _ ih

/-- The generic loop: either nothing is below threshold and the result is the exact composition, or the
last scale is below threshold and the result is the empty operator. -/
theorem loop_spec (N : ℕ) (tm : ℕ → FL → POp K) (l : List (ℕ × FL)) (hl : TabOK N tm l)
    (d : K) (new : POp K) (hn : Acc N d new) (ha : ∀ a ∈ l, a.2 ≠ .i → AgreeAt new a.1) :
    ((weight l = 0 ∨ small (d / 2 ^ weight l) = false) →
      ∃ r, loop tm new l = some r ∧ Acc N (d / 2 ^ weight l) r ∧
        denPO r = revProd (fun q o => denPO (tm q o)) l * (denPO new : Oper K) ∧
        r.length = 2 ^ weight l * new.length) ∧
    (weight l ≠ 0 → small (d / 2 ^ weight l) = true → loop tm new l = some []) := by
  induction l generalizing d new with
  | nil =>
    refine ⟨fun _ => ⟨new, rfl, by simpa [weight] using hn, by simp [revProd], by simp [weight]⟩, ?_⟩
    intro h; exact absurd rfl h
  | cons a l ih =>
    have hl' : TabOK N tm l := ⟨fun b hb => hl.lt b (List.mem_cons_of_mem _ hb),
      fun b hb => hl.tem b (List.mem_cons_of_mem _ hb), (List.pairwise_cons.mp hl.later).2⟩
    rw [weight_cons]
    have hloop : loop tm new (a :: l) = (step tm new a).bind (fun n => loop tm n l) := by
      unfold loop; rw [List.foldlM_cons]; rfl
    by_cases hi : a.2 = .i
    · have hs : step tm new a = some new := by simp [step, hi]
      rw [hloop, hs]
      simp only [hi, if_true, zero_add, Option.bind_some, revProd, mul_one]
      exact ih hl' d new hn (fun b hb => ha b (List.mem_cons_of_mem _ hb))
    · obtain ⟨s1, s2, hT⟩ := hl.tem a List.mem_cons_self hi
      have hq := hl.lt a List.mem_cons_self
      have hag := ha a List.mem_cons_self hi
      obtain ⟨hacc, hlen⟩ := acc_step N a.1 d _ new s1 s2 hT hq hn hag
      obtain ⟨hmul, hden⟩ := mul_acc N a.1 d _ new s1 s2 hT hq hn hag
      have hs : step tm new a = some (if small (d/2) then [] else prods (tm a.1 a.2) new) := by
        simp only [step, hi, if_false, hmul]
      have hdiv : d / 2 ^ (1 + weight l) = d / 2 / 2 ^ weight l := by rw [pow_add, pow_one, div_div]
      have ih' := ih hl' (d/2) (prods (tm a.1 a.2) new) hacc (fun b hb hbi =>
        agree_step b.1 _ _ ((List.pairwise_cons.mp hl.later).1 b hb hi hbi)
          (ha b (List.mem_cons_of_mem _ hb) hbi))
      rw [hloop, hs]
      simp only [hi, if_false, Option.bind_some, revProd, hdiv]
      constructor
      · intro h
        have hns : small (d / 2 / 2 ^ weight l) = false := by
          rcases h with h | h
          · omega
          · exact h
        have hns' : small (d/2) = false := by
          rcases hb : small (d/2)
          · rfl
          · rw [small_div_pow _ _ hb] at hns; cases hns
        obtain ⟨r, h1, h2, h3, h4⟩ := ih'.1 (Or.inr hns)
        refine ⟨r, by simpa [hns'] using h1, h2, ?_, ?_⟩
        · rw [h3, hden, mul_assoc]
        · rw [h4, hlen, pow_add]; ring
      · intro _ hsm
        by_cases hw : small (d/2) = true
        · simp only [hw, if_true]; exact loop_nil_acc tm l
        · simp only [hw]
          by_cases hw0 : weight l = 0
          · rw [hw0] at hsm; simp at hsm; exact absurd hsm hw
          · exact ih'.2 hw0 hsm

theorem start_eq (t : Term FStr K) : start t = [(List.replicate t.1.length .I, t.2)] := rfl

theorem denP_replicate_I (k n : ℕ) : (denP k (List.replicate n .I) : Oper K) = 1 := by
  induction n generalizing k with
  | zero => rfl
  | succ n ih => simp [List.replicate_succ, denP, ih, pmat, site_one]

theorem start_acc (t : Term FStr K) : Acc t.1.length t.2 (start t) := by
  rw [start_eq]
  refine ⟨by simp [UniqueKeys], ?_, ?_⟩
  · intro u hu; rw [List.mem_singleton.mp hu]; simp
  · intro u hu; exact ⟨0, by rw [List.mem_singleton.mp hu]; simp⟩

theorem start_agree (t : Term FStr K) (q : ℕ) : AgreeAt (start t) q := by
  rw [start_eq]
  intro u hu v hv
  rw [List.mem_singleton.mp hu, List.mem_singleton.mp hv]

theorem start_den (t : Term FStr K) : (denPO (start t) : Oper K) = t.2 • 1 := by
  rw [start_eq, denPO, OpD.denD_cons, OpD.denD_nil, add_zero, denP_replicate_I]

end Transform
end HQCA
