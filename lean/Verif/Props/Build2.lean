import Verif.Proofs.Build2
import Mathlib.Tactic.Tauto

/-!
# The two-particle density matrix of a wave function (C105)

`Build2.state wf` is the state with the amplitudes of the dictionary, and `rdm ψ [p,q] [r,s]` is
`⟨ψ| a†_p a†_q a_s a_r |ψ⟩`, defined from the ladder operators.
-/

set_option linter.unusedSectionVars false

namespace HQCA
namespace Props
open Build2
variable {C : Type} [Coef C]

/-- The wave function and the orbitals are well formed: one amplitude per determinant, determinants with `n`
orbitals, no orbital listed twice, all orbitals in range. -/
structure WfOk (n : ℕ) (wf : Wf C) (α β : Orbs) : Prop where
  keys : (wf.map (·.1)).Nodup
  len : ∀ t ∈ wf, t.1.length = n
  nodup : (α.occ ++ β.occ).Nodup
  range : ∀ x ∈ α.occ ++ β.occ, x < n

/-- The entries with as many alpha creators as alpha annihilators, over the listed orbitals. -/
def Blk (a b : List ℕ) (p q r s : ℕ) : Prop :=
  (p ∈ a ∧ q ∈ a ∧ r ∈ a ∧ s ∈ a) ∨ (p ∈ b ∧ q ∈ b ∧ r ∈ b ∧ s ∈ b) ∨
  ((p ∈ a ∧ q ∈ b ∨ p ∈ b ∧ q ∈ a) ∧ (r ∈ a ∧ s ∈ b ∨ r ∈ b ∧ s ∈ a))

/-- The value of an entry after the three groups of loops. -/
theorem build2_entry (n : ℕ) (wf : Wf C) (α β : Orbs) (h : WfOk n wf α β) (sa sb sm : Option (List ℕ)) (T : Ix → C)
    (p q r s : ℕ) :
    let R := run T ((same α.occ).flatMap (quad sa wf) ++ (same β.occ).flatMap (quad sb wf) ++
      (mixed α.occ β.occ).flatMap (quad sm wf)) (p, q, r, s)
    let V := fun skip : Option (List ℕ) => match skip with
      | none => T (p, q, r, s) + rdm (state wf) [p, q] [r, s]
      | some inact => if p ∈ inact ∧ q ∈ inact ∧ r ∈ inact ∧ s ∈ inact then T (p, q, r, s) else rdm (state wf) [p, q] [r, s]
    (p ∈ α.occ ∧ q ∈ α.occ ∧ r ∈ α.occ ∧ s ∈ α.occ ∧ p ≠ q ∧ r ≠ s → R = V sa) ∧
    (p ∈ β.occ ∧ q ∈ β.occ ∧ r ∈ β.occ ∧ s ∈ β.occ ∧ p ≠ q ∧ r ≠ s → R = V sb) ∧
    ((p ∈ α.occ ∧ q ∈ β.occ ∨ p ∈ β.occ ∧ q ∈ α.occ) ∧ (r ∈ α.occ ∧ s ∈ β.occ ∨ r ∈ β.occ ∧ s ∈ α.occ) → R = V sm) ∧
    (¬ (Blk α.occ β.occ p q r s ∧ p ≠ q ∧ r ≠ s) → R = T (p, q, r, s)) := by
  intro R V
  obtain ⟨hna, hnb, hdis⟩ := List.nodup_append.mp h.nodup
  have hd : ∀ x, x ∈ α.occ → x ∈ β.occ → False := fun x ha hb => hdis x ha x hb rfl
  have hra : ∀ x ∈ α.occ, x < n := fun x hx => h.range x (by simp [hx])
  have hrb : ∀ x ∈ β.occ, x < n := fun x hx => h.range x (by simp [hx])
  -- when a group of loops leaves the entry alone
  have noS : ∀ (o : List ℕ) (sk : Option (List ℕ)) (v : C), ¬ ((p ∈ o ∧ q ∈ o ∧ r ∈ o ∧ s ∈ o) ∧ p ≠ q ∧ r ≠ s) →
      ((same o).flatMap (quad sk wf)).foldl (eff (p, q, r, s)) v = v := by
    intro o sk v hno
    apply eff_none
    intro e he hx
    obtain ⟨⟨i, k, l, j⟩, hq, he⟩ := List.mem_flatMap.mp he
    have hw := quad_writes sk wf _ e he
    rw [hx] at hw
    obtain ⟨⟨h1, h2, h3, h4⟩, h5, h6⟩ := (mem_same o i k l j).mp hq
    simp only [Writes] at hw
    apply hno
    rcases hw with ⟨⟨rfl, rfl⟩ | ⟨rfl, rfl⟩, ⟨rfl, rfl⟩ | ⟨rfl, rfl⟩⟩ <;>
      refine ⟨⟨by assumption, by assumption, by assumption, by assumption⟩, by omega, by omega⟩
  have noM : ∀ (sk : Option (List ℕ)) (v : C),
      ¬ ((p ∈ α.occ ∧ q ∈ β.occ ∨ p ∈ β.occ ∧ q ∈ α.occ) ∧ (r ∈ α.occ ∧ s ∈ β.occ ∨ r ∈ β.occ ∧ s ∈ α.occ)) →
      ((mixed α.occ β.occ).flatMap (quad sk wf)).foldl (eff (p, q, r, s)) v = v := by
    intro sk v hno
    apply eff_none
    intro e he hx
    obtain ⟨⟨i, k, l, j⟩, hq, he⟩ := List.mem_flatMap.mp he
    have hw := quad_writes sk wf _ e he
    rw [hx] at hw
    obtain ⟨h1, h2, h3, h4⟩ := (mem_mixed _ _ i k l j).mp hq
    simp only [Writes] at hw
    apply hno
    rcases hw with ⟨⟨rfl, rfl⟩ | ⟨rfl, rfl⟩, ⟨rfl, rfl⟩ | ⟨rfl, rfl⟩⟩ <;> tauto
  -- when it writes it
  have yesS : ∀ (o : List ℕ) (sk : Option (List ℕ)), o.Nodup → (∀ x ∈ o, x < n) →
      (p ∈ o ∧ q ∈ o ∧ r ∈ o ∧ s ∈ o ∧ p ≠ q ∧ r ≠ s) →
      ((same o).flatMap (quad sk wf)).foldl (eff (p, q, r, s)) (T (p, q, r, s)) = V sk := by
    rintro o sk ho hr ⟨hp, hq, hr', hs, hpq, hrs⟩
    obtain ⟨i, k, hik, hi, hk, e1⟩ : ∃ i k, i < k ∧ i ∈ o ∧ k ∈ o ∧ (p = i ∧ q = k ∨ p = k ∧ q = i) := by
      rcases Nat.lt_or_gt_of_ne hpq with h | h
      · exact ⟨p, q, h, hp, hq, Or.inl ⟨rfl, rfl⟩⟩
      · exact ⟨q, p, h, hq, hp, Or.inr ⟨rfl, rfl⟩⟩
    obtain ⟨l, j, hlj, hl, hj, e2⟩ : ∃ l j, l < j ∧ l ∈ o ∧ j ∈ o ∧ (r = l ∧ s = j ∨ r = j ∧ s = l) := by
      rcases Nat.lt_or_gt_of_ne hrs with h | h
      · exact ⟨r, s, h, hr', hs, Or.inl ⟨rfl, rfl⟩⟩
      · exact ⟨s, r, h, hs, hr', Or.inr ⟨rfl, rfl⟩⟩
    have hw : Writes (i, k, l, j) (p, q, r, s) := ⟨e1, e2⟩
    rw [eff_block (same o) (quad sk wf) (p, q, r, s) _ (i, k, l, j) (nodup_same o ho)
      ((mem_same o i k l j).mpr ⟨⟨hi, hk, hl, hj⟩, hik, hlj⟩) ?_]
    · exact quad_value sk wf n h.keys h.len i k l j (hr _ hi) (hr _ hk) (hr _ hl) (hr _ hj) (by omega) (by omega) p q r s hw _
    · rintro ⟨i', k', l', j'⟩ hb hne e he hx
      apply hne
      have hw' := quad_writes sk wf _ e he
      rw [hx] at hw'
      obtain ⟨-, h5, h6⟩ := (mem_same o i' k' l' j').mp hb
      simp only [Writes] at hw'
      simp only [Prod.mk.injEq]
      omega
  have yesM : ∀ (sk : Option (List ℕ)),
      ((p ∈ α.occ ∧ q ∈ β.occ ∨ p ∈ β.occ ∧ q ∈ α.occ) ∧ (r ∈ α.occ ∧ s ∈ β.occ ∨ r ∈ β.occ ∧ s ∈ α.occ)) →
      ((mixed α.occ β.occ).flatMap (quad sk wf)).foldl (eff (p, q, r, s)) (T (p, q, r, s)) = V sk := by
    rintro sk ⟨hpq, hrs⟩
    obtain ⟨i, k, hi, hk, e1⟩ : ∃ i k, i ∈ α.occ ∧ k ∈ β.occ ∧ (p = i ∧ q = k ∨ p = k ∧ q = i) := by
      rcases hpq with h | h
      · exact ⟨p, q, h.1, h.2, Or.inl ⟨rfl, rfl⟩⟩
      · exact ⟨q, p, h.2, h.1, Or.inr ⟨rfl, rfl⟩⟩
    obtain ⟨j, l, hj, hl, e2⟩ : ∃ j l, j ∈ α.occ ∧ l ∈ β.occ ∧ (r = l ∧ s = j ∨ r = j ∧ s = l) := by
      rcases hrs with h | h
      · exact ⟨r, s, h.1, h.2, Or.inr ⟨rfl, rfl⟩⟩
      · exact ⟨s, r, h.2, h.1, Or.inl ⟨rfl, rfl⟩⟩
    have hw : Writes (i, k, l, j) (p, q, r, s) := ⟨e1, e2⟩
    rw [eff_block (mixed α.occ β.occ) (quad sk wf) (p, q, r, s) _ (i, k, l, j) (nodup_mixed _ _ hna hnb)
      ((mem_mixed _ _ i k l j).mpr ⟨hi, hj, hk, hl⟩) ?_]
    · exact quad_value sk wf n h.keys h.len i k l j (hra _ hi) (hrb _ hk) (hrb _ hl) (hra _ hj)
        (fun e => hd _ hi (e ▸ hk)) (fun e => hd _ hj (e ▸ hl)) p q r s hw _
    · rintro ⟨i', k', l', j'⟩ hb hne e he hx
      apply hne
      have hw' := quad_writes sk wf _ e he
      rw [hx] at hw'
      obtain ⟨hi', hj', hk', hl'⟩ := (mem_mixed _ _ i' k' l' j').mp hb
      simp only [Writes] at hw'
      simp only [Prod.mk.injEq]
      have hab : ∀ x y, x ∈ α.occ → y ∈ β.occ → x ≠ y := fun x y hx hy e => hd x hx (e ▸ hy)
      have := hab i k' hi hk'
      have := hab i' k hi' hk
      have := hab j l' hj hl'
      have := hab j' l hj' hl
      omega
  have hR : R = ((mixed α.occ β.occ).flatMap (quad sm wf)).foldl (eff (p, q, r, s))
      (((same β.occ).flatMap (quad sb wf)).foldl (eff (p, q, r, s))
        (((same α.occ).flatMap (quad sa wf)).foldl (eff (p, q, r, s)) (T (p, q, r, s)))) := by
    show run T _ _ = _
    rw [run_eff, List.foldl_append, List.foldl_append]
  rw [hR]
  have hpd := hd p
  have hqd := hd q
  have hrd := hd r
  refine ⟨fun hh => ?_, fun hh => ?_, fun hh => ?_, fun hh => ?_⟩
  · rw [noM sm _ (fun x => by rcases x.1 with y | y; exacts [hqd hh.2.1 y.2, hpd hh.1 y.1]), noS β.occ sb _ (fun x => hpd hh.1 x.1.1)]
    exact yesS α.occ sa hna hra hh
  · rw [noM sm _ (fun x => by rcases x.1 with y | y; exacts [hpd y.1 hh.1, hqd y.2 hh.2.1]), noS α.occ sa _ (fun x => hpd x.1.1 hh.1)]
    exact yesS β.occ sb hnb hrb hh
  · rw [noS α.occ sa _ (fun x => by rcases hh.1 with y | y; exacts [hqd x.1.2.1 y.2, hpd x.1.1 y.1]),
      noS β.occ sb _ (fun x => by rcases hh.1 with y | y; exacts [hpd y.1 x.1.1, hqd y.2 x.1.2.1])]
    exact yesM sm hh
  · have hpq : (p ∈ α.occ ∧ q ∈ β.occ ∨ p ∈ β.occ ∧ q ∈ α.occ) → p ≠ q := by
      rintro (⟨a, b⟩ | ⟨a, b⟩) e
      · exact hd p a (e ▸ b)
      · exact hd q b (e ▸ a)
    have hrs : (r ∈ α.occ ∧ s ∈ β.occ ∨ r ∈ β.occ ∧ s ∈ α.occ) → r ≠ s := by
      rintro (⟨a, b⟩ | ⟨a, b⟩) e
      · exact hd r a (e ▸ b)
      · exact hd s b (e ▸ a)
    rw [noM sm _ (fun x => hh ⟨Or.inr (Or.inr x), hpq x.1, hrs x.2⟩), noS β.occ sb _ (fun x => hh ⟨Or.inr (Or.inl x.1), x.2⟩),
      noS α.occ sa _ (fun x => hh ⟨Or.inl x.1, x.2⟩)]

theorem rdm_same_zero (ψ : Cfg →₀ C) (p q r s : ℕ) (h : p = q ∨ r = s) : rdm ψ [p, q] [r, s] = 0 := by
  have hA := rdm_antisym 2 ψ
  have two : ∀ x : C, x = -x → x = 0 := by
    intro x hx
    have : (2 : C) * x = 0 := by linear_combination hx
    exact (mul_eq_zero.mp this).resolve_left Coef.two_ne_zero'
  rcases h with rfl | rfl
  · exact two _ (hA.1 [] p p [] [r, s] rfl rfl)
  · exact two _ (hA.2 [p, q] [] r r [] rfl rfl)

open Classical in
/-- **C105.** `build_2rdm` with `region='full'`: the spin-conserving entries over the inactive and active orbitals
are the expectation values of `a†_p a†_q a_s a_r`, and every other entry is zero. -/
theorem C105_full (n : ℕ) (wf : Wf C) (α β : Orbs) (h : WfOk n wf α β) (p q r s : ℕ) :
    full wf α β (p, q, r, s) = if Blk α.occ β.occ p q r s then rdm (state wf) [p, q] [r, s] else 0 := by
  have key := build2_entry n wf α β h none none none (fun _ => 0) p q r s
  dsimp only at key
  rw [zero_add] at key
  obtain ⟨k1, k2, k3, k4⟩ := key
  unfold full
  by_cases hb : Blk α.occ β.occ p q r s
  · rw [if_pos hb]
    by_cases e : p = q ∨ r = s
    · rw [k4 (fun hh => by rcases e with e | e; exacts [hh.2.1 e, hh.2.2 e]), rdm_same_zero _ p q r s e]
    · obtain ⟨e1, e2⟩ := not_or.mp e
      rcases hb with hb | hb | hb
      · exact k1 ⟨hb.1, hb.2.1, hb.2.2.1, hb.2.2.2, e1, e2⟩
      · exact k2 ⟨hb.1, hb.2.1, hb.2.2.1, hb.2.2.2, e1, e2⟩
      · exact k3 hb
  · rw [if_neg hb]
    exact k4 (fun hh => hb hh.1)

open Classical in
/-- **C105.** `region='active'`: the spin-conserving entries with at least one active index are recomputed, whatever
they held before; all other entries are left alone. -/
theorem C105_active (n : ℕ) (wf : Wf C) (α β : Orbs) (h : WfOk n wf α β) (T : Ix → C) (p q r s : ℕ) :
    activeRegion wf α β T (p, q, r, s) =
      if Blk α.occ β.occ p q r s ∧ p ≠ q ∧ r ≠ s ∧ ¬ (∀ x ∈ [p, q, r, s], x ∈ α.inactive ∨ x ∈ β.inactive)
      then rdm (state wf) [p, q] [r, s] else T (p, q, r, s) := by
  obtain ⟨k1, k2, k3, k4⟩ := build2_entry n wf α β h (some α.inactive) (some β.inactive)
    (some (α.inactive ++ β.inactive)) T p q r s
  unfold activeRegion
  obtain ⟨hna, hnb, hdis⟩ := List.nodup_append.mp h.nodup
  have hd : ∀ x, x ∈ α.occ → x ∈ β.occ → False := fun x ha hb => hdis x ha x hb rfl
  have ia : ∀ x, x ∈ α.inactive → x ∈ α.occ := fun x hx => by simp [Orbs.occ, hx]
  have ib : ∀ x, x ∈ β.inactive → x ∈ β.occ := fun x hx => by simp [Orbs.occ, hx]
  by_cases hb : Blk α.occ β.occ p q r s ∧ p ≠ q ∧ r ≠ s
  swap
  · rw [k4 hb, if_neg (fun hh => hb ⟨hh.1, hh.2.1, hh.2.2.1⟩)]
  obtain ⟨hb, e1, e2⟩ := hb
  have fin : ∀ (P : Prop) [Decidable P], (P ↔ ∀ x ∈ [p, q, r, s], x ∈ α.inactive ∨ x ∈ β.inactive) →
      (if P then T (p, q, r, s) else rdm (state wf) [p, q] [r, s]) =
      if Blk α.occ β.occ p q r s ∧ p ≠ q ∧ r ≠ s ∧ ¬ (∀ x ∈ [p, q, r, s], x ∈ α.inactive ∨ x ∈ β.inactive)
      then rdm (state wf) [p, q] [r, s] else T (p, q, r, s) := by
    intro P _ hP
    by_cases hp : P
    · rw [if_pos hp, if_neg (fun hh => hh.2.2.2 (hP.mp hp))]
    · rw [if_neg hp, if_pos ⟨hb, e1, e2, fun hh => hp (hP.mpr hh)⟩]
  rcases hb with hb' | hb' | hb'
  · refine (k1 ⟨hb'.1, hb'.2.1, hb'.2.2.1, hb'.2.2.2, e1, e2⟩).trans ?_
    obtain ⟨h1, h2, h3, h4⟩ := hb'
    have hx : ∀ x, x ∈ α.occ → ((x ∈ α.inactive ∨ x ∈ β.inactive) ↔ x ∈ α.inactive) :=
      fun x hx => ⟨fun y => y.resolve_right (fun z => hd x hx (ib x z)), Or.inl⟩
    exact fin (p ∈ α.inactive ∧ q ∈ α.inactive ∧ r ∈ α.inactive ∧ s ∈ α.inactive)
      (by simp [hx p h1, hx q h2, hx r h3, hx s h4])
  · refine (k2 ⟨hb'.1, hb'.2.1, hb'.2.2.1, hb'.2.2.2, e1, e2⟩).trans ?_
    obtain ⟨h1, h2, h3, h4⟩ := hb'
    have hx : ∀ x, x ∈ β.occ → ((x ∈ α.inactive ∨ x ∈ β.inactive) ↔ x ∈ β.inactive) :=
      fun x hx => ⟨fun y => y.resolve_left (fun z => hd x (ia x z) hx), Or.inr⟩
    exact fin (p ∈ β.inactive ∧ q ∈ β.inactive ∧ r ∈ β.inactive ∧ s ∈ β.inactive)
      (by simp [hx p h1, hx q h2, hx r h3, hx s h4])
  · exact (k3 hb').trans (fin (p ∈ α.inactive ++ β.inactive ∧ q ∈ α.inactive ++ β.inactive ∧ r ∈ α.inactive ++ β.inactive ∧
      s ∈ α.inactive ++ β.inactive) (by simp))

/-! ### Wave functions with definite numbers of alpha and beta electrons -/

/-- The number of occupied orbitals of `o`. -/
def nOcc (o : List ℕ) (d : Det) : ℕ := o.countP (fun i => d.getD i false)

theorem nOcc_set (o : List ℕ) (ho : o.Nodup) (d : Det) (i : ℕ) (v : Bool) (hi : i < d.length) :
    (nOcc o (d.set i v) : ℤ) = nOcc o d + if i ∈ o then Build2.b2i v - Build2.b2i (cfg d i) else 0 := by
  have hc := cfg_set d i v hi
  have hg : ∀ e : Det, nOcc o e = o.countP (fun x => cfg e x) := fun _ => rfl
  rw [hg, hg, hc]
  clear hg hc
  induction o with
  | nil => simp
  | cons a o ih =>
    have ih := ih (List.nodup_cons.mp ho).2
    rw [List.countP_cons, List.countP_cons]
    push_cast
    rw [ih]
    by_cases e : a = i
    · subst e
      have hx : a ∉ o := (List.nodup_cons.mp ho).1
      simp only [hx, if_false, List.mem_cons, true_or, if_true, Function.update_self, Build2.b2i]
      ring
    · rw [Function.update_of_ne e]
      simp only [List.mem_cons, Ne.symm e, false_or]
      ring

/-- **C105.** For a wave function with definite numbers of alpha and beta electrons and empty virtual orbitals,
`build_2rdm` returns the whole two-particle density matrix. -/
theorem C105_all (n : ℕ) (wf : Wf C) (α β : Orbs) (h : WfOk n wf α β)
    (ha : ∀ t ∈ wf, ∀ t' ∈ wf, nOcc α.occ t.1 = nOcc α.occ t'.1)
    (hb : ∀ t ∈ wf, ∀ t' ∈ wf, nOcc β.occ t.1 = nOcc β.occ t'.1)
    (hv : ∀ t ∈ wf, ∀ x, t.1.getD x false = true → x ∈ α.occ ++ β.occ)
    (p q r s : ℕ) (hp : p < n) (hq : q < n) (hr : r < n) (hs : s < n) :
    full wf α β (p, q, r, s) = rdm (state wf) [p, q] [r, s] := by
  classical
  rw [C105_full n wf α β h p q r s]
  by_cases hB : Blk α.occ β.occ p q r s
  · rw [if_pos hB]
  rw [if_neg hB, rdm_state wf n h.keys h.len p q s r hp hq hs hr]
  symm
  unfold amp
  apply List.sum_eq_zero
  intro x hx
  obtain ⟨t, ht, rfl⟩ := List.mem_map.mp hx
  by_cases hph : (phase2e p q s r t.1).1 = 0
  · rw [hph]; simp
  cases hlk : wf.lookup (phase2e p q s r t.1).2 with
  | none => simp [conj_zero]
  | some c =>
    exfalso
    apply hB
    have hmem : ((phase2e p q s r t.1).2, c) ∈ wf := by
      obtain ⟨l1, l2, e, -⟩ := List.lookup_eq_some_iff.mp hlk
      rw [e]; simp
    have hlen := h.len t ht
    obtain ⟨hna, hnb, hdis⟩ := List.nodup_append.mp h.nodup
    have hd : ∀ x, x ∈ α.occ → x ∈ β.occ → False := fun x ha hb => hdis x ha x hb rfl
    -- the conditions for a nonzero phase
    simp only [phase2e, mul_ne_zero_iff, ne_eq, mul_eq_zero, not_or] at hph
    obtain ⟨⟨⟨⟨⟨⟨t1, t2⟩, t3⟩, t4⟩, t5⟩, -⟩, -⟩ := hph
    have hpq : p ≠ q := fun e => t1 (by simp [Build2.delta, e])
    have hsr : s ≠ r := fun e => t2 (by simp [Build2.delta, e])
    have bs : cfg t.1 s = true := by
      by_contra hh
      have hh' : t.1.getD s false = false := by simpa [cfg] using hh
      exact t5.1 (by simp only [occ, hh', Build2.b2i]; rfl)
    have br : cfg t.1 r = true := by
      by_contra hh
      have hh' : t.1.getD r false = false := by simpa [cfg] using hh
      exact t5.2 (by simp only [occ, hh', Build2.b2i]; rfl)
    have free : ∀ x, ¬ (Build2.delta x s + Build2.delta x r + 1 - occ t.1 x = 0) → x = s ∨ x = r ∨ cfg t.1 x = false := by
      intro x hx
      by_contra hh
      simp only [not_or, Bool.not_eq_false] at hh
      apply hx
      have : t.1.getD x false = true := hh.2.2
      simp only [Build2.delta, occ, Build2.b2i, hh.1, hh.2.1, this, if_false, if_true]
      rfl
    have fp := free p t3
    have fq := free q t4
    -- the occupations along the way
    let d1 := t.1.set r false
    let d2 := d1.set s false
    let d3 := d2.set q true
    have c1 : cfg d1 = Function.update (cfg t.1) r false := cfg_set _ _ _ (by omega)
    have c2 : cfg d2 = Function.update (cfg d1) s false := cfg_set _ _ _ (by simp [d1]; omega)
    have c3 : cfg d3 = Function.update (cfg d2) q true := cfg_set _ _ _ (by simp [d2, d1]; omega)
    have c4 : cfg (phase2e p q s r t.1).2 = Function.update (cfg d3) p true := cfg_set _ _ _ (by simp [d3, d2, d1]; omega)
    have v1 : cfg d1 s = true := by rw [c1, Function.update_of_ne hsr]; exact bs
    have v2 : ∀ x, x = s ∨ x = r ∨ cfg t.1 x = false → cfg d2 x = false := by
      intro x hx
      rw [c2]
      by_cases e : x = s
      · subst e; simp
      · rw [Function.update_of_ne e, c1]
        by_cases e' : x = r
        · subst e'; simp
        · rw [Function.update_of_ne e']
          exact (hx.resolve_left e).resolve_left e'
    have v3 : cfg d3 p = false := by rw [c3, Function.update_of_ne hpq]; exact v2 p fp
    have cnt : ∀ o : List ℕ, o.Nodup → (nOcc o (phase2e p q s r t.1).2 : ℤ) = nOcc o t.1 -
        (if r ∈ o then 1 else 0) - (if s ∈ o then 1 else 0) + (if q ∈ o then 1 else 0) + (if p ∈ o then 1 else 0) := by
      intro o ho
      have e4 := nOcc_set o ho d3 p true (by simp [d3, d2, d1]; omega)
      have e3 := nOcc_set o ho d2 q true (by simp [d2, d1]; omega)
      have e2 := nOcc_set o ho d1 s false (by simp [d1]; omega)
      have e1 := nOcc_set o ho t.1 r false (by omega)
      rw [v3] at e4
      rw [v2 q fq] at e3
      rw [v1] at e2
      rw [br] at e1
      have : (phase2e p q s r t.1).2 = d3.set p true := rfl
      rw [this, e4, e3, e2, e1]
      simp only [Build2.b2i, if_true, Bool.false_eq_true, if_false]
      split <;> split <;> split <;> split <;> ring
    have ka := cnt α.occ hna
    have kb := cnt β.occ hnb
    rw [ha _ hmem t ht] at ka
    rw [hb _ hmem t ht] at kb
    have mr := List.mem_append.mp (hv t ht r br)
    have ms := List.mem_append.mp (hv t ht s bs)
    have mp := List.mem_append.mp (hv _ hmem p (by
      show cfg (phase2e p q s r t.1).2 p = true
      rw [c4]; simp))
    have mq := List.mem_append.mp (hv _ hmem q (by
      show cfg (phase2e p q s r t.1).2 q = true
      rw [c4, Function.update_of_ne (Ne.symm hpq), c3]; simp))
    have ex : ∀ x, x ∈ α.occ ∨ x ∈ β.occ → (x ∈ α.occ ∧ x ∉ β.occ) ∨ (x ∉ α.occ ∧ x ∈ β.occ) := by
      intro x hx
      rcases hx with hx | hx
      · exact Or.inl ⟨hx, fun y => hd x hx y⟩
      · exact Or.inr ⟨fun y => hd x y hx, hx⟩
    unfold Blk
    rcases ex r mr with ⟨r1, r2⟩ | ⟨r1, r2⟩ <;> rcases ex s ms with ⟨s1, s2⟩ | ⟨s1, s2⟩ <;>
      rcases ex p mp with ⟨p1, p2⟩ | ⟨p1, p2⟩ <;> rcases ex q mq with ⟨q1, q2⟩ | ⟨q1, q2⟩ <;>
      simp only [r1, r2, s1, s2, p1, p2, q1, q2, if_true, if_false] at ka kb ⊢ <;> first | omega | simp

/-! A correlated state of two electrons in four spin orbitals meets the hypotheses, and has a nonzero transition
entry with the complex conjugate on the right amplitude. -/

def exWf : Wf GQ := [([true, false, true, false, false, false], ⟨3/5, 0⟩), ([false, true, false, true, false, false], ⟨0, 4/5⟩)]
def exA : Orbs := ⟨[0], [1], [4]⟩
def exB : Orbs := ⟨[2], [3], [5]⟩

example : WfOk 6 exWf exA exB := ⟨by decide +kernel, by decide +kernel, by decide +kernel, by decide +kernel⟩
example : (∀ t ∈ exWf, ∀ t' ∈ exWf, nOcc exA.occ t.1 = nOcc exA.occ t'.1) ∧
    (∀ t ∈ exWf, ∀ t' ∈ exWf, nOcc exB.occ t.1 = nOcc exB.occ t'.1) := by decide +kernel
example : full exWf exA exB (0, 2, 1, 3) = ⟨0, 12/25⟩ ∧ full exWf exA exB (1, 3, 2, 0) = ⟨0, 12/25⟩ ∧
    full exWf exA exB (0, 2, 0, 2) = ⟨9/25, 0⟩ := by decide +kernel

end Props
end HQCA
