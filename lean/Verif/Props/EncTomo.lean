import Verif.Props.ReducedTomo
import Verif.Props.AnsatzCircuit
import Mathlib.Algebra.Order.BigOperators.Group.Finset

/-!
# C112: tomography with the parity and Bravyi–Kitaev transforms

`generate_rdme` (`tomography/_tomography.py:38-66`) with `transform=Parity` or `transform=BravyiKitaev`.
-/

namespace HQCA.Props
open HQCA.Prim HQCA.Tomo HQCA.StateTomo HQCA.Transform
noncomputable section

/-! ### Specification -/

/-- The state whose amplitude at `enc b` is that of `ψ` at `b`. -/
def relabel (enc : Cfg → Cfg) (ψ : Cfg →₀ ℂ) : Cfg →₀ ℂ := ψ.mapDomain enc

/-- How many electrons `a†_{c1}… a_{a1}` moves: the orbitals filled and not emptied. -/
def moved (c a : List ℕ) : ℕ := ((c : Multiset ℕ) - (a : Multiset ℕ)).card

theorem moved_symm (c a : List ℕ) (h : c.length = a.length) : moved a c = moved c a := by
  unfold moved
  have h1 := congrArg Multiset.card (Multiset.sub_add_inter (c : Multiset ℕ) a)
  have h2 := congrArg Multiset.card (Multiset.sub_add_inter (a : Multiset ℕ) c)
  rw [Multiset.inter_comm] at h2
  simp only [Multiset.card_add, Multiset.coe_card] at h1 h2
  omega

theorem moved_perm_left (c c' a : List ℕ) (h : c.Perm c') : moved c a = moved c' a := by
  unfold moved
  rw [Multiset.coe_eq_coe.mpr h]

theorem moved_perm_right (c a a' : List ℕ) (h : a.Perm a') : moved c a = moved c a' := by
  unfold moved
  rw [Multiset.coe_eq_coe.mpr h]

/-! ### Encoded states -/

theorem relabel_apply {enc : Cfg → Cfg} (hi : Function.Injective enc) (ψ : Cfg →₀ ℂ) (b : Cfg) :
    relabel enc ψ (enc b) = ψ b := Finsupp.mapDomain_apply hi ψ b

theorem pair_relabel (enc : Cfg → Cfg) (ψ : Cfg →₀ ℂ) (φ : Cfg → ℂ) :
    pair (relabel enc ψ) φ = pair ψ (fun b => φ (enc b)) := by
  unfold pair relabel
  rw [Finsupp.sum_mapDomain_index]
  · intro b; rw [conj_zero, zero_mul]
  · intro b x y; rw [Coef.conj_add, add_mul]

theorem pair_encodes {enc : Cfg → Cfg} (hi : Function.Injective enc) {P F : Oper ℂ} (h : Encodes enc P F)
    (ψ : Cfg →₀ ℂ) : pair (relabel enc ψ) (P (relabel enc ψ)) = pair ψ (F ψ) := by
  rw [pair_relabel]
  congr 1
  funext b
  rw [h, show (fun b' => relabel enc ψ (enc b')) = ψ from funext (relabel_apply hi ψ)]

theorem relabel_norm {enc : Cfg → Cfg} (hi : Function.Injective enc) (ψ : Cfg →₀ ℂ) :
    pair (relabel enc ψ) (relabel enc ψ) = pair ψ ψ := by
  rw [pair_relabel]
  congr 1
  funext b
  exact relabel_apply hi ψ b

theorem relabel_reg {enc : Cfg → Cfg} (N : ℕ) (he : ∀ b i, N ≤ i → enc b i = b i) (ψ : Cfg →₀ ℂ)
    (h : ∀ b, ψ b ≠ 0 → ∀ i, N ≤ i → b i = false) : ∀ b, relabel enc ψ b ≠ 0 → ∀ i, N ≤ i → b i = false := by
  classical
  intro b hb i hi
  have hm : b ∈ (relabel enc ψ).support := Finsupp.mem_support_iff.mpr hb
  have := Finsupp.mapDomain_support hm
  obtain ⟨b', hb', rfl⟩ := Finset.mem_image.mp this
  rw [he b' i hi]
  exact h b' (Finsupp.mem_support_iff.mp hb') i hi

/-! ### The letters of an element's string -/

/-- A ladder letter. -/
def isOdd (o : FL) : Bool := decide (o = .cr ∨ o = .an)

theorem zcomm_fop (k j : ℕ) (o : FL) : (site k mZ * fop j o : Oper ℂ) =
    (if j = k ∧ isOdd o = true then (-1 : ℂ) else 1) • (fop j o * site k mZ) := by
  have h1 := zcomm_cre k j
  have h2 := zcomm_ann k j
  have hs : (if j = k then (-1 : ℂ) else 1) * (if j = k then (-1 : ℂ) else 1) = 1 := by split <;> norm_num
  cases o with
  | i => simp [fop, isOdd]
  | cr => simpa [fop, isOdd] using h1
  | an => simpa [fop, isOdd] using h2
  | p =>
    simp only [fop, isOdd]
    rw [← mul_assoc, h1, smul_mul_assoc, mul_assoc, h2, mul_smul_comm, smul_smul, hs]
    simp [mul_assoc]
  | h =>
    simp only [fop, isOdd]
    rw [← mul_assoc, h2, smul_mul_assoc, mul_assoc, h1, mul_smul_comm, smul_smul, hs]
    simp [mul_assoc]

theorem zcomm_denF (k j : ℕ) (s : FStr) : (site k mZ * denF j s : Oper ℂ) =
    (if j ≤ k ∧ isOdd (s.getD (k - j) .i) = true then (-1 : ℂ) else 1) • (denF j s * site k mZ) := by
  induction s generalizing j with
  | nil => simp [denF, isOdd]
  | cons o s ih =>
    rw [denF, ← mul_assoc, zcomm_fop, smul_mul_assoc, mul_assoc, ih, mul_smul_comm, smul_smul, mul_assoc]
    congr 1
    rcases lt_trichotomy j k with h | rfl | h
    · rw [if_neg (by rintro ⟨h', _⟩; omega), one_mul]
      have e : k - j = (k - (j + 1)) + 1 := by omega
      rw [e, List.getD_cons_succ]
      have h1 : j + 1 ≤ k := h
      have h2 : j ≤ k := by omega
      simp only [h1, h2, true_and]
    · have h1 : ¬ j + 1 ≤ j := by omega
      simp [h1]
    · have h1 : ¬ j + 1 ≤ k := by omega
      have h2 : ¬ j ≤ k := by omega
      have h3 : ¬ j = k := by omega
      simp [h1, h2, h3]

theorem zcomm_rdmOp (k : ℕ) (c a : List ℕ) : (site k mZ * rdmOp c a : Oper ℂ) =
    ((-1 : ℂ) ^ (c.count k + a.count k)) • (rdmOp c a * site k mZ) := by
  unfold rdmOp
  rw [← mul_assoc, zcomm_prod k _ (zcomm_cre k), smul_mul_assoc, mul_assoc, zcomm_prod k _ (zcomm_ann k),
    mul_smul_comm, smul_smul, ← mul_assoc, ← pow_add, List.count_reverse]

theorem nOdd_sum (s : FStr) : nOdd s = ∑ k ∈ Finset.range s.length, (if isOdd (s.getD k .i) = true then 1 else 0) := by
  induction s with
  | nil => rfl
  | cons o s ih =>
    rw [List.length_cons, Finset.sum_range_succ']
    simp only [List.getD_cons_succ, List.getD_cons_zero]
    rw [← ih]
    unfold nOdd isOdd
    by_cases h : o = .cr ∨ o = .an <;> simp [List.filter_cons, h]

/-- The string of an element has one ladder letter per orbital that is filled or emptied. -/
theorem nOdd_moved (p N : ℕ) (c a : List ℕ) (hc : Sorted p N c) (ha : Sorted p N a) (s : FStr) (hs : s.length = N)
    (x y : ℂ) (hy : y ≠ 0) (h : x • (denF 0 s : Oper ℂ) = y • rdmOp c a) : nOdd s = 2 * moved c a := by
  have hx : x ≠ 0 := by
    rintro rfl
    rw [zero_smul] at h
    exact rdmOp_ne0 p N c a hc ha ((smul_eq_zero.mp h.symm).resolve_left hy)
  have hd : (denF 0 s : Oper ℂ) = (x⁻¹ * y) • rdmOp c a := by rw [mul_smul, ← h, smul_smul, inv_mul_cancel₀ hx, one_smul]
  have hzz : ∀ k, (site k mZ * site k mZ : Oper ℂ) = 1 := by
    intro k
    rw [← site_mul, show (mZ * mZ : M2 ℂ) = 1 from ?_, site_one]
    rw [mZ_eq, mat2_mul, one_eq]; simp
  have hk : ∀ k, (if isOdd (s.getD k .i) = true then (-1 : ℂ) else 1) = (-1 : ℂ) ^ (c.count k + a.count k) := by
    intro k
    have h1 := zcomm_denF k 0 s
    have h2 : (site k mZ * denF 0 s : Oper ℂ) = ((-1 : ℂ) ^ (c.count k + a.count k)) • (denF 0 s * site k mZ) := by
      rw [hd, mul_smul_comm, zcomm_rdmOp, smul_mul_assoc, smul_comm]
    rw [h2] at h1
    simp only [Nat.zero_le, true_and, Nat.sub_zero] at h1
    have h3 : (denF 0 s * site k mZ : Oper ℂ) ≠ 0 := by
      intro h0
      have := congrArg (· * (site k mZ : Oper ℂ)) h0
      simp only [mul_assoc, hzz, mul_one, zero_mul] at this
      rw [this, smul_zero] at h
      exact rdmOp_ne0 p N c a hc ha ((smul_eq_zero.mp h.symm).resolve_left hy)
    exact (smul_left_injective ℂ h3 h1).symm
  have nc : c.Nodup := hc.2.1.imp (fun h => by omega)
  have na : a.Nodup := ha.2.1.imp (fun h => by omega)
  have hone : ∀ k, (if isOdd (s.getD k .i) = true then 1 else 0) = (c.count k - a.count k) + (a.count k - c.count k) := by
    intro k
    have h1 := List.nodup_iff_count_le_one.mp nc k
    have h2 := List.nodup_iff_count_le_one.mp na k
    have h3 := hk k
    interval_cases hcc : c.count k <;> interval_cases haa : a.count k <;> split at h3 <;> rename_i ho <;>
      norm_num at h3 <;> simp only [ho] <;> rfl
  have hm : ∀ c a : List ℕ, (∀ x ∈ c, x < N) → ∑ k ∈ Finset.range N, (c.count k - a.count k) = moved c a := by
    intro c a hc
    unfold moved
    rw [← Multiset.sum_count_eq_card (s := Finset.range N)]
    · refine Finset.sum_congr rfl fun k _ => ?_
      rw [Multiset.count_sub, Multiset.coe_count, Multiset.coe_count]
    · intro k hk
      have := Multiset.mem_of_le (Multiset.sub_le_self _ _) hk
      exact Finset.mem_range.mpr (hc k (by simpa using this))
  rw [nOdd_sum, hs, Finset.sum_congr rfl (fun k _ => hone k), Finset.sum_add_distrib, hm c a hc.2.2, hm a c ha.2.2,
    moved_symm c a (by rw [hc.1, ha.1])]
  ring

theorem revSign_even (m : ℕ) : (revSign (2 * m) : ℂ) = (-1) ^ m := by
  unfold revSign
  rcases Nat.eq_zero_or_pos m with rfl | hm
  · rfl
  · have : 2 * m * (2 * m - 1) / 2 = m * (2 * (m - 1)) + m := by
      obtain ⟨n, rfl⟩ := Nat.exists_eq_add_of_lt hm
      rw [show 2 * (0 + n + 1) * (2 * (0 + n + 1) - 1) = 2 * ((0 + n + 1) * (2 * (0 + n + 1) - 1)) by ring,
        Nat.mul_div_cancel_left _ (by norm_num)]
      have : 2 * (0 + n + 1) - 1 = 2 * n + 1 := by omega
      rw [this]
      have : 0 + n + 1 - 1 = n := by omega
      rw [this]
      ring
    rw [this, pow_add, mul_comm m, mul_assoc, pow_mul]
    norm_num

/-! ### Tomography -/

/-- A transform that represents every string through the relabelling `enc`, with the sign of reversing its ladder
letters; the first `N` qubits only. -/
structure Reversing (T : Term FStr ℂ → Option (POp ℂ)) (enc : ℕ → Cfg → Cfg) : Prop where
  spec : ∃ R : FStr → Oper ℂ, (∀ t, Spec T t (R t.1)) ∧
    ∀ s, Encodes (enc s.length) (R s) ((revSign (nOdd s) : ℂ) • denF 0 s)
  inj : ∀ N, Function.Injective (enc N)
  reg : ∀ N b i, N ≤ i → enc N b i = b i

theorem reversing_of (T : Term FStr ℂ → Option (POp ℂ)) (enc : ℕ → Cfg → Cfg) (hb : ∀ N, Function.Bijective (enc N))
    (hr : ∀ N b i, N ≤ i → enc N b i = b i)
    (h : ∀ t : Term FStr ℂ, ∃ R : Oper ℂ, Spec T t R ∧ Encodes (enc t.1.length) R ((revSign (nOdd t.1) : ℂ) • denF 0 t.1)) :
    Reversing T enc := by
  choose R hR hE using h
  refine ⟨⟨fun s => R (s, 1), fun t => ?_, fun s => hE (s, 1)⟩, fun N => (hb N).1, hr⟩
  have h : R (t.1, 1) = R t := Encodes.unique (hb _).2 (hE (t.1, 1)) (hE t)
  show Spec T t (R (t.1, 1))
  rw [h]
  exact hR t

theorem reversing_parity : Reversing parity parityEnc :=
  reversing_of _ _ parityEnc_bijective (fun N b i h => by simp [parityEnc, not_lt.mpr h]) par_spec

theorem reversing_bk : Reversing bravyiKitaev bkEnc :=
  reversing_of _ _ bkEnc_bijective (fun N b i h => by simp [bkEnc, not_lt.mpr h]) bk_spec

theorem rdme_unique (p : ℕ) (f : Flags) (hp : p = 2 ∨ p = 3 ∨ p = 1) (Na Nb : ℕ) (hN : Nb ≤ Na) :
    ListsUnique p Na (Na + Nb) f.skipDiag (rdme p f (alpha Na) (beta Na Nb)) := by
  rcases hp with rfl | rfl | rfl
  · exact C27_order2_partial f Na Nb hN
  · exact C27_order3_partial f Na Nb hN
  · exact C27_order1 f Na Nb

theorem rdme_offdiag (p : ℕ) (f : Flags) (hf : f.real = true ∨ f.imag = true) (Na N : ℕ) (L : List (List ℕ))
    (hL : ListsUnique p Na N f.skipDiag L) (hr : f.real = false) (c a : List ℕ) (hind : c ++ a.reverse ∈ L)
    (hc : Sorted p N c) (ha : Sorted p N a) (hn : nAlpha Na c = nAlpha Na a) : c ≠ a := by
  rintro rfl
  have hskip : f.skipDiag = true := by
    simp only [Flags.skipDiag, hr]
    simpa [hr] using hf
  have := hL.2 c c hc ha hn
  rw [if_pos rfl, if_pos ⟨rfl, hskip⟩, add_zero] at this
  exact (List.count_pos_iff.mpr hind).ne' this

/-- An element's operator under a reversing transform. -/
theorem rdmeQub_enc {T : Term FStr ℂ → Option (POp ℂ)} {enc : ℕ → Cfg → Cfg} (hT : Reversing T enc) (p N : ℕ) (f : Flags)
    (hf : f.real = true ∨ f.imag = true) (hp3 : p ≤ 19) (c a : List ℕ) (hc : Sorted p N c) (ha : Sorted p N a)
    (hp : 2 ≤ p ∨ (p = 1 ∧ c ≠ a)) :
    ∃ Q : POp ℂ, rdmeQubT T f (c ++ a.reverse) N = some (c ++ a.reverse, Q) ∧ (∀ u ∈ Q, u.1.length = N) ∧ l1 Q ≤ 1 ∧
      Encodes (enc N) (denPO Q) (((-1 : ℂ) ^ moved c a) •
        ((half f.real + half f.imag : ℂ) • rdmOp c a + (half f.real - half f.imag : ℂ) • rdmOp a c)) := by
  obtain ⟨R, hR, hE⟩ := hT.spec
  obtain ⟨Q, r1, r2, q1, q2, q3, n1, n2, d1, d2⟩ := rdmeQubT_full T R hR p N f hf hp3 c a hc ha hp
  refine ⟨Q, q1, q2, l1_rdmeQub T R hR f _ _ N Q q1, ?_⟩
  have one : ∀ (r : Term FStr ℂ) (c a : List ℕ) (y : ℂ), Sorted p N c → Sorted p N a → r.1.length = N →
      r.2 • (denF 0 r.1 : Oper ℂ) = y • rdmOp c a →
      Encodes (enc N) (r.2 • R r.1) (((-1 : ℂ) ^ moved c a) • (y • rdmOp c a)) := by
    intro r c a y hc ha hl hd
    have h := (hE r.1).smul r.2
    rw [hl, smul_comm, hd] at h
    by_cases hy : y = 0
    · rw [hy, zero_smul, smul_zero] at h ⊢
      exact h
    · rwa [nOdd_moved p N c a hc ha r.1 hl r.2 y hy hd, revSign_even] at h
  have h1 := one r1 c a _ hc ha n1 d1
  have h2 := one r2 a c _ ha hc n2 d2
  rw [moved_symm c a (by rw [hc.1, ha.1])] at h2
  rw [q3, smul_add]
  exact h1.add h2

theorem sign_conj (m : ℕ) : (conj ((-1 : ℂ) ^ m) : ℂ) = (-1) ^ m := by
  change (starRingEnd ℂ) ((-1 : ℂ) ^ m) = _
  rw [map_pow, map_neg, map_one]

/-- **C112 (exact expectation values).**  Under a reversing transform, tomography of the encoded state gives every element
with the sign of moving its electrons. -/
theorem tomography_enc {T : Term FStr ℂ → Option (POp ℂ)} {enc : ℕ → Cfg → Cfg} (hT : Reversing T enc) (p : ℕ) (f : Flags)
    (hf : f.real = true ∨ f.imag = true) (hp : p = 2 ∨ p = 3 ∨ (p = 1 ∧ f.real = false)) (Na Nb : ℕ) (hN : Nb ≤ Na)
    (ψ : Cfg →₀ ℂ) (h1 : pair ψ ψ = 1) (n : ℤ) (hs : Sector Na n ψ) (meas : PStr → ℂ)
    (hm : ∀ s, meas s = pair (relabel (enc (Na + Nb)) ψ) (denP 0 s (relabel (enc (Na + Nb)) ψ))) :
    ∃ D, tomographyT T p f (alpha Na) (beta Na Nb) meas = some D ∧
      ∀ c a : List ℕ, c.length = p → a.length = p → (∀ x ∈ c, x < Na + Nb) → (∀ x ∈ a, x < Na + Nb) →
        D (c ++ a) = (-1) ^ moved c a * target f ψ c a := by
  set N := Na + Nb with hNdef
  have hlen : (alpha Na).length + (beta Na Nb).length = N := by simp [alpha, beta, hNdef]
  set L := rdme p f (alpha Na) (beta Na Nb) with hLdef
  have hL : ListsUnique p Na N f.skipDiag L := rdme_unique p f (by omega) Na Nb hN
  set E : List ℕ → List ℕ → ℂ := fun c a => (-1) ^ moved c a * target f ψ c a with hE
  have hval : ∀ ind ∈ L, (rdmeQubT T f ind N).map (fun r => (r.1, value meas r.2)) =
      some (ind, E (split p ind).1 (split p ind).2) := by
    intro ind hind
    obtain ⟨c, a, rfl, hc, ha, hn⟩ := hL.1 ind hind
    have hne : 2 ≤ p ∨ (p = 1 ∧ c ≠ a) := by
      rcases hp with h | h | ⟨h, hr⟩
      · left; omega
      · left; omega
      · exact Or.inr ⟨h, rdme_offdiag p f hf Na N L hL hr c a hind hc ha hn⟩
    obtain ⟨Q, q1, _, _, q2⟩ := rdmeQub_enc hT p N f hf (by omega) c a hc ha hne
    rw [q1, Option.map_some, value_eq _ (by rw [relabel_norm (hT.inj N), h1]) meas hm, pair_encodes (hT.inj N) q2]
    have : (split p (c ++ a.reverse)) = (c, a) := by simp [split, List.take_left' hc.1, List.drop_left' hc.1]
    rw [this, LinearMap.smul_apply, pair_smul_right, LinearMap.add_apply, pair_add_right, LinearMap.smul_apply,
      LinearMap.smul_apply, pair_smul_right, pair_smul_right]
    exact congrArg some (Prod.ext rfl (congrArg ((-1 : ℂ) ^ moved c a * ·) (target_eq f ψ c a)))
  refine ⟨build p (L.map (fun ind => (ind, E (split p ind).1 (split p ind).2))), ?_, ?_⟩
  · unfold tomographyT
    rw [hlen, ← hLdef, mapM_eq_map L _ _ hval]
    rfl
  · intro c a hc ha hcN haN
    have hH : Herm p E := by
      intro c a h h'
      rw [hE]
      simp only
      rw [Coef.conj_mul, sign_conj, moved_symm c a (by rw [h, h'])]
      congr 1
      rw [← target_eq, ← target_eq, rdm_herm ψ c a]
      have hc : ∀ z : ℂ, (conj z : ℂ) = (starRingEnd ℂ) z := fun z => rfl
      simp only [hc]
      obtain ⟨r, i⟩ := f
      apply Complex.ext <;> cases r <;> cases i <;> simp [half] <;> ring
    have hA : Antisym p E := by
      have h := rdm_antisym p ψ
      have hperm : ∀ (xs : List ℕ) x y zs, (xs ++ y :: x :: zs).Perm (xs ++ x :: y :: zs) :=
        fun xs x y zs => List.Perm.append_left xs (List.Perm.swap x y zs)
      constructor
      · intro xs x y zs a hx ha
        rw [hE]
        simp only
        rw [moved_perm_left _ _ a (hperm xs x y zs), ← target_eq, ← target_eq, h.1 xs x y zs a hx ha,
          h.2 a xs x y zs hx ha]
        ring
      · intro c xs x y zs hx hc
        rw [hE]
        simp only
        rw [moved_perm_right c _ _ (hperm xs x y zs), ← target_eq, ← target_eq, h.2 c xs x y zs hx hc,
          h.1 xs x y zs c hx hc]
        ring
    exact fill_exact p Na N (by omega) (by omega) f.skipDiag L hL E hA hH
      (by
        intro c a _ _ hn
        rw [hE]
        simp only
        rw [← target_eq, rdm_sector ψ Na n hs c a hn, rdm_sector ψ Na n hs a c (Ne.symm hn)]; ring)
      (by
        intro hsk c _
        rw [hE]
        simp only
        rw [← target_eq]
        simp only [Flags.skipDiag, Bool.and_eq_true, Bool.not_eq_true'] at hsk
        rw [hsk.1, hsk.2]
        simp [half])
      c a hc ha hcN haN

theorem elements_enc {T : Term FStr ℂ → Option (POp ℂ)} {enc : ℕ → Cfg → Cfg} (hT : Reversing T enc) (p : ℕ) (f : Flags)
    (hf : f.real = true ∨ f.imag = true) (hp : p = 2 ∨ p = 3 ∨ (p = 1 ∧ f.real = false)) (Na Nb : ℕ) (hN : Nb ≤ Na) :
    ∀ ind ∈ rdme p f (alpha Na) (beta Na Nb), ∃ Q : POp ℂ, rdmeQubT T f ind (Na + Nb) = some (ind, Q) ∧ (∀ u ∈ Q, u.1.length = Na + Nb) ∧ l1 Q ≤ 1 ∧
      (f.real = false → Q ≠ []) := by
  have hL := rdme_unique p f (by omega) Na Nb hN
  intro ind hind
  obtain ⟨c, a, rfl, hc, ha, hn⟩ := hL.1 ind hind
  have hne : 2 ≤ p ∨ (p = 1 ∧ c ≠ a) := by
    rcases hp with h | h | ⟨h, hr⟩
    · left; omega
    · left; omega
    · exact Or.inr ⟨h, rdme_offdiag p f hf Na _ _ hL hr c a hind hc ha hn⟩
  obtain ⟨Q, q1, q2, q3, q4⟩ := rdmeQub_enc hT p (Na + Nb) f hf (by omega) c a hc ha hne
  refine ⟨Q, q1, q2, q3, ?_⟩
  rintro hr rfl
  have hi : f.imag = true := by simpa [hr] using hf
  rw [hr, hi, denPO_nil'] at q4
  have q5 : Encodes (enc (Na + Nb)) (0 : Oper ℂ) 0 := fun _ _ => rfl
  have q6 := Encodes.F_unique (hT.inj _) q4 q5
  refine rdmOp_ne p (Na + Nb) c a hc ha (rdme_offdiag p f hf Na _ _ hL hr c a hind hc ha hn) _ _ ?_
    ((smul_eq_zero.mp q6).resolve_left (by simp))
  simp [half]

/-- The general form of C112. -/
theorem run_enc {T : Term FStr ℂ → Option (POp ℂ)} {enc : ℕ → Cfg → Cfg} (hT : Reversing T enc) (p : ℕ) (f : Flags)
    (hf : f.real = true ∨ f.imag = true) (hp : p = 2 ∨ p = 3 ∨ (p = 1 ∧ f.real = false)) (Na Nb : ℕ) (hN : Nb ≤ Na)
    (hL0 : rdme p f (alpha Na) (beta Na Nb) ≠ []) (col : List PStr → ℕ → ℕ) (hcol : ColouringOK col)
    (ψ : Cfg →₀ ℂ) (h1 : pair ψ ψ = 1) (hreg : ∀ b, ψ b ≠ 0 → ∀ i, Na + Nb ≤ i → b i = false)
    (n : ℤ) (hs : Sector Na n ψ) :
    ∃ D, runT T p f (alpha Na) (beta Na Nb) col (relabel (enc (Na + Nb)) ψ) = some D ∧
      ∀ c a : List ℕ, c.length = p → a.length = p → (∀ x ∈ c, x < Na + Nb) → (∀ x ∈ a, x < Na + Nb) →
        ‖D (c ++ a) - (-1) ^ moved c a * target f ψ c a‖ ≤ 2 ^ (Na + Nb) * 1e-28 := by
  obtain ⟨D0, hD0, hD0e⟩ := tomography_enc hT p f hf hp Na Nb hN ψ h1 n hs _ (fun _ => rfl)
  have hL := rdme_unique p f (by omega) Na Nb hN
  obtain ⟨D, hD, hDe⟩ := statevector_of_exact T p f (by omega) (by omega) Na (Na + Nb) (alpha Na) (beta Na Nb) (by simp [alpha, beta]) hL hL0 col hcol
    (relabel (enc (Na + Nb)) ψ) (relabel_reg _ (hT.reg _) ψ hreg) (elements_enc hT p f hf hp Na Nb hN) D0 hD0
  exact ⟨D, hD, fun c a hc ha hcN haN => by rw [← hD0e c a hc ha hcN haN]; exact hDe c a hc ha hcN haN⟩

/-- **C112, parity.**  Tomography with the parity transform, end to end with the state-vector backend: on the
parity-encoded state every element comes out multiplied by `(-1)^m`, `m` the number of electrons it moves.  So it is the
RDM element exactly when `m` is even; the full claim (every element) is false, `C112_fails`.  Missing besides: order 1
with real parts, order 4, more beta than alpha orbitals (C62, C27). -/
theorem C112_parity_partial (p : ℕ) (f : Flags)
    (hf : f.real = true ∨ f.imag = true) (hp : p = 2 ∨ p = 3 ∨ (p = 1 ∧ f.real = false)) (Na Nb : ℕ) (hN : Nb ≤ Na)
    (hL0 : rdme p f (alpha Na) (beta Na Nb) ≠ []) (col : List PStr → ℕ → ℕ) (hcol : ColouringOK col)
    (ψ : Cfg →₀ ℂ) (h1 : pair ψ ψ = 1) (hreg : ∀ b, ψ b ≠ 0 → ∀ i, Na + Nb ≤ i → b i = false)
    (n : ℤ) (hs : Sector Na n ψ) :
    ∃ D, runT parity p f (alpha Na) (beta Na Nb) col (relabel (parityEnc (Na + Nb)) ψ) = some D ∧
      ∀ c a : List ℕ, c.length = p → a.length = p → (∀ x ∈ c, x < Na + Nb) → (∀ x ∈ a, x < Na + Nb) →
        ‖D (c ++ a) - (-1) ^ moved c a * target f ψ c a‖ ≤ 2 ^ (Na + Nb) * 1e-28 :=
  run_enc reversing_parity p f hf hp Na Nb hN hL0 col hcol ψ h1 hreg n hs

/-- **C112, Bravyi–Kitaev.**  As `C112_parity_partial`, for the Bravyi–Kitaev transform and encoding. -/
theorem C112_bravyi_kitaev_partial (p : ℕ) (f : Flags)
    (hf : f.real = true ∨ f.imag = true) (hp : p = 2 ∨ p = 3 ∨ (p = 1 ∧ f.real = false)) (Na Nb : ℕ) (hN : Nb ≤ Na)
    (hL0 : rdme p f (alpha Na) (beta Na Nb) ≠ []) (col : List PStr → ℕ → ℕ) (hcol : ColouringOK col)
    (ψ : Cfg →₀ ℂ) (h1 : pair ψ ψ = 1) (hreg : ∀ b, ψ b ≠ 0 → ∀ i, Na + Nb ≤ i → b i = false)
    (n : ℤ) (hs : Sector Na n ψ) :
    ∃ D, runT bravyiKitaev p f (alpha Na) (beta Na Nb) col (relabel (bkEnc (Na + Nb)) ψ) = some D ∧
      ∀ c a : List ℕ, c.length = p → a.length = p → (∀ x ∈ c, x < Na + Nb) → (∀ x ∈ a, x < Na + Nb) →
        ‖D (c ++ a) - (-1) ^ moved c a * target f ψ c a‖ ≤ 2 ^ (Na + Nb) * 1e-28 :=
  run_enc reversing_bk p f hf hp Na Nb hN hL0 col hcol ψ h1 hreg n hs

/-- A state with a single excitation: `3/5 |1010⟩ + 4/5 |0110⟩`. -/
def excState : Cfg →₀ ℂ :=
  Finsupp.single (fun i => decide (i = 0 ∨ i = 2)) (3 / 5) + Finsupp.single (fun i => decide (i = 1 ∨ i = 2)) (4 / 5)

theorem excState_ok : pair excState excState = 1 ∧ Sector 2 1 excState ∧
    (∀ b, excState b ≠ 0 → ∀ i, 2 + 2 ≤ i → b i = false) ∧ rdm excState [0, 2] [1, 2] = 12 / 25 := by
  have hne : (fun i : ℕ => decide (i = 0 ∨ i = 2)) ≠ (fun i : ℕ => decide (i = 1 ∨ i = 2)) := by
    intro h; have := congrFun h 0; simp at this
  have hc : ∀ z : ℂ, (conj z : ℂ) = (starRingEnd ℂ) z := fun z => rfl
  have hb : ∀ b, excState b ≠ 0 → b = (fun i : ℕ => decide (i = 0 ∨ i = 2)) ∨ b = (fun i : ℕ => decide (i = 1 ∨ i = 2)) := by
    classical
    intro b hb
    unfold excState at hb
    rw [Finsupp.add_apply, Finsupp.single_apply, Finsupp.single_apply] at hb
    by_contra hcon
    push Not at hcon
    rw [if_neg hcon.1.symm, if_neg hcon.2.symm, add_zero] at hb
    exact hb rfl
  refine ⟨?_, ?_, ?_, ?_⟩
  · unfold excState
    rw [pair_add, pair_single, pair_single, hc, hc]
    simp only [Finsupp.add_apply, Finsupp.single_eq_same, Finsupp.single_eq_of_ne hne, Finsupp.single_eq_of_ne hne.symm]
    apply Complex.ext <;> simp [Complex.conj_ofNat, Complex.div_re, Complex.div_im] <;> norm_num
  · intro b h
    rcases hb b h with rfl | rfl <;> decide
  · intro b h i hi
    rcases hb b h with rfl | rfl <;> simp <;> omega
  · unfold rdm
    conv_lhs => rw [show pair excState = pair (Finsupp.single (fun i => decide (i = 0 ∨ i = 2)) (3 / 5) +
      Finsupp.single (fun i => decide (i = 1 ∨ i = 2)) (4 / 5) : Cfg →₀ ℂ) from rfl]
    rw [pair_add, pair_single, pair_single, hc, hc]
    have e1 : (rdmOp [0, 2] [1, 2] (excState : Cfg → ℂ) : Cfg → ℂ) (fun i => decide (i = 0 ∨ i = 2)) = 4 / 5 := by
      have hu : Function.update (Function.update (Function.update
          (fun i : ℕ => decide (i = 0) || decide (i = 2)) 0 false) 2 true) 1 true = fun i => decide (i = 1 ∨ i = 2) := by
        funext i
        by_cases h0 : i = 0 <;> by_cases h1 : i = 1 <;> by_cases h2 : i = 2 <;> simp [Function.update_apply, h0, h1, h2]
      have hv : excState (fun i => decide (i = 1 ∨ i = 2)) = 4 / 5 := by
        unfold excState
        simp only [Finsupp.add_apply, Finsupp.single_eq_same, Finsupp.single_eq_of_ne hne, Finsupp.single_eq_of_ne hne.symm, zero_add]
      have hf : Multiset.filter (fun x => Function.update (Function.update
          (fun i : ℕ => decide (i = 0) || decide (i = 2)) 0 false) 2 true x = true) {0} = 0 := by decide
      simp [rdmOp, cre, ann, fsign, Finset.filter, Finset.range, Multiset.range, List.range, List.range.loop]
      rw [hf, hu, hv]
      simp
    have e2 : (rdmOp [0, 2] [1, 2] (excState : Cfg → ℂ) : Cfg → ℂ) (fun i => decide (i = 1 ∨ i = 2)) = 0 := by
      simp [rdmOp, cre]
    rw [e1, e2]
    simp [Complex.conj_ofNat]
    norm_num

/-- **C112 is violated** for the parity transform: an element that moves an odd number of electrons comes out with the
opposite sign (up to the skipped amplitudes). -/
theorem C112_parity_fails (p : ℕ) (f : Flags)
    (hf : f.real = true ∨ f.imag = true) (hp : p = 2 ∨ p = 3 ∨ (p = 1 ∧ f.real = false)) (Na Nb : ℕ) (hN : Nb ≤ Na)
    (hL0 : rdme p f (alpha Na) (beta Na Nb) ≠ []) (col : List PStr → ℕ → ℕ) (hcol : ColouringOK col)
    (ψ : Cfg →₀ ℂ) (h1 : pair ψ ψ = 1) (hreg : ∀ b, ψ b ≠ 0 → ∀ i, Na + Nb ≤ i → b i = false)
    (n : ℤ) (hs : Sector Na n ψ) (c a : List ℕ) (hc : c.length = p) (ha : a.length = p) (hcN : ∀ x ∈ c, x < Na + Nb)
    (haN : ∀ x ∈ a, x < Na + Nb) (ho : Odd (moved c a)) (D : List ℕ → ℂ)
    (hD : runT parity p f (alpha Na) (beta Na Nb) col (relabel (parityEnc (Na + Nb)) ψ) = some D) :
    2 * ‖target f ψ c a‖ - 2 ^ (Na + Nb) * 1e-28 ≤ ‖D (c ++ a) - target f ψ c a‖ := by
  obtain ⟨D', hD', h⟩ := C112_parity_partial p f hf hp Na Nb hN hL0 col hcol ψ h1 hreg n hs
  obtain rfl : D' = D := Option.some.inj (hD'.symm.trans hD)
  have := h c a hc ha hcN haN
  rw [ho.neg_one_pow, neg_one_mul, sub_neg_eq_add] at this
  have h2 : ‖(2 : ℂ) * target f ψ c a‖ ≤ ‖D' (c ++ a) + target f ψ c a‖ + ‖D' (c ++ a) - target f ψ c a‖ := by
    rw [show (2 : ℂ) * target f ψ c a = (D' (c ++ a) + target f ψ c a) - (D' (c ++ a) - target f ψ c a) by ring]
    exact norm_sub_le _ _
  rw [norm_mul] at h2
  norm_num at h2
  linarith

/-- **C112 is violated**, a concrete case: the parity-encoded `3/5 |1010⟩ + 4/5 |0110⟩` on two alpha and two beta
orbitals, whose element `⟨a†_0 a†_2 a_2 a_1⟩` is `12/25`, gives `-12/25`; likewise for Bravyi–Kitaev. -/
theorem C112_fails (col : List PStr → ℕ → ℕ) (hcol : ColouringOK col) :
    rdm excState [0, 2] [1, 2] = 12 / 25 ∧
    (∃ D, runT parity 2 ⟨true, true⟩ (alpha 2) (beta 2 2) col (relabel (parityEnc 4) excState) = some D ∧
      ‖D [0, 2, 1, 2] - (-12 / 25)‖ ≤ 2 ^ 4 * 1e-28) ∧
    ∃ D, runT bravyiKitaev 2 ⟨true, true⟩ (alpha 2) (beta 2 2) col (relabel (bkEnc 4) excState) = some D ∧
      ‖D [0, 2, 1, 2] - (-12 / 25)‖ ≤ 2 ^ 4 * 1e-28 := by
  obtain ⟨h1, h2, h3, h4⟩ := excState_ok
  have hm : moved [0, 2] [1, 2] = 1 := by decide
  have ht : target ⟨true, true⟩ excState [0, 2] [1, 2] = 12 / 25 := h4
  refine ⟨h4, ?_, ?_⟩
  · obtain ⟨D, hD, h⟩ := C112_parity_partial 2 ⟨true, true⟩ (Or.inl rfl) (Or.inl rfl) 2 2 le_rfl exState_reg.1 col hcol
      excState h1 h3 1 h2
    refine ⟨D, hD, ?_⟩
    have := h [0, 2] [1, 2] rfl rfl (by simp) (by simp)
    rw [hm, ht, pow_one] at this
    rw [show (-12 / 25 : ℂ) = -1 * (12 / 25) by ring]
    exact this
  · obtain ⟨D, hD, h⟩ := C112_bravyi_kitaev_partial 2 ⟨true, true⟩ (Or.inl rfl) (Or.inl rfl) 2 2 le_rfl exState_reg.1 col
      hcol excState h1 h3 1 h2
    refine ⟨D, hD, ?_⟩
    have := h [0, 2] [1, 2] rfl rfl (by simp) (by simp)
    rw [hm, ht, pow_one] at this
    rw [show (-12 / 25 : ℂ) = -1 * (12 / 25) by ring]
    exact this

end
end HQCA.Props
