import Verif.Proofs.RDMState
import Verif.Proofs.TransformExact
import Verif.Proofs.FermiStr
import Verif.Props.RDMExact
import Verif.Model.Tomography

/-!
# Properties C62 and C63: tomography end to end
-/

set_option linter.unusedSectionVars false

namespace HQCA.Props
open Tomo Transform

section
variable {K : Type} [Coef K]

theorem zip_replicate {α β : Type} (l : List α) (n : ℕ) (x : β) (h : l.length = n) :
    l.zip (List.replicate n x) = l.map (·, x) := by
  subst h
  induction l with
  | nil => rfl
  | cons a l ih => simp [List.replicate_succ, ih]

theorem opWord_eq (p : ℕ) (c a : List ℕ) (hc : c.length = p) (ha : a.length = p) :
    opWord p (c ++ a.reverse) = c.map (·, FL.cr) ++ a.reverse.map (·, FL.an) := by
  unfold opWord
  rw [List.zip_append (by simp [hc]), zip_replicate c p _ hc, zip_replicate a.reverse p _ (by simp [ha])]

theorem wordF_opWord (p : ℕ) (c a : List ℕ) (hc : c.length = p) (ha : a.length = p) :
    (wordF (opWord p (c ++ a.reverse)) : Oper K) = rdmOp c a := by
  rw [opWord_eq p c a hc ha]
  unfold wordF rdmOp
  rw [List.map_append, List.prod_append, List.map_map, List.map_map]
  rfl

theorem opWord_inds (p : ℕ) (c a : List ℕ) (hc : c.length = p) (ha : a.length = p) :
    (opWord p (c ++ a.reverse)).map (·.1) = c ++ a.reverse := by
  rw [opWord_eq p c a hc ha, List.map_append, List.map_map, List.map_map]
  simp [Function.comp_def]

/-- **C63, partial.**  The caller's index list survives if the indices are distinct or not increasing. -/
theorem C63_unchanged_partial (l : List (ℕ × FL))
    (h : (l.map (·.1)).Nodup ∨ ¬ l.Pairwise (fun a b => a.1 ≤ b.1)) : callerInds l = l.map (·.1) := by
  unfold callerInds
  cases l with
  | nil => rfl
  | cons x l =>
    simp only [List.isEmpty_cons, Bool.false_eq_true, if_false]
    rcases hs : Fermi.sortStep true (x :: l) with _ | s
    · simp only
      rcases h with h | h
      · rw [if_pos (by rw [h.dedup, List.length_map])]
      · exact absurd (sortStep_none true _ hs) h
    · rfl

/-- **C63 is violated**: building `a†_i a_i` from the index list `[i, i]` shortens the caller's list to `[i]`. -/
theorem C63_fails (i : ℕ) : callerInds [(i, .cr), (i, .an)] = [i] := by
  simp [callerInds, popLoop, Fermi.sortStep, Fermi.contractStep, Fermi.contr]

theorem callerInds_sorted (p N : ℕ) (c a : List ℕ) (hc : Sorted p N c) (ha : Sorted p N a)
    (hp : 2 ≤ p ∨ (p = 1 ∧ c ≠ a)) : callerInds (opWord p (c ++ a.reverse)) = c ++ a.reverse := by
  rw [C63_unchanged_partial, opWord_inds p c a hc.1 ha.1]
  rcases hp with hp | ⟨rfl, hne⟩
  · right
    rw [opWord_eq p c a hc.1 ha.1]
    intro h
    have h2 := (List.pairwise_append.mp h).2.1
    rw [List.pairwise_map, List.pairwise_reverse] at h2
    obtain ⟨hl, hs, _⟩ := ha
    match a, hl, hs, h2 with
    | x :: y :: a, _, hs, h2 =>
      simp only [List.pairwise_cons] at hs h2
      have := hs.1 y (by simp)
      have := h2.1 y (by simp)
      omega
    | [], hl, _, _ => simp at hl; omega
    | [_], hl, _, _ => simp at hl; omega
  · left
    rw [opWord_inds 1 c a hc.1 ha.1]
    obtain ⟨i, rfl⟩ := List.length_eq_one_iff.mp hc.1
    obtain ⟨j, rfl⟩ := List.length_eq_one_iff.mp ha.1
    simpa using hne

/-- The value of an element is the expectation value of its qubit operator, when the processor returns expectation
values of the normalised state `ψ`. -/
theorem value_eq (ψ : Cfg →₀ K) (h1 : pair ψ ψ = 1) (meas : PStr → K)
    (hm : ∀ s, meas s = pair ψ (denP 0 s ψ)) (Q : POp K) : value meas Q = pair ψ (denPO Q ψ) := by
  unfold value denPO
  induction Q with
  | nil =>
    rw [OpD.denD_nil, LinearMap.zero_apply]
    have := pair_smul_right ψ 0 0
    rw [zero_smul, zero_mul] at this
    simp [this]
  | cons t Q ih =>
    rw [List.map_cons, List.sum_cons, ih, OpD.denD_cons, LinearMap.add_apply, pair_add_right, LinearMap.smul_apply,
      pair_smul_right]
    congr 1
    split
    · rename_i h
      have : ∀ (s : PStr) (k : ℕ), s.all (· = .I) = true → (denP k s : Oper K) = 1 := by
        intro s
        induction s with
        | nil => intro k _; rfl
        | cons x s ih =>
          intro k h
          simp only [List.all_cons, Bool.and_eq_true, decide_eq_true_eq] at h
          rw [denP, h.1, ih (k + 1) h.2]
          simp [pmat, site_one]
      rw [this _ 0 h, Module.End.one_apply, h1, mul_one]
    · rw [hm, mul_comm]

theorem mapM_eq_map {α β : Type} (L : List α) (g : α → Option β) (h : α → β) (hg : ∀ x ∈ L, g x = some (h x)) :
    L.mapM g = some (L.map h) := by
  induction L with
  | nil => simp
  | cons x L ih =>
    rw [List.mapM_cons, hg x List.mem_cons_self, ih (fun y hy => hg y (List.mem_cons_of_mem _ hy))]
    rfl

theorem mapM_eq_none {α β : Type} (L : List α) (g : α → Option β) (x : α) (hx : x ∈ L) (hg : g x = none) :
    L.mapM g = none := by
  induction L with
  | nil => simp at hx
  | cons y L ih =>
    rw [List.mapM_cons]
    rcases List.mem_cons.mp hx with rfl | h
    · rw [hg]; rfl
    · rw [ih h]
      cases g y <;> rfl

end

theorem half_GI (b b' : Bool) : (∃ z, GI z ∧ (half b + half b' : ℂ) = z * (1 / 2 ^ 1)) ∧
    (∃ z, GI z ∧ (half b - half b' : ℂ) = z * (1 / 2 ^ 1)) := by
  have h : ∀ n : ℤ, GI (n : ℂ) := fun n => ⟨n, 0, by simp⟩
  refine ⟨⟨((if b then 1 else 0) + (if b' then 1 else 0) : ℤ), h _, ?_⟩,
    ⟨((if b then 1 else 0) - (if b' then 1 else 0) : ℤ), h _, ?_⟩⟩ <;>
    cases b <;> cases b' <;> simp [half] <;> norm_num

/-- An element's operator for any transform, through the two strings it is built from. -/
theorem rdmeQubT_full (T : Term FStr ℂ → Option (POp ℂ)) (R : FStr → Oper ℂ) (hT : ∀ t, Spec T t (R t.1))
    (p N : ℕ) (f : Flags) (hf : f.real = true ∨ f.imag = true) (hp3 : p ≤ 19) (c a : List ℕ)
    (hc : Sorted p N c) (ha : Sorted p N a) (hp : 2 ≤ p ∨ (p = 1 ∧ c ≠ a)) :
    ∃ (Q : POp ℂ) (r1 r2 : Term FStr ℂ), rdmeQubT T f (c ++ a.reverse) N = some (c ++ a.reverse, Q) ∧
      (∀ u ∈ Q, u.1.length = N) ∧ denPO Q = r1.2 • R r1.1 + r2.2 • R r2.1 ∧ r1.1.length = N ∧ r2.1.length = N ∧
      r1.2 • (denF 0 r1.1 : Oper ℂ) = (half f.real + half f.imag : ℂ) • rdmOp c a ∧
      r2.2 • (denF 0 r2.1 : Oper ℂ) = (half f.real - half f.imag : ℂ) • rdmOp a c := by
  have hlen : (c ++ a.reverse).length / 2 = p := by simp [hc.1, ha.1]; omega
  have hlen2 : (c ++ a.reverse).length = 2 * p := by simp [hc.1, ha.1]; omega
  have hrev : (c ++ a.reverse).reverse = a ++ c.reverse := by simp
  have hok : ∀ c a : List ℕ, c.length = p → a.length = p → ∀ x ∈ opWord p (c ++ a.reverse), x.2 ≠ .i := by
    intro c a hc ha x hx
    rw [opWord_eq p c a hc ha] at hx
    simp only [List.mem_append, List.mem_map] at hx
    rcases hx with ⟨_, _, rfl⟩ | ⟨_, _, rfl⟩ <;> simp
  have hltN : ∀ c a : List ℕ, Sorted p N c → Sorted p N a → ∀ x ∈ opWord p (c ++ a.reverse), x.1 < N := by
    intro c a hc ha x hx
    rw [opWord_eq p c a hc.1 ha.1] at hx
    simp only [List.mem_append, List.mem_map, List.mem_reverse] at hx
    rcases hx with ⟨y, hy, rfl⟩ | ⟨y, hy, rfl⟩
    · exact hc.2.2 y hy
    · exact ha.2.2 y hy
  have hwl : ∀ c a : List ℕ, c.length = p → a.length = p → (opWord p (c ++ a.reverse)).length = 2 * p := by
    intro c a hc ha
    rw [opWord_eq p c a hc ha]; simp [hc, ha]; omega
  obtain ⟨r1, g1, d1, n1⟩ := generate_spec (half f.real + half f.imag : ℂ) (opWord p (c ++ a.reverse)) N
    (hok c a hc.1 ha.1)
  obtain ⟨r2, g2, d2, n2⟩ := generate_spec (half f.real - half f.imag : ℂ) (opWord p (a ++ c.reverse)) N
    (hok a c ha.1 hc.1)
  obtain ⟨s1, c1⟩ := generate_size _ _ _ _ g1
  obtain ⟨s2, c2⟩ := generate_size _ _ _ _ g2
  rw [hwl c a hc.1 ha.1] at s1
  rw [hwl a c ha.1 hc.1] at s2
  have n1 := n1 (hltN c a hc ha)
  have n2 := n2 (hltN a c ha hc)
  rw [wordF_opWord p c a hc.1 ha.1] at d1
  rw [wordF_opWord p a c ha.1 hc.1] at d2
  have gi : ∀ (r : Term FStr ℂ) (w : ℂ), (∃ z, GI z ∧ w = z * (1 / 2 ^ 1)) → (r.2 = w ∨ r.2 = -w ∨ r.2 = 0) →
      ∃ z, GI z ∧ r.2 = z * (1 / 2 ^ 1) := by
    rintro r w ⟨z, hz, rfl⟩ (h | h | h)
    · exact ⟨z, hz, h⟩
    · exact ⟨-z, hz.neg, by rw [h]; ring⟩
    · exact ⟨0, by simpa using GI_natCast 0, by rw [h]; ring⟩
  have i1 := gi r1 _ (half_GI f.real f.imag).1 c1
  have i2 := gi r2 _ (half_GI f.real f.imag).2 c2
  have hA : rdmeOp f (c ++ a.reverse) N = some (c ++ a.reverse, OpD.addStr (OpD.addStr [] r1) r2) := by
    unfold rdmeOp
    rw [if_pos (by rcases hf with h | h <;> simp [h])]
    simp only [hlen]
    rw [if_neg (by omega), g1]
    simp only [Option.bind_some]
    rw [callerInds_sorted p N c a hc ha hp, if_neg (by omega), hrev, g2]
    rfl
  set A : OpD FStr ℂ := OpD.addStr (OpD.addStr [] r1) r2 with hAdef
  have hA' : A = [r1, r2].foldl OpD.addStr [] := rfl
  have hg : GIop (1 / 2 ^ 1) A := by
    rw [hA']
    refine (GIop.nil _).foldl [r1, r2] ?_
    intro u hu
    simp only [List.mem_cons, List.not_mem_nil, or_false] at hu
    rcases hu with rfl | rfl
    · exact i1
    · exact i2
  have hkeys : ∀ u ∈ A, u.1 = r1.1 ∨ u.1 = r2.1 := by
    intro u hu
    have := List.mem_map_of_mem (f := (·.1)) hu
    rw [hA', OpD.mem_keys_foldl_addStr] at this
    simpa using this
  obtain ⟨Q, q1, _, q3, q4⟩ := transform_exact T R hT (2 * p) 1 (by omega) A N
    (fun u hu => by rcases hkeys u hu with h | h <;> rw [h] <;> assumption)
    (fun u hu => ⟨by rcases hkeys u hu with h | h <;> rw [h] <;> assumption, hg u hu⟩)
  refine ⟨Q, r1, r2, by unfold rdmeQubT; rw [hA]; simp [q1], q4, ?_, n1, n2, d1, d2⟩
  rw [q3, hA', OpD.denD_foldl_addStr _ _ _ OpD.uniqueKeys_nil, OpD.denD_cons, OpD.denD_cons, OpD.denD_nil, add_zero,
    zero_add]

/-- The qubit operator measured for one element. -/
theorem rdmeQub_full (p N : ℕ) (f : Flags) (hf : f.real = true ∨ f.imag = true) (hp3 : p ≤ 19) (c a : List ℕ)
    (hc : Sorted p N c) (ha : Sorted p N a) (hp : 2 ≤ p ∨ (p = 1 ∧ c ≠ a)) :
    ∃ Q : POp ℂ, rdmeQub f (c ++ a.reverse) N = some (c ++ a.reverse, Q) ∧ (∀ u ∈ Q, u.1.length = N) ∧
      denPO Q = (half f.real + half f.imag : ℂ) • rdmOp c a + (half f.real - half f.imag : ℂ) • rdmOp a c := by
  obtain ⟨Q, r1, r2, h1, h2, h3, _, _, h4, h5⟩ :=
    rdmeQubT_full jordanWigner (denF 0) jw_spec p N f hf hp3 c a hc ha hp
  exact ⟨Q, h1, h2, by rw [h3, h4, h5]⟩

theorem rdmeQub_spec (p N : ℕ) (f : Flags) (hf : f.real = true ∨ f.imag = true) (hp3 : p ≤ 19) (c a : List ℕ)
    (hc : Sorted p N c) (ha : Sorted p N a) (hp : 2 ≤ p ∨ (p = 1 ∧ c ≠ a)) :
    ∃ Q : POp ℂ, rdmeQub f (c ++ a.reverse) N = some (c ++ a.reverse, Q) ∧
      denPO Q = (half f.real + half f.imag : ℂ) • rdmOp c a + (half f.real - half f.imag : ℂ) • rdmOp a c := by
  obtain ⟨Q, h1, _, h2⟩ := rdmeQub_full p N f hf hp3 c a hc ha hp
  exact ⟨Q, h1, h2⟩

/-- What an RDM element measures: the element, its real part, or `i` times its imaginary part. -/
noncomputable def target (f : Flags) (ψ : Cfg →₀ ℂ) (c a : List ℕ) : ℂ :=
  match f.real, f.imag with
  | true, true => rdm ψ c a
  | true, false => ((rdm ψ c a).re : ℂ)
  | false, true => Complex.I * ((rdm ψ c a).im : ℂ)
  | false, false => 0

theorem target_eq (f : Flags) (ψ : Cfg →₀ ℂ) (c a : List ℕ) :
    (half f.real + half f.imag : ℂ) * rdm ψ c a + (half f.real - half f.imag : ℂ) * rdm ψ a c = target f ψ c a := by
  rw [rdm_herm ψ c a]
  have hc : ∀ z : ℂ, (conj z : ℂ) = (starRingEnd ℂ) z := fun z => rfl
  rw [hc]
  obtain ⟨r, i⟩ := f
  unfold target half
  apply Complex.ext <;> cases r <;> cases i <;> simp <;> ring

/-- Tomography of any normalised state: the entries that conserve the number of alpha electrons are exact, the others zero. -/
theorem tomography_any (p : ℕ) (f : Flags) (hf : f.real = true ∨ f.imag = true)
    (hp : p = 2 ∨ p = 3 ∨ (p = 1 ∧ f.real = false)) (Na N : ℕ) (alp bet : List ℕ) (hlen : alp.length + bet.length = N)
    (hL : ListsUnique p Na N f.skipDiag (rdme p f alp bet))
    (ψ : Cfg →₀ ℂ) (h1 : pair ψ ψ = 1)
    (meas : PStr → ℂ) (hm : ∀ s, meas s = pair ψ (denP 0 s ψ)) :
    ∃ D, tomography p f alp bet meas = some D ∧
      ∀ c a : List ℕ, c.length = p → a.length = p → (∀ x ∈ c, x < N) → (∀ x ∈ a, x < N) →
        D (c ++ a) = if nAlpha Na c = nAlpha Na a then target f ψ c a else 0 := by
  have hp0 : 0 < p := by omega
  have hp3 : p ≤ 3 := by omega
  set L := rdme p f alp bet with hLdef
  set E : List ℕ → List ℕ → ℂ := fun c a => if nAlpha Na c = nAlpha Na a then target f ψ c a else 0 with hE
  have hval : ∀ ind ∈ L, (rdmeQubT jordanWigner f ind N).map (fun r => (r.1, value meas r.2)) =
      some (ind, E (split p ind).1 (split p ind).2) := by
    intro ind hind
    obtain ⟨c, a, rfl, hc, ha, hn⟩ := hL.1 ind hind
    have hne : 2 ≤ p ∨ (p = 1 ∧ c ≠ a) := by
      rcases hp with h | h | ⟨rfl, hr⟩
      · left; omega
      · left; omega
      · right
        refine ⟨rfl, ?_⟩
        rintro rfl
        have hskip : f.skipDiag = true := by
          simp only [Flags.skipDiag, hr]
          simpa [hr] using hf
        have := hL.2 c c hc ha hn
        rw [if_pos rfl, if_pos ⟨rfl, hskip⟩, add_zero] at this
        exact (List.count_pos_iff.mpr hind).ne' this
    obtain ⟨Q, q1, q2⟩ := rdmeQub_spec p N f hf (by omega) c a hc ha hne
    rw [show rdmeQubT jordanWigner f _ N = _ from q1, Option.map_some, value_eq ψ h1 meas hm, q2]
    have : (split p (c ++ a.reverse)) = (c, a) := by simp [split, List.take_left' hc.1, List.drop_left' hc.1]
    rw [this, LinearMap.add_apply, pair_add_right, LinearMap.smul_apply, LinearMap.smul_apply, pair_smul_right,
      pair_smul_right]
    exact congrArg some (Prod.ext rfl ((target_eq f ψ c a).trans (if_pos hn).symm))
  refine ⟨build p (L.map (fun ind => (ind, E (split p ind).1 (split p ind).2))), ?_, ?_⟩
  · unfold tomography tomographyT
    rw [hlen, ← hLdef, mapM_eq_map L _ _ hval]
    rfl
  · intro c a hc ha hcN haN
    have hH : Herm p (target f ψ) := by
      intro c a _ _
      rw [← target_eq, ← target_eq, rdm_herm ψ c a]
      have hc : ∀ z : ℂ, (conj z : ℂ) = (starRingEnd ℂ) z := fun z => rfl
      simp only [hc]
      obtain ⟨r, i⟩ := f
      apply Complex.ext <;> cases r <;> cases i <;> simp [half] <;> ring
    have hA : Antisym p (target f ψ) := by
      have h := rdm_antisym p ψ
      constructor
      · intro xs x y zs a hx ha
        rw [← target_eq, ← target_eq, h.1 xs x y zs a hx ha, h.2 a xs x y zs hx ha]; ring
      · intro c xs x y zs hx hc
        rw [← target_eq, ← target_eq, h.2 c xs x y zs hx hc, h.1 xs x y zs c hx hc]; ring
    have hperm : ∀ (xs : List ℕ) (x y : ℕ) (zs : List ℕ), nAlpha Na (xs ++ x :: y :: zs) = nAlpha Na (xs ++ y :: x :: zs) := by
      intro xs x y zs
      unfold nAlpha
      exact ((List.Perm.swap y x zs).append_left xs).countP_eq _
    have hH' : Herm p E := by
      intro c a hc ha
      have := hH c a hc ha
      rw [hE]
      by_cases h : nAlpha Na c = nAlpha Na a
      · simp only [if_pos h, if_pos h.symm]; exact this
      · simp only [if_neg h, if_neg (Ne.symm h)]; exact (conj_zero (K := ℂ)).symm
    have hA' : Antisym p E := by
      constructor
      · intro xs x y zs a hx ha
        have := hA.1 xs x y zs a hx ha
        rw [hE]
        simp only [hperm xs x y zs]
        split
        · exact this
        · simp
      · intro c xs x y zs hx hc
        have := hA.2 c xs x y zs hx hc
        rw [hE]
        simp only [hperm xs x y zs]
        split
        · exact this
        · simp
    exact fill_exact p Na N hp0 hp3 f.skipDiag L hL E hA' hH'
      (by
        intro c a _ _ hn
        exact if_neg hn)
      (by
        intro hsk c _
        rw [hE]
        simp only [if_true]
        rw [← target_eq]
        simp only [Flags.skipDiag, Bool.and_eq_true, Bool.not_eq_true'] at hsk
        rw [hsk.1, hsk.2]
        simp [half])
      c a hc ha hcN haN

/-- Any pair of orbital lists for which the elements are the unique ones: the tensor filled from exact expectation values is that of the state. -/
theorem tomography_of_unique (p : ℕ) (f : Flags) (hf : f.real = true ∨ f.imag = true)
    (hp : p = 2 ∨ p = 3 ∨ (p = 1 ∧ f.real = false)) (Na N : ℕ) (alp bet : List ℕ) (hlen : alp.length + bet.length = N)
    (hL : ListsUnique p Na N f.skipDiag (rdme p f alp bet))
    (ψ : Cfg →₀ ℂ) (h1 : pair ψ ψ = 1) (n : ℤ) (hs : Sector Na n ψ)
    (meas : PStr → ℂ) (hm : ∀ s, meas s = pair ψ (denP 0 s ψ)) :
    ∃ D, tomography p f alp bet meas = some D ∧
      ∀ c a : List ℕ, c.length = p → a.length = p → (∀ x ∈ c, x < N) → (∀ x ∈ a, x < N) →
        D (c ++ a) = target f ψ c a := by
  obtain ⟨D, hD, h⟩ := tomography_any p f hf hp Na N alp bet hlen hL ψ h1 meas hm
  refine ⟨D, hD, fun c a hc ha hcN haN => ?_⟩
  rw [h c a hc ha hcN haN]
  by_cases hn : nAlpha Na c = nAlpha Na a
  · rw [if_pos hn]
  · rw [if_neg hn, ← target_eq, rdm_sector ψ Na n hs c a hn, rdm_sector ψ Na n hs a c (Ne.symm hn)]; ring

/-- **C62.**  With expectation values of a normalised state with a fixed number of alpha electrons, tomography of order
1 (imaginary part only), 2 or 3 returns the tensor of `⟨ψ|a†…a|ψ⟩` (or its real or imaginary part) at every index, as
long as there are not more beta than alpha orbitals.  Missing: order 1 with real parts (`C62_fails_order1`), more beta
than alpha orbitals (`C27_fails_order2_beta`), order 4 (`C27_fails_order4`). -/
theorem C62_tomography_partial (p : ℕ) (f : Flags) (hf : f.real = true ∨ f.imag = true)
    (hp : p = 2 ∨ p = 3 ∨ (p = 1 ∧ f.real = false)) (Na Nb : ℕ) (hN : Nb ≤ Na)
    (ψ : Cfg →₀ ℂ) (h1 : pair ψ ψ = 1) (n : ℤ) (hs : Sector Na n ψ)
    (meas : PStr → ℂ) (hm : ∀ s, meas s = pair ψ (denP 0 s ψ)) :
    ∃ D, tomography p f (alpha Na) (beta Na Nb) meas = some D ∧
      ∀ c a : List ℕ, c.length = p → a.length = p → (∀ x ∈ c, x < Na + Nb) → (∀ x ∈ a, x < Na + Nb) →
        D (c ++ a) = target f ψ c a := by
  refine tomography_of_unique p f hf hp Na (Na + Nb) (alpha Na) (beta Na Nb) (by simp [alpha, beta]) ?_ ψ h1 n hs meas hm
  rcases hp with rfl | rfl | ⟨rfl, _⟩
  · exact C27_order2_partial f Na Nb hN
  · exact C27_order3_partial f Na Nb hN
  · exact C27_order1 f Na Nb

/-- A state meeting the hypotheses: `3/5 |1010⟩ + 4i/5 |0101⟩`. -/
noncomputable def exState : Cfg →₀ ℂ :=
  Finsupp.single (fun i => decide (i = 0 ∨ i = 2)) (3 / 5) + Finsupp.single (fun i => decide (i = 1 ∨ i = 3)) (4 / 5 * Complex.I)

theorem exState_ok : pair exState exState = 1 ∧ Sector 2 1 exState := by
  have hne : (fun i : ℕ => decide (i = 0 ∨ i = 2)) ≠ (fun i : ℕ => decide (i = 1 ∨ i = 3)) := by
    intro h; have := congrFun h 0; simp at this
  have hc : ∀ z : ℂ, (conj z : ℂ) = (starRingEnd ℂ) z := fun z => rfl
  constructor
  · classical
    unfold exState
    rw [pair_add, pair_single, pair_single, hc, hc]
    simp only [Finsupp.add_apply, Finsupp.single_eq_same, Finsupp.single_eq_of_ne hne, Finsupp.single_eq_of_ne hne.symm]
    apply Complex.ext <;> simp [Complex.conj_ofNat, Complex.div_re, Complex.div_im] <;> norm_num
  · intro b hb
    by_cases h1 : (fun i : ℕ => decide (i = 0 ∨ i = 2)) = b
    · subst h1; simp [occAlpha, List.range_succ]
    · by_cases h2 : (fun i : ℕ => decide (i = 1 ∨ i = 3)) = b
      · subst h2; simp [occAlpha, List.range_succ]
      · exact absurd (by unfold exState; rw [Finsupp.add_apply, Finsupp.single_eq_of_ne' h1, Finsupp.single_eq_of_ne' h2, add_zero]) hb

/-- **C62 is violated at order 1**: with real parts requested, tomography of the 1-RDM raises for every system. -/
theorem C62_fails_order1 (f : Flags) (hf : f.real = true) (Na Nb : ℕ) (hN : 0 < Na + Nb) (meas : PStr → ℂ) :
    tomography 1 f (alpha Na) (beta Na Nb) meas = none := by
  have hL := C27_order1 f Na Nb
  have hs : Sorted 1 (Na + Nb) [0] := ⟨rfl, by simp, by simpa using hN⟩
  have h := hL.2 [0] [0] hs hs rfl
  have hskip : f.skipDiag = false := by simp [Flags.skipDiag, hf]
  simp only [hskip, if_true] at h
  have hm : [0, 0] ∈ rdme1 f (alpha Na) (beta Na Nb) := by
    rw [← List.count_pos_iff]
    simp at h
    omega
  unfold tomography tomographyT
  rw [show rdme 1 f (alpha Na) (beta Na Nb) = rdme1 f (alpha Na) (beta Na Nb) from rfl, mapM_eq_none _ _ [0, 0] hm]
  · rfl
  · have hc : callerInds (opWord 1 [0, 0]) = [0] := C63_fails 0
    have : (rdmeQubT jordanWigner f [0, 0] ((alpha Na).length + (beta Na Nb).length) : Option (List ℕ × POp ℂ)) = none := by
      unfold rdmeQubT rdmeOp
      rw [if_pos (by simp [hf])]
      simp only [List.length_cons, List.length_nil, Nat.zero_add, Nat.reduceAdd, Nat.reduceDiv, Nat.mul_one,
        Nat.lt_irrefl, if_false, hc]
      simp
    rw [this]; rfl

end HQCA.Props
