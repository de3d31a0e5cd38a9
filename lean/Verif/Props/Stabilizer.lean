import Mathlib.LinearAlgebra.Dimension.Constructions
import Verif.Proofs.StabPauli
import Verif.Model.Reduce

/-!
# C34, C35, C36, C64: check matrices, elimination, symmetry generators, decompositions
-/

namespace HQCA
namespace Props
open Stab
variable {K : Type} [Coef K]

/-! ## C36: check vectors -/

/-- **C36.** A string survives the passage to its check vector and back. -/
theorem C36_round_trip (p : PStr) :
    ∃ v, pauliToCheck p.length p = some v ∧ checkToPauli p.length v = p :=
  ⟨_, pauliToCheck_eq rfl, checkToPauli_chk rfl⟩

/-- **C36.** A vector of `2N` bits survives the passage to a string and back. -/
theorem C36_round_trip_vec (N : ℕ) (v : Vec) (hv : ∀ i, 2 * N ≤ i → v i = 0) :
    pauliToCheck N (checkToPauli N v) = some v := by
  rw [pauliToCheck_eq (checkToPauli_length N v), chk_checkToPauli hv]

/-- **C36.** Two strings commute as operators exactly when the symplectic product of their check vectors is
zero. -/
theorem C36_symplectic (s t : PStr) (h : s.length = t.length) (u v : Vec)
    (hu : pauliToCheck s.length s = some u) (hv : pauliToCheck s.length t = some v) :
    (∑ i ∈ Finset.range s.length, (u i * v (i + s.length) + u (i + s.length) * v i) = 0) ↔
      (denP 0 s * denP 0 t : Oper K) = denP 0 t * denP 0 s := by
  rw [pauliToCheck_eq rfl, Option.some.injEq] at hu
  rw [pauliToCheck_eq h.symm, Option.some.injEq] at hv
  subst hu hv
  exact (comm_iff_symp rfl h.symm).symm

/-- **C36.** … which is also what the library's own `commute` answers. -/
theorem C36_commute (s t : PStr) (h : s.length = t.length) (u v : Vec)
    (hu : pauliToCheck s.length s = some u) (hv : pauliToCheck s.length t = some v) :
    Reduce.commute s t = some true ↔
      ∑ i ∈ Finset.range s.length, (u i * v (i + s.length) + u (i + s.length) * v i) = 0 := by
  rw [C02_commute_iff (K := GQ) s t h, C36_symplectic (K := GQ) s t h u v hu hv]

/-- **C36.** The check vector of a product is the sum of the check vectors. -/
theorem C36_product (P Q R : Term PStr K) (h : Pauli.mul P Q = some R) (u v : Vec)
    (hu : pauliToCheck P.1.length P.1 = some u) (hv : pauliToCheck P.1.length Q.1 = some v) :
    pauliToCheck P.1.length R.1 = some (u + v) := by
  have hl : P.1.length = Q.1.length := by
    by_contra hne
    rw [C01_length_mismatch P Q hne] at h; exact absurd h (by simp)
  rw [pauliToCheck_eq rfl, Option.some.injEq] at hu
  rw [pauliToCheck_eq hl.symm, Option.some.injEq] at hv
  subst hu hv
  obtain ⟨h1, h2⟩ := mul_chk P Q R rfl hl.symm h
  rw [pauliToCheck_eq h1, h2]

example : (pauliToCheck 2 [.Y, .X]).map (fun v => (List.range 4).map v) = some [1, 0, 1, 1] := by
  decide +kernel

/-! ## C34: elimination -/

/-- Reduced row echelon form of the first `l` rows and `w` columns, with the pivot columns listed. -/
structure RREF (l w : ℕ) (E : ℕ → Vec) (piv : List ℕ) : Prop where
  /-- No more pivots than rows. -/
  count : piv.length ≤ l
  /-- Pivots are columns, in increasing order. -/
  inside : ∀ p ∈ piv, p < w
  increasing : piv.Pairwise (· < ·)
  /-- The row of a pivot has its first one there, and no other row has a one in that column. -/
  first : ∀ k p, piv[k]? = some p → E k p = 1 ∧ ∀ j < p, E k j = 0
  alone : ∀ k p, piv[k]? = some p → ∀ r < l, r ≠ k → E r p = 0
  /-- Rows without a pivot are zero and come last. -/
  rest : ∀ r, piv.length ≤ r → r < l → ∀ j < w, E r j = 0

/-- **C34.** The elimination brings any matrix to reduced row echelon form. -/
theorem C34_reduced (l w : ℕ) (E : ℕ → Vec) : RREF l w (eliminate l w E).1 (eliminate l w E).2 := by
  have h := (eliminate_inv l w E).1
  refine ⟨h.len, h.lt, h.sorted, ?_, ?_, h.below⟩
  · intro k p hp
    obtain ⟨hk, rfl⟩ := List.getElem?_eq_some_iff.mp hp
    exact ⟨h.one k hk, h.left k hk⟩
  · intro k p hp
    obtain ⟨hk, rfl⟩ := List.getElem?_eq_some_iff.mp hp
    exact h.zero k hk

/-- **C34.** The elimination does not change the row space. -/
theorem C34_row_space (l w : ℕ) (E : ℕ → Vec) :
    Submodule.span (ZMod 2) {v | ∃ r, r < l ∧ (eliminate l w E).1 r = v} =
      Submodule.span (ZMod 2) {v | ∃ r, r < l ∧ E r = v} :=
  (eliminate_inv l w E).2

/-- **C34.** The number of pivots is the rank. -/
theorem C34_rank (l w : ℕ) (E : ℕ → Vec) (hE : ∀ r < l, ∀ j, w ≤ j → E r j = 0) :
    Module.finrank (ZMod 2) (Submodule.span (ZMod 2) {v | ∃ r, r < l ∧ E r = v}) =
      (eliminate l w E).2.length := by
  obtain ⟨h, hs⟩ := eliminate_inv l w E
  have hsup : ∀ r < l, ∀ j, w ≤ j → (eliminate l w E).1 r j = 0 := by
    intro r hr
    refine rowSpace_support hE ?_
    rw [← hs]
    exact rowSpace_row hr
  have h1 := h.rowSpace_eq hsup
  rw [hs] at h1
  change Module.finrank (ZMod 2) (rowSpace l E) = _
  rw [h1]
  have h2 := finrank_span_eq_card h.independent
  rw [Fintype.card_fin] at h2
  have : rowSpace (eliminate l w E).2.length (eliminate l w E).1 = Submodule.span (ZMod 2)
      (Set.range (fun k : Fin (eliminate l w E).2.length => (eliminate l w E).1 k)) := by
    unfold rowSpace
    congr 1
    ext v
    constructor
    · rintro ⟨r, hr, rfl⟩; exact ⟨⟨r, hr⟩, rfl⟩
    · rintro ⟨k, rfl⟩; exact ⟨k.1, k.2, rfl⟩
  rw [this, h2]

/-- The parity-check matrix of `XX`, `ZZ`, `YY`. -/
example : ((init [[.X, .X], [.Z, .Z], [.Y, .Y]]).map (fun s =>
      ((eliminate s.l 4 s.E).2,
      (List.range 3).map (fun r => (List.range 4).map ((eliminate s.l 4 s.E).1 r))))) =
        some ([0, 2], [[1, 1, 0, 0], [0, 0, 1, 1], [0, 0, 0, 0]]) := by
  simp only [init]
  decide +kernel

/-! ## C35: symmetry generators -/

theorem E_eq (s : S) (r : ℕ) (h : s.G r = 0 ∨ ∃ p, s.G r = chk s.N p) :
    ∀ v, dot (2 * s.N) (s.E r) v = symp s.N (s.G r) v := by
  intro v
  rw [symp_dot]
  rfl

theorem E_supp (s : S) (r j : ℕ) (hj : 2 * s.N ≤ j) : s.E r j = 0 := by
  unfold S.E
  rw [if_neg (by omega), if_neg (by omega)]

/-- The generators, as check vectors. -/
theorem mem_generators {s : S} {g : PStr} (hg : g ∈ generators s) :
    ∃ f, f < 2 * s.N ∧ f ∉ (eliminate s.l (2 * s.N) s.E).2 ∧
      g = checkToPauli s.N (nullVec (2 * s.N) (eliminate s.l (2 * s.N) s.E).1
        (eliminate s.l (2 * s.N) s.E).2 f) := by
  simp only [generators, free, List.mem_map, List.mem_filter, List.mem_range, decide_eq_true_eq] at hg
  obtain ⟨f, ⟨h1, h2⟩, rfl⟩ := hg
  exact ⟨f, h1, h2, nullStr_eq _ _⟩

/-- **C35.** For any nonempty collection of strings of one length the generators are found, and every one of
them commutes with every string of the collection. -/
theorem C35_commutes (ps : List PStr) (hne : ps ≠ []) (N : ℕ) (hps : ∀ p ∈ ps, p.length = N) :
    ∃ s, init ps = some s ∧ ∀ g ∈ generators s, g.length = N ∧
      ∀ p ∈ ps, (denP 0 p * denP 0 g : Oper K) = denP 0 g * denP 0 p := by
  obtain ⟨s, hs, hN, hG, hG'⟩ := init_spec ps hne N hps
  refine ⟨s, hs, ?_⟩
  intro g hg
  obtain ⟨f, hf, hfp, rfl⟩ := mem_generators hg
  have hinv := eliminate_inv s.l (2 * s.N) s.E
  refine ⟨by rw [checkToPauli_length, hN], ?_⟩
  intro p hp
  have hlen := hps p hp
  by_cases hi : p = List.replicate N PL.I
  · rw [hi, denP_iden, one_mul, mul_one]
  · obtain ⟨r, hr, hr'⟩ := hG p hp hi
    have hl2 : (checkToPauli s.N (nullVec (2 * s.N) (eliminate s.l (2 * s.N) s.E).1
        (eliminate s.l (2 * s.N) s.E).2 f)).length = N := by rw [checkToPauli_length, hN]
    rw [comm_iff_symp hlen hl2]
    subst hN
    rw [chk_checkToPauli (fun i hi => hinv.1.nullVec_support f i hi), ← hr',
      ← E_eq s r (Or.inr ⟨p, hr'⟩)]
    refine dot_rowSpace (fun r' hr' => hinv.1.dot_nullVec hf hfp r' hr') ?_
    rw [hinv.2]
    exact rowSpace_row hr

theorem sublist_sum {α : Type} [DecidableEq α] (L : List α) (c : α → Bool) (F : α → Vec) :
    ((L.filter c).map F).sum = (L.map (fun f => bit (c f) • F f)).sum := by
  induction L with
  | nil => rfl
  | cons x L ih =>
    rw [List.map_cons, List.sum_cons, List.filter_cons]
    cases h : c x
    · simp [bit, ih]
    · simp [bit, ih]

/-- **C35.** The generators are complete: any string that commutes with the whole collection is, up to the
coefficient reported by the library's own product, a product of some of the generators. -/
theorem C35_complete (ps : List PStr) (hne : ps ≠ []) (N : ℕ) (hps : ∀ p ∈ ps, p.length = N) :
    ∃ s, init ps = some s ∧ ∀ t : PStr, t.length = N →
      (∀ p ∈ ps, (denP 0 p * denP 0 t : Oper K) = denP 0 t * denP 0 p) →
      ∃ gs, gs.Sublist (generators s) ∧ ∃ c : K, product N gs = some (t, c) := by
  obtain ⟨s, hs, hN, hG, hG'⟩ := init_spec ps hne N hps
  subst hN
  refine ⟨s, hs, ?_⟩
  intro t ht hc
  obtain ⟨hinv, hrow⟩ := eliminate_inv s.l (2 * s.N) s.E
  set E' := (eliminate s.l (2 * s.N) s.E).1 with hE'
  set piv := (eliminate s.l (2 * s.N) s.E).2 with hpiv
  have hE0 : ∀ r < s.l, dot (2 * s.N) (s.E r) (chk s.N t) = 0 := by
    intro r hr
    rcases hG' r with h | ⟨p, hp, h⟩
    · rw [E_eq s r (Or.inl h), h]; simp [symp]
    · rw [E_eq s r (Or.inr ⟨p, h⟩), h, ← comm_iff_symp (K := K) (hps p hp) ht]
      exact hc p hp
  have hE1 : ∀ r < s.l, dot (2 * s.N) (E' r) (chk s.N t) = 0 := by
    intro r hr
    refine dot_rowSpace hE0 ?_
    rw [← hrow]; exact rowSpace_row hr
  have hker := hinv.kernel (v := chk s.N t) (fun i hi => chk_supp _ _ hi) hE1
  set sel := (free (2 * s.N) piv).filter (fun f => decide (chk s.N t f = 1)) with hsel
  refine ⟨sel.map (fun f => nullStr s.N (nullVec (2 * s.N) E' piv f)), ?_, ?_⟩
  · exact List.Sublist.map _ List.filter_sublist
  · obtain ⟨R, hR, h1, h2, _⟩ := product_spec (K := K) (N := s.N)
      (sel.map (fun f => nullStr s.N (nullVec (2 * s.N) E' piv f))) (by
        intro p hp
        obtain ⟨f, _, rfl⟩ := List.mem_map.mp hp
        rw [nullStr_eq, checkToPauli_length])
    refine ⟨R.2, ?_⟩
    rw [hR]
    have : R.1 = t := by
      refine chk_inj h1 ht ?_
      rw [h2, hker, List.map_map]
      have h3 : ∀ f, (chk s.N ∘ fun f => nullStr s.N (nullVec (2 * s.N) E' piv f)) f
          = nullVec (2 * s.N) E' piv f := by
        intro f
        rw [Function.comp_apply, nullStr_eq,
          chk_checkToPauli (fun i hi => hinv.nullVec_support f i hi)]
      rw [List.map_congr_left (fun f _ => h3 f), hsel, sublist_sum]
      have h4 : ∀ f, bit (decide (chk s.N t f = 1)) = chk s.N t f := by
        intro f
        rcases zcases (chk s.N t f) with h | h <;> simp [h, bit]
      simp only [h4]
      rw [free, ← List.sum_toFinset _ (List.Nodup.filter _ List.nodup_range)]
      refine Finset.sum_congr ?_ fun _ _ => rfl
      ext f; simp
    rw [← this]

/-- **C35.** Their number is twice the number of qubits minus the rank of the collection. -/
theorem C35_count (ps : List PStr) (hne : ps ≠ []) (N : ℕ) (hps : ∀ p ∈ ps, p.length = N) :
    ∃ s, init ps = some s ∧ (generators s).length +
      Module.finrank (ZMod 2) (Submodule.span (ZMod 2) {v | ∃ r, r < s.l ∧ s.E r = v}) = 2 * N := by
  obtain ⟨s, hs, hN, _, _⟩ := init_spec ps hne N hps
  subst hN
  refine ⟨s, hs, ?_⟩
  rw [C34_rank s.l (2 * s.N) s.E (fun r _ j hj => E_supp s r j hj)]
  have hinv := (eliminate_inv s.l (2 * s.N) s.E).1
  simp only [generators, List.length_map, free]
  set piv := (eliminate s.l (2 * s.N) s.E).2
  have h1 : piv.length = ((List.range (2 * s.N)).filter (fun c => decide (c ∈ piv))).length := by
    apply List.Perm.length_eq
    rw [List.perm_ext_iff_of_nodup (hinv.sorted.imp (fun h => Nat.ne_of_lt h))
      (List.Nodup.filter _ List.nodup_range)]
    intro a
    simp only [List.mem_filter, List.mem_range, decide_eq_true_eq]
    exact ⟨fun h => ⟨hinv.lt a h, h⟩, fun h => h.2⟩
  rw [h1, Nat.add_comm]
  have h2 := List.length_eq_length_filter_add (l := List.range (2 * s.N)) (fun c => decide (c ∈ piv))
  rw [List.length_range] at h2
  have h3 : (List.range (2 * s.N)).filter (fun c => !decide (c ∈ piv)) =
      (List.range (2 * s.N)).filter (fun c => decide (c ∉ piv)) := by
    refine List.filter_congr fun c _ => ?_
    by_cases h : c ∈ piv <;> simp [h]
  rw [h3] at h2
  exact h2.symm

/-- **C35.** They are independent: no nonempty selection multiplies to the identity string. -/
theorem C35_independent (ps : List PStr) (hne : ps ≠ []) (N : ℕ) (hps : ∀ p ∈ ps, p.length = N) :
    ∃ s, init ps = some s ∧ ∀ gs, gs.Sublist (generators s) →
      ∀ c : K, product N gs = some (List.replicate N .I, c) → gs = [] := by
  obtain ⟨s, hs, hN, _, _⟩ := init_spec ps hne N hps
  subst hN
  refine ⟨s, hs, ?_⟩
  intro gs hgs c hc
  have hinv := (eliminate_inv s.l (2 * s.N) s.E).1
  unfold generators at hgs
  simp only at hgs
  set E' := (eliminate s.l (2 * s.N) s.E).1 with hE'
  set piv := (eliminate s.l (2 * s.N) s.E).2 with hpiv
  obtain ⟨sel, hsel, rfl⟩ := List.sublist_map_iff.mp hgs
  obtain ⟨R, hR, h1, h2, _⟩ := product_spec (K := K) (N := s.N)
      (sel.map (fun f => nullStr s.N (nullVec (2 * s.N) E' piv f))) (by
        intro p hp
        obtain ⟨f, _, rfl⟩ := List.mem_map.mp hp
        rw [nullStr_eq, checkToPauli_length])
  rw [hR, Option.some.injEq] at hc
  rw [hc, chk_iden, List.map_map] at h2
  have h3 : ∀ f, (chk s.N ∘ fun f => nullStr s.N (nullVec (2 * s.N) E' piv f)) f
      = nullVec (2 * s.N) E' piv f := by
    intro f
    rw [Function.comp_apply, nullStr_eq,
      chk_checkToPauli (fun i hi => hinv.nullVec_support f i hi)]
  rw [List.map_congr_left (fun f _ => h3 f)] at h2
  have hnd : sel.Nodup := hsel.nodup (List.Nodup.filter _ List.nodup_range)
  cases hsl : sel with
  | nil => rfl
  | cons f L =>
    exfalso
    have hf : f ∈ sel := by rw [hsl]; exact List.mem_cons_self
    have hff := hsel.subset hf
    simp only [free, List.mem_filter, List.mem_range, decide_eq_true_eq] at hff
    have h4 := congrFun h2 f
    have h5 : (sel.map (fun f => nullVec (2 * s.N) E' piv f)).sum f =
        (sel.map (fun f' => nullVec (2 * s.N) E' piv f' f)).sum := by
      generalize sel = M
      induction M with
      | nil => rfl
      | cons x M ih => simp only [List.map_cons, List.sum_cons, Pi.add_apply, ih]
    rw [h5] at h4
    have h6 : ∀ f', nullVec (2 * s.N) E' piv f' f = 1 * (if f' = f then 1 else 0) := by
      intro f'
      rw [nullVec_free hff.2 hff.1, one_mul]
      simp only [eq_comm]
    rw [List.map_congr_left (fun f' _ => h6 f'), sum_single sel hnd f (fun _ => 1), if_pos hf] at h4
    rw [Pi.zero_apply] at h4
    exact absurd h4 (by decide)

/-- A collection with an identity string and dependent members. -/
example : (init [[.X, .X, .I], [.I, .I, .I], [.Z, .Z, .I], [.Y, .Y, .I]]).map generators =
    some [[.Z, .Z, .I], [.I, .I, .Z], [.X, .X, .I], [.I, .I, .X]] := by
  simp only [init]
  decide +kernel

/-! ## C64: decomposition of the terms -/

/-- **C64.** For every member of the collection other than the identity, the loop that decomposes it stops
(three passes always suffice) and records strings whose product, in the recorded order, is the recorded
coefficient times the member. -/
theorem C64_decomposition (ps : List PStr) (hne : ps ≠ []) (N : ℕ) (hps : ∀ p ∈ ps, p.length = N) :
    ∃ s, init ps = some s ∧ ∀ p ∈ ps, p ≠ List.replicate N .I → ∃ v < s.l, ∀ fuel, 3 ≤ fuel →
      ∃ (strs : List PStr) (c : K), decompose fuel s v = some (p, strs, c) ∧
        (strs.map (denP 0)).prod = c • (denP 0 p : Oper K) := by
  obtain ⟨s, hs, hN, hG, hG'⟩ := init_spec ps hne N hps
  subst hN
  refine ⟨s, hs, ?_⟩
  intro p hp hi
  obtain ⟨r, hr, hGr⟩ := hG p hp hi
  refine ⟨r, hr, ?_⟩
  intro fuel hfuel
  obtain ⟨hinv, hrow⟩ := eliminate_inv s.l (2 * s.N) s.E
  set E' := (eliminate s.l (2 * s.N) s.E).1 with hE'
  set piv := (eliminate s.l (2 * s.N) s.E).2 with hpiv
  have hred := hinv.red
  have hsup : ∀ r < s.l, ∀ j, 2 * s.N ≤ j → E' r j = 0 := by
    intro r hr
    refine rowSpace_support (l := s.l) (fun r _ j hj => E_supp s r j hj) ?_
    rw [← hrow]
    exact rowSpace_row hr
  have hmem : s.E r ∈ rowSpace piv.length E' := by
    rw [← hinv.rowSpace_eq hsup, hrow]; exact rowSpace_row hr
  have hexp := hinv.expand hmem
  have hcomb : Comb piv.length (gm s.N E') (fun k => sw s.N (piv.getD k 0)) (s.G r) := by
    unfold Comb
    funext u
    rw [Finset.sum_apply]
    by_cases hu : u < 2 * s.N
    · have hGE : ∀ u < 2 * s.N, s.G r u = s.E r (sw s.N u) := by
        intro u hu
        unfold S.E sw
        split_ifs <;> first | omega | (congr 1; omega)
      have h1 := congrFun hexp (sw s.N u)
      rw [Finset.sum_apply] at h1
      rw [hGE u hu, h1, ← Fin.sum_univ_eq_sum_range
        (fun k => (s.G r (sw s.N (piv.getD k 0)) • gm s.N E' k) u)]
      refine Finset.sum_congr rfl fun k _ => ?_
      have hk : piv[k.1] < 2 * s.N := hinv.lt _ (List.getElem_mem k.2)
      have e : piv.getD k.1 0 = piv[k.1] := by simp [List.getD]
      simp only [Pi.smul_apply, smul_eq_mul]
      rw [gm_sw _ _ _ hu, e, hGE _ (sw_lt hk), sw_sw hk]
    · rw [hGr, chk_supp _ _ (by omega)]
      symm
      refine Finset.sum_eq_zero fun k hk => ?_
      rw [Pi.smul_apply, hred.supp k (Finset.mem_range.mp hk) u (by omega), smul_zero]
  obtain ⟨k, rfl⟩ : ∃ k, fuel = k + 3 := ⟨fuel - 3, by omega⟩
  obtain ⟨out, hout⟩ := decLoop_terminates hred k (s.G r) [] hcomb
  obtain ⟨hlt, hsum⟩ := decLoop_exact hred (k + 3) (s.G r) [] out hcomb (by simp) hout
  set strs := out.map (fun i => checkToPauli s.N (gm s.N E' i)) with hstrs
  have hL : ∀ q ∈ strs, q.length = s.N := by
    intro q hq
    obtain ⟨i, _, rfl⟩ := List.mem_map.mp hq
    exact checkToPauli_length _ _
  obtain ⟨R, hR, h1, h2, h3⟩ := product_spec (K := K) strs hL
  have hR1 : R.1 = p := by
    refine chk_inj h1 (hps p hp) ?_
    rw [h2, hstrs, List.map_map]
    have : ∀ i ∈ out, (chk s.N ∘ fun i => checkToPauli s.N (gm s.N E' i)) i = gm s.N E' i := by
      intro i hi
      rw [Function.comp_apply, chk_checkToPauli (fun j hj => hred.supp i (hlt i hi) j hj)]
    rw [List.map_congr_left this, hsum]
    simp [hGr]
  refine ⟨strs, R.2, ?_, ?_⟩
  · unfold decompose
    simp only [← hE', nonzeroRows_eq hinv]
    have e : s.G r = chk s.N p := hGr
    simp only [hout, Option.bind_eq_bind, Option.bind_some, ← hstrs, hR]
    rw [e, checkToPauli_chk (hps p hp)]
  · rw [← h3, hR1]

example : (init [[.X, .X], [.Z, .Z], [.Y, .Y]]).bind (fun s => decompose (K := GQ) 3 s 2) =
    some ([.Y, .Y], [[.Z, .Z], [.X, .X]], -1) := by
  simp only [init]
  decide +kernel

end Props
end HQCA
