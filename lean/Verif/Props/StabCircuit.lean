import Verif.Proofs.StabRun
import Verif.Props.Stabilizer
import Verif.Props.Measure
import Verif.Proofs.Reduce

/-!
# C119: measurement circuits of commuting strings
-/

namespace HQCA
namespace Props
open Stab Prim StabCirc

/-- The letter of `p` on qubit `i`. -/
def letterAt (p : PStr) (i : ℕ) : PL := p.getD i .I

/-- Strings that agree qubit by qubit wherever both act. -/
def QubitWise (ps : List PStr) : Prop :=
  ∀ p ∈ ps, ∀ q ∈ ps, ∀ i, letterAt p i = .I ∨ letterAt q i = .I ∨ letterAt p i = letterAt q i

/-- A string of `I` and `Z`. -/
def IsZ (p : PStr) : Prop := ∀ a ∈ p, a = .I ∨ a = .Z

theorem sorted_split (N : ℕ) (L : List ℕ) (hL : L.Pairwise (· < ·)) : ∃ nx ≤ L.length, ∀ k (hk : k < L.length), L[k] < N ↔ k < nx := by
  induction L with
  | nil => exact ⟨0, le_rfl, by simp⟩
  | cons a L ih =>
    obtain ⟨ha, hL'⟩ := List.pairwise_cons.mp hL
    obtain ⟨nx, h1, h2⟩ := ih hL'
    by_cases h : a < N
    · refine ⟨nx + 1, by simpa using h1, ?_⟩
      rintro (_ | k) hk
      · simpa using h
      · simpa using h2 k (by simpa using hk)
    · refine ⟨0, by omega, ?_⟩
      rintro (_ | k) hk
      · simpa using h
      · have := ha _ (List.getElem_mem (by simpa using hk : k < L.length))
        simp only [List.getElem_cons_succ]
        omega

/-- Linear condition satisfied by all rows on one qubit. -/
theorem types {ps : List PStr} {N : ℕ} (hq : QubitWise ps) {s : S} (hN : s.N = N) (hG : ∀ r, s.G r = 0 ∨ ∃ p ∈ ps, s.G r = chk N p) (i : ℕ) (hi : i < N) :
    ∃ a b : ZMod 2, (a = 1 ∨ b = 1) ∧ ∀ v ∈ rowSpace s.l s.E, v (i + N) * b = v i * a := by
  have key : ∃ a b : ZMod 2, (a = 1 ∨ b = 1) ∧ ∀ p ∈ ps, chk N p i * b = chk N p (i + N) * a := by
    by_cases h : ∃ p ∈ ps, letterAt p i ≠ .I
    · obtain ⟨p, hp, hpi⟩ := h
      refine ⟨chk N p i, chk N p (i + N), ?_, ?_⟩
      · rw [chk_low _ hi, chk_high _ hi]
        change letterAt p i ≠ _ at hpi
        unfold letterAt at hpi
        revert hpi
        generalize p.getD i PL.I = a
        cases a <;> simp [bit, PL.l, PL.r]
      · intro q hq'
        rw [chk_low _ hi, chk_high _ hi, chk_low _ hi, chk_high _ hi]
        rcases hq p hp q hq' i with e | e | e
        · exact absurd e hpi
        · unfold letterAt at e
          rw [e]
          simp [bit, PL.l, PL.r]
        · unfold letterAt at e
          rw [e]
          ring
    · refine ⟨1, 1, Or.inl rfl, ?_⟩
      intro p hp
      have : p.getD i PL.I = .I := by
        by_contra hc
        exact h ⟨p, hp, hc⟩
      rw [chk_low _ hi, chk_high _ hi, this]
      simp [bit, PL.l, PL.r]
  obtain ⟨a, b, hab, h⟩ := key
  refine ⟨a, b, hab, fun v hv => ?_⟩
  induction hv using Submodule.span_induction with
  | mem x hx =>
    obtain ⟨r, _, rfl⟩ := hx
    unfold S.E
    rw [hN, if_neg (by omega), if_pos (by omega), if_pos hi, Nat.add_sub_cancel]
    rcases hG r with e | ⟨p, hp, e⟩
    · simp [e]
    · rw [e]; exact h p hp
  | zero => simp
  | add x y _ _ hx hy => rw [Pi.add_apply, Pi.add_apply, add_mul, add_mul, hx, hy]
  | smul c x _ hx => rw [Pi.smul_apply, Pi.smul_apply, smul_mul_assoc, smul_mul_assoc, hx]

/-- What the construction returns. -/
theorem build_spec {ps : List PStr} {N : ℕ} (hq : QubitWise ps) {s : S} (hN : s.N = N) (hG : ∀ r, s.G r = 0 ∨ ∃ p ∈ ps, s.G r = chk N p)
    (fuel : ℕ) (hf : s.l * N < fuel) :
    ∃ res, build fuel s = some res ∧ Uni (circOp (res.gates.flatMap circuit)) ∧
      (∀ t ∈ res.tm, t.2.length = N ∧ IsZ t.2 ∧
        (circOp (res.gates.flatMap circuit) * denP 0 t.1 : Oper ℂ) = denP 0 t.2 * circOp (res.gates.flatMap circuit)) ∧
      (∀ k < nonzeroRows s.l (2 * N) (eliminate s.l (2 * N) s.E).1,
        ∃ t ∈ res.tm, t.1 = checkToPauli N (gm N (eliminate s.l (2 * N) s.E).1 k)) ∧
      ((∃ r < s.l, ∃ i < N, s.G r (i + N) = 1) → ∃ i < N, SG.h i ∈ res.gates) := by
  subst hN
  obtain ⟨hinv, hrow⟩ := eliminate_inv s.l (2 * s.N) s.E
  unfold build rows
  simp only
  set E' := (eliminate s.l (2 * s.N) s.E).1 with hE'
  set piv := (eliminate s.l (2 * s.N) s.E).2 with hpiv
  set n := piv.length with hn
  have hnz : nonzeroRows s.l (2 * s.N) E' = n := nonzeroRows_eq hinv
  have hfree : (free (2 * s.N) piv).length = 2 * s.N - n ∧ n ≤ 2 * s.N := by
    have h1 : piv.length = ((List.range (2 * s.N)).filter (fun c => decide (c ∈ piv))).length := by
      apply List.Perm.length_eq
      rw [List.perm_ext_iff_of_nodup (hinv.sorted.imp (fun h => Nat.ne_of_lt h)) (List.Nodup.filter _ List.nodup_range)]
      intro a
      simp only [List.mem_filter, List.mem_range, decide_eq_true_eq]
      exact ⟨fun h => ⟨hinv.lt a h, h⟩, fun h => h.2⟩
    have h2 := List.length_eq_length_filter_add (l := List.range (2 * s.N)) (fun c => decide (c ∈ piv))
    rw [List.length_range] at h2
    have h3 : (List.range (2 * s.N)).filter (fun c => !decide (c ∈ piv)) = free (2 * s.N) piv := by
      refine List.filter_congr fun c _ => ?_
      by_cases h : c ∈ piv <;> simp [h]
    rw [h3] at h2
    omega
  rw [hnz, if_pos (by omega)]
  obtain ⟨nx, hnx, hsplit⟩ := sorted_split s.N piv hinv.sorted
  set p : ℕ → ℕ := fun k => piv.getD k 0 with hp
  have pk : ∀ k (hk : k < n), p k = piv[k] := fun k hk => by simp [hp, List.getD, hn ▸ hk]
  set z : ℕ → Vec := nullVec (2 * s.N) E' piv with hz
  set fs := (free (2 * s.N) piv).filter (fun f => (List.range s.N).all (fun i => z f (i + s.N) = 0) &&
    decide (1 < ((List.range s.N).filter fun i => z f i ≠ 0).length)) with hfs
  have hzs : zSymm s.N E' piv = fs.map z := by
    unfold zSymm
    rw [List.filter_map]
    rfl
  rw [hzs]
  have gx : ∀ k j, j < s.N → gm s.N E' k (j + s.N) = E' k j := by
    intro k j hj
    unfold gm
    rw [if_neg (by omega), if_pos (by omega), Nat.add_sub_cancel]
  have gz : ∀ k j, j < s.N → gm s.N E' k j = E' k (j + s.N) := by
    intro k j hj
    unfold gm
    rw [if_pos hj]
  have cx' : ∀ v : Vec, ∀ j, clr s.N s.N v (j + s.N) = v (j + s.N) := by
    intro v j
    unfold clr
    rw [if_neg (by omega)]
  have nl : n ≤ s.l := hinv.len
  have hmem : ∀ k < n, E' k ∈ rowSpace s.l s.E := fun k hk => hrow ▸ rowSpace_row (lt_of_lt_of_le hk nl)
  have hfs1 : ∀ f ∈ fs, f < s.N ∧ f ∉ piv ∧ ∀ j < s.N, z f (j + s.N) = 0 := by
    intro f hf'
    simp only [hfs, List.mem_filter, free, Bool.and_eq_true, List.all_eq_true, List.mem_range, decide_eq_true_eq] at hf'
    refine ⟨?_, hf'.1.2, hf'.2.1⟩
    by_contra hc
    have h1 := hf'.2.1 (f - s.N) (by omega)
    rw [show f - s.N + s.N = f by omega] at h1
    rw [hz, nullVec_free hf'.1.2 hf'.1.1, if_pos rfl] at h1
    exact absurd h1 (by decide)
  -- hypotheses of the first stage
  have hY : YFree s.N ((List.range n).map (gm s.N E') ++ fs.map z) := by
    rintro i hi ⟨v, hv, e1, e2⟩ w hw
    obtain ⟨a, b, hab, hlin⟩ := types hq rfl hG i hi
    rcases List.mem_append.mp hv with h4 | h4
    · obtain ⟨k, hk, rfl⟩ := List.mem_map.mp h4
      have hk := List.mem_range.mp hk
      have l1 := hlin _ (hmem k hk)
      rw [← gx k i hi, ← gz k i hi, e1, e2, one_mul, one_mul] at l1
      rcases List.mem_append.mp hw with h5 | h5
      · obtain ⟨k', hk', rfl⟩ := List.mem_map.mp h5
        have hk' := List.mem_range.mp hk'
        have l2 := hlin _ (hmem k' hk')
        rw [← gx k' i hi, ← gz k' i hi] at l2
        have ha : a = 1 := by rcases hab with h | h
                              · exact h
                              · rw [← l1]; exact h
        rw [l1, ha, mul_one, mul_one] at l2
        intro e
        rw [← l2, e]
      · obtain ⟨f, hf', rfl⟩ := List.mem_map.mp h5
        intro _
        exact (hfs1 f hf').2.2 i hi
    · obtain ⟨f, hf', rfl⟩ := List.mem_map.mp h4
      rw [(hfs1 f hf').2.2 i hi] at e2
      exact absurd e2 (by decide)
  obtain ⟨y1, y2⟩ := yFold s.N _ hY s.N le_rfl
  set T : ℕ → Prop := fun i => ∃ r < n, gm s.N E' r (i + s.N) = 1 with hT
  set g : ℕ → Vec := fun k => clr s.N s.N (gm s.N E' k) with hg
  have hJ : J s.N n nx p T fs g z := by
    refine ⟨hnx, ?_, ?_, ?_, ?_, ?_, ?_, ?_, fun f hf' => (hfs1 f hf').1, ?_, ?_, fun f hf' => (hfs1 f hf').2.2, ?_, ?_, ?_⟩
    · intro k hk
      rw [pk k (by omega)]
      exact (hsplit k (by omega)).mpr hk
    · intro k hk
      have h1 := (hsplit k (by omega)).mpr hk
      simp only [hg, cx']
      rw [pk k (by omega), gx _ _ h1]
      exact hinv.one k _
    · intro k hk r hr hrk
      have h1 := (hsplit k (by omega)).mpr hk
      simp only [hg, cx']
      rw [pk k (by omega), gx _ _ h1]
      exact hinv.zero k _ r (by omega) hrk
    · intro k hk j hj
      have h1 := (hsplit k (by omega)).mpr hk
      rw [pk k (by omega)] at hj
      simp only [hg, cx']
      rw [gx _ _ (by omega)]
      exact hinv.left k _ j hj
    · intro r hr hrx j hj
      have h1 : ¬ piv[r] < s.N := fun h => by have := (hsplit r hr).mp h; omega
      simp only [hg, cx']
      rw [gx _ _ hj]
      exact hinv.left r hr j (by omega)
    · rintro r hr i hi ⟨r', hr', e⟩
      simp only [hg]
      unfold clr
      obtain ⟨a, b, hab, hlin⟩ := types hq rfl hG i hi
      have l1 := hlin _ (hmem r hr)
      have l2 := hlin _ (hmem r' hr')
      rw [← gx r i hi, ← gz r i hi] at l1
      rw [← gx r' i hi, ← gz r' i hi, e, one_mul] at l2
      split_ifs with hc
      · rfl
      · rcases zcases (gm s.N E' r i) with h0 | h1
        · exact h0
        · exfalso
          rcases zcases (gm s.N E' r (i + s.N)) with h2 | h2
          · rw [h1, h2, one_mul, zero_mul] at l1
            rw [l1, mul_zero] at l2
            rcases hab with h | h
            · rw [← l2] at h; exact absurd h (by decide)
            · rw [l1] at h; exact absurd h (by decide)
          · exact hc ⟨hi, h1, h2⟩
    · intro r hr i hi e
      simp only [hg, cx'] at e
      exact ⟨r, hr, e⟩
    · exact (List.nodup_range.filter _).filter _
    · intro f hf' k hk e
      apply (hfs1 f hf').2.1
      rw [e, pk k (by omega)]
      exact List.getElem_mem _
    · intro f hf' k hk
      have hff := hfs1 f hf'
      simp only [hg, cx']
      rw [gx _ _ hff.1, pk k (by omega)]
      exact hinv.nullVec_pivot (by omega) hff.2.1 k _
    · intro f hf' j hj hjp
      refine nullVec_free ?_ (by omega)
      intro hm
      obtain ⟨k, hk, e⟩ := mem_getElem hm
      have := (hsplit k hk).mp (by omega)
      exact hjp k this (by rw [pk k hk, e])
    · intro k hk f hf' hne e
      simp only [hg, cx'] at e
      rw [gx _ _ hf'] at e
      have hkn : k < n := by omega
      have hpk := (hsplit k hkn).mpr hk
      have hfp : f ∉ piv := by
        intro hm
        obtain ⟨k', hk', e'⟩ := mem_getElem hm
        by_cases hkk : k' = k
        · subst hkk
          exact hne (by rw [pk k' hk', e'])
        · rw [← e', hinv.zero k' hk' k (by omega) (Ne.symm hkk)] at e
          exact absurd e (by decide)
      simp only [hfs, List.mem_filter, free, Bool.and_eq_true, List.all_eq_true, List.mem_range, decide_eq_true_eq]
      refine ⟨⟨by omega, hfp⟩, ?_, ?_⟩
      · intro i hi
        by_cases hip : i + s.N ∈ piv
        · obtain ⟨k', hk', e'⟩ := mem_getElem hip
          rw [hz, ← e', hinv.nullVec_pivot (by omega) hfp k' hk']
          exact hinv.left k' hk' f (by omega)
        · rw [hz, nullVec_free hip (by omega), if_neg (by omega)]
      · have h2 : [f, p k].Nodup := by simp [hne]
        have h3 : [f, p k] ⊆ (List.range s.N).filter fun i => decide (z f i ≠ 0) := by
          intro x hx
          simp only [List.mem_cons, List.not_mem_nil, or_false] at hx
          rw [List.mem_filter]
          rcases hx with rfl | rfl
          · refine ⟨List.mem_range.mpr hf', ?_⟩
            rw [hz, nullVec_free hfp (by omega), if_pos rfl]
            decide
          · rw [pk k hkn]
            refine ⟨List.mem_range.mpr hpk, ?_⟩
            rw [hz, hinv.nullVec_pivot (by omega) hfp k hkn, e]
            decide
        have := (List.subperm_of_subset h2 h3).length_le
        simp only [List.length_cons, List.length_nil] at this
        omega
  have hy1 : ((List.range n).map (gm s.N E') ++ fs.map z).map (clr s.N s.N) = rowsOf n fs g z := by
    unfold rowsOf
    rw [List.map_append, List.map_map, List.map_map]
    congr 1
    refine List.map_congr_left fun f hf' => ?_
    funext j
    simp only [Function.comp]
    unfold clr
    rw [if_neg]
    rintro ⟨h1, _, h3⟩
    rw [(hfs1 f hf').2.2 j h1] at h3
    exact absurd h3 (by decide)
  rw [hy1] at y1
  set m0 := (List.range n).map (gm s.N E') ++ fs.map z with hm0
  have hyst : (List.range s.N).foldl (yStep s.N) (m0, []) = (rowsOf n fs g z, ((List.range s.N).foldl (yStep s.N) (m0, [])).2) := Prod.ext y1 rfl
  have hones : ones s.N n g < fuel := by
    refine lt_of_le_of_lt ?_ hf
    unfold ones
    refine (Finset.sum_le_card_nsmul _ _ s.N fun k _ => ?_).trans ?_
    · exact (Finset.card_filter_le _ _).trans (by rw [Finset.card_range])
    · rw [Finset.card_range, smul_eq_mul]
      exact Nat.mul_le_mul_right _ nl
  rw [hyst] at y2
  obtain ⟨g', z', gs', hJ', hloop, _, hsub, htr⟩ := hJ.loop m0 fuel g z _ hones y2
  have hnone : ∀ v ∈ rowsOf n fs g' z', firstPair s.N v = none := by
    unfold sub at hsub
    rw [Option.map_eq_none_iff, List.findSome?_eq_none_iff] at hsub
    exact hsub
  have hh1 : ∀ j < s.N, (∃ v ∈ rowsOf n fs g' z', v (j + s.N) = 1) → ∀ v ∈ rowsOf n fs g' z', v j = 0 := by
    rintro j hj ⟨v, hv, e⟩ w hw
    rcases List.mem_append.mp hv with h4 | h4
    · obtain ⟨r, hr, rfl⟩ := List.mem_map.mp h4
      have hr := List.mem_range.mp hr
      have hrx : r < nx := by
        by_contra hc
        rw [hJ'.rest r hr (by omega) j hj] at e
        exact absurd e (by decide)
      have hjp : j = p r := by
        by_contra hc
        have := firstPair_none (hnone _ hv) (hJ'.plt r hrx) hj (Ne.symm hc) (hJ'.one r hrx)
        rw [this] at e
        exact absurd e (by decide)
      rcases List.mem_append.mp hw with h5 | h5
      · obtain ⟨r', hr', rfl⟩ := List.mem_map.mp h5
        exact hJ'.tz r' (List.mem_range.mp hr') j hj (hJ'.tx r hr j hj e)
      · obtain ⟨f, hf', rfl⟩ := List.mem_map.mp h5
        rw [hjp, hJ'.zp f hf' r hrx]
        exact firstPair_none (hnone _ hv) (hJ'.plt r hrx) (hJ'.flt f hf') (Ne.symm (hJ'.fp f hf' r hrx)) (hJ'.one r hrx)
    · obtain ⟨f, hf', rfl⟩ := List.mem_map.mp h4
      rw [hJ'.zx f hf' j hj] at e
      exact absurd e (by decide)
  obtain ⟨b1, b2, _, _, b5, _⟩ := hFold s.N m0 (rowsOf n fs g' z', gs') hh1 htr s.N le_rfl
  set fin := (List.range s.N).foldl (hStep s.N) (rowsOf n fs g' z', gs') with hfin
  have hsimp : simplify fuel s.N m0 = some fin := by
    unfold simplify
    rw [hyst, hloop, Option.map_some]
  refine ⟨⟨fin.2, List.zipWith (fun u v => (checkToPauli s.N u, checkToPauli s.N v)) m0 fin.1⟩, ?_, b1.1, ?_, ?_, ?_⟩
  · simp only [Option.bind_eq_bind, Option.bind_some, hsimp]
  · intro t ht
    obtain ⟨i, hi, rfl⟩ := List.getElem_of_mem ht
    rw [List.length_zipWith] at hi
    rw [List.getElem_zipWith]
    refine ⟨checkToPauli_length _ _, ?_, ?_⟩
    · intro a ha
      unfold checkToPauli at ha
      obtain ⟨j, hj, rfl⟩ := List.mem_map.mp ha
      rw [b2 _ (List.getElem_mem _) j (List.mem_range.mp hj)]
      simp only [zero_ne_one, if_false]
      split_ifs <;> simp
    · have := (List.forall₂_iff_get.mp b1.2).2 i (by omega) (by omega)
      simpa using this
  · intro k hk
    have hkm : k < m0.length := by
      rw [hm0, List.length_append, List.length_map, List.length_range]
      omega
    have hlen := b1.2.length_eq
    refine ⟨_, List.getElem_mem (n := k) (by rw [List.length_zipWith]; omega), ?_⟩
    rw [List.getElem_zipWith]
    simp only
    congr 1
    rw [List.getElem_append_left (by rw [List.length_map, List.length_range]; exact hk), List.getElem_map, List.getElem_range]
  · rintro ⟨r, hr, i, hi, e⟩
    have hx0 : 0 < nx := by
      by_contra hc
      have h0 : ∀ v ∈ rowSpace s.l E', v i = 0 := by
        intro v hv
        induction hv using Submodule.span_induction with
        | mem x hx =>
          obtain ⟨k, hk, rfl⟩ := hx
          by_cases hkn : k < n
          · have h1 : ¬ piv[k] < s.N := fun h => by have := (hsplit k hkn).mp h; omega
            exact hinv.left k hkn i (by omega)
          · exact hinv.below k (by omega) hk i (by omega)
        | zero => rfl
        | add x y _ _ hx hy => simp [hx, hy]
        | smul c x _ hx => simp [hx]
      have h1 := h0 (s.E r) (hrow ▸ rowSpace_row hr)
      unfold S.E at h1
      rw [if_pos hi, e] at h1
      exact absurd h1 (by decide)
    refine ⟨p 0, hJ'.plt 0 hx0, b5 (p 0) (hJ'.plt 0 hx0) ⟨g' 0, ?_, hJ'.one 0 hx0⟩⟩
    exact List.mem_append_left _ (List.mem_map_of_mem (List.mem_range.mpr (by omega)))

/-! ## Reading off the values -/

theorem decLoop_mem (N n : ℕ) (g : ℕ → Vec) (fuel : ℕ) (t : Vec) (soln out : List ℕ) (hs : ∀ w ∈ soln, w < n)
    (ho : decLoop N n g fuel t soln = some out) : ∀ w ∈ out, w < n := by
  induction fuel generalizing t soln with
  | zero => simp [decLoop] at ho
  | succ k ih =>
    unfold decLoop at ho
    simp only at ho
    have hmem := fold_mem (n := n) (g := g) (List.range (2 * N)) (t, soln, false) hs
    split_ifs at ho with hf
    · exact ih _ _ hmem ho
    · cases ho
      exact hmem

theorem decompose_mem {K : Type} [Coef K] {fuel : ℕ} {s : S} {v : ℕ} {p : PStr} {strs : List PStr} {c : K} (h : decompose fuel s v = some (p, strs, c)) :
    ∀ g ∈ strs, ∃ k < nonzeroRows s.l (2 * s.N) (eliminate s.l (2 * s.N) s.E).1, g = checkToPauli s.N (gm s.N (eliminate s.l (2 * s.N) s.E).1 k) := by
  unfold decompose at h
  simp only [Option.bind_eq_bind, Option.bind_eq_some_iff] at h
  obtain ⟨soln, h1, pr, _, h3⟩ := h
  cases h3
  intro g hg
  obtain ⟨k, hk, rfl⟩ := List.mem_map.mp hg
  exact ⟨k, decLoop_mem _ _ _ _ _ _ _ (by simp) h1 k hk, rfl⟩

theorem mapM_forall₂ {α β : Type} (f : α → Option β) (P : α → β → Prop) (L : List α) (h : ∀ a ∈ L, ∃ b, f a = some b ∧ P a b) :
    ∃ ms, L.mapM f = some ms ∧ List.Forall₂ P L ms := by
  induction L with
  | nil => exact ⟨[], rfl, .nil⟩
  | cons a L ih =>
    obtain ⟨b, hb, hp⟩ := h a (by simp)
    obtain ⟨ms, h1, h2⟩ := ih fun a ha => h a (by simp [ha])
    exact ⟨b :: ms, by simp [List.mapM_cons, hb, h1], .cons hp h2⟩

theorem IsZ.map_zl {p : PStr} (h : IsZ p) : p.map zl = p := by
  conv_rhs => rw [← List.map_id p]
  refine List.map_congr_left fun a ha => ?_
  rcases h a ha with rfl | rfl <;> rfl

theorem outcome_zero (k : ℕ) (s : PStr) : outcome k s (fun _ => false) = 1 := by
  induction s generalizing k with
  | nil => rfl
  | cons p s ih => simp [outcome, ih]

theorem prod_isZ (ms : List PStr) (h : ∀ m ∈ ms, IsZ m) (ψ : Cfg → ℂ) : ((ms.map (denP 0)).prod : Oper ℂ) ψ (fun _ => false) = ψ fun _ => false := by
  induction ms with
  | nil => rfl
  | cons m ms ih =>
    rw [List.map_cons, List.prod_cons, Module.End.mul_apply]
    have := denP_zl 0 m (((ms.map (denP 0)).prod : Oper ℂ) ψ) fun _ => false
    rw [(h m (by simp)).map_zl] at this
    rw [this, ih fun m hm => h m (by simp [hm]), outcome_zero]
    simp

/-- **C119.**  Value of every string of a group from the outcomes of one circuit: for strings of equal length that agree qubit by qubit wherever
both act, the construction ends, and for each string other than the identity the sign and the `Z` string looked up give, in every state, the
expectation value of the string as sign times the mean of the outcomes behind the circuit.  The circuit is the intended one: see
`C119_emit`. -/
theorem C119_reading_partial (ps : List PStr) (hne : ps ≠ []) (N : ℕ) (hps : ∀ p ∈ ps, p.length = N) (hq : QubitWise ps) :
    ∃ s, init ps = some s ∧ ∀ fuel, s.l * N < fuel → ∃ res, build fuel s = some res ∧
      ∀ p ∈ ps, p ≠ List.replicate N .I → ∃ v < s.l, ∀ k, 3 ≤ k → ∃ (strs : List PStr) (c : ℂ) (F : PStr),
        decompose k s v = some (p, strs, c) ∧ fetch (K := ℂ) N res strs = some F ∧ (c = 1 ∨ c = -1) ∧
        ∀ ψ φ : Cfg →₀ ℂ, (φ : Cfg → ℂ) = circOp (res.gates.flatMap circuit) ψ →
          pair ψ ((denP 0 p : Oper ℂ) ψ) = c * ∑ b ∈ φ.support, (‖φ b‖ : ℂ) ^ 2 * outcome 0 F b := by
  obtain ⟨s, hs, hN, hG, hG'⟩ := init_spec ps hne N hps
  refine ⟨s, hs, fun fuel hf => ?_⟩
  obtain ⟨res, hres, ⟨V, hV, hVU⟩, htm, hrow, _⟩ := build_spec hq hN hG' fuel hf
  refine ⟨res, hres, ?_⟩
  obtain ⟨s', hs', hdec⟩ := C64_decomposition (K := ℂ) ps hne N hps
  obtain rfl : s' = s := by rw [hs] at hs'; exact (Option.some.inj hs').symm
  intro p hp hpI
  obtain ⟨v, hv, hd⟩ := hdec p hp hpI
  refine ⟨v, hv, fun k hk => ?_⟩
  obtain ⟨strs, c, hc, hprod⟩ := hd k hk
  have hmem := decompose_mem hc
  subst hN
  set U := circOp (res.gates.flatMap circuit) with hU
  have key : ∀ g ∈ strs, ∃ m, (res.tm.find? fun t => decide (t.1 = g)).map (·.2) = some m ∧
      m.length = s'.N ∧ IsZ m ∧ (U * denP 0 g : Oper ℂ) = denP 0 m * U := by
    intro g hg
    obtain ⟨k, hk, rfl⟩ := hmem g hg
    obtain ⟨t, ht, e⟩ := hrow k hk
    cases hfd : res.tm.find? fun t => decide (t.1 = checkToPauli s'.N (gm s'.N (eliminate s'.l (2 * s'.N) s'.E).1 k)) with
    | none =>
      rw [List.find?_eq_none] at hfd
      exact absurd (by simpa using e) (hfd t ht)
    | some t' =>
      have h1 := List.find?_some hfd
      have h2 := htm t' (List.mem_of_find?_eq_some hfd)
      rw [of_decide_eq_true h1] at h2
      exact ⟨t'.2, rfl, h2⟩
  obtain ⟨ms, hms, hfor⟩ := mapM_forall₂ _ _ strs key
  have hmz : ∀ m ∈ ms, m.length = s'.N ∧ IsZ m := by
    intro m hm
    obtain ⟨i, hi, rfl⟩ := List.getElem_of_mem hm
    have := (List.forall₂_iff_get.mp hfor).2 i (by rw [hfor.length_eq]; exact hi) hi
    exact ⟨this.1, this.2.1⟩
  obtain ⟨R, hR, hRl, hRc, hRp⟩ := product_spec (K := ℂ) ms fun m hm => (hmz m hm).1
  have hUp : U * (strs.map (denP 0)).prod = (ms.map (denP 0)).prod * U := by
    clear hms hmz hR hRc hRp hprod hc hmem key
    induction hfor with
    | nil => simp
    | cons h _ ih => rw [List.map_cons, List.map_cons, List.prod_cons, List.prod_cons, ← mul_assoc, h.2.2, mul_assoc, ih, mul_assoc]
  -- the product of the `Z` strings is a `Z` string with coefficient one
  have hRz : IsZ R.1 := by
    intro a ha
    obtain ⟨i, hi, rfl⟩ := List.getElem_of_mem ha
    have h1 : chk s'.N R.1 (i + s'.N) = 0 := by
      rw [hRc]
      clear hms hR hRp hUp hRc hfor
      induction ms with
      | nil => rfl
      | cons m ms ih =>
        rw [List.map_cons, List.sum_cons, Pi.add_apply, ih fun m hm => hmz m (by simp [hm]), add_zero, chk_high _ (by omega)]
        have hm := hmz m (by simp)
        rw [List.getD_eq_getElem _ _ (by omega)]
        rcases hm.2 _ (List.getElem_mem (n := i) (by omega)) with e | e <;> rw [e] <;> rfl
    rw [chk_high _ (by omega), List.getD_eq_getElem _ _ hi] at h1
    revert h1
    generalize R.1[i] = a
    cases a <;> simp [bit, PL.l]
  have hR1 : R.2 = 1 := by
    have h1 := congrFun (congrArg (fun A : Oper ℂ => A fun _ => 1) hRp) fun _ => false
    rw [prod_isZ ms (fun m hm => (hmz m hm).2)] at h1
    have h2 := denP_zl 0 R.1 (fun _ => 1) fun _ => false
    rw [hRz.map_zl, outcome_zero] at h2
    rw [LinearMap.smul_apply, Pi.smul_apply, h2] at h1
    simpa using h1
  have hF : U * (c • denP 0 p : Oper ℂ) = denP 0 R.1 * U := by
    rw [← hprod, hUp, ← hRp, hR1, one_smul]
  have hcP : (c • denP 0 p : Oper ℂ) = V * (denP 0 R.1 * U) := by
    rw [← hF, ← mul_assoc, hVU, one_mul]
  have hc2 : c * c = 1 := by
    have h1 : (c • denP 0 p : Oper ℂ) * (c • denP 0 p : Oper ℂ) = 1 := by
      nth_rewrite 1 [hcP]
      rw [mul_assoc, mul_assoc, hF, ← mul_assoc (denP 0 R.1), Reduce.denP_sq, one_mul, hVU]
    rw [smul_mul_smul_comm, Reduce.denP_sq] at h1
    have h2 := congrFun (congrArg (fun A : Oper ℂ => A fun _ => 1) h1) fun _ => false
    simpa using h2
  refine ⟨strs, c, R.1, hc, ?_, mul_self_eq_one_iff.mp hc2, ?_⟩
  · unfold fetch
    simp only [Option.bind_eq_bind, hms, Option.bind_some, hR]
  · intro ψ φ hφ
    have h1 : (denP 0 p : Oper ℂ) = c • (V * (denP 0 R.1 * U)) := by
      rw [← hcP, smul_smul, hc2, one_smul]
    rw [h1, LinearMap.smul_apply, pair_smul_right, Module.End.mul_apply, Module.End.mul_apply]
    congr 1
    obtain ⟨φ', e1, e2⟩ := hV ψ
    obtain rfl : φ' = φ := DFunLike.coe_injective (e1.trans hφ.symm)
    rw [e2, ← hφ]
    unfold pair Finsupp.sum
    refine Finset.sum_congr rfl fun b _ => ?_
    have h2 := denP_zl 0 R.1 φ' b
    rw [hRz.map_zl] at h2
    rw [← Complex.conj_mul']
    show (starRingEnd ℂ) _ * (denP 0 R.1 : Oper ℂ) φ' b = _
    rw [h2]
    ring

/-- **C119, the circuit cannot be emitted.**  As soon as a string of the group has an `X` or a `Y` the circuit contains a Hadamard gate, whose
emission raises. -/
theorem C119_emit (ps : List PStr) (N : ℕ) (hps : ∀ p ∈ ps, p.length = N) (hq : QubitWise ps)
    (hx : ∃ p ∈ ps, PL.X ∈ p ∨ PL.Y ∈ p) :
    ∃ s, init ps = some s ∧ ∀ fuel, s.l * N < fuel → ∃ res, build fuel s = some res ∧ emitAll res.gates = none := by
  obtain ⟨p, hp, hxy⟩ := hx
  have hne : ps ≠ [] := List.ne_nil_of_mem hp
  obtain ⟨s, hs, hN, hG, hG'⟩ := init_spec ps hne N hps
  refine ⟨s, hs, fun fuel hf => ?_⟩
  obtain ⟨res, hres, _, _, _, hh⟩ := build_spec hq hN hG' fuel hf
  obtain ⟨i, hi, hl⟩ : ∃ i, ∃ h : i < p.length, (p[i]).l = true := by
    rcases hxy with h | h <;> obtain ⟨i, hi, e⟩ := List.getElem_of_mem h <;> exact ⟨i, hi, by rw [e]; rfl⟩
  have hpI : p ≠ List.replicate N .I := by
    rintro rfl
    rw [List.getElem_replicate] at hl
    exact absurd hl (by decide)
  obtain ⟨r, hr, hGr⟩ := hG p hp hpI
  have hpN := hps p hp
  obtain ⟨j, _, hj⟩ := hh ⟨r, hr, i, by omega, by
    rw [hGr, chk_high _ (by omega), List.getD_eq_getElem _ _ hi, hl]; rfl⟩
  refine ⟨res, hres, ?_⟩
  unfold emitAll
  rw [Option.map_eq_none_iff]
  have : ∀ L : List SG, SG.h j ∈ L → L.mapM emit = none := by
    intro L hL
    induction L with
    | nil => simp at hL
    | cons a L ih =>
      rw [List.mapM_cons]
      rcases List.mem_cons.mp hL with rfl | h
      · rfl
      · cases emit a with
        | none => rfl
        | some _ => simp [ih h]
  exact this _ hj

/-! A case: the group of `YX`. -/

example : QubitWise [[.Y, .X], [.I, .X]] := by
  intro p hp q hq i
  rcases i with _ | _ | i <;> simp at hp hq <;> rcases hp with rfl | rfl <;> rcases hq with rfl | rfl <;> simp [letterAt]

example : ((init [[.Y, .X]]).bind fun s => (build 3 s).map fun r => (r.gates, r.tm)) =
    some ([.si 0, .cx 0 1, .h 0], [([.Y, .X], [.Z, .I]), ([.Z, .Z], [.I, .Z])]) := by
  decide

/-- **C119, an empty group raises** (a measurement to which only the identity is assigned: the identity is left out of the list of strings). -/
theorem C119_empty : init [] = none := rfl

end Props
end HQCA
