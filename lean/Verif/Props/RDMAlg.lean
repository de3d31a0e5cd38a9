import Verif.Proofs.RDMDet
import Verif.Props.RDMExact

/-!
# Properties C30 (Hartree–Fock RDMs), C31 (contraction), C33 (reshaping)
-/

set_option linter.unusedSectionVars false

namespace HQCA.Props
open Rec RDM

variable {K : Type} [Coef K]

/-! ### C33 -/

omit [Coef K] in
theorem ravel_append (s1 s2 i1 i2 : List ℕ) (h : i1.length = s1.length) :
    ravel (s1 ++ s2) (i1 ++ i2) = ravel s1 i1 * s2.prod + ravel s2 i2 := by
  induction s1 generalizing i1 with
  | nil =>
    have : i1 = [] := List.length_eq_zero_iff.mp (by simpa using h)
    subst this
    simp [ravel]
  | cons a s1 ih =>
    cases i1 with
    | nil => simp at h
    | cons x i1 =>
      simp only [List.cons_append, ravel, List.prod_append]
      rw [ih i1 (by simpa using h)]
      ring

/-- Position in the `r^p` rows (or columns) of the index tuple `c`. -/
def compound (r : ℕ) (c : List ℕ) : ℕ := c.foldl (fun acc x => acc * r + x) 0

omit [Coef K] in
theorem ravel_compound (r : ℕ) (c : List ℕ) : ravel (List.replicate c.length r) c = compound r c := by
  induction c using List.reverseRecOn with
  | nil => rfl
  | append_singleton c x ih =>
    rw [List.length_append, List.length_singleton, List.replicate_add, ravel_append _ _ _ _ (by simp), ih]
    simp [compound, ravel]

omit [Coef K] in
theorem compound_lt (r : ℕ) (c : List ℕ) (h : ∀ x ∈ c, x < r) : compound r c < r ^ c.length := by
  induction c using List.reverseRecOn with
  | nil => simp [compound]
  | append_singleton c x ih =>
    have h1 := ih (fun y hy => h y (by simp [hy]))
    have h2 := h x (by simp)
    have e : compound r (c ++ [x]) = compound r c * r + x := by simp [compound]
    rw [e, List.length_append, List.length_singleton, pow_succ]
    calc compound r c * r + x < compound r c * r + r := by omega
      _ = (compound r c + 1) * r := by ring
      _ ≤ r ^ c.length * r := Nat.mul_le_mul_right r h1

/-- **C33.**  Contracting a `(r,)*2p` tensor succeeds and expanding the result gives the tensor back. -/
theorem C33_round_trip (p r : ℕ) (a : Arr K) (h : a.shape = List.replicate (2 * p) r) :
    ∃ m, contract p r a = some m ∧ expand p r m = some a := by
  obtain ⟨sh, d⟩ := a
  dsimp only at h
  subst h
  unfold contract expand
  by_cases hp : p = 1
  · exact ⟨_, if_pos hp, if_pos hp⟩
  · simp only [hp, if_false, Arr.reshape, List.prod_replicate, List.prod_cons, List.prod_nil, mul_one]
    have e : r ^ p * r ^ p = r ^ (2 * p) := by rw [← pow_add]; congr 1; omega
    rw [if_pos e]
    exact ⟨_, rfl, by simp [e]⟩

/-- **C33.**  `switch` twice is the identity on tensors and on matrices. -/
theorem C33_switch (p r : ℕ) (a : Arr K)
    (h : a.shape = List.replicate (2 * p) r ∨ (p ≠ 1 ∧ a.shape = [r ^ p, r ^ p])) :
    ((switch p r a).bind (switch p r)) = some a := by
  obtain ⟨sh, d⟩ := a
  dsimp only at h
  have e : r ^ p * r ^ p = r ^ (2 * p) := by rw [← pow_add]; congr 1; omega
  unfold switch contract expand Arr.reshape
  rcases h with rfl | ⟨hp, rfl⟩
  · by_cases hp : p = 1
    · subst hp; simp
    · have h2 : ¬ (2 * p = 2) := by omega
      simp [hp, e]
  · have h2 : ¬ (2 * p = 2) := by omega
    simp [hp, e]

/-- **C33.**  The matrix groups the `p` creation indices into the row and the `p` annihilation indices into the column. -/
theorem C33_layout (p r : ℕ) (hp : p ≠ 1) (a m : Arr K) (h : a.shape = List.replicate (2 * p) r)
    (hm : contract p r a = some m) (c d : List ℕ) (hc : c.length = p) (hd : d.length = p)
    (hcr : ∀ x ∈ c, x < r) (hdr : ∀ x ∈ d, x < r) :
    m.get [compound r c, compound r d] = a.get (c ++ d) := by
  obtain ⟨sh, data⟩ := a
  dsimp only at h
  subst h
  simp only [contract, hp, if_false, Arr.reshape] at hm
  split at hm
  · cases hm
    unfold Arr.get
    have h1 := compound_lt r c hcr
    have h2 := compound_lt r d hdr
    rw [hc] at h1
    rw [hd] at h2
    have hz : ∀ x ∈ (c ++ d).zip (List.replicate (2 * p) r), x.1 < x.2 := by
      intro x hx
      have hl := List.of_mem_zip hx
      rw [(List.mem_replicate.mp hl.2).2]
      rcases List.mem_append.mp hl.1 with h | h
      · exact hcr _ h
      · exact hdr _ h
    rw [if_pos ⟨by simp, by simp [h1, h2]⟩, if_pos ⟨by simp [hc, hd]; omega, hz⟩]
    congr 1
    rw [two_mul, List.replicate_add, ravel_append _ _ _ _ (by simp [hc])]
    have e1 := ravel_compound r c
    have e2 := ravel_compound r d
    rw [hc] at e1
    rw [hd] at e2
    rw [e1, e2]
    simp [ravel]
  · cases hm

example : ∃ m, contract 2 3 (⟨[3, 3, 3, 3], (List.range 81).map (fun n => (n : GQ))⟩ : Arr GQ) = some m ∧
    m.get [5, 7] = some 52 := ⟨_, rfl, by decide +kernel⟩

/-! ### C30 -/

theorem writes_eq (ws : List (List ℕ × K)) (ind : List ℕ) (v : K) (h : ∀ w ∈ ws, w.1 = ind → w.2 = v)
    (hex : ∃ w ∈ ws, w.1 = ind) : writes ws ind = v := by
  unfold writes
  obtain ⟨w, hw, e⟩ := hex
  have hne : ws.filter (fun w => w.1 = ind) ≠ [] := by
    intro h0
    have := List.filter_eq_nil_iff.mp h0 w hw
    simp [e] at this
  rw [List.getLast?_eq_getLast_of_ne_nil hne]
  have := List.getLast_mem hne
  obtain ⟨h1, h2⟩ := List.mem_filter.mp this
  simp only [Option.map_some, Option.getD_some]
  exact h _ h1 (by simpa using h2)

theorem writes_zero (ws : List (List ℕ × K)) (ind : List ℕ) (h : ∀ w ∈ ws, w.1 ≠ ind) : writes ws ind = 0 := by
  unfold writes
  have : ws.filter (fun w => w.1 = ind) = [] := by
    rw [List.filter_eq_nil_iff]
    intro w hw
    simpa using h w hw
  rw [this]; rfl

/-- The occupation of the orbitals in a list. -/
def occCfg (occ : List ℕ) : Cfg := fun i => decide (i ∈ occ)

/-- **C30, orders 1 to 3.**  The Hartree–Fock RDM is the RDM of the determinant with the orbitals `occ` occupied, at
every index.  Missing: order 4, where it is false (`C30_fails_order4`). -/
theorem C30_hartree_fock_partial (p : ℕ) (hp0 : 0 < p) (hp : p ≤ 3) (occ : List ℕ) (c a : List ℕ)
    (hc : c.length = p) (ha : a.length = p) :
    (buildHF p occ (c ++ a) : K) = rdm (det (occCfg occ)) c a := by
  have hA := rdm_antisym p (det (occCfg occ) : Cfg →₀ K)
  unfold buildHF
  by_cases h : c.Perm a ∧ c.Nodup ∧ ∀ x ∈ c, x ∈ occ
  · obtain ⟨hca, hcn, hocc⟩ := h
    apply writes_eq
    · intro w hw e
      simp only [List.mem_flatMap, List.mem_map] at hw
      obtain ⟨S, hS, x, hx, y, hy, rfl⟩ := hw
      obtain ⟨hSl, hSo, hSs⟩ := (C29_permute occ p S).mp hS
      have hSn : S.Nodup := hSs.imp (fun h => by omega)
      have hne : S ≠ [] := by rintro rfl; simp at hSl; omega
      have hxp : x.1.Perm S := (C29_all_permutations S hne x.1).mp (List.mem_map_of_mem hx)
      obtain ⟨e1, e2⟩ := List.append_inj e (by rw [hxp.length_eq, hSl, hc])
      have h1 := anti_perm p hp (fun l => rdm (det (occCfg occ) : Cfg →₀ K) l y.1)
        (fun xs x' y' zs h => hA.1 xs x' y' zs y.1 h (by
          rw [((C29_all_permutations S hne y.1).mp (List.mem_map_of_mem hy)).length_eq, hSl])) S hSl x hx
      have h2 := anti_perm p hp (fun l => rdm (det (occCfg occ) : Cfg →₀ K) S l)
        (fun xs x' y' zs h => hA.2 S xs x' y' zs h hSl) S hSl y hy
      have h3 := (rdm_det (K := K) (occCfg occ) S S).2 hSn (by intro x hx; simpa [occCfg] using hSo x hx)
      rw [← e1, ← e2, h1, h2, h3]
      push_cast; ring
    · obtain ⟨S, hS, hSp⟩ := exists_sorted p (c.sum + 1) c hc hcn (fun x hx => by
        have := List.single_le_sum (l := c) (by simp) x hx; omega)
      have hne : S ≠ [] := by rintro rfl; have := hS.1; simp at this; omega
      have hcS := (C29_all_permutations S hne c).mpr hSp
      have haS := (C29_all_permutations S hne a).mpr (hca.symm.trans hSp)
      obtain ⟨x, hx, rfl⟩ := List.mem_map.mp hcS
      obtain ⟨y, hy, rfl⟩ := List.mem_map.mp haS
      refine ⟨(x.1 ++ y.1, ((x.2 * y.2 : ℤ) : K)), ?_, rfl⟩
      simp only [List.mem_flatMap, List.mem_map]
      exact ⟨S, (C29_permute occ p S).mpr ⟨hS.1, fun z hz => hocc z (hSp.mem_iff.mpr hz), hS.2.1⟩, x, hx, y, hy, rfl⟩
  · rw [(rdm_det (K := K) (occCfg occ) c a).1 (by simpa [occCfg] using h)]
    apply writes_zero
    intro w hw e
    simp only [List.mem_flatMap, List.mem_map] at hw
    obtain ⟨S, hS, x, hx, y, hy, rfl⟩ := hw
    obtain ⟨hSl, hSo, hSs⟩ := (C29_permute occ p S).mp hS
    have hSn : S.Nodup := hSs.imp (fun h => by omega)
    have hne : S ≠ [] := by rintro rfl; simp at hSl; omega
    have hxp : x.1.Perm S := (C29_all_permutations S hne x.1).mp (List.mem_map_of_mem hx)
    have hyp : y.1.Perm S := (C29_all_permutations S hne y.1).mp (List.mem_map_of_mem hy)
    obtain ⟨e1, e2⟩ := List.append_inj e (by rw [hxp.length_eq, hSl, hc])
    rw [← e1, ← e2] at h
    exact h ⟨hxp.trans hyp.symm, hxp.nodup_iff.mpr hSn, fun z hz => hSo z (hxp.mem_iff.mp hz)⟩

/-- **C30, order 4 is violated**: the entry `0 1 2 3; 0 3 1 2` of four electrons should be `+1` (an even permutation of
the diagonal) but is `-1`. -/
theorem C30_fails_order4 : (buildHF 4 [0, 1, 2, 3] [0, 1, 2, 3, 0, 3, 1, 2] : GQ) = -1 ∧
    (rdm (det (occCfg [0, 1, 2, 3])) [0, 1, 2, 3] [0, 3, 1, 2] : GQ) = 1 := by
  constructor
  · decide +kernel
  · have hA := rdm_antisym 4 (det (occCfg [0, 1, 2, 3]) : Cfg →₀ GQ)
    have h1 := hA.2 [0, 1, 2, 3] [0] 1 3 [2] rfl rfl
    have h2 := hA.2 [0, 1, 2, 3] [0, 1] 2 3 [] rfl rfl
    have h3 := (rdm_det (K := GQ) (occCfg [0, 1, 2, 3]) [0, 1, 2, 3] [0, 1, 2, 3]).2 (by decide) (by decide)
    simp only [List.cons_append, List.nil_append] at h1 h2
    rw [h1, h2, h3, neg_neg]

theorem occAlpha_occCfg (r : ℕ) (occ : List ℕ) (hn : occ.Nodup) (hr : ∀ x ∈ occ, x < r) :
    occAlpha r (occCfg occ) = occ.length := by
  unfold occAlpha
  apply List.Perm.length_eq
  rw [List.perm_ext_iff_of_nodup (List.nodup_range.filter _) hn]
  intro x
  simp only [List.mem_filter, List.mem_range, occCfg, decide_eq_true_eq]
  exact ⟨fun h => h.2, fun h => ⟨hr x h, h⟩⟩

theorem sector_det (r : ℕ) (occ : List ℕ) (hn : occ.Nodup) (hr : ∀ x ∈ occ, x < r) :
    Sector r (occ.length : ℤ) ((det (occCfg occ) : Cfg →₀ K) : Cfg → K) := by
  classical
  intro b hb
  rw [det_eq] at hb
  have : b = occCfg occ := by
    by_contra h
    exact hb (by simp [delta, h])
  rw [this, occAlpha_occCfg r occ hn hr]

theorem det_norm (b : Cfg) : pair (det b : Cfg →₀ K) (det b : Cfg →₀ K) = 1 := by
  unfold det
  rw [pair_single, conj_one, Finsupp.single_eq_same, one_mul]

/-- The trace of a `p`-tensor. -/
def trace (p r : ℕ) (D : List ℕ → K) : K := ((tuples r p).map (fun c => D (c ++ c))).sum

/-- **C30.**  The trace of the Hartree–Fock RDM is `N!/(N-p)!`, orders 1 to 3. -/
theorem C30_trace_partial (p : ℕ) (hp0 : 0 < p) (hp : p ≤ 3) (r : ℕ) (occ : List ℕ) (hn : occ.Nodup)
    (hr : ∀ x ∈ occ, x < r) : trace p r (buildHF p occ : List ℕ → K) = (occ.length.descFactorial p : K) := by
  unfold trace
  rw [← rdm_trace (det (occCfg occ)) r occ.length (det_norm _) (sector_det r occ hn hr) p]
  congr 1
  apply List.map_congr_left
  intro c hc
  have := ((mem_tuples r p c).mp hc).1
  exact C30_hartree_fock_partial p hp0 hp occ c c this this

/-- **C30.**  The Hartree–Fock RDM is antisymmetric and Hermitian, orders 1 to 3. -/
theorem C30_antisymmetric_partial (p : ℕ) (hp0 : 0 < p) (hp : p ≤ 3) (occ : List ℕ) :
    Antisym p (entry (buildHF p occ : List ℕ → K)) ∧ Herm p (entry (buildHF p occ : List ℕ → K)) := by
  have hA := rdm_antisym p (det (occCfg occ) : Cfg →₀ K)
  refine ⟨⟨?_, ?_⟩, ?_⟩
  · intro xs x y zs a h ha
    unfold entry
    rw [C30_hartree_fock_partial p hp0 hp occ _ a (by simpa using h) ha,
      C30_hartree_fock_partial p hp0 hp occ _ a h ha, hA.1 _ _ _ _ _ h ha]
  · intro c xs x y zs h hc
    unfold entry
    rw [C30_hartree_fock_partial p hp0 hp occ c _ hc (by simpa using h),
      C30_hartree_fock_partial p hp0 hp occ c _ hc h, hA.2 _ _ _ _ _ h hc]
  · intro c a hc ha
    unfold entry
    rw [C30_hartree_fock_partial p hp0 hp occ a c ha hc, C30_hartree_fock_partial p hp0 hp occ c a hc ha, rdm_herm]

/-! ### C31 -/

/-- **C31, orders 2 and 3.**  Contracting the `p`-RDM of a state with `Ne` electrons in `r` orbitals gives its
`(p-1)`-RDM.  Missing: order 4, where the result is zero (`C31_fails_order4`). -/
theorem C31_state_partial [CharZero K] (p : ℕ) (hp : p = 2 ∨ p = 3) (r : ℕ) (Ne : ℤ) (hNe : Ne ≠ p - 1) (ψ : Cfg →₀ K)
    (hψ : Sector r Ne ψ) (D : List ℕ → K)
    (hD : ∀ c a : List ℕ, c.length = p → a.length = p → (∀ x ∈ c, x < r) → (∀ x ∈ a, x < r) → D (c ++ a) = rdm ψ c a) :
    ∃ D', reduceOrder p r Ne D = some D' ∧
      ∀ c a : List ℕ, c.length + 1 = p → a.length + 1 = p → (∀ x ∈ c, x < r) → (∀ x ∈ a, x < r) →
        D' (c ++ a) = rdm ψ c a := by
  unfold reduceOrder
  rw [if_neg (by omega)]
  refine ⟨_, rfl, ?_⟩
  intro c a hc ha hcr har
  have hk : (((Ne - p + 1 : ℤ)) : K) ≠ 0 := by
    exact Int.cast_ne_zero.mpr (by omega)
  have h := rdm_contract ψ r Ne hψ c a har
  have e : ((Ne - a.length : ℤ) : K) = ((Ne - p + 1 : ℤ) : K) := by congr 1; omega
  have hsum : ((List.range r).map (fun x => D ((c ++ [x]) ++ (a ++ [x])))).sum = ((Ne - p + 1 : ℤ) : K) * rdm ψ c a := by
    rw [← e, ← h]
    congr 1
    apply List.map_congr_left
    intro x hx
    have hx := List.mem_range.mp hx
    exact hD _ _ (by simpa using hc) (by simpa using ha)
      (by intro y hy; rcases List.mem_append.mp hy with hy | hy; exact hcr y hy; simp at hy; omega)
      (by intro y hy; rcases List.mem_append.mp hy with hy | hy; exact har y hy; simp at hy; omega)
  rcases hp with rfl | rfl
  · match c, a, hc, ha with
    | [i], [j], _, _ =>
      simp only [List.cons_append, List.nil_append] at hsum ⊢
      rw [hsum]; field_simp
  · match c, a, hc, ha with
    | [i, j], [k, l], _, _ =>
      simp only [List.cons_append, List.nil_append] at hsum ⊢
      rw [hsum]; field_simp

/-- **C31.**  For Hartree–Fock RDMs: contracting the order-`p` RDM gives the order-`p-1` RDM of the same electrons. -/
theorem C30_contraction_partial [CharZero K] (p : ℕ) (hp : p = 2 ∨ p = 3) (r : ℕ) (occ : List ℕ) (hn : occ.Nodup)
    (hr : ∀ x ∈ occ, x < r) (hN : occ.length + 1 ≠ p) :
    ∃ D', reduceOrder p r occ.length (buildHF p occ : List ℕ → K) = some D' ∧
      ∀ c a : List ℕ, c.length + 1 = p → a.length + 1 = p → (∀ x ∈ c, x < r) → (∀ x ∈ a, x < r) →
        D' (c ++ a) = buildHF (p - 1) occ (c ++ a) := by
  obtain ⟨D', h1, h2⟩ := C31_state_partial (K := K) p hp r occ.length (by omega) (det (occCfg occ)) (sector_det r occ hn hr)
    (buildHF p occ : List ℕ → K) (fun c a hc ha _ _ => C30_hartree_fock_partial p (by omega) (by omega) occ c a hc ha)
  refine ⟨D', h1, fun c a hc ha hcr har => ?_⟩
  rw [h2 c a hc ha hcr har,
    C30_hartree_fock_partial (K := K) (p - 1) (by omega) (by omega) occ c a (by omega) (by omega)]

/-- **C31.**  For every tensor: contraction divides the trace by `Ne-p+1`, and keeps antisymmetry and Hermiticity
(orders 2 and 3). -/
theorem C31_tensor_partial [CharZero K] (p : ℕ) (hp : p = 2 ∨ p = 3) (r : ℕ) (Ne : ℤ) (D D' : List ℕ → K)
    (h : reduceOrder p r Ne D = some D') :
    trace (p - 1) r D' * ((Ne - p + 1 : ℤ) : K) = trace p r D ∧
    (Antisym p (entry D) → Antisym (p - 1) (entry D')) ∧ (Herm p (entry D) → Herm (p - 1) (entry D')) := by
  unfold reduceOrder at h
  split at h
  · cases h
  rename_i hne
  have hk : (((Ne - p + 1 : ℤ)) : K) ≠ 0 := Int.cast_ne_zero.mpr hne
  set κ : K := 1 / ((Ne - p + 1 : ℤ) : K) with hκ
  have hD' : ∀ c a : List ℕ, c.length + 1 = p → a.length + 1 = p →
      D' (c ++ a) = ((List.range r).map (fun x => D ((c ++ [x]) ++ (a ++ [x])))).sum * κ := by
    intro c a hc ha
    simp only [Option.some.injEq] at h
    subst h
    rcases hp with rfl | rfl
    · match c, a, hc, ha with
      | [i], [j], _, _ => rfl
    · match c, a, hc, ha with
      | [i, j], [k, l], _, _ => rfl
  have hκc : conj κ = κ := by
    rw [hκ]
    have e : conj (((Ne - p + 1 : ℤ) : K)) = ((Ne - p + 1 : ℤ) : K) := conj_intCast _
    have e2 : conj (1 / ((Ne - p + 1 : ℤ) : K)) * ((Ne - p + 1 : ℤ) : K) = 1 := by
      conv_lhs => rw [← e, ← Coef.conj_mul]
      rw [e, one_div_mul_cancel hk, conj_one]
    rw [eq_div_iff hk, e2]
  refine ⟨?_, ?_, ?_⟩
  · obtain ⟨q, rfl⟩ : ∃ q, p = q + 1 := ⟨p - 1, by omega⟩
    rw [Nat.add_sub_cancel]
    unfold trace
    rw [tuples_sum_snoc, ← List.sum_map_mul_right]
    congr 1
    apply List.map_congr_left
    intro c hc
    have := ((mem_tuples r q c).mp hc).1
    rw [hD' c c (by omega) (by omega), hκ]
    field_simp
  · intro hA
    constructor
    · intro xs x y zs a h1 h2
      unfold entry
      have l2 : (xs ++ x :: y :: zs).length + 1 = p := by omega
      have l1 : (xs ++ y :: x :: zs).length + 1 = p := by rw [← l2]; simp
      have l3 : a.length + 1 = p := by omega
      rw [hD' _ _ l1 l3, hD' _ _ l2 l3, ← neg_mul, List.sum_neg, List.map_map]
      congr 2
      apply List.map_congr_left
      intro z _
      have := hA.1 xs x y (zs ++ [z]) (a ++ [z]) (by simp at l2 ⊢; omega) (by simpa using l3)
      simpa [entry] using this
    · intro c xs x y zs h1 h2
      unfold entry
      have l2 : (xs ++ x :: y :: zs).length + 1 = p := by omega
      have l1 : (xs ++ y :: x :: zs).length + 1 = p := by rw [← l2]; simp
      have l3 : c.length + 1 = p := by omega
      rw [hD' _ _ l3 l1, hD' _ _ l3 l2, ← neg_mul, List.sum_neg, List.map_map]
      congr 2
      apply List.map_congr_left
      intro z _
      have := hA.2 (c ++ [z]) xs x y (zs ++ [z]) (by simp at l2 ⊢; omega) (by simpa using l3)
      simpa [entry] using this
  · intro hH c a h1 h2
    unfold entry
    have l1 : c.length + 1 = p := by omega
    have l2 : a.length + 1 = p := by omega
    rw [hD' _ _ l2 l1, hD' _ _ l1 l2, Coef.conj_mul, hκc, conj_listSum, List.map_map]
    congr 2
    apply List.map_congr_left
    intro z _
    exact hH (c ++ [z]) (a ++ [z]) (by simpa using l1) (by simpa using l2)

/-- **C31 is violated at order 4** (and 1): the contracted tensor is zero whatever the input. -/
theorem C31_fails_order4 (r : ℕ) (Ne : ℤ) (D D' : List ℕ → K) (h : reduceOrder 4 r Ne D = some D') : D' = fun _ => 0 := by
  unfold reduceOrder at h
  split at h
  · cases h
  · simp only [Option.some.injEq] at h
    subst h
    funext ind
    simp

/-- **C31 is violated for `Ne = p-1`**: `ZeroDivisionError`, e.g. the 2-RDM of one electron. -/
theorem C31_raises (p r : ℕ) (D : List ℕ → K) : reduceOrder p r (p - 1) D = none := by
  unfold reduceOrder
  rw [if_pos (by omega)]

example : (buildHF 2 [0, 1, 4] [0, 4, 4, 0] : GQ) = -1 ∧ trace 2 5 (buildHF 2 [0, 1, 4] : List ℕ → GQ) = 6 := by
  decide +kernel

end HQCA.Props
