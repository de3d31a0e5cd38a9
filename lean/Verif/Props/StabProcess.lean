import Verif.Model.StabProcess
import Verif.Spec.Spin
import Verif.Proofs.SpinOps
import Verif.Props.Prepare
import Verif.Props.Measure

/-!
# Property theorems: the symmetry filters on measured records (C86)
-/

namespace HQCA.Props
open HQCA HQCA.Transform HQCA.StabProcess HQCA.Prim HQCA.Prepare

/-- Only `I` and `Z`. -/
def IZ (s : PStr) : Prop := ∀ p ∈ s, p = .I ∨ p = .Z

theorem IZ.map_zl {s : PStr} (h : IZ s) : s.map zl = s := by
  induction s with
  | nil => rfl
  | cons p s ih =>
    rw [List.map_cons, ih (fun q hq => h q (by simp [hq]))]
    rcases h p (by simp) with rfl | rfl <;> rfl

/-- What the filter needs of a transform: the occupation number of an orbital becomes two diagonal strings. -/
structure DiagT (T : Term FStr ℂ → Option (POp ℂ)) (enc : Cfg → Cfg) (N : ℕ) : Prop where
  bij : Function.Bijective enc
  run : ∀ k < N, ∀ c : ℂ, ‖c‖ = 1 → ∃ s1 s2 : PStr, T (oneLetter N k .p, c) = some [(s1, 1/2 * c), (s2, -1/2 * c)] ∧
    s1 ≠ s2 ∧ s1.length = N ∧ s2.length = N ∧ IZ s1 ∧ IZ s2 ∧
    Encodes enc (denPO [(s1, (1/2 : ℂ)), (s2, -1/2)]) (cre k * ann k)

theorem c2_p : (c2 .p : ℂ) = -1/2 := by simp only [c2]; norm_num

theorem IZ_append {s t : PStr} (hs : IZ s) (ht : IZ t) : IZ (s ++ t) := by
  intro p hp; rcases List.mem_append.mp hp with h | h
  · exact hs p h
  · exact ht p h

theorem IZ_rep (n : ℕ) : IZ (List.replicate n .I) := fun p hp => Or.inl (List.eq_of_mem_replicate hp)

theorem diag_jw (N : ℕ) : DiagT jordanWigner id N := by
  refine ⟨Function.bijective_id, fun k hk c hc => ?_⟩
  have ne := (jw_good N).ne hk (o := .p) (by simp)
  obtain ⟨l1, l2⟩ := (jw_good N).len k hk .p (by simp)
  refine ⟨(jwTab N k .p).1, (jwTab N k .p).2, ?_, ne, l1, l2, ?_, ?_, ?_⟩
  · unfold jordanWigner
    rw [loop_one _ _ _ k .p (by rw [List.filter_reverse, letters_one N k .p (by simp)]; rfl), start_eq, length_one N k .p hk,
      tem_eq _ _ _ _ ne, c2_p]
    exact mul_one_letter N _ _ l1 l2 ne _ _ (by norm_num) hc
  · intro p hp
    simp [jwTab, List.mem_replicate] at hp
    tauto
  · intro p hp
    simp [jwTab, List.mem_replicate] at hp
    tauto
  · have := jw_letter (K := ℂ) N k hk .p (by simp)
    rw [tem_eq _ _ _ _ ne, c2_p] at this
    exact this

theorem diag_parity (N : ℕ) : DiagT parity (parityEnc N) N := by
  refine ⟨parityEnc_bijective N, fun k hk c hc => ?_⟩
  have ne := (par_good N).ne hk (o := .p) (by simp)
  obtain ⟨l1, l2⟩ := (par_good N).len k hk .p (by simp)
  refine ⟨(parTab N k .p).1, (parTab N k .p).2, ?_, ne, l1, l2, ?_, ?_, ?_⟩
  · unfold parity
    rw [loop_one _ _ _ k .p (letters_one N k .p (by simp)), start_eq, length_one N k .p hk,
      tem_eq _ _ _ _ ne, c2_p]
    exact mul_one_letter N _ _ l1 l2 ne _ _ (by norm_num) hc
  · intro p hp
    unfold parTab at hp
    split at hp <;> simp [List.mem_replicate] at hp <;> tauto
  · intro p hp
    unfold parTab at hp
    split at hp <;> simp [List.mem_replicate] at hp <;> tauto
  · have := par_letter (K := ℂ) N k hk .p (by simp)
    rw [tem_eq _ _ _ _ ne, c2_p] at this
    exact this

theorem IZ_set {s : PStr} (h : IZ s) (i : ℕ) : IZ (s.set i .Z) := by
  intro p hp
  rcases List.mem_or_eq_of_mem_set hp with h' | h'
  · exact h p h'
  · exact Or.inr h'

theorem IZ_setAll (S : List ℕ) {s : PStr} (h : IZ s) : IZ (setAll s S .Z) := by
  unfold setAll
  induction S generalizing s with
  | nil => exact h
  | cons i S ih => exact ih (IZ_set h i)

theorem diag_bk (N : ℕ) : DiagT bravyiKitaev (bkEnc N) N := by
  refine ⟨bkEnc_bijective N, fun k hk c hc => ?_⟩
  have ne := (bk_good N).ne hk (o := .p) (by simp)
  obtain ⟨l1, l2⟩ := (bk_good N).len k hk .p (by simp)
  refine ⟨(bkTab N k .p).1, (bkTab N k .p).2, ?_, ne, l1, l2, ?_, ?_, ?_⟩
  · unfold bravyiKitaev
    rw [loop_one _ _ _ k .p (letters_one N k .p (by simp)), start_eq, length_one N k .p hk,
      bkTem_eq _ _ _ ne, tem_eq _ _ _ _ ne, c2_p]
    exact mul_one_letter N _ _ l1 l2 ne _ _ (by norm_num) hc
  · simpa [bkTab] using IZ_rep N
  · simpa [bkTab] using IZ_set (IZ_setAll _ (IZ_rep N)) k
  · have := bk_letter (K := ℂ) N k hk .p (by simp)
    rw [bkTem_eq _ _ _ ne, tem_eq _ _ _ _ ne, c2_p] at this
    exact this

/-! ### The operators of the filter -/

theorem generate_pm (c : ℂ) (hc : c ≠ 0) (N k : ℕ) : SpinOps.pm c k k N = some (oneLetter N k .p, c) := by
  have h0 : isZero c = false := by
    rw [← Bool.not_eq_true, Coef.isZero_iff]; exact hc
  simp [SpinOps.pm, Fermi.generate, Fermi.generateCore, Fermi.sortLoop, Fermi.sortStep, Fermi.contractLoop, Fermi.contractStep,
    Fermi.contr, h0, Fermi.build, Fermi.buildRest, oneLetter]

theorem oneLetter_inj (N i j : ℕ) (h : oneLetter N i .p = oneLetter N j .p) : i = j := by
  have key : ∀ i, (oneLetter N i .p).findIdx (fun x => x = .p) = i := by
    intro i
    unfold oneLetter
    rw [List.findIdx_append, List.findIdx_eq_length_of_false (by simp), List.findIdx_cons]
    simp
  rw [← key i, h, key j]

theorem sumPM_eq (f : ℕ → ℂ) (hf : ∀ i, f i ≠ 0) (N n : ℕ) :
    SpinOps.sumPM ((List.range n).map fun i => (f i, i, i)) N = some ((List.range n).map fun i => (oneLetter N i .p, f i)) := by
  unfold SpinOps.sumPM
  rw [OpD.mapM_total (g := fun t : ℂ × ℕ × ℕ => (oneLetter N t.2.1 .p, t.1))]
  · simp only [Option.map_some, List.map_map, Function.comp_def, Option.some.injEq]
    rw [OpD.foldl_addStr_fresh, List.nil_append]
    · simp only [List.nil_append, List.map_map, Function.comp_def]
      exact List.Nodup.map (fun i j h => oneLetter_inj N i j h) List.nodup_range
  · intro t ht
    obtain ⟨i, _, rfl⟩ := List.mem_map.mp ht
    exact generate_pm _ (hf i) N i

theorem encodes_zero (enc : Cfg → Cfg) : Encodes enc (0 : Oper ℂ) 0 := fun _ _ => rfl

theorem encodes_add {enc : Cfg → Cfg} {P Q F G : Oper ℂ} (h1 : Encodes enc P F) (h2 : Encodes enc Q G) :
    Encodes enc (P + Q) (F + G) := by
  intro ψ b
  rw [LinearMap.add_apply, Pi.add_apply, h1, h2]; rfl

theorem encodes_smul {enc : Cfg → Cfg} {P F : Oper ℂ} (c : ℂ) (h1 : Encodes enc P F) : Encodes enc (c • P) (c • F) := by
  intro ψ b
  rw [LinearMap.smul_apply, Pi.smul_apply, h1]; rfl

theorem half_not_small : small (1/2 : ℂ) = false := by
  rw [← Bool.not_eq_true, small_complex]; norm_num

/-- The transformed operator: diagonal strings of the right length, and the right meaning. -/
theorem transform_diag {T : Term FStr ℂ → Option (POp ℂ)} {enc : Cfg → Cfg} {N : ℕ} (hT : DiagT T enc N) (f : ℕ → ℂ)
    (hf : ∀ i, f i = 1 ∨ f i = -1) (l : List ℕ) (hl : ∀ i ∈ l, i < N) :
    ∃ C, OpD.transform T (l.map fun i => (oneLetter N i .p, f i)) = some C ∧ (∀ u ∈ C, u.1.length = N ∧ IZ u.1) ∧
      Encodes enc (denPO C) (SpinOps.esum (l.map fun i => (f i, i, i))) := by
  have fold : ∀ l : List ℕ, (∀ i ∈ l, i < N) → ∃ rs : List (POp ℂ), (l.map fun i => (oneLetter N i .p, f i)).mapM T = some rs ∧
      ∀ (B : POp ℂ) (F : Oper ℂ), UniqueKeys B → GIop (1/2) B → (∀ u ∈ B, u.1.length = N ∧ IZ u.1) → Encodes enc (denPO B) F →
        (∀ u ∈ rs.foldl OpD.add B, u.1.length = N ∧ IZ u.1) ∧
        Encodes enc (denPO (rs.foldl OpD.add B)) (F + SpinOps.esum (l.map fun i => (f i, i, i))) := by
    intro l
    induction l with
    | nil => intro _; exact ⟨[], rfl, fun B F _ _ h h' => ⟨h, by simpa [SpinOps.esum] using h'⟩⟩
    | cons k l ih =>
      intro hl
      obtain ⟨rs, i1, i2⟩ := ih (fun i hi => hl i (List.mem_cons_of_mem _ hi))
      obtain ⟨s1, s2, r1, r2, r3, r4, r5, r6, r7⟩ := hT.run k (hl k List.mem_cons_self) (f k)
        (by rcases hf k with h | h <;> rw [h] <;> simp)
      refine ⟨[(s1, 1/2 * f k), (s2, -1/2 * f k)] :: rs, by rw [List.map_cons, List.mapM_cons, r1, i1]; rfl, ?_⟩
      intro B F hB hBg hBn hBe
      have hfg : GI (f k) := by rcases hf k with h | h <;> rw [h]; exacts [GI.one, GI.neg_one]
      have e4 : GIop (1/2) [(s1, 1/2 * f k), (s2, -1/2 * f k)] := by
        intro u hu
        simp only [List.mem_cons, List.not_mem_nil, or_false] at hu
        rcases hu with rfl | rfl
        · exact ⟨f k, hfg, mul_comm _ _⟩
        · exact ⟨-f k, hfg.neg, by ring⟩
      have hg := hBg.foldl _ e4
      have hlen : ∀ u ∈ OpD.add B [(s1, 1/2 * f k), (s2, -1/2 * f k)], u.1.length = N ∧ IZ u.1 := by
        intro u hu
        have hu' := List.mem_of_mem_filter hu
        have hk := List.mem_map_of_mem (f := (·.1)) hu'
        rcases (OpD.mem_keys_foldl_addStr _ B u.1).mp hk with hk | hk
        · obtain ⟨v, hv, he⟩ := List.mem_map.mp hk
          rw [← he]; exact hBn v hv
        · simp only [List.map_cons, List.map_nil, List.mem_cons, List.not_mem_nil, or_false] at hk
          rcases hk with hk | hk <;> rw [hk]
          · exact ⟨r3, r5⟩
          · exact ⟨r4, r6⟩
      have hden : denPO (OpD.add B [(s1, 1/2 * f k), (s2, -1/2 * f k)]) = (denPO B + f k • denPO [(s1, 1/2), (s2, -1/2)] : Oper ℂ) := by
        unfold OpD.add denPO
        rw [hg.clean_den half_not_small, OpD.denD_foldl_addStr _ _ _ hB]
        congr 1
        simp only [OpD.denD_cons, OpD.denD_nil, add_zero]
        module
      have henc := encodes_add hBe (encodes_smul (f k) r7)
      rw [← hden] at henc
      obtain ⟨j1, j2⟩ := i2 _ _ (OpD.add_unique B _ hB) hg.clean hlen henc
      refine ⟨j1, ?_⟩
      rw [List.map_cons, SpinOps.esum_cons, ← add_assoc]
      exact j2
  obtain ⟨rs, h1, h2⟩ := fold l hl
  obtain ⟨h3, h4⟩ := h2 [] 0 OpD.uniqueKeys_nil (GIop.nil _) (by simp) (encodes_zero enc)
  refine ⟨rs.foldl OpD.add [], by unfold OpD.transform; rw [h1]; rfl, h3, ?_⟩
  rw [zero_add] at h4
  exact h4

/-! ### Evaluation on one record -/

theorem eval_eq (N : ℕ) (C : POp ℂ) (hC : ∀ u ∈ C, u.1.length = N ∧ IZ u.1) (kv : List Bool × ℂ) (hl : kv.1.length = N)
    (hv : kv.2 ≠ 0) : eval N C kv = some ((denPO C : Oper ℂ) (ket (record kv.1)) (record kv.1)) := by
  have key : ∀ (C : POp ℂ), (∀ u ∈ C, u.1.length = N ∧ IZ u.1) → ∀ n : ℂ,
      C.foldlM (fun n op => (Process.counts N op.1 [kv]).map fun m => n + op.2 * m) n
        = some (n + (denPO C : Oper ℂ) (ket (record kv.1)) (record kv.1)) := by
    intro C
    induction C with
    | nil => intro _ n; simp [denPO, OpD.denD_nil]
    | cons u C ih =>
      intro h n
      obtain ⟨h1, h2⟩ := h u List.mem_cons_self
      rw [List.foldlM_cons, C26_mean N u.1 (by omega) [kv] (by simpa using hl) (by simpa using hv)]
      simp only [List.map_cons, List.map_nil, List.sum_cons, List.sum_nil, add_zero, Option.map_some, Option.bind_eq_bind, Option.bind_some]
      rw [ih (fun v hv => h v (List.mem_cons_of_mem _ hv))]
      congr 1
      have hz := denP_zl 0 u.1 (ket (record kv.1)) (record kv.1)
      rw [h2.map_zl] at hz
      have : (ket (record kv.1) (record kv.1) : ℂ) = 1 := by simp [ket]
      rw [this, mul_one] at hz
      simp only [denPO, OpD.denD_cons, LinearMap.add_apply, LinearMap.smul_apply, Pi.add_apply, Pi.smul_apply, smul_eq_mul, hz]
      rw [mul_div_cancel_left₀ _ hv, add_assoc]
  have := key C hC 0
  rw [zero_add] at this
  exact this

/-- Value of a sum of weighted occupation numbers on a record of the encoded configuration. -/
theorem eval_occ {T : Term FStr ℂ → Option (POp ℂ)} {enc : Cfg → Cfg} {N : ℕ} (hT : DiagT T enc N) (f : ℕ → ℂ)
    (hf : ∀ i, f i = 1 ∨ f i = -1) : ∃ A C, SpinOps.sumPM ((List.range N).map fun i => (f i, i, i)) N = some A ∧
      OpD.transform T A = some C ∧ ∀ (kv : List Bool × ℂ) (a : Cfg), kv.1.length = N → kv.2 ≠ 0 → enc a = record kv.1 →
        eval N C kv = some ((List.range N).map fun i => if a i then f i else 0).sum := by
  obtain ⟨C, h1, h2, h3⟩ := transform_diag hT f hf (List.range N) (fun i hi => List.mem_range.mp hi)
  refine ⟨_, C, sumPM_eq f (fun i => by rcases hf i with h | h <;> rw [h] <;> simp) N N, h1, fun kv a hl hv ha => ?_⟩
  rw [eval_eq N C h2 kv hl hv, ← ha, h3]
  have hk : (fun b => ket (enc a) (enc b)) = ket a := by
    classical
    funext b
    simp [ket, hT.bij.1.eq_iff]
  rw [hk]
  have := SpinOps.esum_diag ((List.range N).map fun i => (f i, i)) (ket a) a
  simp only [List.map_map, Function.comp_def] at this
  rw [this]
  simp [ket]

theorem sum_halves (no : ℕ) (a : Cfg) (x : ℂ) :
    ((List.range (2 * no)).map fun i => if a i then (if i < no then 1 else x) else 0).sum =
      (HQCA.occ (List.range no) a : ℂ) + x * (HQCA.occ (List.range' no no) a : ℂ) := by
  have e : List.range (2 * no) = List.range no ++ List.range' no no := by
    rw [List.range_eq_range', List.range_eq_range', two_mul, ← List.range'_append]; simp
  have part : ∀ (l : List ℕ) (y : ℂ), (l.map fun i => if a i then y else 0).sum = y * (HQCA.occ l a : ℂ) := by
    intro l y
    have := SpinOps.sum_ite_const l a y
    simp only [List.map_map, Function.comp_def] at this
    rw [this, HQCA.occ, mul_comm]
  rw [e, List.map_append, List.sum_append]
  congr 1
  · rw [← one_mul (HQCA.occ (List.range no) a : ℂ), ← part]
    congr 1
    apply List.map_congr_left
    intro i hi
    rw [if_pos (List.mem_range.mp hi)]
  · rw [← part]
    congr 1
    apply List.map_congr_left
    intro i hi
    have hi : ¬ i < no := by have := List.mem_range'_1.mp hi; omega
    simp only [if_neg hi]

theorem filterM_some {α : Type} (p : α → Option Bool) (q : α → Bool) (l : List α) (h : ∀ x ∈ l, p x = some (q x)) :
    l.filterM p = some (l.filter q) := by
  have aux : ∀ (l acc : List α), (∀ x ∈ l, p x = some (q x)) → l.filterAuxM p acc = some ((l.filter q).reverse ++ acc) := by
    intro l
    induction l with
    | nil => intro acc _; rfl
    | cons x l ih =>
      intro acc h
      rw [List.filterAuxM, h x List.mem_cons_self]
      simp only [Option.bind_eq_bind, Option.bind_some]
      rw [ih _ (fun y hy => h y (List.mem_cons_of_mem _ hy)), List.filter_cons]
      cases q x <;> simp
  rw [List.filterM, aux l [] h]
  simp

/-- The record belongs to the sector: it is the image of an occupation with `na` electrons among the orbitals `< no` and
`nb` among `no .. 2 no - 1`. -/
def InSector (enc : Cfg → Cfg) (no na nb : ℕ) (det : List Bool) : Prop :=
  ∃ a : Cfg, enc a = record det ∧ HQCA.occ (List.range no) a = na ∧ HQCA.occ (List.range' no no) a = nb

open Classical in
/-- General form of the filter theorem. -/
theorem filter_sector {T : Term FStr ℂ → Option (POp ℂ)} {enc : Cfg → Cfg} {no : ℕ} (hT : DiagT T enc (2 * no)) (na nb : ℕ)
    (c : List (List Bool × ℂ)) (hc : ∀ kv ∈ c, kv.1.length = 2 * no ∧ kv.2 ≠ 0) :
    filterDiagonal T (2 * no) no (na + nb) na nb (List.replicate (2 * no) .Z) c
      = some (c.filter fun kv => decide (InSector enc no na nb kv.1)) := by
  obtain ⟨A1, C1, s1, t1, v1⟩ := eval_occ hT (fun _ => 1) (fun _ => Or.inl rfl)
  obtain ⟨A2, C2, s2, t2, v2⟩ := eval_occ hT (StabProcess.ph no) (fun i => by unfold StabProcess.ph; exact neg_one_pow_eq_or ℂ _)
  unfold filterDiagonal
  rw [if_pos rfl, s1, s2]
  simp only [Option.bind_eq_bind, Option.bind_some, t1, t2]
  apply filterM_some
  intro kv hkv
  obtain ⟨hl, hv⟩ := hc kv hkv
  obtain ⟨a, ha⟩ := hT.bij.2 (record kv.1)
  rw [v1 kv a hl hv ha, v2 kv a hl hv ha]
  have q1 := sum_halves no a 1
  have q2 := sum_halves no a (-1)
  simp only [ite_self] at q1
  have q3 : ((List.range (2 * no)).map fun i => if a i then StabProcess.ph no i else 0).sum =
      ((List.range (2 * no)).map fun i => if a i then (if i < no then (1 : ℂ) else -1) else 0).sum := by
    congr 1
    apply List.map_congr_left
    intro i hi
    have hi := List.mem_range.mp hi
    unfold StabProcess.ph
    split_ifs with h1 h2
    · rw [Nat.div_eq_of_lt h2, pow_zero]
    · rw [show i / no = 1 from Nat.div_eq_of_lt_le (by omega) (by omega), pow_one]
    · rfl
  rw [q3, q1, q2]
  simp only [Option.bind_some, Option.pure_def, Option.some.injEq]
  have : InSector enc no na nb kv.1 ↔ HQCA.occ (List.range no) a = na ∧ HQCA.occ (List.range' no no) a = nb := by
    constructor
    · rintro ⟨b, hb, h⟩
      rwa [hT.bij.1 (hb.trans ha.symm)] at h
    · exact fun h => ⟨a, ha, h⟩
  rw [Bool.eq_iff_iff]
  simp only [Bool.and_eq_true, decide_eq_true_eq, this, one_mul, neg_mul]
  constructor
  · rintro ⟨h1, h2⟩
    push_cast at h1
    constructor
    · have : (2 * HQCA.occ (List.range no) a : ℂ) = 2 * na := by linear_combination h1 + h2
      exact_mod_cast mul_left_cancel₀ two_ne_zero this
    · have : (2 * HQCA.occ (List.range' no no) a : ℂ) = 2 * nb := by linear_combination h1 - h2
      exact_mod_cast mul_left_cancel₀ two_ne_zero this
  · rintro ⟨h1, h2⟩
    rw [h1, h2]
    push_cast
    exact ⟨rfl, by ring⟩

/-! ### The theorems -/

open Classical in
/-- **C86, the filter.**  For counts measured in the basis `Z...Z` with the default orbital order (alpha orbitals first), exactly the
records that encode an occupation with `na` alpha and `nb` beta electrons are kept, with their counts and in order, for the
Jordan-Wigner, parity and Bravyi-Kitaev transforms. -/
theorem C86_filter_partial (no na nb : ℕ) (c : List (List Bool × ℂ)) (hc : ∀ kv ∈ c, kv.1.length = 2 * no ∧ kv.2 ≠ 0) :
    filterDiagonal jordanWigner (2 * no) no (na + nb) na nb (List.replicate (2 * no) .Z) c
      = some (c.filter fun kv => decide (InSector id no na nb kv.1)) ∧
    filterDiagonal parity (2 * no) no (na + nb) na nb (List.replicate (2 * no) .Z) c
      = some (c.filter fun kv => decide (InSector (parityEnc (2 * no)) no na nb kv.1)) ∧
    filterDiagonal bravyiKitaev (2 * no) no (na + nb) na nb (List.replicate (2 * no) .Z) c
      = some (c.filter fun kv => decide (InSector (bkEnc (2 * no)) no na nb kv.1)) :=
  ⟨filter_sector (diag_jw _) na nb c hc, filter_sector (diag_parity _) na nb c hc, filter_sector (diag_bk _) na nb c hc⟩

/-- **C86, other bases.**  Counts of any other circuit are passed on unchanged. -/
theorem C86_other_bases (T : Term FStr ℂ → Option (POp ℂ)) (Nq no ne na nb : ℕ) (original s : PStr) (c : List (List Bool × ℂ))
    (h : original ≠ List.replicate Nq .Z) :
    processDiagonal T Nq no ne na nb original s c = Process.counts Nq s c := by
  unfold processDiagonal filterDiagonal
  rw [if_neg h]; rfl

open Classical in
/-- **C86, the value.**  The value returned for a string is the mean of its outcome over the records of the sector. -/
theorem C86_value_partial {T : Term FStr ℂ → Option (POp ℂ)} {enc : Cfg → Cfg} {no : ℕ} (hT : DiagT T enc (2 * no)) (na nb : ℕ)
    (s : PStr) (hs : s.length ≤ 2 * no) (c : List (List Bool × ℂ)) (hc : ∀ kv ∈ c, kv.1.length = 2 * no ∧ kv.2 ≠ 0)
    (k : List (List Bool × ℂ)) (hk : k = c.filter fun kv => decide (InSector enc no na nb kv.1)) :
    processDiagonal T (2 * no) no (na + nb) na nb (List.replicate (2 * no) .Z) s c =
      if (k.map (·.2)).sum = 0 then none
      else some ((k.map fun x => x.2 * (outcome 0 s (record x.1) : ℂ)).sum / (k.map (·.2)).sum) := by
  unfold processDiagonal
  rw [filter_sector hT na nb c hc, Option.bind_some, ← hk]
  have hlen : ∀ x ∈ k, x.1.length = 2 * no := by
    intro x hx
    rw [hk] at hx
    exact (hc x (List.mem_of_mem_filter hx)).1
  split_ifs with h
  · exact C26_zero_total _ s hs k hlen h
  · exact C26_mean _ s hs k hlen h

/-- The three transforms the value theorem applies to. -/
theorem C86_transforms (N : ℕ) : DiagT jordanWigner id N ∧ DiagT parity (parityEnc N) N ∧ DiagT bravyiKitaev (bkEnc N) N :=
  ⟨diag_jw N, diag_parity N, diag_bk N⟩

/-- **C86 violated** for the alternating orbital order (`alpha = [0,2]`, `beta = [1,3]`): the filter always splits the orbitals
into halves, so the reference determinant itself (one alpha electron in orbital 0, one beta electron in orbital 1; record
`0011`) is discarded and the evaluation raises. -/
theorem C86_alternating_violated (s : PStr) (hs : s.length ≤ 4) :
    initial (alternatingOrbs 2).1 (alternatingOrbs 2).2 1 1 = some [0, 1] ∧
    record [false, false, true, true] = occ [0, 1] ∧
    processDiagonal jordanWigner 4 2 2 1 1 [.Z, .Z, .Z, .Z] s [([false, false, true, true], 1000)] = none := by
  have hr : record [false, false, true, true] = occ [0, 1] := by
    funext i
    match i with
    | 0 => rfl
    | 1 => rfl
    | 2 => rfl
    | 3 => rfl
    | i + 4 => simp [record, occ]
  refine ⟨by decide +kernel, hr, ?_⟩
  have h := C86_value_partial (diag_jw (2 * 2)) 1 1 s hs [([false, false, true, true], 1000)] (by simp) [] ?_
  · simpa using h
  · rw [eq_comm, List.filter_eq_nil_iff]
    intro kv hkv
    simp only [List.mem_cons, List.not_mem_nil, or_false] at hkv
    subst hkv
    simp only [decide_eq_true_eq]
    rintro ⟨a, h1, h2, _⟩
    have h1 : a = occ [0, 1] := h1.trans hr
    subst h1
    revert h2
    decide

/-- A case of the filter theorem with a kept and a discarded record: one alpha and one beta electron in four spin orbitals. -/
example : InSector id 2 1 1 [false, true, false, true] ∧ ¬ InSector id 2 1 1 [false, false, true, true] := by
  constructor
  · exact ⟨_, rfl, by decide, by decide⟩
  · rintro ⟨a, h1, h2, _⟩
    have h1 : a = record [false, false, true, true] := h1
    subst h1
    revert h2
    decide

/-! ### Ancilla checks -/

/-- **C86, parity checks.**  With one ancilla (two), the first character (the first two characters) of a record are the ancilla
bits; a record is kept iff the ancilla agrees with the parity of the number of electrons (of alpha in the second
character, of beta in the first). -/
theorem C86_parity (nq ne : ℕ) (c : List (List Bool × ℂ)) (hc : ∀ kv ∈ c, kv.1.length = nq + 1) :
    parityCheck 1 (nq + 1) nq ne c = some (c.filter fun kv => decide (kv.1.head? = some (decide (ne % 2 = 1)))) := by
  unfold parityCheck
  rw [if_neg (by simp)]
  apply filterM_some
  intro kv hkv
  have h := hc kv hkv
  obtain ⟨k, v⟩ := kv
  match k, h with
  | b :: k, _ => simp [Process.pyGet]

theorem C86_parity_spin (nq na nb : ℕ) (c : List (List Bool × ℂ)) (hc : ∀ kv ∈ c, kv.1.length = nq + 2) :
    parityCheckSpin 2 (nq + 2) nq na nb c =
      some (c.filter fun kv => decide (kv.1.take 2 = [decide (nb % 2 = 1), decide (na % 2 = 1)])) := by
  unfold parityCheckSpin
  rw [if_neg (by simp)]
  apply filterM_some
  intro kv hkv
  have h := hc kv hkv
  obtain ⟨k, v⟩ := kv
  match k, h with
  | b :: a :: k, _ =>
    have e1 : ((nq + 2 : ℕ) : ℤ) - nq - 1 = 1 := by push_cast; ring
    have e2 : ((nq + 2 : ℕ) : ℤ) - nq - 2 = 0 := by push_cast; ring
    simp only [e1, e2, Process.pyGet]
    by_cases ha : a = decide (na % 2 = 1) <;> simp [ha]

/-- The wrong number of ancillas ends the program. -/
theorem C86_parity_ancilla (nqAnc nqTot nq na nb : ℕ) (c : List (List Bool × ℂ)) :
    (nqAnc ≠ 1 → parityCheck nqAnc nqTot nq (na + nb) c = none) ∧ (nqAnc ≠ 2 → parityCheckSpin nqAnc nqTot nq na nb c = none) :=
  ⟨fun h => if_pos h, fun h => if_pos h⟩

end HQCA.Props
