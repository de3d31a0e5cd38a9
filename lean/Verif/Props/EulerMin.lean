import Verif.Props.EulerRun

/-!
# C121 for two electrons in two spatial orbitals: no condition on the Pauli forms
-/

namespace HQCA
namespace Props
open ACSE ACSEEn EulerRun HFStore Ham Prepare Resid UCC
noncomputable section

/-! ### The strings of the residual operator, letter by letter -/

/-- The letter of `a†i a†k a_l a_j` at orbital `x`. -/
def pat (i k j l x : ℕ) : FL := if x = i ∨ x = k then (if x = j ∨ x = l then .p else .cr) else if x = j ∨ x = l then .an else .i

def patStr (N i k j l : ℕ) : FStr := (List.range N).map (pat i k j l)

theorem survives_getD (b : Cfg) (k : ℕ) (s : FStr) (h : survivesAll b k s) (x : ℕ) (hx : x < s.length) : survives b (k + x) (s.getD x .i) := by
  induction s generalizing k x with
  | nil => simp at hx
  | cons y s ih =>
    cases x with
    | zero => exact h.1
    | succ x =>
      have := ih (k + 1) h.2 x (by simpa using hx)
      rwa [show k + 1 + x = k + (x + 1) by ring] at this

theorem gop_out {r : ℕ} (i k j l : Fin r) (h1 : i ≠ k) (φ : Cfg → ℂ) (b : Cfg) (h : (gop i k j l : Oper ℂ) φ b ≠ 0) : b i.val = true ∧ b k.val = true := by
  unfold gop at h
  rw [Module.End.mul_apply] at h
  change (if b i.val then fsign b i.val * (if (Function.update b i.val false) k.val then _ else (0 : ℂ)) else (0 : ℂ)) ≠ 0 at h
  split at h
  · rename_i hb
    refine ⟨hb, ?_⟩
    split at h
    · rename_i hk
      rwa [Function.update_of_ne (fun e => h1 (Fin.ext e.symm))] at hk
    · exact absurd (mul_zero _) h
  · exact absurd rfl h

theorem additive_at (x : ℕ) : SymProj.Additive (fun k o => if k = x then wt o else 0) := by
  have := additive_wt fun k => decide (k = x)
  simpa using this

theorem letter_det' (o : FL) (p q u v : Prop) [Decidable p] [Decidable q] [Decidable u] [Decidable v] (h1 : ¬(p ∧ q)) (h2 : ¬(u ∧ v))
    (hs : o ≠ .i ↔ p ∨ q ∨ v ∨ u)
    (hw : wt o = (if p then wt .cr else 0) + ((if q then wt .cr else 0) + ((if v then wt .an else 0) + ((if u then wt .an else 0) + 0))))
    (hh : p ∨ q → o ≠ .h) : o = if p ∨ q then (if u ∨ v then .p else .cr) else if u ∨ v then .an else .i := by
  by_cases a1 : p <;> by_cases a2 : q <;> by_cases a3 : u <;> by_cases a4 : v <;> cases o <;> simp_all [wt]

theorem letter_det (o : FL) (i k j l : ℕ) {x : ℕ} (h1 : ¬(x = i ∧ x = k)) (h2 : ¬(x = j ∧ x = l)) (hs : o ≠ .i ↔ x = i ∨ x = k ∨ x = l ∨ x = j)
    (hw : wt o = (if x = i then wt .cr else 0) + ((if x = k then wt .cr else 0) + ((if x = l then wt .an else 0) + ((if x = j then wt .an else 0) + 0))))
    (hh : x = i ∨ x = k → o ≠ .h) : o = pat i k j l x :=
  letter_det' o _ _ _ _ h1 h2 hs hw hh

theorem gen_key (N : ℕ) (c : ℂ) (hc : c ≠ 0) (i k j l : Fin N) (h1 : i ≠ k) (h2 : j ≠ l) (t : Term FStr ℂ)
    (ht : Fermi.generate true c [(i.val, .cr), (k.val, .cr), (l.val, .an), (j.val, .an)] N = some t) :
    t.1 = patStr N i.val k.val j.val l.val ∧ t.2 • denF 0 t.1 = c • (gop i k j l : Oper ℂ) := by
  have hok : okLetters [(i.val, FL.cr), (k.val, .cr), (l.val, .an), (j.val, .an)] := by
    intro x hx
    simp only [List.mem_cons, List.not_mem_nil, or_false] at hx
    rcases hx with rfl | rfl | rfl | rfl <;> simp
  obtain ⟨t', e1, e2, e3⟩ := generate_spec (K := ℂ) c _ N hok
  rw [ht] at e1
  cases e1
  have hlen := e3 (fun a ha => by
    simp only [List.mem_cons, List.not_mem_nil, or_false] at ha
    rcases ha with rfl | rfl | rfl | rfl <;> simp)
  have hw : (wordF [(i.val, FL.cr), (k.val, .cr), (l.val, .an), (j.val, .an)] : Oper ℂ) = gop i k j l := by
    simp [wordF, gop, fop]
  rw [hw] at e2
  refine ⟨?_, e2⟩
  have ht0 : t.2 ≠ 0 := by
    intro h0
    rw [h0, zero_smul] at e2
    exact gop_ne i k j l h1 h2 ((smul_eq_zero.mp e2.symm).resolve_left hc)
  have hcore : Fermi.generateCore true c [(i.val, .cr), (k.val, .cr), (l.val, .an), (j.val, .an)] N = some t := ht
  obtain ⟨hs, hf⟩ := SymProj.generate_letters true c _ N hok t hcore ht0
  rw [pairs_eq] at hs hf
  obtain ⟨b, hb⟩ := exists_survives 0 t.1
  have hout : b i.val = true ∧ b k.val = true := by
    refine gop_out i k j l h1 (fun _ => 1) b fun h0 => ?_
    have hne := (denF_apply_ne (K := ℂ) 0 t.1 b).mpr hb
    have := congrFun (LinearMap.congr_fun e2 (fun _ => 1)) b
    rw [LinearMap.smul_apply, LinearMap.smul_apply, Pi.smul_apply, Pi.smul_apply, h0, smul_zero] at this
    exact (smul_ne_zero ht0 hne) this
  refine List.ext_getElem (by simp [patStr, hlen]) fun x hx1 hx2 => ?_
  have hsite := hs x
  rw [SymProj.mem_pairsFrom] at hsite
  have hwt := hf ℤ _ (additive_at x)
  have hsum := SymProj.sum_pairsFrom (M := ℤ) wt rfl 0 t.1 x (Nat.zero_le _)
  rw [hsum] at hwt
  have hsv := survives_getD b 0 t.1 hb x hx1
  rw [Nat.zero_add] at hsv
  rw [Nat.sub_zero] at hsite hwt
  rw [List.getD_eq_getElem _ _ hx1] at hsite hwt hsv
  have h1' : i.val ≠ k.val := fun h => h1 (Fin.ext h)
  have h2' : j.val ≠ l.val := fun h => h2 (Fin.ext h)
  have e : (patStr N i.val k.val j.val l.val)[x] = pat i.val k.val j.val l.val x := by simp [patStr]
  rw [e]
  have hh : (x = i.val ∨ x = k.val) → t.1[x] ≠ .h := by
    rintro (rfl | rfl) h0 <;> rw [h0] at hsv <;> simp [survives, hout] at hsv
  simp only [List.map_cons, List.map_nil, List.sum_cons, List.sum_nil, List.mem_cons, List.not_mem_nil, or_false, Nat.zero_le, true_and] at hwt hsite
  exact letter_det _ _ _ _ _ (fun h => h1' (h.1.symm.trans h.2)) (fun h => h2' (h.1.symm.trans h.2)) hsite
    (by simpa only [eq_comm (b := x)] using hwt) hh

theorem pat_dag (i k j l x : ℕ) : Fermi.conjLetter (pat i k j l x) = pat j l i k x := by
  unfold pat
  by_cases a1 : x = i ∨ x = k <;> by_cases a2 : x = j ∨ x = l <;> simp [a1, a2, Fermi.conjLetter]

theorem patStr_dag (N i k j l : ℕ) : dagS (patStr N i k j l) = patStr N j l i k := by
  unfold dagS patStr
  rw [List.map_map]
  exact List.map_congr_left fun x _ => pat_dag i k j l x

theorem sgnS_dagS (s : FStr) : sgnS (dagS s) = sgnS s := by
  induction s with
  | nil => rfl
  | cons x s ih =>
    have h1 : sgnS (dagS (x :: s)) = sgnS (Fermi.conjLetter x :: dagS s) := rfl
    rw [h1, sgnS, sgnS, ih, isOdd_conj, countP_dagS]

/-- The strings of an entry and of the transposed entry. -/
theorem gen_anti (N : ℕ) (c : ℂ) (hc : c ≠ 0) (hr : (starRingEnd ℂ) c = c) (i k j l : Fin N) (h1 : i ≠ k) (h2 : j ≠ l) (t u : Term FStr ℂ)
    (ht : Fermi.generate true c [(i.val, .cr), (k.val, .cr), (l.val, .an), (j.val, .an)] N = some t)
    (hu : Fermi.generate true (-c) [(j.val, .cr), (l.val, .cr), (k.val, .an), (i.val, .an)] N = some u) :
    u.1 = dagS t.1 ∧ u.2 = -(sgnS t.1 * (starRingEnd ℂ) t.2) := by
  obtain ⟨t1, t2⟩ := gen_key N c hc i k j l h1 h2 t ht
  obtain ⟨u1, u2⟩ := gen_key N (-c) (neg_ne_zero.mpr hc) j l i k h2 h1 u hu
  have hk : u.1 = dagS t.1 := by rw [u1, t1, patStr_dag]
  refine ⟨hk, ?_⟩
  have a1 := (isAdj_denF 0 (dagS t.1)).smul (sgnS t.1 * (starRingEnd ℂ) t.2)
  rw [dagS_dagS, sgnS_dagS] at a1
  have a2 := (isAdj_gop (K := ℂ) j l i k).smul c
  have e1 : conj (sgnS t.1 * (starRingEnd ℂ) t.2) • sgnS t.1 • (denF 0 t.1 : Oper ℂ) = conj c • gop i k j l := by
    rw [show (conj c : ℂ) = c from hr, ← t2, smul_smul]
    congr 1
    show (starRingEnd ℂ) (sgnS t.1 * (starRingEnd ℂ) t.2) * sgnS t.1 = t.2
    rw [map_mul, sgnS_conj, Complex.conj_conj, mul_right_comm, sgnS_sq, one_mul]
  rw [e1] at a1
  have e2 := IsAdj.left_unique a1 a2
  rw [hk] at u2
  have e3 : (-u.2) • (denF 0 (dagS t.1) : Oper ℂ) = (sgnS t.1 * (starRingEnd ℂ) t.2) • denF 0 (dagS t.1) := by
    rw [e2]
    have h : ∀ (x y : ℂ) (X Y : Oper ℂ), x • X = (-y) • Y → (-x) • X = y • Y := by
      intro x y X Y h
      have e : (-x) • X = -(x • X) := by ext ψ b; simp
      rw [e, h]
      ext ψ b
      simp
    exact h _ _ _ _ u2
  have e4 := smul_left_injective ℂ (denF_ne_zero (K := ℂ) 0 (dagS t.1)) e3
  rw [← e4, neg_neg]

/-- The residual operator is anti-Hermitian term by term. -/
theorem classical_anti {no : ℕ} (S : ℝ) (A : Fin (2 * no) → Fin (2 * no) → Fin (2 * no) → Fin (2 * no) → ℂ)
    (hr : ∀ a b c d, (starRingEnd ℂ) (A a b c d) = A a b c d) (ha : ∀ i k j l, A j l i k = -A i k j l)
    (hs : ∀ i k j l, S ≤ ‖A i k j l‖ → ¬(i.val < no ↔ k.val < no) ∧ ¬(j.val < no ↔ l.val < no)) (B : OpD FStr ℂ) (x : ℝ)
    (hB : Collect.classical S A = some (B, x)) :
    AntiTerms B ∧ UniqueKeys B ∧ ∀ t ∈ B, ∃ i k j l : Fin (2 * no), ¬(i.val < no ↔ k.val < no) ∧ ¬(j.val < no ↔ l.val < no) ∧
      t.1 = patStr (2 * no) i.val k.val j.val l.val := by
  unfold Collect.classical at hB
  obtain ⟨B', b1, b2⟩ := Option.bind_eq_some_iff.mp hB
  split at b2
  swap
  · exact absurd b2 (by simp)
  obtain ⟨rfl, _⟩ := Prod.mk.inj (Option.some.inj b2)
  unfold resOp at b1
  obtain ⟨us, u1, rfl⟩ := Option.map_eq_some_iff.mp b1
  have hU : UniqueKeys (us.foldl OpD.addStr ([] : OpD FStr ℂ)) := OpD.foldl_addStr_unique us [] List.nodup_nil
  set gen : ℂ × List (ℕ × FL) → Term FStr ℂ := fun t => (Fermi.generate true t.1 t.2 (2 * no)).getD ([], 0) with hgen
  have hus : us = (resTerms (Collect.above S) A).map gen := by
    have : ∀ (l : List (ℂ × List (ℕ × FL))) us, l.mapM (fun t => Fermi.generate true t.1 t.2 (2 * no)) = some us → us = l.map gen := by
      intro l
      induction l with
      | nil => intro us h; simpa using h.symm
      | cons a l ih =>
        intro us h
        rw [List.mapM_cons] at h
        obtain ⟨y, y1, h⟩ := Option.bind_eq_some_iff.mp h
        obtain ⟨ys, y2, h⟩ := Option.bind_eq_some_iff.mp h
        have := ih ys y2
        rw [List.map_cons, ← this, hgen]
        simp only [y1, Option.getD_some]
        exact (Option.some.inj h).symm
    exact this _ _ u1
  set word : Fin (2 * no) → Fin (2 * no) → Fin (2 * no) → Fin (2 * no) → ℂ × List (ℕ × FL) :=
    fun i k j l => (-A i k j l, [(i.val, .cr), (k.val, .cr), (l.val, .an), (j.val, .an)]) with hword
  set Kp : Fin (2 * no) → Fin (2 * no) → Fin (2 * no) → Fin (2 * no) → Prop :=
    fun i k j l => Coef.isZero (A i k j l) = false ∧ Collect.above S (A i k j l) = true with hKp
  have hkp : ∀ i k j l, Kp i k j l → A i k j l ≠ 0 ∧ ¬(i.val < no ↔ k.val < no) ∧ ¬(j.val < no ↔ l.val < no) := by
    intro i k j l h
    have hkeep : S ≤ ‖A i k j l‖ := by
      have := h.2
      unfold Collect.above at this
      simpa using this
    refine ⟨fun h0 => ?_, hs _ _ _ _ hkeep⟩
    have := (Coef.isZero_iff (A i k j l)).mpr h0
    have h' := h.1
    rw [this] at h'
    exact absurd h' (by simp)
  have hksym : ∀ i k j l, Kp j l i k ↔ Kp i k j l := by
    intro i k j l
    simp only [hKp]
    rw [ha i k j l]
    have e1 : Coef.isZero (-A i k j l) = Coef.isZero (A i k j l) := by
      rw [Bool.eq_iff_iff, Coef.isZero_iff, Coef.isZero_iff, neg_eq_zero]
    have e2 : Collect.above S (-A i k j l) = Collect.above S (A i k j l) := by
      unfold Collect.above
      rw [norm_neg]
    rw [e1, e2]
  have hpart : ∀ i k j l, Kp i k j l → (gen (word j l i k)).1 = dagS (gen (word i k j l)).1 ∧
      (gen (word j l i k)).2 = -(sgnS (gen (word i k j l)).1 * (starRingEnd ℂ) (gen (word i k j l)).2) ∧
      (gen (word i k j l)).1 = patStr (2 * no) i.val k.val j.val l.val := by
    intro i k j l h
    obtain ⟨k1, k2, k3⟩ := hkp i k j l h
    have hok : ∀ i k j l : Fin (2 * no), okLetters [(i.val, FL.cr), (k.val, .cr), (l.val, .an), (j.val, .an)] := by
      intro i k j l x hx
      simp only [List.mem_cons, List.not_mem_nil, or_false] at hx
      rcases hx with rfl | rfl | rfl | rfl <;> simp
    obtain ⟨t, t1, _⟩ := generate_spec (K := ℂ) (-A i k j l) _ (2 * no) (hok i k j l)
    obtain ⟨u, u1, _⟩ := generate_spec (K := ℂ) (-A j l i k) _ (2 * no) (hok j l i k)
    have et : gen (word i k j l) = t := by simp only [hgen, hword]; rw [t1]; rfl
    have eu : gen (word j l i k) = u := by simp only [hgen, hword]; rw [u1]; rfl
    have hik : i ≠ k := fun e => k2 (by rw [e])
    have hjl : j ≠ l := fun e => k3 (by rw [e])
    rw [ha i k j l] at u1
    have := gen_anti (2 * no) (-A i k j l) (neg_ne_zero.mpr k1) (by rw [map_neg, hr]) i k j l hik hjl t u t1 u1
    rw [et, eu]
    exact ⟨this.1, this.2, (gen_key (2 * no) _ (neg_ne_zero.mpr k1) i k j l hik hjl t t1).1⟩
  have hmem : ∀ u, u ∈ us ↔ ∃ i k j l, Kp i k j l ∧ u = gen (word i k j l) := by
    intro u
    rw [hus, List.mem_map]
    unfold resTerms
    simp only [List.mem_flatMap, List.mem_finRange, true_and]
    constructor
    · rintro ⟨t, ⟨i, k, j, l, ht⟩, rfl⟩
      split at ht
      · rename_i hc
        rw [List.mem_singleton] at ht
        exact ⟨i, k, j, l, hc, by rw [ht]⟩
      · simp at ht
    · rintro ⟨i, k, j, l, hc, rfl⟩
      exact ⟨word i k j l, ⟨i, k, j, l, by rw [if_pos hc]; simp [hword]⟩, rfl⟩
  classical
  have hsum : ∀ s, coef (us.foldl OpD.addStr ([] : OpD FStr ℂ)) s =
      ∑ i, ∑ k, ∑ j, ∑ l, if Kp i k j l then (if (gen (word i k j l)).1 = s then (gen (word i k j l)).2 else 0) else 0 := by
    intro s
    rw [OpD.coef_foldl_addStr us [] List.nodup_nil, show coef ([] : OpD FStr ℂ) s = 0 from rfl, zero_add, OpD.coef_eq_sum, hus, List.map_map]
    unfold resTerms
    simp only [map_sum_flatMap, finRange_sum]
    refine Finset.sum_congr rfl fun i _ => Finset.sum_congr rfl fun k _ => Finset.sum_congr rfl fun j _ => Finset.sum_congr rfl fun l _ => ?_
    by_cases hc : Kp i k j l
    · rw [if_pos hc, if_pos hc]
      simp [hword]
    · rw [if_neg hc, if_neg hc]
      simp
  have hco : ∀ s, coef (us.foldl OpD.addStr ([] : OpD FStr ℂ)) (dagS s) =
      -(sgnS s * (starRingEnd ℂ) (coef (us.foldl OpD.addStr ([] : OpD FStr ℂ)) s)) := by
    intro s
    rw [hsum, hsum, swap_pairs]
    simp only [map_sum, Finset.mul_sum, ← Finset.sum_neg_distrib]
    refine Finset.sum_congr rfl fun i _ => Finset.sum_congr rfl fun k _ => Finset.sum_congr rfl fun j _ => Finset.sum_congr rfl fun l _ => ?_
    by_cases hc : Kp i k j l
    · rw [if_pos hc, if_pos ((hksym i k j l).mpr hc)]
      obtain ⟨p1, p2, _⟩ := hpart i k j l hc
      rw [p1, p2]
      by_cases e : (gen (word i k j l)).1 = s
      · rw [if_pos e, if_pos (by rw [e]), e]
      · rw [if_neg e, if_neg fun h => e (dagS_inj h)]
        simp
    · rw [if_neg hc, if_neg (fun h => hc ((hksym i k j l).mp h))]
      simp
  have hkey : ∀ t ∈ us.foldl OpD.addStr ([] : OpD FStr ℂ), ∃ i k j l, Kp i k j l ∧ t.1 = (gen (word i k j l)).1 := by
    intro t ht
    have := (OpD.mem_keys_foldl_addStr us [] t.1).mp (List.mem_map_of_mem ht)
    rcases this with h | h
    · simp at h
    · obtain ⟨u, hu, e⟩ := List.mem_map.mp h
      obtain ⟨i, k, j, l, hc, rfl⟩ := (hmem u).mp hu
      exact ⟨i, k, j, l, hc, e.symm⟩
  refine ⟨?_, hU, ?_⟩
  · intro t ht
    obtain ⟨i, k, j, l, hc, e⟩ := hkey t ht
    have hin : dagS t.1 ∈ (us.foldl OpD.addStr ([] : OpD FStr ℂ)).map (·.1) := by
      rw [OpD.mem_keys_foldl_addStr]
      right
      rw [e, ← (hpart i k j l hc).1]
      exact List.mem_map_of_mem ((hmem _).mpr ⟨j, l, i, k, (hksym i k j l).mpr hc, rfl⟩)
    obtain ⟨v, hv, ev⟩ := List.mem_map.mp hin
    have h1 := OpD.coef_of_mem _ hU v hv
    have h2 := OpD.coef_of_mem _ hU t ht
    rw [ev, hco, h2] at h1
    rw [show (dagS t.1, -(sgnS t.1 * (starRingEnd ℂ) t.2)) = v from Prod.ext ev.symm h1]
    exact hv
  · intro t ht
    obtain ⟨i, k, j, l, hc, e⟩ := hkey t ht
    exact ⟨i, k, j, l, (hkp i k j l hc).2.1, (hkp i k j l hc).2.2, by rw [e, (hpart i k j l hc).2.2]⟩

/-! ### Imaginary Pauli coefficients -/

/-- What `clean` leaves of a coefficient. -/
def cl (v : ℂ) : ℂ := if small v then 0 else v

theorem coef_fold (rs : List (POp ℂ)) (P : PStr) : ∀ C : POp ℂ, UniqueKeys C →
    UniqueKeys (rs.foldl OpD.add C) ∧ coef (rs.foldl OpD.add C) P = rs.foldl (fun v r => cl (v + coef r P)) (coef C P) := by
  induction rs with
  | nil => exact fun C h => ⟨h, rfl⟩
  | cons r rs ih =>
    intro C h
    have hU : UniqueKeys (r.foldl OpD.addStr C) := OpD.foldl_addStr_unique r C h
    have hA : UniqueKeys (OpD.add C r) := by
      unfold OpD.add OpD.clean
      exact (List.filter_sublist.map _).nodup hU
    obtain ⟨i1, i2⟩ := ih _ hA
    refine ⟨i1, ?_⟩
    rw [List.foldl_cons, i2, List.foldl_cons]
    congr 1
    unfold OpD.add
    rw [OpD.coef_clean _ hU, OpD.coef_foldl_addStr r C h]
    rfl

theorem cl_cl (v : ℂ) : cl (cl v) = cl v := by
  unfold cl
  by_cases h : small v = true
  · simp [h]
  · simp [h]

theorem fold_filter (xs : List ℂ) : ∀ v, cl v = v → xs.foldl (fun v x => cl (v + x)) v = (xs.filter fun x => x ≠ 0).foldl (fun v x => cl (v + x)) v := by
  induction xs with
  | nil => exact fun _ _ => rfl
  | cons x xs ih =>
    intro v hv
    rw [List.foldl_cons, List.filter_cons]
    by_cases hx : x = 0
    · rw [if_neg (by simp [hx]), hx, add_zero, hv]
      exact ih v hv
    · rw [if_pos (by simp [hx]), List.foldl_cons]
      exact ih _ (cl_cl _)

theorem cl_zero : cl 0 = 0 := by unfold cl; split <;> rfl

theorem cl_large {v : ℂ} (h : small v = false) : cl v = v := by unfold cl; rw [h]; rfl

theorem cl_small {v : ℂ} (h : small v = true) : cl v = 0 := by unfold cl; rw [h]; rfl

/-- Two pairs of opposite numbers cancel in every order, also when a partial sum is cleaned away. -/
theorem fold_four (xs : List ℂ) (hl : xs.length ≤ 4) (h0 : ∀ x ∈ xs, x ≠ 0) (hb : ∀ x ∈ xs, small x = false) (hp : (xs.map fun x => -x).Perm xs) :
    xs.foldl (fun v x => cl (v + x)) 0 = 0 := by
  have hsum : xs.sum = 0 := by
    have h := hp.sum_eq
    have e : (xs.map fun x => -x).sum = -xs.sum := by
      clear hp h hl h0 hb
      induction xs with
      | nil => simp
      | cons x xs ih => rw [List.map_cons, List.sum_cons, ih, List.sum_cons]; ring
    rw [e] at h
    exact self_eq_neg.mp h.symm
  have hin : ∀ x ∈ xs, -x ∈ xs := fun x hx => hp.subset (List.mem_map_of_mem hx)
  have hself : ∀ x ∈ xs, -x ≠ x := fun x hx h => h0 x hx (self_eq_neg.mp h.symm)
  have neg_small : ∀ v w : ℂ, v = -w → small w = true → small v = true := by
    intro v w e h
    rw [e, small_norm (norm_neg w)]
    exact h
  match xs, hl with
  | [], _ => rfl
  | [a], _ =>
    have := hin a (by simp)
    simp only [List.mem_singleton] at this
    exact absurd this (hself a (by simp))
  | [a, b], _ =>
    simp only [List.sum_cons, List.sum_nil, add_zero] at hsum
    simp only [List.foldl_cons, List.foldl_nil, zero_add]
    rw [cl_large (hb a (by simp)), hsum, cl_zero]
  | [a, b, c], _ =>
    simp only [List.sum_cons, List.sum_nil, add_zero] at hsum
    have := hin a (by simp)
    simp only [List.mem_cons, List.not_mem_nil, or_false] at this
    rcases this with h | h | h
    · exact absurd h (hself a (by simp))
    · exact absurd (by rw [← h] at hsum; linear_combination hsum) (h0 c (by simp))
    · exact absurd (by rw [← h] at hsum; linear_combination hsum) (h0 b (by simp))
  | [a, b, c, d], _ =>
    simp only [List.sum_cons, List.sum_nil, add_zero] at hsum
    have ha := cl_large (hb a (by simp))
    have hbb := cl_large (hb b (by simp))
    have hcc := cl_large (hb c (by simp))
    have := hin a (by simp)
    simp only [List.mem_cons, List.not_mem_nil, or_false] at this
    simp only [List.foldl_cons, List.foldl_nil, zero_add, ha]
    rcases this with h | h | h | h
    · exact absurd h (hself a (by simp))
    · have e1 : a + b = 0 := by rw [← h]; ring
      have e2 : c + d = 0 := by linear_combination hsum - e1
      rw [e1, cl_zero, zero_add, hcc, e2, cl_zero]
    · have e2 : b + d = 0 := by rw [← h] at hsum; linear_combination hsum
      by_cases hs : small (a + b) = true
      · rw [cl_small hs, zero_add, hcc]
        exact cl_small (neg_small _ (a + b) (by rw [← h]; linear_combination e2) hs)
      · have hs : small (a + b) = false := by simpa using hs
        rw [cl_large hs, show a + b + c = b by rw [← h]; ring, hbb, e2, cl_zero]
    · have e2 : b + c = 0 := by rw [← h] at hsum; linear_combination hsum
      by_cases hs : small (a + b) = true
      · rw [cl_small hs, zero_add, hcc]
        exact cl_small (neg_small _ (a + b) (by rw [← h]; linear_combination e2) hs)
      · have hs : small (a + b) = false := by simpa using hs
        rw [cl_large hs, show a + b + c = a by linear_combination e2, ha, show a + d = 0 by rw [← h]; ring, cl_zero]
  | a :: b :: c :: d :: e :: xs, hl => exact absurd hl (by simp)

theorem nLetters_dagS (s : FStr) : Transform.nLetters (dagS s) = Transform.nLetters s := by
  unfold Transform.nLetters dagS
  rw [List.filter_map, List.length_map]
  congr 2
  funext x
  cases x <;> rfl

theorem coef_conj (r : POp ℂ) (P : PStr) : coef (r.map fun t => (t.1, (starRingEnd ℂ) t.2)) P = (starRingEnd ℂ) (coef r P) := by
  rw [OpD.coef_eq_sum, OpD.coef_eq_sum]
  induction r with
  | nil => simp
  | cons t r ih =>
    simp only [List.map_cons, List.sum_cons] at ih ⊢
    rw [ih, map_add]
    congr 1
    split <;> simp

theorem coef_negs (r : POp ℂ) (P : PStr) : coef (r.map fun t => (t.1, (-1 : ℂ) * t.2)) P = -coef r P := by
  rw [OpD.coef_eq_sum, OpD.coef_eq_sum]
  induction r with
  | nil => simp
  | cons t r ih =>
    simp only [List.map_cons, List.sum_cons] at ih ⊢
    rw [ih, neg_add]
    congr 1
    split <;> simp

/-- The contribution of a term to the coefficient of a Pauli string. -/
def contrib (P : PStr) (t : Term FStr ℂ) : ℂ := coef ((Transform.jordanWigner t).getD []) P

/-- The negative adjoint of a term. -/
def negAdj (t : Term FStr ℂ) : Term FStr ℂ := (dagS t.1, -(sgnS t.1 * (starRingEnd ℂ) t.2))

theorem sgnS_norm (s : FStr) : ‖sgnS s‖ = 1 := by
  have h := congrArg norm (sgnS_sq s)
  rw [norm_mul, norm_one] at h
  nlinarith [norm_nonneg (sgnS s)]

theorem negAdj_norm (t : Term FStr ℂ) : ‖(negAdj t).2‖ = ‖t.2‖ := by
  show ‖-(sgnS t.1 * (starRingEnd ℂ) t.2)‖ = _
  rw [norm_neg, norm_mul, sgnS_norm, one_mul, RCLike.norm_conj]

theorem contrib_spec (P : PStr) (t : Term FStr ℂ) (hn : Transform.nLetters t.1 ≠ 0) (hr : (starRingEnd ℂ) t.2 = t.2) :
    (contrib P t ≠ 0 → small (contrib P t) = false ∧ flipMask P = ladder t.1) ∧
      (ySign P = 1 → contrib P (negAdj t) = -contrib P t) := by
  have hs := Transform.jw_spec (K := ℂ) t
  have hs' := Transform.jw_spec (K := ℂ) (negAdj t)
  have hn' : Transform.nLetters (negAdj t).1 = Transform.nLetters t.1 := nLetters_dagS t.1
  have hsm : small ((negAdj t).2 / 2 ^ Transform.nLetters (negAdj t).1) = small (t.2 / 2 ^ Transform.nLetters t.1) := by
    rw [hn']
    exact small_norm (by rw [norm_div, norm_div, negAdj_norm])
  by_cases hb : small (t.2 / 2 ^ Transform.nLetters t.1) = true
  · have e1 := hs.below hn hb
    have e2 := hs'.below (by rw [hn']; exact hn) (by rw [hsm]; exact hb)
    unfold contrib
    rw [e1, e2]
    exact ⟨fun h => absurd rfl h, fun _ => by show (0 : ℂ) = -0; simp⟩
  · have hb : small (t.2 / 2 ^ Transform.nLetters t.1) = false := by simpa using hb
    obtain ⟨r, e1, e2, e3, _, e5, e6⟩ := hs.above (Or.inr hb)
    obtain ⟨r', f1, f2, f3, _, _, f6⟩ := hs'.above (Or.inr (by rw [hsm]; exact hb))
    have hc : contrib P t = coef r P := by unfold contrib; rw [e1]; rfl
    have hc' : contrib P (negAdj t) = coef r' P := by unfold contrib; rw [f1]; rfl
    rw [hc, hc']
    constructor
    · intro hne
      have hin : P ∈ r.map (·.1) := by by_contra h; exact hne (OpD.coef_of_not_mem r P h)
      obtain ⟨u, hu, rfl⟩ := List.mem_map.mp hin
      rw [OpD.coef_of_mem r e2 u hu]
      refine ⟨?_, jw_flips t (Or.inr hn) r e1 u hu⟩
      obtain ⟨e, he⟩ := e5 u hu
      rw [he, ← hb]
      refine small_norm ?_
      rw [norm_mul, norm_zpow]
      have : ‖(Coef.I : ℂ)‖ = 1 := Complex.norm_I
      rw [this, one_zpow, mul_one]
    · intro hy
      have a1 := isAdj_denPO r
      have a2 := (isAdj_denF 0 (dagS t.1)).smul (sgnS t.1 * (starRingEnd ℂ) t.2)
      rw [dagS_dagS, sgnS_dagS] at a2
      have g1 : conj (sgnS t.1 * (starRingEnd ℂ) t.2) • sgnS t.1 • (denF 0 t.1 : Oper ℂ) = denPO r := by
        rw [e6, smul_smul]
        congr 1
        show (starRingEnd ℂ) (sgnS t.1 * (starRingEnd ℂ) t.2) * sgnS t.1 = t.2
        rw [map_mul, sgnS_conj, Complex.conj_conj, mul_right_comm, sgnS_sq, one_mul]
      rw [g1] at a2
      have g2 := IsAdj.left_unique a1 a2
      have g3 : (denPO (r'.map fun t => (t.1, (-1 : ℂ) * t.2)) : Oper ℂ) = denPO (r.map fun t => (t.1, (starRingEnd ℂ) t.2)) := by
        rw [g2]
        have h1 : ∀ q : POp ℂ, (denPO (q.map fun t => (t.1, (-1 : ℂ) * t.2)) : Oper ℂ) = -denPO q := by
          intro q
          induction q with
          | nil => simp [denPO_nil']
          | cons u q ih =>
            rw [List.map_cons, denPO_cons', denPO_cons', ih, neg_add]
            congr 1
            ext ψ b
            simp
        rw [h1, f6]
        ext ψ b
        simp [negAdj]
      have g4 := coef_unique t.1.length _ _ (fun u hu => by
        obtain ⟨v, hv, rfl⟩ := List.mem_map.mp hu
        rw [f3 v hv]
        show (dagS t.1).length = _
        simp [dagS]) (fun u hu => by
        obtain ⟨v, hv, rfl⟩ := List.mem_map.mp hu
        exact e3 v hv) g3 P
      rw [coef_conj] at g4
      have g5 : coef (r'.map fun t => (t.1, (-1 : ℂ) * t.2)) P = -coef r' P := by
        exact coef_negs r' P
      have g6 : (starRingEnd ℂ) (coef r P) = coef r P := by
        by_cases hin : P ∈ r.map (·.1)
        · obtain ⟨u, hu, rfl⟩ := List.mem_map.mp hin
          rw [OpD.coef_of_mem r e2 u hu]
          have := jw_real t hr r e1 u hu
          rwa [hy, one_mul] at this
        · rw [OpD.coef_of_not_mem r P hin, map_zero]
      rw [g5, g6] at g4
      rw [← g4, neg_neg]

/-- What is known of the search directions: anti-Hermitian term by term, and made of operators that move one electron of each spin. -/
structure MinOp (no : ℕ) (A : OpD FStr ℂ) : Prop where
  anti : AntiTerms A
  uniq : UniqueKeys A
  key : ∀ t ∈ A, ∃ i k j l : Fin (2 * no), ¬(i.val < no ↔ k.val < no) ∧ ¬(j.val < no ↔ l.val < no) ∧ t.1 = patStr (2 * no) i.val k.val j.val l.val

/-- At most four terms change the same orbitals. -/
def FewPer (A : OpD FStr ℂ) : Prop := ∀ m, (A.filter fun t => ladder t.1 = m).length ≤ 4

theorem MinOp.filter {no : ℕ} {A : OpD FStr ℂ} (h : MinOp no A) (p : Term FStr ℂ → Bool) (hp : ∀ t, p (negAdj t) = p t) : MinOp no (A.filter p) where
  anti t ht := by
    obtain ⟨h1, h2⟩ := List.mem_filter.mp ht
    exact List.mem_filter.mpr ⟨h.anti t h1, (hp t).trans h2⟩
  uniq := (List.filter_sublist.map _).nodup h.uniq
  key t ht := h.key t (List.mem_filter.mp ht).1

theorem MinOp.clean {no : ℕ} {A : OpD FStr ℂ} (h : MinOp no A) : MinOp no (OpD.clean A) :=
  h.filter _ fun t => by rw [small_norm (negAdj_norm t)]

theorem MinOp.relTrunc {no : ℕ} {A : OpD FStr ℂ} (h : MinOp no A) (thr : ℝ) : MinOp no (relTrunc (fun c : ℂ => ‖c‖) thr A) := by
  have hM : ∃ M : ℝ, (∀ t ∈ A, ‖t.2‖ ≤ M) ∧ (A = [] ∨ ∃ t ∈ A, ‖t.2‖ = M) := by
    rcases A.eq_nil_or_concat with e | ⟨_, x, e⟩
    · exact ⟨0, by simp [e], Or.inl e⟩
    · classical
      obtain ⟨t, t1, t2⟩ := Finset.exists_max_image A.toFinset (fun t => ‖t.2‖) ⟨x, by simp [e]⟩
      exact ⟨‖t.2‖, fun u hu => t2 u (by simpa using hu), Or.inr ⟨t, by simpa using t1, rfl⟩⟩
  obtain ⟨M, m1, m2⟩ := hM
  rw [C41_complex thr A h.uniq M m1 m2]
  exact h.filter _ fun t => by rw [negAdj_norm]

theorem MinOp.scaled {no : ℕ} {A : OpD FStr ℂ} (h : MinOp no A) (eps : ℝ) : MinOp no (Euler.scaled (eps : ℂ) A) where
  anti t ht := by
    obtain ⟨u, hu, rfl⟩ := List.mem_map.mp ht
    refine List.mem_map.mpr ⟨_, h.anti u hu, ?_⟩
    refine Prod.ext rfl ?_
    show -(sgnS u.1 * (starRingEnd ℂ) u.2) * (-1 * (eps : ℂ)) = -(sgnS u.1 * (starRingEnd ℂ) (u.2 * (-1 * (eps : ℂ))))
    rw [map_mul, map_mul, map_neg, map_one, Complex.conj_ofReal]
    ring
  uniq := by
    have := h.uniq
    unfold UniqueKeys Euler.scaled at *
    rwa [List.map_map]
  key t ht := by
    obtain ⟨u, hu, rfl⟩ := List.mem_map.mp ht
    exact h.key u hu

theorem add_min {no : ℕ} {L : List (OpD FStr ℂ)} (hL : ∀ A ∈ L, MinOp no A) {O : OpD FStr ℂ} (hO : MinOp no O) :
    ∀ A ∈ Ansatz.add 1 L O, MinOp no A := by
  intro A hA
  unfold Ansatz.add at hA
  split at hA
  · rw [List.mem_singleton] at hA
    rw [hA]; exact hO
  · rename_i hn
    unfold Ansatz.clean Ansatz.layers at hA
    rw [if_neg hn, if_pos rfl] at hA
    obtain ⟨B, hB, rfl⟩ := List.mem_map.mp (List.mem_filter.mp hA).1
    rcases List.mem_append.mp hB with hB | hB
    · exact (hL B hB).clean
    · rw [List.mem_singleton] at hB
      rw [hB]; exact hO.clean

theorem ySign_cases (s : PStr) : ySign s = 1 ∨ ySign s = -1 := by
  unfold ySign
  refine Finset.prod_induction _ (fun z : ℂ => z = 1 ∨ z = -1) ?_ (Or.inl rfl) ?_
  · rintro a b (rfl | rfl) (rfl | rfl) <;> simp
  · intro i _
    split <;> simp

theorem transform_fold (A : OpD FStr ℂ) (C : POp ℂ) (hC : OpD.transform Transform.jordanWigner A = some C) :
    C = (A.map fun t => (Transform.jordanWigner t).getD []).foldl OpD.add [] := by
  unfold OpD.transform at hC
  obtain ⟨rs, r1, rfl⟩ := Option.map_eq_some_iff.mp hC
  congr 1
  clear hC
  induction A generalizing rs with
  | nil =>
    simp only [List.mapM_nil] at r1
    rw [← Option.some.inj r1]
    rfl
  | cons t A ih =>
    rw [List.mapM_cons] at r1
    obtain ⟨r, e1, e2⟩ := Option.bind_eq_some_iff.mp r1
    obtain ⟨rs', e3, e4⟩ := Option.bind_eq_some_iff.mp e2
    rw [← Option.some.inj e4, List.map_cons, e1, ← ih rs' e3]
    rfl

/-- The Pauli form has imaginary coefficients when at most four terms change the same orbitals: the real ones cancel in pairs, in any order. -/
theorem imag_of_few {no : ℕ} {A : OpD FStr ℂ} (hg : GoodOp no A) (hA : AntiTerms A) (hU : UniqueKeys A) (hf : FewPer A) : ImagForm A := by
  intro C hC u hu
  have hreal := transform_real A (fun t ht => (hg t ht).real) C hC u hu
  rcases ySign_cases u.1 with hy | hy
  · have e := transform_fold A C hC
    obtain ⟨c1, c2⟩ := coef_fold (A.map fun t => (Transform.jordanWigner t).getD []) u.1 [] List.nodup_nil
    rw [← e] at c1 c2
    rw [OpD.coef_of_mem C c1 u hu] at c2
    have z : u.2 = 0 := by
      rw [c2, show coef ([] : POp ℂ) u.1 = 0 from rfl, List.foldl_map]
      have e1 : A.foldl (fun v t => cl (v + coef ((Transform.jordanWigner t).getD []) u.1)) 0 = (A.map (contrib u.1)).foldl (fun v x => cl (v + x)) 0 := by
        rw [List.foldl_map]; rfl
      rw [e1, fold_filter _ 0 cl_zero]
      have hneg : (A.map (contrib u.1)).map (fun x => -x) = (A.map negAdj).map (contrib u.1) := by
        rw [List.map_map, List.map_map]
        refine List.map_congr_left fun t ht => ?_
        exact ((contrib_spec u.1 t (hg t ht).ne (hg t ht).real).2 hy).symm
      refine fold_four _ ?_ (fun x hx => by simpa using (List.mem_filter.mp hx).2) (fun x hx => ?_) ?_
      · rw [List.filter_map, List.length_map]
        refine le_trans ?_ (hf (flipMask u.1))
        refine (List.Sublist.length_le ?_)
        have e2 : A.filter ((fun x => decide (x ≠ 0)) ∘ contrib u.1) = (A.filter fun t => ladder t.1 = flipMask u.1).filter ((fun x => decide (x ≠ 0)) ∘ contrib u.1) := by
          rw [List.filter_filter]
          refine List.filter_congr fun t ht => ?_
          by_cases hz : contrib u.1 t = 0
          · simp [hz]
          · have := ((contrib_spec u.1 t (hg t ht).ne (hg t ht).real).1 hz).2
            simp [hz, this]
        rw [e2]
        exact List.filter_sublist
      · obtain ⟨h1, h2⟩ := List.mem_filter.mp hx
        obtain ⟨t, ht, rfl⟩ := List.mem_map.mp h1
        exact ((contrib_spec u.1 t (hg t ht).ne (hg t ht).real).1 (by simpa using h2)).1
      · have hp := ((hA.perm hU).map (contrib u.1)).filter (fun x => decide (x ≠ 0))
        have h3 : ((A.map (contrib u.1)).map (fun x => -x)).filter (fun x => decide (x ≠ 0)) = ((A.map (contrib u.1)).filter (fun x => decide (x ≠ 0))).map (fun x => -x) := by
          rw [List.filter_map]
          congr 1
          refine List.filter_congr fun x _ => ?_
          simp
        rw [← h3, hneg]
        exact hp
    rw [z]; rfl
  · rw [hy] at hreal
    have := congrArg Complex.re hreal
    simp at this
    linarith

/-- The strings that move one electron of each spin, for two spatial orbitals. -/
def keys2 : List FStr := (List.finRange 4).flatMap fun i => (List.finRange 4).flatMap fun k => (List.finRange 4).flatMap fun j => (List.finRange 4).flatMap fun l =>
  if ¬(i.val < 2 ↔ k.val < 2) ∧ ¬(j.val < 2 ↔ l.val < 2) then [patStr 4 i.val k.val j.val l.val] else []

theorem keys2_few : ∀ s ∈ keys2, ((keys2.dedup).filter fun u => ladder u = ladder s).length ≤ 4 := by
  decide +kernel

theorem MinOp.few {A : OpD FStr ℂ} (h : MinOp 2 A) : FewPer A := by
  intro m
  by_cases he : (A.filter fun t => ladder t.1 = m) = []
  · rw [he]; simp
  · obtain ⟨t, ht⟩ := List.exists_mem_of_ne_nil _ he
    have hk : ∀ t ∈ A, t.1 ∈ keys2 := by
      intro t ht
      obtain ⟨i, k, j, l, h1, h2, h3⟩ := h.key t ht
      unfold keys2
      simp only [List.mem_flatMap, List.mem_finRange, true_and]
      exact ⟨i, k, j, l, by rw [if_pos ⟨h1, h2⟩, h3]; exact List.mem_singleton.mpr rfl⟩
    obtain ⟨t1, t2⟩ := List.mem_filter.mp ht
    refine le_trans ?_ (keys2_few t.1 (hk t t1))
    rw [← List.length_map (f := fun t : Term FStr ℂ => t.1)]
    refine List.Subperm.length_le (List.subperm_of_subset ((List.filter_sublist.map _).nodup h.uniq) ?_)
    intro s hs
    obtain ⟨u, hu, rfl⟩ := List.mem_map.mp hs
    obtain ⟨u1, u2⟩ := List.mem_filter.mp hu
    refine List.mem_filter.mpr ⟨List.mem_dedup.mpr (hk u u1), ?_⟩
    simp only [decide_eq_true_eq] at u2 t2 ⊢
    rw [u2, t2]

theorem getA_min (no : ℕ) (hno : 0 < no) (o : Opt) (hcol : ColouringOK o.colA) (h1 : Fin (2 * no) → Fin (2 * no) → ℂ)
    (V : Fin (2 * no) → Fin (2 * no) → Fin (2 * no) → Fin (2 * no) → ℂ) (hs : SpinInts no h1 V) (hS : 4 * tolE no 2 h1 V < o.smin)
    (L : List (OpD FStr ℂ)) (hL : ∀ A ∈ L, LayerOK no A) (y : OpD FStr ℂ × ℝ) (hy : getA o no 1 1 h1 V L = some y) : MinOp no y.1 := by
  obtain ⟨_, _, Ψ, ph, _, _, _, s5, s6, s7, s8, s9⟩ := acse_state no 1 1 hno hno L hL
  obtain ⟨D, d1, d2⟩ := tomo_close no 1 1 hno o.colA hcol Ψ ph s5 s7 s8 s9
  unfold getA at hy
  rw [if_pos (by norm_num), s6, Option.bind_some, d1, Option.bind_some] at hy
  obtain ⟨x, x1, rfl⟩ := Option.map_eq_some_iff.mp hy
  obtain ⟨c1, c2, c3⟩ := classical_anti o.smin (Resid.residual (k2 h1 V ((1 + 1 : ℕ) : ℂ)) (EulerRun.real2 D) fun _ _ _ _ _ _ => 0)
    (residual_realC _ _ (k2_realC hs.real1 hs.real2 _) (fun a b c d => by unfold EulerRun.real2; exact Complex.conj_ofReal _))
    (fun i k j l => by rw [residual_two, residual_two]; ring)
    (fun i k j l h => residual_spin hs Ψ s8 s9 _ d2 i k j l (lt_of_lt_of_le hS h)) x.1 x.2 x1
  exact (MinOp.mk c1 c2 c3).relTrunc o.thr

/-- The driver of a run on two spatial orbitals. -/
structure MinSt (no m : ℕ) (s : Euler.St FStr ℂ) : Prop where
  good : GoodSt no m s
  psi : ∀ A ∈ s.psi, MinOp no A
  A : MinOp no s.A

theorem MinSt.imag {m : ℕ} {s : Euler.St FStr ℂ} (h : MinSt 2 m s) (eps : ℝ) : ∀ A ∈ (Euler.step 1 (eps : ℂ) s).psi, ImagForm A := by
  intro A hA
  have g : GoodOp 2 A := add_good h.good.psi (h.good.A.scaled eps) A hA
  have k : MinOp 2 A := add_min h.psi (h.A.scaled eps) A hA
  exact imag_of_few g k.anti k.uniq k.few

theorem after_min (o : Opt) (hcol : ColouringOK o.col) (hcolA : ColouringOK o.colA) (h1 : Fin (2 * 2) → Fin (2 * 2) → ℂ)
    (V : Fin (2 * 2) → Fin (2 * 2) → Fin (2 * 2) → Fin (2 * 2) → ℂ) (hs : SpinInts 2 h1 V) (hh : ∀ a b, h1 a b = h1 b a)
    (hV : ∀ a b c d, V a b c d = V c d a b) (hS : 4 * tolE 2 2 h1 V < o.smin) (enc : ℝ) :
    ∀ n, n < o.depth → ∀ s, after o 2 1 1 h1 V enc n = some s → MinSt 2 n s := by
  intro n
  induction n with
  | zero =>
    intro _ s hs'
    obtain ⟨x, x1, x2⟩ := getA_good 2 (by norm_num) o hcolA h1 V hs hS [] (by simp)
    have m := getA_min 2 (by norm_num) o hcolA h1 V hs hS [] (by simp) x x1
    have : s = ⟨[], x.1⟩ := by
      unfold after start at hs'
      rw [x1] at hs'
      exact (Option.some.inj hs').symm
    subst this
    exact ⟨⟨by simp, x2, by simp⟩, by simp, m⟩
  | succ n ih =>
    intro hn s hs'
    unfold after at hs'
    obtain ⟨t, t1, t2⟩ := Option.bind_eq_some_iff.mp hs'
    have ht := ih (by omega) t t1
    have hi := ht.imag o.eps
    obtain ⟨x, x1, x2, _⟩ := step_good 2 n (by norm_num) o hcol hcolA hn h1 V hs hh hV hS enc t ht.good hi
    rw [x1] at t2
    obtain rfl := Option.some.inj t2
    have gp : ∀ A ∈ (Euler.step 1 (o.eps : ℂ) t).psi, GoodOp 2 A := add_good ht.good.psi (ht.good.A.scaled o.eps)
    have mp : ∀ A ∈ (Euler.step 1 (o.eps : ℂ) t).psi, MinOp 2 A := add_min ht.psi (ht.A.scaled o.eps)
    unfold step at x1
    obtain ⟨e, _, e2⟩ := Option.bind_eq_some_iff.mp x1
    obtain ⟨y, y1, rfl⟩ := Option.map_eq_some_iff.mp e2
    exact ⟨x2, mp, getA_min 2 (by norm_num) o hcolA h1 V hs hS _ (fun A hA => (gp A hA).ok (hi A hA)) y y1⟩

/-- **C121, two spatial orbitals, partial.** As `C121_euler_partial`, for two electrons in two spatial orbitals (a minimal-basis hydrogen molecule), without any
hypothesis on the layers: at most four terms of a search direction change the same orbitals, and their real Pauli coefficients cancel exactly, whatever partial sums
the cleaning removes on the way.  Missing: what is missing from `C121_euler_partial` other than the imaginary coefficients, and more than two orbitals. -/
theorem C121_minimal_partial (P : Par ℝ) (hP : 0 < P.maxIter) (hc : P.conv = .norm) (o : Opt) (hcol : ColouringOK o.col)
    (hcolA : ColouringOK o.colA) (hdep : P.maxIter < o.depth) (h1 : Fin (2 * 2) → Fin (2 * 2) → ℂ)
    (V : Fin (2 * 2) → Fin (2 * 2) → Fin (2 * 2) → Fin (2 * 2) → ℂ) (hs : SpinInts 2 h1 V) (hh : ∀ a b, h1 a b = h1 b a)
    (hV : ∀ a b c d, V a b c d = V c d a b) (hS : 4 * tolE 2 2 h1 V < o.smin) (enc : ℝ) :
    ∃ s, EulerRun.run P o 2 1 1 h1 V enc P.maxIter = some s ∧ s.iter ≤ P.maxIter ∧ s.done = true ∧
      s.best ≤ (pair (det (hfCfg 2 1 1)) (secondQ h1 V (det (hfCfg 2 1 1) : Cfg →₀ ℂ))).re + enc ∧
      IsEnergy 2 1 1 h1 V enc s.best ∧
      ∀ E0 : ℝ, (∀ φ : Cfg →₀ ℂ, pair φ φ = 1 → (∀ b, φ b ≠ 0 → InSec 2 (2 * 2) 1 2 b) → E0 ≤ (pair φ (secondQ h1 V φ)).re) →
        E0 + enc - tolE 2 2 h1 V ≤ s.best :=
  C121_euler_partial P hP hc 2 (by norm_num) o hcol hcolA hdep h1 V hs hh hV hS enc fun n hn s h =>
    (after_min o hcol hcolA h1 V hs hh hV hS enc n (by omega) s h).imag o.eps

/-! ### A minimal-basis molecule -/

/-- One-body integrals: a bonding and an antibonding orbital. -/
def exH (a b : Fin (2 * 2)) : ℂ := if a = b then (if a.val % 2 = 0 then -1 else -1 / 2) else 0

/-- Two-body integrals: a repulsion, and an exchange of both electrons between the orbitals. -/
def exV (a b c d : Fin (2 * 2)) : ℂ := if (a.val < 2 ↔ c.val < 2) ∧ (b.val < 2 ↔ d.val < 2) then
  (if a = c ∧ b = d then 1 / 2 else if a ≠ c ∧ b ≠ d then 1 / 5 else 0) else 0

theorem ex_spin : SpinInts 2 exH exV where
  one a b h := by
    unfold exH at h
    split at h
    · rename_i e; rw [e]
    · exact absurd rfl h
  two a b c d h := by
    unfold exV at h
    split at h
    · rename_i e; exact e
    · exact absurd rfl h
  real1 a b := by unfold exH; split <;> [split; skip] <;> simp [map_ofNat]
  real2 a b c d := by unfold exV; split <;> [(split <;> [skip; split]); skip] <;> simp [map_ofNat]

theorem ex_tol : 4 * tolE 2 2 exH exV < 1e-10 := by
  have hH : ∀ a b, ‖exH a b‖ ≤ 1 := by
    intro a b; unfold exH; split <;> [split; skip] <;> norm_num
  have hV : ∀ a b c d, ‖exV a b c d‖ ≤ 1 := by
    intro a b c d; unfold exV; split <;> [(split <;> [skip; split]); skip] <;> norm_num
  have hk : ∀ a b c d, ‖k2 exH exV ((2 : ℕ) : ℂ) a b c d‖ ≤ 300 := by
    intro a b c d
    unfold k2
    refine (norm_add_le _ _).trans ?_
    have h0 : ‖exV a b c d * (1 / 2)‖ ≤ 1 := by
      rw [norm_mul]; have := hV a b c d; norm_num; linarith
    have q : ∀ i j, ‖exH i j / (4 * (((2 : ℕ) : ℂ) - 1))‖ ≤ 1 := by
      intro i j
      rw [norm_div]
      have := hH i j
      norm_num
      linarith
    have t : ∀ (p : Prop) [Decidable p] (z : ℂ), ‖z‖ ≤ 1 → ‖(if p then z else 0)‖ ≤ 1 := by
      intro p _ z hz; split
      · exact hz
      · simp
    have hsum : ‖∑ i, ∑ j, ∑ k,
        ((if (a, b, c, d) = (i, k, j, k) then exH i j / (4 * (((2 : ℕ) : ℂ) - 1)) else 0)
        + (if (a, b, c, d) = (k, i, k, j) then exH i j / (4 * (((2 : ℕ) : ℂ) - 1)) else 0)
        + (if (a, b, c, d) = (i, k, k, j) then -(exH i j / (4 * (((2 : ℕ) : ℂ) - 1))) else 0)
        + (if (a, b, c, d) = (k, i, j, k) then -(exH i j / (4 * (((2 : ℕ) : ℂ) - 1))) else 0))‖ ≤ ∑ _i : Fin (2 * 2), ∑ _j : Fin (2 * 2), ∑ _k : Fin (2 * 2), (4 : ℝ) := by
      refine norm_sum_le_of_le _ fun i _ => norm_sum_le_of_le _ fun j _ => norm_sum_le_of_le _ fun k _ => ?_
      refine (norm_add_le _ _).trans ?_
      have h4 := t ((a, b, c, d) = (k, i, j, k)) _ (by rw [norm_neg]; exact q i j)
      have h3 := t ((a, b, c, d) = (i, k, k, j)) _ (by rw [norm_neg]; exact q i j)
      have h2 := t ((a, b, c, d) = (k, i, k, j)) _ (q i j)
      have h1 := t ((a, b, c, d) = (i, k, j, k)) _ (q i j)
      have := (norm_add_le _ _).trans (add_le_add ((norm_add_le _ _).trans (add_le_add h1 h2)) h3)
      linarith
    have hv : (∑ _i : Fin (2 * 2), ∑ _j : Fin (2 * 2), ∑ _k : Fin (2 * 2), (4 : ℝ)) = 256 := by simp; norm_num
    rw [hv] at hsum
    linarith
  have hs : (∑ a, ∑ b, ∑ c, ∑ e, ‖k2 exH exV ((2 : ℕ) : ℂ) a b c e‖) ≤ ∑ _a : Fin (2 * 2), ∑ _b : Fin (2 * 2), ∑ _c : Fin (2 * 2), ∑ _e : Fin (2 * 2), (300 : ℝ) :=
    Finset.sum_le_sum fun a _ => Finset.sum_le_sum fun b _ => Finset.sum_le_sum fun c _ => Finset.sum_le_sum fun e _ => hk a b c e
  have hv : (∑ _a : Fin (2 * 2), ∑ _b : Fin (2 * 2), ∑ _c : Fin (2 * 2), ∑ _e : Fin (2 * 2), (300 : ℝ)) = 76800 := by simp; norm_num
  rw [hv] at hs
  unfold tolE
  norm_num at hs ⊢
  linarith

/-- Ten Euler steps on this molecule, with the default step and thresholds. -/
example : ∃ s, EulerRun.run ⟨10, .norm, 1e-3, 0, 0⟩ ⟨1, 1e-10, 1e-1, 100, fun _ i => i, fun _ i => i⟩ 2 1 1 exH exV (1 / 2) 10 = some s ∧ s.done = true ∧
    s.best ≤ (pair (det (hfCfg 2 1 1)) (secondQ exH exV (det (hfCfg 2 1 1) : Cfg →₀ ℂ))).re + 1 / 2 := by
  obtain ⟨s, h1, _, h3, h4, _⟩ := C121_minimal_partial ⟨10, .norm, 1e-3, 0, 0⟩ (by norm_num) rfl
    ⟨1, 1e-10, 1e-1, 100, fun _ i => i, fun _ i => i⟩ colouring_id colouring_id (by norm_num) exH exV ex_spin
    (fun a b => by
      unfold exH
      by_cases h : a = b
      · rw [h]
      · rw [if_neg h, if_neg (Ne.symm h)])
    (fun a b c d => by
      unfold exV
      exact if_congr (and_congr iff_comm iff_comm) (if_congr (and_congr eq_comm eq_comm) rfl (if_congr (and_congr ne_comm ne_comm) rfl rfl)) rfl) ex_tol (1 / 2)
  exact ⟨s, h1, h3, h4⟩

end
end Props
end HQCA
