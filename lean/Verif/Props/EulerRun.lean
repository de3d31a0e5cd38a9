import Verif.Model.EulerRun
import Verif.Props.ACSERun
import Verif.Props.OneEach
import Verif.Props.Collect
import Verif.Proofs.Letters

/-!
# C121: a closed Euler run for two electrons
-/

namespace HQCA
namespace Props
open ACSE ACSEEn EulerRun HFStore Ham Prepare Resid UCC
noncomputable section

/-! ### Realness of the Pauli form -/

/-- Coefficients of a real operator: real for an even number of `Y`, imaginary for an odd one. -/
def RealCoefs (C : POp ℂ) : Prop := ∀ t ∈ C, ySign t.1 * (starRingEnd ℂ) t.2 = t.2

theorem RealCoefs.isReal {C : POp ℂ} (h : RealCoefs C) : IsReal (denPO C) := by
  induction C with
  | nil => intro ψ b; rw [denPO_nil']; simp
  | cons t C ih =>
    have h1 := h t (by simp)
    have h2 := ih fun u hu => h u (by simp [hu])
    intro ψ b
    have e := h2 ψ b
    rw [denPO_cons']
    change t.2 * denP 0 t.1 (fun e => (starRingEnd ℂ) (ψ e)) b + (denPO C : Oper ℂ) (fun e => (starRingEnd ℂ) (ψ e)) b =
      (starRingEnd ℂ) (t.2 * denP 0 t.1 ψ b + (denPO C : Oper ℂ) ψ b)
    rw [map_add, map_mul, ← e, denP_apply, denP_apply, map_mul, phase_conj]
    nth_rw 1 [← h1]
    ring

theorem RealCoefs.addStr {C : POp ℂ} (h : RealCoefs C) (t : Term PStr ℂ) (ht : ySign t.1 * (starRingEnd ℂ) t.2 = t.2) : RealCoefs (OpD.addStr C t) := by
  unfold OpD.addStr
  split
  · intro u hu
    obtain ⟨v, hv, rfl⟩ := List.mem_map.mp hu
    split
    · rename_i e
      have := h v hv
      show ySign v.1 * (starRingEnd ℂ) (v.2 + t.2) = v.2 + t.2
      rw [map_add, mul_add, this, e, ht]
    · exact h v hv
  · intro u hu
    rcases List.mem_append.mp hu with hu | hu
    · exact h u hu
    · rw [List.mem_singleton] at hu
      rw [hu]; exact ht

theorem RealCoefs.add {C r : POp ℂ} (h : RealCoefs C) (hr : RealCoefs r) : RealCoefs (OpD.add C r) := by
  have : RealCoefs (r.foldl OpD.addStr C) := by
    induction r generalizing C with
    | nil => exact h
    | cons t r ih => exact ih (h.addStr t (hr t (by simp))) fun u hu => hr u (by simp [hu])
  intro u hu
  unfold OpD.add OpD.clean at hu
  exact this u (List.mem_filter.mp hu).1

theorem jw_real (t : Term FStr ℂ) (h : (starRingEnd ℂ) t.2 = t.2) (r : POp ℂ) (hr : Transform.jordanWigner t = some r) : RealCoefs r := by
  have hs := Transform.jw_spec (K := ℂ) t
  by_cases hb : Transform.nLetters t.1 = 0 ∨ small (t.2 / 2 ^ Transform.nLetters t.1) = false
  · obtain ⟨r', e1, e2, e3, _, _, e6⟩ := hs.above hb
    rw [hr] at e1
    cases e1
    exact real_coef t.1.length r e2 e3 (by rw [e6]; exact (isReal_denF 0 t.1).smul t.2 h)
  · rw [not_or] at hb
    have := hs.below hb.1 (by simpa using hb.2)
    rw [hr] at this
    cases this
    intro u hu
    simp at hu

theorem transform_real (A : OpD FStr ℂ) (h : ∀ t ∈ A, (starRingEnd ℂ) t.2 = t.2) (C : POp ℂ) (hC : OpD.transform Transform.jordanWigner A = some C) :
    RealCoefs C := by
  unfold OpD.transform at hC
  obtain ⟨rs, r1, rfl⟩ := Option.map_eq_some_iff.mp hC
  have hrs : ∀ r ∈ rs, RealCoefs r := fun r hr => by
    obtain ⟨t, ht, e⟩ := mapM_mem_of _ _ _ r1 r hr
    exact jw_real t (h t ht) r e
  have : ∀ (rs : List (POp ℂ)) (C : POp ℂ), (∀ r ∈ rs, RealCoefs r) → RealCoefs C → RealCoefs (rs.foldl OpD.add C) := by
    intro rs
    induction rs with
    | nil => exact fun C _ h => h
    | cons r rs ih => exact fun C h1 h2 => ih _ (fun q hq => h1 q (by simp [hq])) (h2.add (h1 r (by simp)))
  exact this rs [] hrs (fun u hu => by simp at hu)

/-! ### Good operators -/

/-- A real term on `no` spatial orbitals that acts on some orbital and moves at most one electron of each spin. -/
structure GoodTerm (no : ℕ) (t : Term FStr ℂ) : Prop where
  len : t.1.length = 2 * no
  ne : Transform.nLetters t.1 ≠ 0
  one : OneEach no t.1
  real : (starRingEnd ℂ) t.2 = t.2

def GoodOp (no : ℕ) (A : OpD FStr ℂ) : Prop := ∀ t ∈ A, GoodTerm no t

/-- The Pauli form of a layer has imaginary coefficients, as an anti-Hermitian operator has. -/
def ImagForm (A : OpD FStr ℂ) : Prop := ∀ C, OpD.transform Transform.jordanWigner A = some C → ∀ u ∈ C, u.2.re = 0

theorem GoodOp.ok {no : ℕ} {A : OpD FStr ℂ} (h : GoodOp no A) (hi : ImagForm A) : LayerOK no A :=
  oneEach_ok no A (fun t ht => (h t ht).len) (fun t ht => Or.inr (h t ht).ne) (fun t ht => (h t ht).one) fun C hC => by
    refine ⟨(transform_real A (fun t ht => (h t ht).real) C hC).isReal, ?_⟩
    have h1 := isAdj_denPO C
    have e : (denPO (C.map fun t => (t.1, (starRingEnd ℂ) t.2)) : Oper ℂ) = -denPO C := by
      have hC' := hi C hC
      clear h1 hi hC
      induction C with
      | nil => simp [denPO_nil']
      | cons t C ih =>
        rw [List.map_cons, denPO_cons', denPO_cons', ih (fun u hu => hC' u (by simp [hu])), neg_add]
        congr 1
        have : (starRingEnd ℂ) t.2 = -t.2 := by apply Complex.ext <;> simp [hC' t (by simp)]
        rw [this]
        ext ψ b
        simp
    rw [e] at h1
    exact h1

theorem GoodOp.addStr {no : ℕ} {A : OpD FStr ℂ} (h : GoodOp no A) {t : Term FStr ℂ} (ht : GoodTerm no t) : GoodOp no (OpD.addStr A t) := by
  unfold OpD.addStr
  split
  · intro u hu
    obtain ⟨v, hv, rfl⟩ := List.mem_map.mp hu
    split
    · refine ⟨(h v hv).len, (h v hv).ne, (h v hv).one, ?_⟩
      show (starRingEnd ℂ) (v.2 + t.2) = v.2 + t.2
      rw [map_add, (h v hv).real, ht.real]
    · exact h v hv
  · intro u hu
    rcases List.mem_append.mp hu with hu | hu
    · exact h u hu
    · rw [List.mem_singleton] at hu
      rw [hu]; exact ht

theorem GoodOp.foldl {no : ℕ} (l : List (Term FStr ℂ)) (hl : ∀ t ∈ l, GoodTerm no t) : ∀ A, GoodOp no A → GoodOp no (l.foldl OpD.addStr A) := by
  induction l with
  | nil => exact fun A h => h
  | cons t l ih => exact fun A h => ih (fun u hu => hl u (by simp [hu])) _ (h.addStr (hl t (by simp)))

theorem GoodOp.relTrunc {no : ℕ} {A : OpD FStr ℂ} (h : GoodOp no A) (thr : ℝ) : GoodOp no (relTrunc (fun c : ℂ => ‖c‖) thr A) := by
  unfold ACSE.relTrunc
  generalize |thr| * ‖maxVal (fun c : ℂ => ‖c‖) A‖ = m
  have : ∀ (B : OpD FStr ℂ), GoodOp no B → ∀ N, GoodOp no N → GoodOp no (B.foldl (fun new t => if ‖t.2‖ ≥ m then new.addStr t else new) N) := by
    intro B
    induction B with
    | nil => exact fun _ N h => h
    | cons t B ih =>
      intro hB N hN
      rw [List.foldl_cons]
      refine ih (fun u hu => hB u (by simp [hu])) _ ?_
      split
      · exact hN.addStr (hB t (by simp))
      · exact hN
  exact this A h [] (fun t ht => by simp at ht)

theorem GoodOp.scaled {no : ℕ} {A : OpD FStr ℂ} (h : GoodOp no A) (eps : ℝ) : GoodOp no (Euler.scaled (eps : ℂ) A) := by
  intro u hu
  obtain ⟨t, ht, rfl⟩ := List.mem_map.mp hu
  refine ⟨(h t ht).len, (h t ht).ne, (h t ht).one, ?_⟩
  show (starRingEnd ℂ) (t.2 * (-1 * (eps : ℂ))) = _
  rw [map_mul, (h t ht).real]
  simp

theorem GoodOp.clean {no : ℕ} {A : OpD FStr ℂ} (h : GoodOp no A) : GoodOp no (OpD.clean A) :=
  fun t ht => h t (List.mem_filter.mp ht).1

theorem add_good {no : ℕ} {L : List (OpD FStr ℂ)} (hL : ∀ A ∈ L, GoodOp no A) {O : OpD FStr ℂ} (hO : GoodOp no O) :
    ∀ A ∈ Ansatz.add 1 L O, GoodOp no A := by
  intro A hA
  unfold Ansatz.add at hA
  split at hA
  · rw [List.mem_singleton] at hA
    rw [hA]; exact hO
  · rename_i hn
    unfold Ansatz.clean Ansatz.layers at hA
    rw [if_neg hn, if_pos rfl] at hA
    obtain ⟨B, hB, rfl⟩ := List.mem_map.mp (List.mem_filter.mp hA).1
    rcases List.mem_append.mp hB with hB | hB
    · exact (hL B hB).clean
    · rw [List.mem_singleton] at hB
      rw [hB]; exact hO.clean

theorem ansatz_add_length (L : List (OpD FStr ℂ)) (O : OpD FStr ℂ) : (Ansatz.add 1 L O).length ≤ L.length + 1 := by
  unfold Ansatz.add
  split
  · simp
  · rename_i hn
    unfold Ansatz.clean Ansatz.layers
    rw [if_neg hn, if_pos rfl]
    refine (List.length_filter_le _ _).trans ?_
    simp

/-! ### The strings of the residual operator -/

theorem gop_ne {r : ℕ} (i k j l : Fin r) (h1 : i ≠ k) (h2 : j ≠ l) : (gop i k j l : Oper ℂ) ≠ 0 := by
  intro h0
  have h1' : i.val ≠ k.val := fun h => h1 (Fin.ext h)
  have h2' : l.val ≠ j.val := fun h => h2 (Fin.ext h.symm)
  have := congrFun (LinearMap.congr_fun h0 (fun _ => 1)) (fun x => decide (x = i.val ∨ x = k.val))
  unfold gop at this
  simp only [Module.End.mul_apply] at this
  have ha := ann_prod_ne [l.val, j.val] (by simp [h2'])
    (Function.update (Function.update (fun x => decide (x = i.val ∨ x = k.val)) i.val false) k.val false) (fun x _ => by
      by_cases e1 : x = k.val
      · rw [e1, Function.update_self]
      · rw [Function.update_of_ne e1]
        by_cases e2 : x = i.val
        · rw [e2, Function.update_self]
        · rw [Function.update_of_ne e2]; simp [e1, e2])
  simp only [List.map_cons, List.map_nil, List.prod_cons, List.prod_nil, mul_one, Module.End.mul_apply] at ha
  have c1 : ∀ (x : ℕ) (φ : Cfg → ℂ) (b : Cfg), b x = true → φ (Function.update b x false) ≠ 0 → (cre x : Oper ℂ) φ b ≠ 0 := by
    intro x φ b hb hφ
    show (if b x then fsign b x * φ (Function.update b x false) else (0 : ℂ)) ≠ 0
    rw [if_pos hb]
    exact mul_ne_zero (by unfold fsign; exact pow_ne_zero _ (by norm_num)) hφ
  refine c1 _ _ _ (by simp) (c1 _ _ _ ?_ ha) this
  rw [Function.update_of_ne (Ne.symm h1')]
  simp

theorem sum_low {M : Type} [AddCommMonoid M] (g : FL → M) (g0 : g .i = 0) (n k : ℕ) (s : FStr) :
    ((pairsFrom k s).map fun a => if a.1 < n then g a.2 else 0).sum = ((s.take (n - k)).map g).sum := by
  induction s generalizing k with
  | nil => simp [pairsFrom]
  | cons x s ih =>
    rw [SymProj.pairsFrom_cons]
    by_cases hk : k < n
    · rw [show n - k = (n - (k + 1)) + 1 by omega, List.take_succ_cons, List.map_cons, List.sum_cons, ← ih (k + 1)]
      split
      · rename_i h; rw [h, g0, zero_add]
      · rw [List.map_cons, List.sum_cons, if_pos hk]
    · rw [show n - k = 0 by omega, List.take_zero]
      have h1 := ih (k + 1)
      rw [show n - (k + 1) = 0 by omega, List.take_zero] at h1
      split
      · exact h1
      · rw [List.map_cons, List.sum_cons, if_neg hk, h1, zero_add]

theorem sum_high {M : Type} [AddCommMonoid M] (g : FL → M) (g0 : g .i = 0) (n k : ℕ) (s : FStr) :
    ((pairsFrom k s).map fun a => if a.1 < n then 0 else g a.2).sum = ((s.drop (n - k)).map g).sum := by
  induction s generalizing k with
  | nil => simp [pairsFrom]
  | cons x s ih =>
    rw [SymProj.pairsFrom_cons]
    by_cases hk : k < n
    · rw [show n - k = (n - (k + 1)) + 1 by omega, List.drop_succ_cons, ← ih (k + 1)]
      split
      · rfl
      · rw [List.map_cons, List.sum_cons, if_pos hk, zero_add]
    · rw [show n - k = 0 by omega, List.drop_zero]
      have h1 := ih (k + 1)
      rw [show n - (k + 1) = 0 by omega, List.drop_zero] at h1
      rw [List.map_cons, List.sum_cons, ← h1]
      split
      · rename_i h; rw [h, g0, zero_add]
      · rw [List.map_cons, List.sum_cons, if_neg hk]

/-- The number of letters that move an electron. -/
def mv (o : FL) : ℕ := if o = .cr ∨ o = .an then 1 else 0

theorem mv_sum (s : FStr) : (s.map mv).sum = s.count .cr + s.count .an := by
  induction s with
  | nil => rfl
  | cons x s ih =>
    rw [List.map_cons, List.sum_cons, ih, List.count_cons, List.count_cons]
    cases x <;> simp [mv] <;> omega

theorem mv_le (l : List (ℕ × FL)) (hl : l.Pairwise fun a b => a.1 < b.1) (p : ℕ → Bool) (x y : ℕ)
    (h : ∀ a ∈ l, p a.1 = true → a.1 = x ∨ a.1 = y) : (l.map fun a => if p a.1 then mv a.2 else 0).sum ≤ 2 := by
  have h1 : ∀ l : List (ℕ × FL), (l.map fun a => if p a.1 then mv a.2 else 0).sum ≤ ((l.map (·.1)).filter p).length := by
    intro l
    induction l with
    | nil => simp
    | cons a l ih =>
      simp only [List.map_cons, List.sum_cons, List.filter_cons]
      split
      · rw [List.length_cons]
        have : mv a.2 ≤ 1 := by unfold mv; split <;> simp
        omega
      · omega
  refine (h1 l).trans ?_
  have hnd : ((l.map (·.1)).filter p).Nodup := by
    refine List.Nodup.filter _ ?_
    rw [List.Nodup, List.pairwise_map]
    exact hl.imp fun h => Nat.ne_of_lt h
  have hsub : (l.map (·.1)).filter p ⊆ [x, y] := by
    intro z hz
    obtain ⟨z1, z2⟩ := List.mem_filter.mp hz
    obtain ⟨a, ha, rfl⟩ := List.mem_map.mp z1
    simpa using h a ha z2
  exact (hnd.subperm hsub).length_le

theorem additive_wt (p : ℕ → Bool) : SymProj.Additive (fun k o => if p k then wt o else 0) := by
  intro k x y z h
  cases x <;> cases y <;> simp [Fermi.contr] at h <;> subst h <;> by_cases hp : p k = true <;> simp [wt, hp]

theorem balanced (p q u v : Prop) [Decidable p] [Decidable q] [Decidable u] [Decidable v] (h1 : ¬(p ↔ q)) (h2 : ¬(u ↔ v)) :
    (if p then wt .cr else 0) + ((if q then wt .cr else 0) + ((if v then wt .an else 0) + ((if u then wt .an else 0) + 0))) = 0 ∧
    (if p then 0 else wt .cr) + ((if q then 0 else wt .cr) + ((if v then 0 else wt .an) + ((if u then 0 else wt .an) + 0))) = 0 := by
  by_cases a1 : p <;> by_cases a2 : q <;> by_cases a3 : u <;> by_cases a4 : v <;> simp_all [wt]

/-- The strings of `a†i a†k a_l a_j` with one alpha and one beta index in each pair. -/
theorem gen_good (no : ℕ) (c : ℂ) (hc : c ≠ 0) (hr : (starRingEnd ℂ) c = c) (i k j l : Fin (2 * no)) (h1 : ¬(i.val < no ↔ k.val < no))
    (h2 : ¬(j.val < no ↔ l.val < no)) (t : Term FStr ℂ)
    (ht : Fermi.generate true c [(i.val, .cr), (k.val, .cr), (l.val, .an), (j.val, .an)] (2 * no) = some t) : GoodTerm no t := by
  have hok : okLetters [(i.val, FL.cr), (k.val, .cr), (l.val, .an), (j.val, .an)] := by
    intro x hx
    simp only [List.mem_cons, List.not_mem_nil, or_false] at hx
    rcases hx with rfl | rfl | rfl | rfl <;> simp
  obtain ⟨t', e1, e2, e3⟩ := generate_spec (K := ℂ) c _ (2 * no) hok
  rw [ht] at e1
  cases e1
  have hlen := e3 (fun a ha => by
    simp only [List.mem_cons, List.not_mem_nil, or_false] at ha
    rcases ha with rfl | rfl | rfl | rfl <;> simp)
  have hw : (wordF [(i.val, FL.cr), (k.val, .cr), (l.val, .an), (j.val, .an)] : Oper ℂ) = gop i k j l := by
    simp [wordF, gop, fop]
  rw [hw] at e2
  have ht0 : t.2 ≠ 0 := by
    intro h0
    rw [h0, zero_smul] at e2
    exact gop_ne i k j l (fun h => h1 (by rw [h])) (fun h => h2 (by rw [h])) ((smul_eq_zero.mp e2.symm).resolve_left hc)
  have hcore : Fermi.generateCore true c [(i.val, .cr), (k.val, .cr), (l.val, .an), (j.val, .an)] (2 * no) = some t := ht
  obtain ⟨hs, hf⟩ := SymProj.generate_letters true c _ (2 * no) hok t hcore ht0
  rw [pairs_eq] at hs hf
  have hsort := SymProj.pairsFrom_sorted 0 t.1
  have hsite : ∀ a ∈ pairsFrom 0 t.1, a.1 = i.val ∨ a.1 = k.val ∨ a.1 = l.val ∨ a.1 = j.val := fun a ha => by
    simpa using (hs a.1).mp (List.mem_map_of_mem ha)
  have hcnt : ∀ u : FStr, (u.map wt).sum = 0 → (u.map mv).sum ≤ 2 → u.count .cr = u.count .an ∧ u.count .cr ≤ 1 := by
    intro u u1 u2
    rw [wt_sum] at u1
    rw [mv_sum] at u2
    omega
  have low : ((t.1.take no).map wt).sum = 0 := by
    have := sum_low wt rfl no 0 t.1
    rw [Nat.sub_zero] at this
    rw [← this]
    have := hf ℤ _ (additive_wt fun x => decide (x < no))
    simp only [decide_eq_true_eq] at this
    rw [this]
    exact (balanced _ _ _ _ h1 h2).1
  have high : ((t.1.drop no).map wt).sum = 0 := by
    have := sum_high wt rfl no 0 t.1
    rw [Nat.sub_zero] at this
    rw [← this]
    have := hf ℤ _ (additive_wt fun x => !decide (x < no))
    simp only [Bool.not_eq_true', decide_eq_false_iff_not, ite_not] at this
    rw [this]
    exact (balanced _ _ _ _ h1 h2).2
  have low2 : ((t.1.take no).map mv).sum ≤ 2 := by
    have := sum_low mv rfl no 0 t.1
    rw [Nat.sub_zero] at this
    rw [← this]
    have := mv_le _ hsort (fun x => decide (x < no)) (if i.val < no then i.val else k.val) (if j.val < no then j.val else l.val)
      (fun a ha hp => by
        simp only [decide_eq_true_eq] at hp
        rcases hsite a ha with h | h | h | h <;> rw [h] at hp ⊢
        · left; rw [if_pos hp]
        · left; rw [if_neg (fun h' => h1 ⟨fun _ => hp, fun _ => h'⟩)]
        · right; rw [if_neg (fun h' => h2 ⟨fun _ => hp, fun _ => h'⟩)]
        · right; rw [if_pos hp])
    simpa using this
  have high2 : ((t.1.drop no).map mv).sum ≤ 2 := by
    have := sum_high mv rfl no 0 t.1
    rw [Nat.sub_zero] at this
    rw [← this]
    have := mv_le _ hsort (fun x => !decide (x < no)) (if i.val < no then k.val else i.val) (if j.val < no then l.val else j.val)
      (fun a ha hp => by
        simp only [Bool.not_eq_true', decide_eq_false_iff_not] at hp
        rcases hsite a ha with h | h | h | h <;> rw [h] at hp ⊢
        · left; rw [if_neg hp]
        · left; rw [if_pos (by by_contra h'; exact h1 (by simp [h', hp]))]
        · right; rw [if_pos (by by_contra h'; exact h2 (by simp [h', hp]))]
        · right; rw [if_neg hp])
    simp only [Bool.not_eq_true', decide_eq_false_iff_not, ite_not] at this
    exact this
  refine ⟨hlen, ?_, ⟨hcnt _ low low2, hcnt _ high high2⟩, ?_⟩
  · intro h0
    have := (hs i.val).mpr (by simp)
    rw [SymProj.mem_pairsFrom] at this
    have hz := this.2
    rw [Nat.sub_zero] at hz
    refine hz ?_
    by_cases hi : i.val < t.1.length
    · rw [List.getD_eq_getElem _ _ hi]
      by_contra hne
      unfold Transform.nLetters at h0
      simp only [List.length_eq_zero_iff, List.filter_eq_nil_iff, ne_eq, decide_not, Bool.not_eq_eq_eq_not, Bool.not_true, Bool.not_eq_false, decide_eq_true_eq] at h0
      exact hne (by simpa using h0 _ (List.getElem_mem hi))
    · exact List.getD_eq_default _ _ (by omega)
  · rcases (generate_size c _ _ t ht).2 with h | h | h
    · rw [h]; exact hr
    · rw [h, map_neg, hr]
    · exact absurd h ht0

/-! ### Entries of the residual above the accuracy -/

theorem occ_two (n p q : ℕ) (b : Cfg) (hp : p < n) (hq : q < n) (hpq : p ≠ q) (bp : b p = true) (bq : b q = true) : 2 ≤ occAlpha n b := by
  have hn : [p, q].Nodup := by simp [hpq]
  have := (hn.subperm (l₂ := (List.range n).filter fun i => b i) (by
    intro x hx
    simp only [List.mem_cons, List.not_mem_nil, or_false] at hx
    rcases hx with rfl | rfl <;> simp [*])).length_le
  exact this

theorem occ_three (n m p q : ℕ) (b : Cfg) (hp : p < n) (hq : q < n) (hpq : p ≠ q) (hmp : m ≤ p) (hmq : m ≤ q) (bp : b p = true) (bq : b q = true)
    (h : occAlpha m b ≠ 0) : 3 ≤ occAlpha n b := by
  obtain ⟨x, hx⟩ := List.exists_mem_of_length_pos (Nat.pos_of_ne_zero h)
  obtain ⟨x1, x2⟩ := List.mem_filter.mp hx
  rw [List.mem_range] at x1
  have hn : [x, p, q].Nodup := by simp [hpq]; omega
  have := (hn.subperm (l₂ := (List.range n).filter fun i => b i) (by
    intro y hy
    simp only [List.mem_cons, List.not_mem_nil, or_false] at hy
    rcases hy with rfl | rfl | rfl
    · simp [x2]; omega
    · simp [*]
    · simp [*])).length_le
  exact this

/-- Two electrons of one spin cannot be removed from a state with one electron of each spin. -/
theorem rdm2_same (no : ℕ) (Ψ : Cfg →₀ ℂ) (hS : InS (InSec no (2 * no) 1 2) Ψ) (i k j l : Fin (2 * no)) (h : j.val < no ↔ l.val < no) :
    rdm2 (evState Ψ) i k j l = 0 := by
  have hz : (ann l.val : Oper ℂ) ((ann j.val : Oper ℂ) (Ψ : Cfg → ℂ)) = 0 := by
    funext b
    show (if b l.val then (0 : ℂ) else fsign b l.val * (if (Function.update b l.val true) j.val then 0 else
      fsign (Function.update b l.val true) j.val * Ψ (Function.update (Function.update b l.val true) j.val true))) = 0
    split
    · rfl
    split
    · simp
    · rename_i hb hj
      have hjl : j.val ≠ l.val := by
        intro e
        rw [e, Function.update_self] at hj
        exact hj rfl
      have h0 : Ψ (Function.update (Function.update b l.val true) j.val true) = 0 := by
        by_contra hne
        obtain ⟨o1, o2, _⟩ := hS _ hne
        set c := Function.update (Function.update b l.val true) j.val true
        have cj : c j.val = true := Function.update_self ..
        have cl : c l.val = true := by
          show Function.update (Function.update b l.val true) j.val true l.val = true
          rw [Function.update_of_ne (Ne.symm hjl), Function.update_self]
        by_cases hlt : j.val < no
        · have := occ_two no _ _ c hlt (h.mp hlt) hjl cj cl
          omega
        · have := occ_three (2 * no) no _ _ c j.isLt l.isLt hjl (by omega) (by have := mt h.mpr hlt; omega) cj cl (by omega)
          omega
      rw [h0, mul_zero, mul_zero]
  show pair Ψ ((cre i.val * (cre k.val * (ann l.val * ann j.val)) : Oper ℂ) Ψ) = 0
  simp only [Module.End.mul_apply]
  rw [hz, map_zero, map_zero]
  unfold pair
  simp

/-- Integrals over spin orbitals of which the first half has spin up: no spin changes. -/
structure SpinInts (no : ℕ) (h1 : Fin (2 * no) → Fin (2 * no) → ℂ) (V : Fin (2 * no) → Fin (2 * no) → Fin (2 * no) → Fin (2 * no) → ℂ) : Prop where
  one : ∀ a b, h1 a b ≠ 0 → (a.val < no ↔ b.val < no)
  two : ∀ a b c d, V a b c d ≠ 0 → (a.val < no ↔ c.val < no) ∧ (b.val < no ↔ d.val < no)
  real1 : ∀ a b, (starRingEnd ℂ) (h1 a b) = h1 a b
  real2 : ∀ a b c d, (starRingEnd ℂ) (V a b c d) = V a b c d

theorem k2_spin {no : ℕ} {h1 : Fin (2 * no) → Fin (2 * no) → ℂ} {V : Fin (2 * no) → Fin (2 * no) → Fin (2 * no) → Fin (2 * no) → ℂ} (h : SpinInts no h1 V)
    (ne : ℂ) (a b c d : Fin (2 * no)) (hk : k2 h1 V ne a b c d ≠ 0) :
    ((a.val < no ↔ c.val < no) ∧ (b.val < no ↔ d.val < no)) ∨ ((a.val < no ↔ d.val < no) ∧ (b.val < no ↔ c.val < no)) := by
  by_contra hn
  rw [not_or] at hn
  refine hk ?_
  have hV : V a b c d = 0 := by by_contra h0; exact hn.1 (h.two _ _ _ _ h0)
  have e1 : (if b = d then h1 a c / (4 * (ne - 1)) else 0) = 0 := by
    split
    · rename_i e
      have : h1 a c = 0 := by by_contra h0; exact hn.1 ⟨h.one _ _ h0, by rw [e]⟩
      rw [this, zero_div]
    · rfl
  have e2 : (if a = c then h1 b d / (4 * (ne - 1)) else 0) = 0 := by
    split
    · rename_i e
      have : h1 b d = 0 := by by_contra h0; exact hn.1 ⟨by rw [e], h.one _ _ h0⟩
      rw [this, zero_div]
    · rfl
  have e3 : (if b = c then h1 a d / (4 * (ne - 1)) else 0) = 0 := by
    split
    · rename_i e
      have : h1 a d = 0 := by by_contra h0; exact hn.2 ⟨h.one _ _ h0, by rw [e]⟩
      rw [this, zero_div]
    · rfl
  have e4 : (if a = d then h1 b c / (4 * (ne - 1)) else 0) = 0 := by
    split
    · rename_i e
      have : h1 b c = 0 := by by_contra h0; exact hn.2 ⟨by rw [e], h.one _ _ h0⟩
      rw [this, zero_div]
    · rfl
  rw [k2_eq, hV, e1, e2, e3, e4]
  ring

theorem wmat_spin {no : ℕ} {h1 : Fin (2 * no) → Fin (2 * no) → ℂ} {V : Fin (2 * no) → Fin (2 * no) → Fin (2 * no) → Fin (2 * no) → ℂ} (h : SpinInts no h1 V)
    (ne : ℂ) (a b c d : Fin (2 * no)) (hs : c.val < no ↔ d.val < no) (hk : wmat (k2 h1 V ne) a b c d ≠ 0) : a.val < no ↔ b.val < no := by
  by_contra hn
  refine hk ?_
  have h1' : k2 h1 V ne a b c d = 0 := by
    by_contra h0
    rcases k2_spin h ne _ _ _ _ h0 with ⟨x, y⟩ | ⟨x, y⟩
    · exact hn (x.trans (hs.trans y.symm))
    · exact hn (x.trans (hs.symm.trans y.symm))
  have h2' : k2 h1 V ne a b d c = 0 := by
    by_contra h0
    rcases k2_spin h ne _ _ _ _ h0 with ⟨x, y⟩ | ⟨x, y⟩
    · exact hn (x.trans (hs.symm.trans y.symm))
    · exact hn (x.trans (hs.trans y.symm))
  unfold wmat
  rw [h1', h2', sub_zero]

theorem residual_two {r : ℕ} (k D : Fin r → Fin r → Fin r → Fin r → ℂ) (a b c d : Fin r) :
    residual k D (fun _ _ _ _ _ _ => 0) a b c d = (∑ p, ∑ q, D p q a b * wmat k p q c d) - ∑ p, ∑ q, D p q c d * wmat k p q a b := by
  unfold Resid.residual
  simp
  ring

theorem wmat_sum {r : ℕ} (k : Fin r → Fin r → Fin r → Fin r → ℂ) (c d : Fin r) :
    ∑ p, ∑ q, ‖wmat k p q c d‖ ≤ 2 * ∑ p, ∑ q, ∑ x, ∑ y, ‖k p q x y‖ := by
  have h1 : ∀ p q c d, ‖k p q c d‖ ≤ ∑ x, ∑ y, ‖k p q x y‖ := fun p q c d =>
    (Finset.single_le_sum (f := fun y => ‖k p q c y‖) (fun _ _ => norm_nonneg _) (Finset.mem_univ d)).trans
      (Finset.single_le_sum (f := fun x => ∑ y, ‖k p q x y‖) (fun _ _ => Finset.sum_nonneg fun _ _ => norm_nonneg _) (Finset.mem_univ c))
  rw [Finset.mul_sum]
  refine Finset.sum_le_sum fun p _ => ?_
  rw [Finset.mul_sum]
  refine Finset.sum_le_sum fun q _ => ?_
  have := norm_sub_le (k p q c d) (k p q d c)
  have := h1 p q c d
  have := h1 p q d c
  unfold wmat
  linarith

theorem half_bound {r : ℕ} (k D R : Fin r → Fin r → Fin r → Fin r → ℂ) (δ : ℝ) (hD : ∀ a b c d, ‖D a b c d - R a b c d‖ ≤ δ) (a b c d : Fin r)
    (hz : ∀ p q, wmat k p q c d ≠ 0 → R p q a b = 0) : ‖∑ p, ∑ q, D p q a b * wmat k p q c d‖ ≤ δ * (2 * ∑ p, ∑ q, ∑ x, ∑ y, ‖k p q x y‖) := by
  have hδ : 0 ≤ δ := (norm_nonneg _).trans (hD a a a a)
  refine le_trans ?_ (mul_le_mul_of_nonneg_left (wmat_sum k c d) hδ)
  rw [Finset.mul_sum]
  refine (norm_sum_le _ _).trans (Finset.sum_le_sum fun p _ => ?_)
  rw [Finset.mul_sum]
  refine (norm_sum_le _ _).trans (Finset.sum_le_sum fun q _ => ?_)
  rw [norm_mul]
  by_cases h : wmat k p q c d = 0
  · rw [h, norm_zero, mul_zero, mul_zero]
  · refine mul_le_mul_of_nonneg_right ?_ (norm_nonneg _)
    have := hD p q a b
    rwa [hz p q h, sub_zero] at this

/-- Entries that are not noise have one alpha and one beta index in each pair. -/
theorem residual_spin {no : ℕ} {h1 : Fin (2 * no) → Fin (2 * no) → ℂ} {V : Fin (2 * no) → Fin (2 * no) → Fin (2 * no) → Fin (2 * no) → ℂ}
    (h : SpinInts no h1 V) (Ψ : Cfg →₀ ℂ) (hS : InS (InSec no (2 * no) 1 2) Ψ) (hΨ : RealAmp (Ψ : Cfg → ℂ))
    (D : Fin (2 * no) → Fin (2 * no) → Fin (2 * no) → Fin (2 * no) → ℂ) (hD : ∀ a b c d, ‖D a b c d - rdm2 (evState Ψ) a b c d‖ ≤ 2 ^ (2 * no) * 1e-28)
    (i k j l : Fin (2 * no)) (hb : 4 * tolE no 2 h1 V < ‖residual (k2 h1 V ((2 : ℕ) : ℂ)) D (fun _ _ _ _ _ _ => 0) i k j l‖) :
    ¬(i.val < no ↔ k.val < no) ∧ ¬(j.val < no ↔ l.val < no) := by
  have hR : ∀ a b c d : Fin (2 * no), ((a.val < no ↔ b.val < no) ∨ (c.val < no ↔ d.val < no)) → rdm2 (evState Ψ) a b c d = 0 := by
    rintro a b c d (e | e)
    · rw [rdm2_real Ψ hΨ]; exact rdm2_same no Ψ hS _ _ _ _ e
    · exact rdm2_same no Ψ hS _ _ _ _ e
  by_contra hn
  rw [not_and_or, not_not, not_not] at hn
  refine absurd hb (not_lt.mpr ?_)
  rw [residual_two]
  have b1 := half_bound (k2 h1 V ((2 : ℕ) : ℂ)) D _ _ hD i k j l (fun p q hw => by
    rcases hn with e | e
    · exact hR _ _ _ _ (Or.inr e)
    · exact hR _ _ _ _ (Or.inl (wmat_spin h _ _ _ _ _ e hw)))
  have b2 := half_bound (k2 h1 V ((2 : ℕ) : ℂ)) D _ _ hD j l i k (fun p q hw => by
    rcases hn with e | e
    · exact hR _ _ _ _ (Or.inl (wmat_spin h _ _ _ _ _ e hw))
    · exact hR _ _ _ _ (Or.inr e))
  refine (norm_sub_le _ _).trans ?_
  unfold tolE
  linarith

theorem k2_realC {r : ℕ} {h1 : Fin r → Fin r → ℂ} {V : Fin r → Fin r → Fin r → Fin r → ℂ} (r1 : ∀ a b, (starRingEnd ℂ) (h1 a b) = h1 a b)
    (r2 : ∀ a b c d, (starRingEnd ℂ) (V a b c d) = V a b c d) (ne : ℕ) (a b c d : Fin r) :
    (starRingEnd ℂ) (k2 h1 V (ne : ℂ) a b c d) = k2 h1 V (ne : ℂ) a b c d := by
  have hd : ∀ x : ℂ, (starRingEnd ℂ) x = x → (starRingEnd ℂ) (x / (4 * ((ne : ℂ) - 1))) = x / (4 * ((ne : ℂ) - 1)) := by
    intro x hx
    simp [map_div₀, hx, map_ofNat]
  rw [k2_eq]
  simp only [map_add, map_sub, map_mul, r2, apply_ite (starRingEnd ℂ), hd _ (r1 _ _), map_zero, map_div₀, map_one, map_ofNat]

theorem residual_realC {r : ℕ} (k D : Fin r → Fin r → Fin r → Fin r → ℂ) (hk : ∀ a b c d, (starRingEnd ℂ) (k a b c d) = k a b c d)
    (hD : ∀ a b c d, (starRingEnd ℂ) (D a b c d) = D a b c d) (a b c d : Fin r) :
    (starRingEnd ℂ) (Resid.residual k D (fun _ _ _ _ _ _ => 0) a b c d) = Resid.residual k D (fun _ _ _ _ _ _ => 0) a b c d := by
  rw [residual_two]
  unfold wmat
  simp only [map_sub, map_sum, map_mul, hk, hD]

/-- The residual operator of a state with one electron of each spin is good. -/
theorem classical_good {no : ℕ} (S : ℝ) (A : Fin (2 * no) → Fin (2 * no) → Fin (2 * no) → Fin (2 * no) → ℂ)
    (hr : ∀ a b c d, (starRingEnd ℂ) (A a b c d) = A a b c d)
    (hs : ∀ i k j l, S ≤ ‖A i k j l‖ → ¬(i.val < no ↔ k.val < no) ∧ ¬(j.val < no ↔ l.val < no)) :
    ∃ B x, Collect.classical S A = some (B, x) ∧ GoodOp no B := by
  obtain ⟨B, hB, _⟩ := C114_classical S A
  refine ⟨B, _, hB, ?_⟩
  unfold Collect.classical at hB
  obtain ⟨B', b1, b2⟩ := Option.bind_eq_some_iff.mp hB
  split at b2
  · obtain ⟨rfl, _⟩ := Prod.mk.inj (Option.some.inj b2)
    unfold resOp at b1
    obtain ⟨us, u1, rfl⟩ := Option.map_eq_some_iff.mp b1
    refine GoodOp.foldl us (fun u hu => ?_) [] (fun t ht => by simp at ht)
    obtain ⟨t, ht, e⟩ := mapM_mem_of _ _ _ u1 u hu
    unfold resTerms at ht
    simp only [List.mem_flatMap, List.mem_finRange, true_and] at ht
    obtain ⟨i, k, j, l, ht⟩ := ht
    split at ht
    · rename_i hc
      rw [List.mem_singleton] at ht
      subst ht
      have hkeep : S ≤ ‖A i k j l‖ := by
        have := hc.2
        unfold Collect.above at this
        simpa using this
      refine gen_good no _ (neg_ne_zero.mpr fun h0 => ?_) (by rw [map_neg, hr]) i k j l (hs _ _ _ _ hkeep).1 (hs _ _ _ _ hkeep).2 u e
      have := (Coef.isZero_iff (A i k j l)).mpr h0
      rw [this] at hc
      exact absurd hc.1 (by simp)
    · simp at ht
  · exact absurd b2 (by simp)

/-- The state-vector tomography of the state of an ansatz, as `_get_A` uses it. -/
theorem tomo_close (no na nb : ℕ) (hno : 0 < no) (col : List PStr → ℕ → ℕ) (hcol : ColouringOK col) (Ψ : Cfg →₀ ℂ) (ph : ℂ) (s5 : ‖ph‖ = 1)
    (s7 : pair Ψ Ψ = 1) (s8 : InS (InSec no (2 * no) na (na + nb)) Ψ) (s9 : RealAmp (Ψ : Cfg → ℂ)) :
    ∃ D, StateTomo.run 2 ⟨true, false⟩ (defaultOrbs no).1 (defaultOrbs no).2 col ((ph • Ψ : Cfg →₀ ℂ) : Cfg → ℂ) = some D ∧
      ∀ a b c d : Fin (2 * no), ‖EulerRun.real2 D a b c d - rdm2 (evState Ψ) a b c d‖ ≤ 2 ^ (2 * no) * 1e-28 := by
  have h2no : no + no = 2 * no := by omega
  obtain ⟨D, hD, hDe⟩ := C96_statevector_tomography_partial 2 ⟨true, false⟩ (Or.inl rfl) (Or.inl rfl) no no le_rfl (rdme2_ne no hno) col hcol
    (ph • Ψ) (by rw [pair_phase ph s5]; exact s7)
    (fun b hb0 i hi => (s8 b (fun h => hb0 (by simp [h]))).2.2 i (by omega)) (na : ℤ)
    (fun b hb0 => by exact_mod_cast (s8 b (fun h => hb0 (by simp [h]))).1)
  rw [h2no] at hDe
  have ho : (defaultOrbs no).1 = alpha no := rfl
  refine ⟨D, by rw [beta_default, ho, hD], fun a b c e => ?_⟩
  have := hDe [a.val, b.val] [c.val, e.val] rfl rfl (by simp [a.isLt, b.isLt]) (by simp [c.isLt, e.isLt])
  have hreal : (((rdm2 (evState Ψ) a b c e).re : ℝ) : ℂ) = rdm2 (evState Ψ) a b c e := by
    rw [rdm2_evState]
    exact Complex.conj_eq_iff_re.mp (pair_real Ψ _ s9 (s9.rdmOp _ _))
  have ht : target ⟨true, false⟩ (ph • Ψ) [a.val, b.val] [c.val, e.val] = rdm2 (evState Ψ) a b c e := by
    show ((rdm (ph • Ψ) _ _).re : ℂ) = _
    rw [rdm_phase ph s5, ← rdm2_evState, hreal]
  rw [ht] at this
  refine le_trans ?_ this
  unfold EulerRun.real2
  rw [← hreal, ← Complex.ofReal_sub, Complex.norm_real, Real.norm_eq_abs, ← Complex.sub_re, hreal]
  exact Complex.abs_re_le_norm _

theorem getA_good (no : ℕ) (hno : 0 < no) (o : Opt) (hcol : ColouringOK o.colA) (h1 : Fin (2 * no) → Fin (2 * no) → ℂ)
    (V : Fin (2 * no) → Fin (2 * no) → Fin (2 * no) → Fin (2 * no) → ℂ) (hs : SpinInts no h1 V) (hS : 4 * tolE no 2 h1 V < o.smin)
    (L : List (OpD FStr ℂ)) (hL : ∀ A ∈ L, LayerOK no A) : ∃ x, getA o no 1 1 h1 V L = some x ∧ GoodOp no x.1 := by
  obtain ⟨_, _, Ψ, ph, _, _, _, s5, s6, s7, s8, s9⟩ := acse_state no 1 1 hno hno L hL
  obtain ⟨D, d1, d2⟩ := tomo_close no 1 1 hno o.colA hcol Ψ ph s5 s7 s8 s9
  obtain ⟨B, x, b1, b2⟩ := classical_good o.smin (Resid.residual (k2 h1 V ((1 + 1 : ℕ) : ℂ)) (EulerRun.real2 D) fun _ _ _ _ _ _ => 0)
    (residual_realC _ _ (k2_realC hs.real1 hs.real2 _) (fun a b c d => by unfold EulerRun.real2; exact Complex.conj_ofReal _))
    (fun i k j l h => residual_spin hs Ψ s8 s9 _ d2 i k j l (lt_of_lt_of_le hS h))
  refine ⟨(relTrunc (fun c : ℂ => ‖c‖) o.thr B, x), ?_, b2.relTrunc o.thr⟩
  unfold getA
  rw [if_pos (by norm_num), s6, Option.bind_some, d1, Option.bind_some, b1]
  rfl

/-! ### The run -/

/-- The driver holds good operators only. -/
structure GoodSt (no m : ℕ) (s : Euler.St FStr ℂ) : Prop where
  psi : ∀ A ∈ s.psi, GoodOp no A
  A : GoodOp no s.A
  len : s.psi.length ≤ m

theorem step_good (no m : ℕ) (hno : 0 < no) (o : Opt) (hcol : ColouringOK o.col) (hcolA : ColouringOK o.colA) (hdep : m + 1 < o.depth)
    (h1 : Fin (2 * no) → Fin (2 * no) → ℂ) (V : Fin (2 * no) → Fin (2 * no) → Fin (2 * no) → Fin (2 * no) → ℂ) (hs : SpinInts no h1 V)
    (hh : ∀ a b, h1 a b = h1 b a) (hV : ∀ a b c d, V a b c d = V c d a b) (hS : 4 * tolE no 2 h1 V < o.smin) (enc : ℝ) (s : Euler.St FStr ℂ)
    (g : GoodSt no m s) (hi : ∀ A ∈ (Euler.step 1 (o.eps : ℂ) s).psi, ImagForm A) :
    ∃ x, step o no 1 1 h1 V enc s = some x ∧ GoodSt no (m + 1) x.1 ∧ x.2.deep = false ∧ IsEnergy no 1 1 h1 V enc x.2.en := by
  have gp : ∀ A ∈ (Euler.step 1 (o.eps : ℂ) s).psi, GoodOp no A := add_good g.psi (g.A.scaled o.eps)
  have hlen : (Euler.step 1 (o.eps : ℂ) s).psi.length ≤ m + 1 := (ansatz_add_length _ _).trans (by have := g.len; omega)
  have hL : ∀ A ∈ (Euler.step 1 (o.eps : ℂ) s).psi, LayerOK no A := fun A hA => (gp A hA).ok (hi A hA)
  obtain ⟨_, _, Ψ, E, _, _, _, a1, a2, a3, a4⟩ := C115_energy_partial no 1 1 hno hno hno (by norm_num) o.col hcol h1 V hh hV enc _ hL
  obtain ⟨y, y1, y2⟩ := getA_good no hno o hcolA h1 V hs hS _ hL
  refine ⟨(⟨(Euler.step 1 (o.eps : ℂ) s).psi, y.1⟩, ⟨E, y.2, 0, 0, decide ((Euler.step 1 (o.eps : ℂ) s).psi.length = o.depth)⟩), ?_, ⟨gp, y2, hlen⟩, ?_, Ψ, a1, a2, a4⟩
  · unfold step
    simp only
    rw [a3, Option.bind_some, y1]
    rfl
  · exact decide_eq_false (by omega)

theorem loop_obs (P : Par ℝ) (no : ℕ) (hno : 0 < no) (o : Opt) (hcol : ColouringOK o.col) (hcolA : ColouringOK o.colA)
    (h1 : Fin (2 * no) → Fin (2 * no) → ℂ) (V : Fin (2 * no) → Fin (2 * no) → Fin (2 * no) → Fin (2 * no) → ℂ) (hs : SpinInts no h1 V)
    (hh : ∀ a b, h1 a b = h1 b a) (hV : ∀ a b c d, V a b c d = V c d a b) (hS : 4 * tolE no 2 h1 V < o.smin) (enc : ℝ) (M : ℕ) (hdep : M < o.depth)
    (hi : ∀ n ≤ M, ∀ s, after o no 1 1 h1 V enc n = some s → ∀ A ∈ (Euler.step 1 (o.eps : ℂ) s).psi, n < M → ImagForm A) :
    ∀ (n m : ℕ) (s : Euler.St FStr ℂ), m + n = M → after o no 1 1 h1 V enc m = some s → GoodSt no m s →
      ∃ os : List (Obs ℝ), os.length = n ∧ (∀ ob ∈ os, ob.deep = false ∧ IsEnergy no 1 1 h1 V enc ob.en) ∧
        ∀ d, loop P o no 1 1 h1 V enc n d s = ACSE.run P os d := by
  intro n
  induction n with
  | zero => exact fun m s _ _ _ => ⟨[], rfl, by simp, fun d => rfl⟩
  | succ n ih =>
    intro m s hm ha g
    obtain ⟨x, x1, x2, x3, x4⟩ := step_good no m hno o hcol hcolA (by omega) h1 V hs hh hV hS enc s g
      (fun A hA => hi m (by omega) s ha A hA (by omega))
    obtain ⟨os, o1, o2, o3⟩ := ih (m + 1) x.1 (by omega) (by rw [after, ha, Option.bind_some, x1]; rfl) x2
    refine ⟨x.2 :: os, by simp [o1], ?_, fun d => ?_⟩
    · intro ob hob
      rcases List.mem_cons.mp hob with rfl | hob
      · exact ⟨x3, x4⟩
      · exact o2 ob hob
    · unfold loop ACSE.run
      split
      · rfl
      · rw [x1, Option.bind_some]
        congr 1
        funext d'
        exact o3 d'

/-- The outcome of a run of the driver over observations that are energies. -/
theorem run_of_obs (P : Par ℝ) (hP : 0 < P.maxIter) (hc : P.conv ≠ .other) (no na nb : ℕ) (ha : na ≤ no) (hb : nb ≤ no)
    (h1 : Fin (2 * no) → Fin (2 * no) → ℂ) (V : Fin (2 * no) → Fin (2 * no) → Fin (2 * no) → Fin (2 * no) → ℂ) (enc : ℝ) (os : List (Obs ℝ))
    (e3 : ∀ o ∈ os, o.deep = false ∧ IsEnergy no na nb h1 V enc o.en) :
    ∃ s, ACSE.run P os (build ((pair (det (hfCfg no na nb)) (secondQ h1 V (det (hfCfg no na nb) : Cfg →₀ ℂ))).re + enc) 0) = some s ∧
      s.iter ≤ P.maxIter ∧ (P.maxIter ≤ os.length → s.done = true) ∧
      s.best ≤ (pair (det (hfCfg no na nb)) (secondQ h1 V (det (hfCfg no na nb) : Cfg →₀ ℂ))).re + enc ∧
      IsEnergy no na nb h1 V enc s.best ∧
      ∀ E0 : ℝ, (∀ φ : Cfg →₀ ℂ, pair φ φ = 1 → (∀ b, φ b ≠ 0 → InSec no (2 * no) na (na + nb) b) → E0 ≤ (pair φ (secondQ h1 V φ)).re) →
        E0 + enc - tolE no (na + nb) h1 V ≤ s.best := by
  obtain ⟨s, hs, hdone⟩ := C40_completes P hP hc ((pair (det (hfCfg no na nb)) (secondQ h1 V (det (hfCfg no na nb) : Cfg →₀ ℂ))).re + enc) 0 os
    (fun o ho => (e3 o ho).1)
  obtain ⟨i1, _, _⟩ := C40_max_iter P hP _ 0 os s hs
  obtain ⟨k, _, _, _, hm, hle⟩ := C40_best P hP _ 0 os s hs
  have hen : IsEnergy no na nb h1 V enc s.best := by
    rcases List.mem_cons.mp hm with h | h
    · refine ⟨det (hfCfg no na nb), det_norm _, ?_, ?_⟩
      · intro b hb0
        by_cases hbe : b = hfCfg no na nb
        · rw [hbe]; exact hfCfg_sec no na nb ha hb
        · exact absurd (Finsupp.single_eq_of_ne hbe) hb0
      · rw [h, sub_self, abs_zero]
        unfold tolE
        positivity
    · obtain ⟨o, ho, h⟩ := List.mem_map.mp h
      rw [← h]
      exact (e3 o (List.mem_of_mem_take ho)).2
  refine ⟨s, hs, i1, hdone, hle _ (by simp), hen, fun E0 h0 => ?_⟩
  obtain ⟨Ψ, a1, a2, a3⟩ := hen
  have := h0 Ψ a1 a2
  have := (abs_le.mp a3).1
  linarith

/-- **C121, partial.** A closed Euler run of the ACSE with the classical solver, for one electron of each spin: every search direction is computed by the driver
itself from the state of the ansatz it has built.  The run completes within `max_iter` iterations; the energy it reports is not above the Hartree–Fock energy, is
within the accuracy of one evaluation the energy of a normalised state with one electron of each spin, and is not below the lowest energy of these states by more
than that.  The hypotheses on the layers are derived: every layer moves at most one electron of each spin, because the entries of the residual for pairs of equal
spin are below `4 * tolE`, hence below `S_min`.  Missing: more electrons (the classical solver then needs the three-body matrix); a threshold below the noise;
layers whose Pauli form keeps a real coefficient after cancellation (`ImagForm`), which the circuit would use as an angle; reaching the maximal depth, where `_check`
raises; and the convergence type `trust`, which the Euler step does not support. -/
theorem C121_euler_partial (P : Par ℝ) (hP : 0 < P.maxIter) (hc : P.conv = .norm) (no : ℕ) (hno : 0 < no) (o : Opt) (hcol : ColouringOK o.col)
    (hcolA : ColouringOK o.colA) (hdep : P.maxIter < o.depth) (h1 : Fin (2 * no) → Fin (2 * no) → ℂ)
    (V : Fin (2 * no) → Fin (2 * no) → Fin (2 * no) → Fin (2 * no) → ℂ) (hs : SpinInts no h1 V) (hh : ∀ a b, h1 a b = h1 b a)
    (hV : ∀ a b c d, V a b c d = V c d a b) (hS : 4 * tolE no 2 h1 V < o.smin) (enc : ℝ)
    (hi : ∀ n < P.maxIter, ∀ s, after o no 1 1 h1 V enc n = some s → ∀ A ∈ (Euler.step 1 (o.eps : ℂ) s).psi, ImagForm A) :
    ∃ s, EulerRun.run P o no 1 1 h1 V enc P.maxIter = some s ∧ s.iter ≤ P.maxIter ∧ s.done = true ∧
      s.best ≤ (pair (det (hfCfg no 1 1)) (secondQ h1 V (det (hfCfg no 1 1) : Cfg →₀ ℂ))).re + enc ∧
      IsEnergy no 1 1 h1 V enc s.best ∧
      ∀ E0 : ℝ, (∀ φ : Cfg →₀ ℂ, pair φ φ = 1 → (∀ b, φ b ≠ 0 → InSec no (2 * no) 1 2 b) → E0 ≤ (pair φ (secondQ h1 V φ)).re) →
        E0 + enc - tolE no 2 h1 V ≤ s.best := by
  obtain ⟨x, x1, x2⟩ := getA_good no hno o hcolA h1 V hs hS [] (by simp)
  have hst : start o no 1 1 h1 V = some ⟨[], x.1⟩ := by unfold start; rw [x1]; rfl
  obtain ⟨os, o1, o2, o3⟩ := loop_obs P no hno o hcol hcolA h1 V hs hh hV hS enc P.maxIter hdep (fun n _ s h A hA hn => hi n hn s h A hA)
    P.maxIter 0 _ (by omega) hst ⟨by simp, x2, by simp⟩
  obtain ⟨s, e1, e2, e3, e4⟩ := run_of_obs P hP (by rw [hc]; simp) no 1 1 hno hno h1 V enc os o2
  refine ⟨s, ?_, e2, e3 (by omega), e4⟩
  unfold EulerRun.run
  rw [C113_acse_partial no 1 1 hno hno (by norm_num) (by unfold SpinOK; simp) h1 V hh hV enc, Option.bind_some, hst, Option.bind_some, o3]
  exact e1

/-- With three or more electrons the two-body tomography is refused and the run ends with an error, whatever the other options. -/
theorem C121_three_raises (P : Par ℝ) (o : Opt) (no na nb : ℕ) (hn : 3 ≤ na + nb) (h1 : Fin (2 * no) → Fin (2 * no) → ℂ)
    (V : Fin (2 * no) → Fin (2 * no) → Fin (2 * no) → Fin (2 * no) → ℂ) (enc : ℝ) (n : ℕ) : EulerRun.run P o no na nb h1 V enc n = none := by
  have h : EulerRun.start o no na nb h1 V = none := by
    unfold EulerRun.start EulerRun.getA
    rw [if_neg (by omega)]
    rfl
  unfold EulerRun.run
  rw [h]
  cases HFStore.acseE0 no na nb h1 V enc <;> rfl

/-- Lithium hydride with four electrons. -/
example (P : Par ℝ) (o : Opt) (h1 : Fin (2 * 6) → Fin (2 * 6) → ℂ) (V : Fin (2 * 6) → Fin (2 * 6) → Fin (2 * 6) → Fin (2 * 6) → ℂ) (enc : ℝ) (n : ℕ) :
    EulerRun.run P o 6 2 2 h1 V enc n = none := C121_three_raises P o 6 2 2 (by norm_num) h1 V enc n

end
end Props
end HQCA
