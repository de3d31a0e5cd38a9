import Verif.Model.Prepare
import Verif.Proofs.TransformAll
import Verif.Proofs.TransformErr
import Verif.Props.Gadget

/-!
# C78: the preparation circuit makes the reference determinant
-/

set_option linter.unusedSectionVars false

namespace HQCA
namespace Props
open Transform Prepare Prim

/-! ### One letter -/

theorem loop_one {K : Type} [Coef K] (tm : ℕ → FL → POp K) (l : List (ℕ × FL)) (new : POp K) (k : ℕ) (o : FL)
    (h : l.filter (fun a => a.2 ≠ .i) = [(k, o)]) : loop tm new l = OpD.mul Pauli.mul (tm k o) new := by
  have hnil : ∀ (l : List (ℕ × FL)) (new : POp K), l.filter (fun a => a.2 ≠ .i) = [] → loop tm new l = some new := by
    intro l
    induction l with
    | nil => intro new _; rfl
    | cons a l ih =>
      intro new h
      rw [List.filter_cons] at h
      split at h
      · cases h
      · rename_i hi
        have hi : a.2 = .i := by simpa using hi
        have : step tm new a = some new := by unfold step; rw [if_pos hi]
        unfold loop at ih ⊢
        rw [List.foldlM_cons, this]
        exact ih new h
  induction l with
  | nil => cases h
  | cons a l ih =>
    rw [List.filter_cons] at h
    split at h
    · rename_i hi
      simp only [List.cons.injEq] at h
      obtain ⟨rfl, h⟩ := h
      have hi : o ≠ .i := by simpa using hi
      have : step tm new (k, o) = OpD.mul Pauli.mul (tm k o) new := by unfold step; rw [if_neg hi]
      unfold loop
      rw [List.foldlM_cons, this]
      cases OpD.mul Pauli.mul (tm k o) new with
      | none => rfl
      | some n => exact hnil l n h
    · rename_i hi
      have hi : a.2 = .i := by simpa using hi
      have : step tm new a = some new := by unfold step; rw [if_pos hi]
      unfold loop at ih ⊢
      rw [List.foldlM_cons, this]
      exact ih h

/-- The string with one letter. -/
def oneLetter (N k : ℕ) (o : FL) : FStr := List.replicate k .i ++ o :: List.replicate (N - k - 1) .i

theorem generate_one {K : Type} [Coef K] (c : K) (hc : c ≠ 0) (N k : ℕ) (o : FL) :
    Fermi.generate true c [(k, o)] N = some (oneLetter N k o, c) := by
  have h0 : isZero c = false := by
    rw [← Bool.not_eq_true, Coef.isZero_iff]; exact hc
  simp [Fermi.generate, Fermi.generateCore, Fermi.sortLoop, Fermi.sortStep, h0, Fermi.build, Fermi.buildRest, oneLetter]

theorem length_one (N k : ℕ) (o : FL) (hk : k < N) : (oneLetter N k o).length = N := by
  simp [oneLetter]; omega

theorem letters_one (N k : ℕ) (o : FL) (ho : o ≠ .i) :
    (letters (oneLetter N k o)).filter (fun a => a.2 ≠ .i) = [(k, o)] := by
  have hrep : ∀ n m, ((List.replicate n FL.i).zipIdx m).filter (fun x => x.1 ≠ .i) = [] := by
    intro n m
    rw [List.filter_eq_nil_iff]
    rintro ⟨x, j⟩ hx
    have := List.mem_zipIdx hx
    simp only [List.getElem_replicate] at this
    simp [this.2.2]
  unfold letters oneLetter
  rw [List.filter_map]
  have : ((fun a : ℕ × FL => decide (a.2 ≠ FL.i)) ∘ fun x : FL × ℕ => (x.2, x.1)) = fun x => decide (x.1 ≠ .i) := rfl
  rw [this, List.zipIdx_append, List.filter_append, hrep, List.zipIdx_cons, List.filter_cons, hrep]
  simp [ho]

theorem pm_one {K : Type} [Coef K] (s : PStr) (a c : K) :
    pm (s, a) (List.replicate s.length PL.I, c) = (s, a * c) := by
  have h1 : List.zipWith posLetter s (List.replicate s.length PL.I) = s := by
    induction s with
    | nil => rfl
    | cons p s ih => rw [List.length_cons, List.replicate_succ, List.zipWith_cons_cons, ih]; cases p <;> rfl
  have h2 : Pauli.exp1 (s.map PL.l) (s.map PL.r) ((List.replicate s.length PL.I).map PL.l)
      ((List.replicate s.length PL.I).map PL.r) = 0 := by
    clear h1
    unfold Pauli.exp1
    induction s with
    | nil => rfl
    | cons p s ih =>
      rw [List.length_cons, List.replicate_succ]
      simp only [List.map_cons, List.zipWith_cons_cons, List.sum_cons]
      rw [ih]
      cases p <;> rfl
  have h3 : Pauli.exp2 (s.map PL.l) (s.map PL.r) ((List.replicate s.length PL.I).map PL.l)
      ((List.replicate s.length PL.I).map PL.r) = 0 := by
    clear h1 h2
    unfold Pauli.exp2
    induction s with
    | nil => rfl
    | cons p s ih =>
      rw [List.length_cons, List.replicate_succ]
      simp only [List.map_cons, List.zipWith_cons_cons, List.sum_cons]
      rw [ih]
      cases p <;> rfl
  unfold pm
  rw [h1, h2, h3]
  simp

/-- Transform of a one-letter string with coefficient `±1`, for any table of two distinct strings. -/
theorem mul_one_letter (N : ℕ) (s1 s2 : PStr) (h1 : s1.length = N) (h2 : s2.length = N) (hne : s1 ≠ s2) (x c : ℂ)
    (hx : ‖x‖ = 1 / 2) (hc : ‖c‖ = 1) :
    OpD.mul Pauli.mul [(s1, 1/2), (s2, x)] [(List.replicate N PL.I, c)] = some [(s1, 1/2 * c), (s2, x * c)] := by
  rw [mul_prods N _ _ (by simp [h1, h2]) (by simp)]
  have e : prods [(s1, (1/2 : ℂ)), (s2, x)] [(List.replicate N PL.I, c)] = [(s1, 1/2 * c), (s2, x * c)] := by
    simp only [prods, OpD.mulPairs, List.flatMap_cons, List.flatMap_nil, List.map_cons, List.map_nil, List.append_nil]
    have p1 := pm_one s1 (1/2 : ℂ) c
    have p2 := pm_one s2 x c
    rw [h1] at p1
    rw [h2] at p2
    rw [p1, p2]
  rw [e, OpD.foldl_addStr_fresh _ _ (by simp [hne]), List.nil_append]
  have q1 : small (1/2 * c) = false := by
    rw [← Bool.not_eq_true, small_complex, norm_mul, hc]; norm_num
  have q2 : small (x * c) = false := by
    rw [← Bool.not_eq_true, small_complex, norm_mul, hc, hx]; norm_num
  simp only [OpD.clean, List.filter_cons, q1, q2, Bool.not_false, if_true, List.filter_nil]

/-- What a transform has to do with one-letter strings. -/
structure OneLetter (T : Term FStr ℂ → Option (POp ℂ)) (enc : Cfg → Cfg) (N : ℕ) (tab : Table) : Prop where
  run : ∀ k < N, ∀ o : FL, o = .cr ∨ o = .an → ∀ c : ℂ, T (oneLetter N k o, c) =
    OpD.mul Pauli.mul [((tab N k o).1, 1/2), ((tab N k o).2, c2 o)] [(List.replicate N PL.I, c)]
  same : ∀ k, tab N k .cr = tab N k .an
  good : TabGood tab N
  enc : ∀ k < N, ∀ o : FL, o = .cr ∨ o = .an →
    Encodes enc (denPO [((tab N k o).1, (1/2 : ℂ)), ((tab N k o).2, c2 o)]) (fop k o)

theorem oneLetter_jw (N : ℕ) : OneLetter jordanWigner id N jwTab := by
  have ne : ∀ o : FL, o = .cr ∨ o = .an → o ≠ .i := by rintro o (rfl | rfl) <;> simp
  refine ⟨fun k hk o ho c => ?_, fun k => by simp [jwTab], jw_good N, fun k hk o ho => ?_⟩
  · unfold jordanWigner
    rw [loop_one _ _ _ k o (by rw [List.filter_reverse, letters_one N k o (ne o ho)]; rfl), start_eq, length_one N k o hk,
      tem_eq _ _ _ _ ((jw_good N).ne hk (ne o ho))]
  · rw [← tem_eq _ _ _ _ ((jw_good N).ne hk (ne o ho))]
    exact jw_letter N k hk o (ne o ho)

theorem oneLetter_parity (N : ℕ) : OneLetter parity (parityEnc N) N parTab := by
  have ne : ∀ o : FL, o = .cr ∨ o = .an → o ≠ .i := by rintro o (rfl | rfl) <;> simp
  refine ⟨fun k hk o ho c => ?_, fun k => by simp [parTab], par_good N, fun k hk o ho => ?_⟩
  · unfold parity
    rw [loop_one _ _ _ k o (letters_one N k o (ne o ho)), start_eq, length_one N k o hk,
      tem_eq _ _ _ _ ((par_good N).ne hk (ne o ho))]
  · rw [← tem_eq _ _ _ _ ((par_good N).ne hk (ne o ho))]
    exact par_letter N k hk o (ne o ho)

theorem oneLetter_bk (N : ℕ) : OneLetter bravyiKitaev (bkEnc N) N bkTab := by
  have ne : ∀ o : FL, o = .cr ∨ o = .an → o ≠ .i := by rintro o (rfl | rfl) <;> simp
  refine ⟨fun k hk o ho c => ?_, fun k => by simp [bkTab], bk_good N, fun k hk o ho => ?_⟩
  · unfold bravyiKitaev
    rw [loop_one _ _ _ k o (letters_one N k o (ne o ho)), start_eq, length_one N k o hk,
      bkTem_eq _ _ _ ((bk_good N).ne hk (ne o ho)), tem_eq _ _ _ _ ((bk_good N).ne hk (ne o ho))]
  · rw [← tem_eq _ _ _ _ ((bk_good N).ne hk (ne o ho)), ← bkTem_eq _ _ _ ((bk_good N).ne hk (ne o ho))]
    exact bk_letter N k hk o (ne o ho)

/-- One orbital: `a† - a` becomes a single Pauli string with coefficient `-i`. -/
theorem excite_eq {T : Term FStr ℂ → Option (POp ℂ)} {enc : Cfg → Cfg} {N : ℕ} {tab : Table} (hT : OneLetter T enc N tab)
    (k : ℕ) (hk : k < N) : ∃ s : PStr, s.length = N ∧ excite T N k = some [(s, -Complex.I)] ∧
      Encodes enc ((-Complex.I) • (denP 0 s : Oper ℂ)) (cre k - ann k) := by
  obtain ⟨l1, l2⟩ := hT.good.len k hk .cr (by simp)
  have hne := hT.good.ne hk (o := .cr) (by simp)
  have r1 := hT.run k hk .cr (Or.inl rfl) 1
  have r2 := hT.run k hk .an (Or.inr rfl) (-1)
  have e1 := hT.enc k hk .cr (Or.inl rfl)
  have e2 := hT.enc k hk .an (Or.inr rfl)
  rw [← hT.same k] at r2 e2
  generalize (tab N k .cr).1 = s1 at *
  generalize (tab N k .cr).2 = s2 at *
  have hI : (I : ℂ) = Complex.I := rfl
  have c1 : (c2 .cr : ℂ) = -Complex.I / 2 := by simp only [c2, hI]; ring
  have c3 : (c2 .an : ℂ) = Complex.I / 2 := by simp only [c2, hI]; ring
  rw [c1] at r1 e1
  rw [c3] at r2 e2
  rw [mul_one_letter N s1 s2 l1 l2 hne _ _ (by simp) (by simp)] at r1
  rw [mul_one_letter N s1 s2 l1 l2 hne _ _ (by simp) (by simp)] at r2
  refine ⟨s2, l2, ?_, ?_⟩
  · unfold excite
    rw [generate_one (1 : ℂ) one_ne_zero, generate_one (-1 : ℂ) (by simp)]
    have hno : oneLetter N k .cr ≠ oneLetter N k .an := by
      unfold oneLetter
      intro h
      have := List.append_cancel_left h
      simp at this
    have ha : OpD.addStr (OpD.addStr [] (oneLetter N k .cr, (1 : ℂ))) (oneLetter N k .an, -1)
        = [(oneLetter N k .cr, 1), (oneLetter N k .an, -1)] := by
      simp [OpD.addStr, OpD.hasKey, hno]
    simp only [Option.bind_some, ha]
    unfold OpD.transform
    rw [List.mapM_cons, r1, List.mapM_cons, r2]
    simp only [List.mapM_nil, Option.pure_def, Option.bind_eq_bind, Option.bind_some, Option.map_some, Option.some.injEq,
      List.foldl_cons, List.foldl_nil]
    have q1 : small ((1 / 2 * 1 : ℂ)) = false := by rw [← Bool.not_eq_true, small_complex]; norm_num
    have q2 : small ((-Complex.I / 2 * 1 : ℂ)) = false := by rw [← Bool.not_eq_true, small_complex]; simp; norm_num
    have f1 : OpD.add [] [(s1, (1 / 2 * 1 : ℂ)), (s2, -Complex.I / 2 * 1)] = [(s1, 1 / 2 * 1), (s2, -Complex.I / 2 * 1)] := by
      unfold OpD.add
      rw [OpD.foldl_addStr_fresh _ _ (by simp [hne]), List.nil_append]
      simp only [OpD.clean, List.filter_cons, q1, q2, Bool.not_false, if_true, List.filter_nil]
    rw [f1]
    have f2 : OpD.add [(s1, (1 / 2 * 1 : ℂ)), (s2, -Complex.I / 2 * 1)] [(s1, 1 / 2 * -1), (s2, Complex.I / 2 * -1)]
        = OpD.clean [(s1, 1 / 2 * 1 + 1 / 2 * -1), (s2, -Complex.I / 2 * 1 + Complex.I / 2 * -1)] := by
      simp [OpD.add, OpD.addStr, OpD.hasKey, hne, hne.symm]
    rw [f2]
    have g1 : small ((1 / 2 * 1 + 1 / 2 * -1 : ℂ)) = true := by
      rw [small_complex]; norm_num
    have g2 : (-Complex.I / 2 * 1 + Complex.I / 2 * -1 : ℂ) = -Complex.I := by ring
    have g3 : small (-Complex.I) = false := by rw [← Bool.not_eq_true, small_complex]; simp; norm_num
    rw [g2]
    simp only [OpD.clean, List.filter_cons, g1, g3, Bool.not_false, Bool.not_true, if_true, Bool.false_eq_true, if_false, List.filter_nil]
  · intro ψ b
    have h1 := e1 ψ b
    have h2 := e2 ψ b
    have d : ((-Complex.I) • (denP 0 s2 : Oper ℂ))
        = denPO [(s1, (1/2 : ℂ)), (s2, -Complex.I / 2)] - denPO [(s1, (1/2 : ℂ)), (s2, Complex.I / 2)] := by
      simp only [denPO, OpD.denD_cons, OpD.denD_nil, add_zero]
      module
    rw [d, LinearMap.sub_apply, LinearMap.sub_apply, Pi.sub_apply, Pi.sub_apply, h1, h2]
    rfl

/-! ### The whole list -/

/-- Product of the excitations, first orbital leftmost. -/
noncomputable def excProd (l : List ℕ) : Oper ℂ := (l.map fun k => (cre k - ann k : Oper ℂ)).prod

theorem initOp_eq {T : Term FStr ℂ → Option (POp ℂ)} {enc : Cfg → Cfg} {N : ℕ} {tab : Table} (hT : OneLetter T enc N tab)
    (l : List ℕ) (hl : ∀ k ∈ l, k < N) : ∃ (s : PStr) (c : ℂ), initOp T N N l = some [(s, c)] ∧ s.length = N ∧ ‖c‖ = 1 ∧
      Encodes enc (c • (denP 0 s : Oper ℂ)) (excProd l) := by
  induction l using List.reverseRecOn with
  | nil =>
    refine ⟨List.replicate N .I, 1, rfl, by simp, by simp, ?_⟩
    rw [denP_replicate_I, one_smul]
    exact Encodes.one enc
  | append_singleton l k ih =>
    obtain ⟨s, c, e1, e2, e3, e4⟩ := ih (fun j hj => hl j (by simp [hj]))
    obtain ⟨s', f1, f2, f3⟩ := excite_eq hT k (hl k (by simp))
    refine ⟨(pm (s, c) (s', -Complex.I)).1, (pm (s, c) (s', -Complex.I)).2, ?_, ?_, ?_, ?_⟩
    · unfold initOp at e1 ⊢
      rw [List.foldlM_append, e1]
      simp only [Option.bind_eq_bind, Option.bind_some, List.foldlM_cons, List.foldlM_nil, f2]
      rw [mul_prods N _ _ (by simp [e2]) (by simp [f1])]
      have : small (pm (s, c) (s', -Complex.I)).2 = false := by
        rw [← Bool.not_eq_true, small_complex]
        simp only [pm, norm_mul, e3, norm_neg, Complex.norm_I, norm_I_zpow]
        norm_num
      simp only [prods, OpD.mulPairs, List.flatMap_cons, List.flatMap_nil, List.map_cons, List.map_nil, List.append_nil,
        List.foldl_cons, List.foldl_nil, OpD.addStr, OpD.hasKey, List.any_nil, Bool.false_eq_true, if_false, List.nil_append,
        OpD.clean, List.filter_cons, this, Bool.not_false, if_true, List.filter_nil]
      rfl
    · simp [pm, e2, f1]
    · simp only [pm, norm_mul, e3, norm_neg, Complex.norm_I, norm_I_zpow]
      norm_num
    · rw [pm_den _ _ (by rw [e2, f1])]
      have : excProd (l ++ [k]) = excProd l * (cre k - ann k) := by simp [excProd]
      rw [this]
      exact Encodes.mul e4 f3

/-- Flipping the occupation of `k`. -/
theorem exc_ket (k : ℕ) (a : Cfg) : ∃ c : ℂ, ‖c‖ = 1 ∧
    (cre k - ann k : Oper ℂ) (ket a) = c • ket (Function.update a k (!a k)) := by
  classical
  have hs : ∀ b : Cfg, ‖(fsign b k : ℂ)‖ = 1 := by
    intro b; unfold fsign; simp
  refine ⟨if a k then -fsign a k else fsign a k, by split <;> simp [hs], ?_⟩
  funext b
  have hf : ∀ x, (fsign (Function.update a k x) k : ℂ) = fsign a k := fun x => fsign_update a k x
  have ec : (cre k : Oper ℂ) (ket a) b = if b k then fsign b k * ket a (Function.update b k false) else 0 := rfl
  have ea : (ann k : Oper ℂ) (ket a) b = if b k then 0 else fsign b k * ket a (Function.update b k true) := rfl
  rw [LinearMap.sub_apply, Pi.sub_apply, ec, ea, Pi.smul_apply, smul_eq_mul]
  unfold ket
  have key : ∀ x : Bool, Function.update b k x = a ↔ (a k = x ∧ b = Function.update a k (b k)) := by
    intro x
    constructor
    · rintro rfl; simp
    · rintro ⟨h1, h2⟩
      rw [h2]
      subst h1
      simp
  by_cases h : b = Function.update a k (!a k)
  · subst h
    have hu : Function.update a k (a k) = a := Function.update_eq_self k a
    cases ha : a k
    · rw [ha] at hu; simp [hf, hu]
    · rw [ha] at hu; simp [hf, hu]
  · have : ∀ x, b k = !x → ¬ Function.update b k x = a := by
      intro x hx hh
      obtain ⟨h1, h2⟩ := (key x).mp hh
      rw [hx, ← h1] at h2
      exact h h2
    cases hb : b k
    · simp [h, this true (by simp [hb])]
    · simp [h, this false (by simp [hb])]

/-- Occupation numbers: exactly the orbitals of `l`. -/
def occ (l : List ℕ) : Cfg := fun j => decide (j ∈ l)

theorem excProd_ket (l : List ℕ) (hl : l.Nodup) : ∃ c : ℂ, ‖c‖ = 1 ∧ excProd l (ket fun _ => false) = c • ket (occ l) := by
  induction l with
  | nil =>
    refine ⟨1, by simp, ?_⟩
    have : occ [] = fun _ => false := by funext j; simp [occ]
    rw [this]
    simp [excProd]
  | cons k l ih =>
    obtain ⟨hk, hl⟩ := List.nodup_cons.mp hl
    obtain ⟨c, h1, h2⟩ := ih hl
    obtain ⟨d, h3, h4⟩ := exc_ket k (occ l)
    refine ⟨c * d, by simp [h1, h3], ?_⟩
    have e : Function.update (occ l) k (!occ l k) = occ (k :: l) := by
      funext j
      by_cases hj : j = k
      · subst hj; simp [occ, hk]
      · simp [occ, hj]
    have : excProd (k :: l) = (cre k - ann k) * excProd l := by simp [excProd]
    rw [this, Module.End.mul_apply, h2, map_smul, h4, smul_smul, e]

theorem encodes_ket {enc : Cfg → Cfg} (hb : Function.Bijective enc) {P F : Oper ℂ} (h : Encodes enc P F) (a a' : Cfg) (c : ℂ)
    (hF : F (ket a) = c • ket a') : P (ket (enc a)) = c • ket (enc a') := by
  classical
  have hk : ∀ a : Cfg, (fun b => ket (enc a) (enc b)) = ket a := by
    intro a
    funext b
    simp [ket, hb.1.eq_iff]
  funext x
  obtain ⟨b, rfl⟩ := hb.2 x
  rw [h, hk, hF]
  simp [ket, hb.1.eq_iff]

theorem prepare_ok {T : Term FStr ℂ → Option (POp ℂ)} {enc : Cfg → Cfg} {N : ℕ} {tab : Table} (hT : OneLetter T enc N tab)
    (hb : Function.Bijective enc) (h0 : enc (fun _ => false) = fun _ => false) (l : List ℕ) (hl : ∀ k ∈ l, k < N)
    (hn : l.Nodup) : ∃ (gs : List QG) (d : ℂ), prepare T N N l = some gs ∧ ‖d‖ = 1 ∧
      circOp gs (ket fun _ => false) = d • ket (enc (occ l)) := by
  obtain ⟨s, c, e1, e2, e3, e4⟩ := initOp_eq hT l hl
  obtain ⟨x, h1, h2⟩ := excProd_ket l hn
  have h3 := encodes_ket hb e4 _ _ _ h2
  rw [h0] at h3
  have hg : applyPauli c s = some (applyFrom 0 s) := by
    unfold applyPauli
    rw [if_pos (by rw [e3]; norm_num)]
  obtain ⟨d, h4, h5⟩ := C38_basis_state c s _ hg (fun _ => false)
  have hc : c ≠ 0 := by rintro rfl; simp at e3
  refine ⟨applyFrom 0 s, d * c⁻¹ * x, ?_, by simp [h4, e3, h1], ?_⟩
  · unfold prepare
    rw [e1]
    simp [gates, hg]
  · rw [h5, mul_assoc, mul_smul, mul_smul, ← h3, LinearMap.smul_apply, smul_smul c⁻¹, inv_mul_cancel₀ hc, one_smul]

/-- **C78.** For any list of distinct orbitals below the number of qubits, the preparation circuit turns the all-zero
register into the basis state encoding the determinant in which exactly these orbitals are occupied: Jordan–Wigner. -/
theorem C78_jordan_wigner (N : ℕ) (l : List ℕ) (hl : ∀ k ∈ l, k < N) (hn : l.Nodup) :
    ∃ (gs : List QG) (d : ℂ), prepare jordanWigner N N l = some gs ∧ ‖d‖ = 1 ∧
      circOp gs (ket fun _ => false) = d • ket (occ l) :=
  prepare_ok (oneLetter_jw N) Function.bijective_id rfl l hl hn

/-- **C78**, parity encoding. -/
theorem C78_parity (N : ℕ) (l : List ℕ) (hl : ∀ k ∈ l, k < N) (hn : l.Nodup) :
    ∃ (gs : List QG) (d : ℂ), prepare parity N N l = some gs ∧ ‖d‖ = 1 ∧
      circOp gs (ket fun _ => false) = d • ket (parityEnc N (occ l)) :=
  prepare_ok (oneLetter_parity N) (parityEnc_bijective N) (by funext i; simp [parityEnc, parOver]) l hl hn

/-- **C78**, Bravyi–Kitaev encoding. -/
theorem C78_bravyi_kitaev (N : ℕ) (l : List ℕ) (hl : ∀ k ∈ l, k < N) (hn : l.Nodup) :
    ∃ (gs : List QG) (d : ℂ), prepare bravyiKitaev N N l = some gs ∧ ‖d‖ = 1 ∧
      circOp gs (ket fun _ => false) = d • ket (bkEnc N (occ l)) :=
  prepare_ok (oneLetter_bk N) (bkEnc_bijective N) (by funext i; simp [bkEnc, parOver]) l hl hn

/-! ### The lists the storage passes -/

theorem mapM_occ (l : List ℕ) (n : ℕ) (h : n ≤ l.length) : (List.range n).mapM (fun i => l[i]?) = some (l.take n) := by
  rw [OpD.mapM_total (g := fun i => l.getD i 0)]
  · congr 1
    apply List.ext_getElem
    · simp [h]
    · intro i h1 h2
      have : i < l.length := by simp at h1; omega
      simp [this]
  · intro i hi
    have : i < l.length := by have := List.mem_range.mp hi; omega
    simp [this]

/-- **C78, the occupied list.** With `na`, `nb` at most the number of spatial orbitals, the storage's list is duplicate-free,
below the number of spin orbitals, and has the first `na` alpha and the first `nb` beta orbitals, in both orderings. -/
theorem C78_initial (no na nb : ℕ) (ha : na ≤ no) (hb : nb ≤ no) (o : List ℕ × List ℕ)
    (ho : o = defaultOrbs no ∨ o = alternatingOrbs no) :
    initial o.1 o.2 na nb = some (o.1.take na ++ o.2.take nb) ∧ (o.1.take na ++ o.2.take nb).Nodup ∧
      (∀ k ∈ o.1.take na ++ o.2.take nb, k < 2 * no) ∧ (o.1.take na ++ o.2.take nb).length = na + nb := by
  have l1 : o.1.length = no := by rcases ho with rfl | rfl <;> simp [defaultOrbs, alternatingOrbs]
  have l2 : o.2.length = no := by rcases ho with rfl | rfl <;> simp [defaultOrbs, alternatingOrbs]
  have hnd : (o.1 ++ o.2).Nodup := by
    rw [List.nodup_append]
    rcases ho with rfl | rfl
    · refine ⟨List.nodup_range, List.nodup_range.map (fun a b h => by simpa using h), ?_⟩
      intro a h1 b h2 e
      simp only [defaultOrbs, List.mem_range, List.mem_map] at h1 h2
      obtain ⟨c, h2, h3⟩ := h2
      omega
    · refine ⟨List.nodup_range.map (fun a b h => by simpa using h), List.nodup_range.map (fun a b h => by simpa using h), ?_⟩
      intro a h1 b h2 e
      simp only [alternatingOrbs, List.mem_range, List.mem_map] at h1 h2
      obtain ⟨c, h2, h3⟩ := h2
      obtain ⟨c', h4, h5⟩ := h1
      omega
  refine ⟨?_, ?_, ?_, ?_⟩
  · unfold initial
    rw [mapM_occ _ _ (by omega), mapM_occ _ _ (by omega)]
    rfl
  · exact hnd.sublist (List.Sublist.append (List.take_sublist _ _) (List.take_sublist _ _))
  · intro k hk
    have : k ∈ o.1 ++ o.2 := by
      rcases List.mem_append.mp hk with h | h
      · exact List.mem_append_left _ (List.mem_of_mem_take h)
      · exact List.mem_append_right _ (List.mem_of_mem_take h)
    rcases ho with rfl | rfl
    · simp only [defaultOrbs, List.mem_append, List.mem_range, List.mem_map] at this
      rcases this with h | ⟨c, h, h'⟩ <;> omega
    · simp only [alternatingOrbs, List.mem_append, List.mem_range, List.mem_map] at this
      rcases this with ⟨c, h, h'⟩ | ⟨c, h, h'⟩ <;> omega
  · simp; omega

/-- **C78**: the reference of a molecule with `na` alpha and `nb` beta electrons in `no` spatial orbitals. -/
theorem C78_reference (no na nb : ℕ) (ha : na ≤ no) (hb : nb ≤ no) (o : List ℕ × List ℕ)
    (ho : o = defaultOrbs no ∨ o = alternatingOrbs no) :
    ∃ (l : List ℕ) (gs : List QG) (d : ℂ), initial o.1 o.2 na nb = some l ∧ prepare jordanWigner (2 * no) (2 * no) l = some gs ∧
      ‖d‖ = 1 ∧ circOp gs (ket fun _ => false) = d • ket (occ (o.1.take na ++ o.2.take nb)) := by
  obtain ⟨h1, h2, h3, _⟩ := C78_initial no na nb ha hb o ho
  obtain ⟨gs, d, e1, e2, e3⟩ := C78_jordan_wigner (2 * no) _ h3 h2
  exact ⟨_, gs, d, h1, e1, e2, e3⟩

/-- Two electrons in four spin orbitals. -/
example : ∃ (gs : List QG) (d : ℂ), prepare jordanWigner 4 4 [0, 2] = some gs ∧ ‖d‖ = 1 ∧
    circOp gs (ket fun _ => false) = d • ket (occ [0, 2]) :=
  C78_jordan_wigner 4 [0, 2] (by decide) (by decide)

example : initial (defaultOrbs 2).1 (defaultOrbs 2).2 1 1 = some [0, 2] := by decide +kernel
example : initial (alternatingOrbs 2).1 (alternatingOrbs 2).2 1 1 = some [0, 1] := by decide +kernel
example : initial (defaultOrbs 2).1 (defaultOrbs 2).2 3 1 = none := by decide +kernel

end Props
end HQCA
