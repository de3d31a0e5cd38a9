import Verif.Props.EncEnergy
import Verif.Props.ReducedTomo
import Verif.Props.ExactUnitary
import Verif.Proofs.Fock
import Mathlib.Analysis.SpecialFunctions.Trigonometric.Bounds

/-!
# C149: VQE evaluations with the parity and Bravyi–Kitaev transforms
-/

namespace HQCA.Props
open HQCA.Prim HQCA.Tomo HQCA.StateTomo HQCA.Transform HQCA.Ham HQCA.Prepare HQCA.EncEn HQCA.UCC HQCA.Instr
noncomputable section

/-! ### Specification -/

/-- The sign with which the transform represents an excitation: single excitations are reversed. -/
def hopSign (t : List ℕ) : ℂ := if t.length = 2 then -1 else 1

/-- Whether an odd number of the listed orbitals is unoccupied in the reference. -/
def crosses (occ : Cfg) (l : List ℕ) : Prop := (l.countP fun i => !occ i) % 2 = 1

open Classical in
/-- One-electron integrals with the sign of the hops within the occupied and within the virtual orbitals reversed. -/
def twist1 {r : ℕ} (occ : Cfg) (h1 : Fin r → Fin r → ℂ) (a b : Fin r) : ℂ :=
  if a ≠ b ∧ ¬ crosses occ [a.val, b.val] then -h1 a b else h1 a b

open Classical in
/-- Two-electron integrals `V p t q s` (of `a†_p a†_t a_s a_q`): reversed are those which either move exactly one electron, or exchange an odd number of electrons
between occupied and virtual orbitals, but not both. -/
def twist2 {r : ℕ} (occ : Cfg) (V : Fin r → Fin r → Fin r → Fin r → ℂ) (a b c d : Fin r) : ℂ :=
  if (({a.val, b.val} : Multiset ℕ) ≠ {c.val, d.val} ∧ (a = c ∨ a = d ∨ b = c ∨ b = d)) ↔ crosses occ [a.val, b.val, c.val, d.val]
  then V a b c d else -V a b c d

/-! ### Operators seen through a relabelling -/

theorem oper_neg_smul (c : ℂ) (X : Oper ℂ) : (-c) • X = -(c • X) := LinearMap.ext fun ψ => funext fun b => neg_mul c (X ψ b)

theorem encodes_neg {enc : Cfg → Cfg} {P F : Oper ℂ} (h : Encodes enc P F) : Encodes enc (-P) (-F) := fun ψ b => congrArg (-·) (h ψ b)

theorem encodes_isReal {enc : Cfg → Cfg} (hs : Function.Surjective enc) {P F : Oper ℂ} (h : Encodes enc P F) (hF : IsReal F) : IsReal P := by
  intro ψ e
  obtain ⟨b, rfl⟩ := hs e
  rw [h, h]
  exact hF (fun b' => ψ (enc b')) b

theorem encodes_isAdj {enc : Cfg → Cfg} (hb : Function.Bijective enc) {P F Q G : Oper ℂ} (h : Encodes enc P F) (h' : Encodes enc Q G)
    (hF : IsAdj F G) : IsAdj P Q := by
  intro φ
  obtain ⟨g, g1, g2⟩ := Function.bijective_iff_has_inverse.mp hb
  have e0 : relabel enc (relabel g φ) = φ := by
    unfold relabel
    rw [← Finsupp.mapDomain_comp]
    have : enc ∘ g = id := funext g2
    rw [this, Finsupp.mapDomain_id]
  have e1 : (fun b => φ (enc b)) = (relabel g φ : Cfg → ℂ) := by
    funext b
    conv_lhs => rw [← e0]
    exact relabel_apply hb.1 _ b
  obtain ⟨χ, c1, c2⟩ := hF (relabel g φ)
  refine ⟨relabel enc χ, ?_, fun ψ => ?_⟩
  · funext e
    obtain ⟨b, rfl⟩ := hb.2 e
    rw [relabel_apply hb.1, h', e1, c1]
  · rw [pair_relabel, ← c2]
    conv_lhs => rw [← e0]
    rw [pair_relabel]
    congr 1
    funext b
    exact h ψ b

/-- Every operator is seen as some operator. -/
theorem encodes_exists {enc : Cfg → Cfg} (hb : Function.Bijective enc) (P : Oper ℂ) : ∃ F : Oper ℂ, Encodes enc P F := by
  obtain ⟨g, g1, g2⟩ := Function.bijective_iff_has_inverse.mp hb
  refine ⟨{ toFun := fun ψ b => P (fun e => ψ (g e)) (enc b), map_add' := fun ψ φ => ?_, map_smul' := fun c ψ => ?_ }, fun ψ b => ?_⟩
  · funext b
    have : (fun e => (ψ + φ) (g e)) = (fun e => ψ (g e)) + fun e => φ (g e) := rfl
    rw [this, map_add]
    rfl
  · funext b
    have : (fun e => (c • ψ) (g e)) = c • fun e => ψ (g e) := rfl
    rw [this, map_smul]
    rfl
  · show P ψ (enc b) = P (fun e => ψ (enc (g e))) (enc b)
    have : (fun e => ψ (enc (g e))) = ψ := by funext e; rw [g2]
    rw [this]

theorem encodes_pow {enc : Cfg → Cfg} {P F : Oper ℂ} (h : Encodes enc P F) (k : ℕ) : Encodes enc (P ^ k) (F ^ k) := by
  induction k with
  | zero => exact Encodes.one enc
  | succ k ih => rw [pow_succ, pow_succ]; exact ih.mul h

theorem encodes_exp {enc : Cfg → Cfg} (hb : Function.Bijective enc) {P F U : Oper ℂ} (h : Encodes enc P F) (hU : IsExp P U) :
    ∃ W, Encodes enc U W ∧ IsExp F W := by
  obtain ⟨W, hW⟩ := encodes_exists hb U
  refine ⟨W, hW, fun ψ b => ?_⟩
  obtain ⟨g, g1, g2⟩ := Function.bijective_iff_has_inverse.mp hb
  have e : (fun b' => (fun x => ψ (g x)) (enc b')) = ψ := by funext b'; simp only [g1 b']
  have := hU (fun x => ψ (g x)) (enc b)
  rw [hW, e] at this
  refine this.congr_fun ?_ |> id
  intro k
  rw [(encodes_pow h k) _ b, e]

theorem encodes_prod {enc : Cfg → Cfg} (Us Ws : List (Oper ℂ)) (h : List.Forall₂ (Encodes enc) Us Ws) : Encodes enc Us.prod Ws.prod := by
  induction h with
  | nil => exact Encodes.one enc
  | cons a _ ih => rw [List.prod_cons, List.prod_cons]; exact a.mul ih

/-! ### Encodings whose qubits store parities -/

/-- Qubit `k` stores the parity of a set of orbitals. -/
def Parities (enc : Cfg → Cfg) : Prop := ∀ k, ∃ S : Finset ℕ, ∀ b, enc b k = parOver S b

theorem parities_parity (N : ℕ) : Parities (parityEnc N) := by
  intro k
  by_cases h : k < N
  · exact ⟨Finset.range (k + 1), fun b => by simp [parityEnc, h]⟩
  · refine ⟨{k}, fun b => ?_⟩
    cases hb : b k <;> simp [parityEnc, h, parOver, hb, Finset.filter_singleton]

theorem parities_bk (N : ℕ) : Parities (bkEnc N) := by
  intro k
  by_cases h : k < N
  · exact ⟨bkWindow k, fun b => by simp [bkEnc, h]⟩
  · refine ⟨{k}, fun b => ?_⟩
    cases hb : b k <;> simp [bkEnc, h, parOver, hb, Finset.filter_singleton]

theorem parOver_insert (S : Finset ℕ) (j : ℕ) (hj : j ∉ S) (b : Cfg) : (sg (parOver (insert j S) b) : ℂ) = sg (b j) * sg (parOver S b) := by
  unfold parOver
  rw [Finset.filter_insert]
  by_cases h : b j = true
  · rw [if_pos h, Finset.card_insert_of_notMem (by simp [hj]), h]
    by_cases ho : Odd (S.filter fun j => b j = true).card
    · have : ¬ Odd ((S.filter fun j => b j = true).card + 1) := by rw [Nat.odd_add_one]; exact not_not.mpr ho
      simp [sg, ho, this]
    · have : Odd ((S.filter fun j => b j = true).card + 1) := by rw [Nat.odd_add_one]; exact ho
      simp [sg, ho, this]
  · rw [if_neg h]
    simp [sg, h]

theorem sg_par_sq (x : Bool) : (sg x * sg x : ℂ) = 1 := by cases x <;> simp [sg]

theorem siteZ_apply (k : ℕ) (ψ : Cfg → ℂ) (e : Cfg) : (site k mZ : Oper ℂ) ψ e = sg (e k) * ψ e := by
  have := site_pmat_apply k .Z ψ e
  simpa [pmat, PL.l, ph] using this

/-- A product of `Z`s, and its exchange with an excitation. -/
theorem zprod (S : Finset ℕ) : ∃ D : Oper ℂ, (∀ ψ b, D ψ b = sg (parOver S b) * ψ b) ∧
    ∀ t : List ℕ, (D * excOp t : Oper ℂ) = ((-1 : ℂ) ^ (∑ j ∈ S, t.count j)) • (excOp t * D) := by
  induction S using Finset.induction_on with
  | empty => exact ⟨1, fun ψ b => by simp [parOver, sg], fun t => by simp⟩
  | insert j S hj ih =>
    obtain ⟨D, d1, d2⟩ := ih
    refine ⟨site j mZ * D, fun ψ b => ?_, fun t => ?_⟩
    · rw [Module.End.mul_apply, siteZ_apply, d1, parOver_insert S j hj, mul_assoc]
    · rw [mul_assoc, d2, mul_smul_comm, ← mul_assoc, zcomm_exc, smul_mul_assoc, smul_smul, mul_assoc, Finset.sum_insert hj, pow_add, mul_comm]

/-- `Z` on an encoded qubit is a product of `Z`s. -/
theorem encodes_z {enc : Cfg → Cfg} (k : ℕ) (S : Finset ℕ) (hS : ∀ b, enc b k = parOver S b) :
    ∃ D : Oper ℂ, Encodes enc (site k mZ) D ∧ ∀ t : List ℕ, (D * excOp t : Oper ℂ) = ((-1 : ℂ) ^ (∑ j ∈ S, t.count j)) • (excOp t * D) := by
  obtain ⟨D, d1, d2⟩ := zprod S
  refine ⟨D, fun ψ b => ?_, d2⟩
  rw [siteZ_apply, d1, hS]

/-! ### One excitation -/

theorem excOp_ne (t : List ℕ) (ht : t.Nodup) : (excOp t : Oper ℂ) ≠ 0 := by
  classical
  intro h
  set c := t.take (t.length / 2)
  set a := t.drop (t.length / 2)
  have nc : c.Nodup := ht.sublist (List.take_sublist _ _)
  have na : a.Nodup := ht.sublist (List.drop_sublist _ _)
  have h := congrFun (LinearMap.congr_fun h (fun b => if b = (fun i => a.contains i) then (1 : ℂ) else 0)) (fun i => c.contains i)
  obtain ⟨e, he, h1⟩ := cre_prod_apply c nc ((a.map (ann (K := ℂ))).prod
    (fun b => if b = (fun i => a.contains i) then (1 : ℂ) else 0)) (fun i => c.contains i) (by intro x hx; simpa using hx)
  obtain ⟨e', he', h2⟩ := ann_prod_apply a na
    (fun b => if b = (fun i => a.contains i) then (1 : ℂ) else 0) (fun _ => false) (by simp)
  simp only [excOp, Module.End.mul_apply, LinearMap.zero_apply, Pi.zero_apply] at h
  change (c.map (cre (K := ℂ))).prod ((a.map (ann (K := ℂ))).prod _) _ = _ at h
  rw [h1] at h
  have e0 : (fun i => c.contains i && !c.contains i) = fun _ : ℕ => false := by funext i; simp
  rw [e0, h2] at h
  have e1 : (fun i => false || a.contains i) = fun i => a.contains i := by funext i; simp
  rw [if_pos e1, mul_one] at h
  exact mul_ne_zero he he' h

/-- The string of an excitation has one ladder letter per index. -/
theorem nOdd_exc (N : ℕ) (t : List ℕ) (ht : t.Nodup) (hN : ∀ i ∈ t, i < N) (s : FStr) (hs : s.length = N)
    (x y : ℂ) (hy : y ≠ 0) (h : x • (denF 0 s : Oper ℂ) = y • excOp t) : nOdd s = t.length := by
  have hx : x ≠ 0 := by
    rintro rfl
    rw [zero_smul] at h
    exact excOp_ne t ht ((smul_eq_zero.mp h.symm).resolve_left hy)
  have hd : (denF 0 s : Oper ℂ) = (x⁻¹ * y) • excOp t := by rw [mul_smul, ← h, smul_smul, inv_mul_cancel₀ hx, one_smul]
  have hzz : ∀ k, (site k mZ * site k mZ : Oper ℂ) = 1 := by
    intro k
    rw [← site_mul, show (mZ * mZ : M2 ℂ) = 1 from ?_, site_one]
    rw [mZ_eq, mat2_mul, one_eq]; simp
  have hk : ∀ k, (if isOdd (s.getD k .i) = true then (-1 : ℂ) else 1) = (-1 : ℂ) ^ t.count k := by
    intro k
    have h1 := zcomm_denF k 0 s
    have h2 : (site k mZ * denF 0 s : Oper ℂ) = ((-1 : ℂ) ^ t.count k) • (denF 0 s * site k mZ) := by
      rw [hd, mul_smul_comm, zcomm_exc, smul_mul_assoc, smul_comm]
    rw [h2] at h1
    simp only [Nat.zero_le, true_and, Nat.sub_zero] at h1
    have h3 : (denF 0 s * site k mZ : Oper ℂ) ≠ 0 := by
      intro h0
      have := congrArg (· * (site k mZ : Oper ℂ)) h0
      simp only [mul_assoc, hzz, mul_one, zero_mul] at this
      rw [this, smul_zero] at h
      exact excOp_ne t ht ((smul_eq_zero.mp h.symm).resolve_left hy)
    exact (smul_left_injective ℂ h3 h1).symm
  have hone : ∀ k, (if isOdd (s.getD k .i) = true then 1 else 0) = t.count k := by
    intro k
    have h1 := List.nodup_iff_count_le_one.mp ht k
    have h3 := hk k
    interval_cases hcc : t.count k <;> split at h3 <;> rename_i ho <;> norm_num at h3 <;> simp only [ho] <;> rfl
  rw [nOdd_sum, hs, Finset.sum_congr rfl (fun k _ => hone k)]
  have := Multiset.sum_count_eq_card (s := Finset.range N) (m := (t : Multiset ℕ)) (fun i hi => Finset.mem_range.mpr (hN i (by simpa using hi)))
  simpa using this

theorem revSign_hop (t : List ℕ) (h : t.length % 2 = 0) (h4 : t.length ≤ 4) : (revSign t.length : ℂ) = hopSign t := by
  unfold hopSign
  have : t.length = 0 ∨ t.length = 2 ∨ t.length = 4 := by omega
  rcases this with h | h | h <;> rw [h] <;> norm_num [revSign]

/-- The Pauli form of one excitation under a reversing transform. -/
theorem gen_enc {T : Term FStr ℂ → Option (POp ℂ)} {encd : ℕ → Cfg → Cfg} (hT : Reversing T encd)
    (p : ℂ) (hp : tinyC p = false) (t : List ℕ) (h : t.length % 2 = 0) (h4 : t.length ≤ 4) (hnd : t.Nodup) (N : ℕ)
    (hN : ∀ i ∈ t, i < N) (hc : conj p = p) :
    ∃ C, (gen p t N).bind (OpD.transform T) = some C ∧
      Encodes (encd N) (denPO C) (p • (hopSign t • (excOp t - excOp t.reverse) : Oper ℂ)) ∧ UniqueKeys C ∧ ∀ u ∈ C, u.1.length = N := by
  obtain ⟨R, hR, hE⟩ := hT.spec
  have hr : t.reverse.length % 2 = 0 := by simpa using h
  obtain ⟨A, g1, _, g2, _⟩ := C50_generator p hc t h N
  obtain ⟨a, a1, a2, a3⟩ := C09_fermi_generate p (word t) N (word_ok t h)
  obtain ⟨b, b1, b2, b3⟩ := C09_fermi_generate p (word t.reverse) N (word_ok _ hr)
  rw [word_op _ h] at a2
  rw [word_op _ hr] at b2
  have hA : A = OpD.addStr (OpD.addStr [] a) (b.1, b.2 * (-1)) := by
    simp only [gen, a1, b1, bind, Option.bind, pure, Option.some.injEq] at g1
    exact g1.symm
  obtain ⟨sa, ca⟩ := generate_size _ _ _ _ a1
  obtain ⟨sb, cb⟩ := generate_size _ _ _ _ b1
  rw [word_length _ h] at sa
  rw [word_length _ hr, List.length_reverse] at sb
  have gi : ∀ x : ℂ, (x = p ∨ x = -p ∨ x = 0) → ∃ z, GI z ∧ x = z * p := by
    rintro x (rfl | rfl | rfl)
    · exact ⟨1, GI.one, by ring⟩
    · exact ⟨-1, GI.neg_one, by ring⟩
    · exact ⟨0, GI.zero, by ring⟩
  have hg : GIop p A := by
    rw [hA]
    refine ((GIop.nil p).addStr (gi _ ca)).addStr (gi _ ?_)
    rcases cb with h | h | h <;> simp [h]
  have hk : ∀ u ∈ A, u.1 = a.1 ∨ u.1 = b.1 := by
    intro u hu
    have hm : u.1 ∈ A.map (·.1) := List.mem_map_of_mem hu
    have := OpD.mem_keys_foldl_addStr [a, (b.1, b.2 * (-1))] ([] : OpD FStr ℂ) u.1
    simp only [List.foldl_cons, List.foldl_nil] at this
    rw [hA] at hm
    simpa using this.mp hm
  have hn : ¬ ‖p‖ < (1e-10 : ℝ) := by simpa [tinyC] using hp
  have hp0 : p ≠ 0 := by rintro rfl; exact hn (by norm_num)
  have hM : small (p / 2 ^ 4) = false := by
    rw [← Bool.not_eq_true, small_complex, norm_div, norm_pow]
    have h2 : ‖(2 : ℂ)‖ = 2 := by simp
    rw [h2, not_le, lt_div_iff₀ (by positivity)]
    have : (1e-12 : ℝ) * 2 ^ 4 < 1e-10 := by norm_num
    linarith [not_lt.mp hn]
  have la := a3 (word_lt t ‹_› N hN)
  have lb := b3 (word_lt _ hr N (by simpa using hN))
  have oa := nOdd_exc N t hnd hN a.1 la a.2 p hp0 a2
  have ob := nOdd_exc N t.reverse (List.nodup_reverse.mpr hnd) (by simpa using hN) b.1 lb b.2 p hp0 b2
  rw [List.length_reverse] at ob
  obtain ⟨C, c1, cu, c3, cl⟩ := Transform.transform_exact_scale T R hR 4 p hM A N
    (by
      intro u hu
      rcases hk u hu with h | h <;> rw [h]
      · exact la
      · exact lb)
    (by
      intro u hu
      refine ⟨?_, hg u hu⟩
      rcases hk u hu with h | h <;> rw [h] <;> omega)
  refine ⟨C, by rw [g1]; exact c1, ?_, cu, cl⟩
  rw [c3]
  have e : ∀ (d : FStr → Oper ℂ), denD d A = a.2 • d a.1 - b.2 • d b.1 := by
    intro d
    have := OpD.denD_foldl_addStr (K := ℂ) d [a, (b.1, b.2 * (-1))] [] OpD.uniqueKeys_nil
    simp only [List.foldl_cons, List.foldl_nil] at this
    rw [hA, this, OpD.denD_nil, zero_add]
    simp only [denD, List.map_cons, List.map_nil, List.sum_cons, List.sum_nil, add_zero]
    module
  rw [e]
  have ea := (hE a.1).smul a.2
  have eb := (hE b.1).smul b.2
  rw [la, oa, smul_comm, a2, revSign_hop t h h4] at ea
  rw [lb, ob, smul_comm, b2, revSign_hop t h h4] at eb
  have := ea.add (encodes_neg eb)
  convert this using 1
  · module
  · module

theorem block_enc {T : Term FStr ℂ → Option (POp ℂ)} {encd : ℕ → Cfg → Cfg} (hT : Reversing T encd)
    (p : ℂ) (hp : tinyC p = false) (t : List ℕ) (h : t.length % 2 = 0) (h4 : t.length ≤ 4) (hnd : t.Nodup) (N : ℕ)
    (hN : ∀ i ∈ t, i < N) (hc : conj p = p) (hb : Function.Bijective (encd N)) (hP : Parities (encd N)) :
    ∃ C, (gen p t N).bind (OpD.transform T) = some C ∧
      Encodes (encd N) (denPO C) (p • (hopSign t • (excOp t - excOp t.reverse) : Oper ℂ)) ∧ (∀ u ∈ C, u.2.re = 0 ∧ (1e-14 : ℝ) < |u.2.im|) ∧
      ∀ a ∈ C, ∀ b ∈ C, (denP 0 a.1 * denP 0 b.1 : Oper ℂ) = denP 0 b.1 * denP 0 a.1 := by
  obtain ⟨C, c1, c2, cu, cl⟩ := gen_enc hT p hp t h h4 hnd N hN hc
  have hsm : ∀ u ∈ C, small u.2 = false := by
    obtain ⟨A, a1, a2⟩ := Option.bind_eq_some_iff.mp c1
    exact transform_not_small _ _ _ a2
  have hr : t.reverse.length % 2 = 0 := by simpa using h
  have hsg : (conj (p * hopSign t) : ℂ) = p * hopSign t := by
    rw [Coef.conj_mul, hc]
    congr 1
    unfold hopSign
    show (starRingEnd ℂ) _ = _
    split <;> simp
  have c2' : Encodes (encd N) (denPO C) ((p * hopSign t) • (excOp t - excOp t.reverse : Oper ℂ)) := by rwa [smul_smul] at c2
  have hre : ∀ u ∈ C, u.2.re = 0 := by
    refine antiherm_imag N C cu cl ?_
    have h2 := isAdj_excOp (K := ℂ) t.reverse hr
    rw [List.reverse_reverse] at h2
    have h3 := isAdj_anti h2 (isAdj_excOp t h) (p * hopSign t) hsg
    have e : ((p * hopSign t) • (excOp t.reverse - excOp t) : Oper ℂ) = -((p * hopSign t) • (excOp t - excOp t.reverse)) := by module
    rw [e, neg_neg] at h3
    exact encodes_isAdj hb (encodes_neg c2') c2' h3
  have hne : ∀ u ∈ C, u.2 ≠ 0 := by
    intro u hu h0
    have := hsm u hu
    rw [h0, ← Bool.not_eq_true, small_complex] at this
    norm_num at this
  refine ⟨C, c1, c2, fun u hu => ⟨hre u hu, ?_⟩, ?_⟩
  · have := hsm u hu
    rw [← Bool.not_eq_true, small_complex, not_le] at this
    have e : ‖u.2‖ = |u.2.im| := by
      have : u.2 = ((u.2.im : ℝ) : ℂ) * Complex.I := by apply Complex.ext <;> simp [hre u hu]
      rw [this]; simp
    rw [e] at this
    exact lt_trans (by norm_num) this
  · have hfl : ∀ k, ∃ n : ℕ, ∀ u ∈ C, (u.1.getD k .I).l = decide (n % 2 = 1) := by
      intro k
      obtain ⟨S, hS⟩ := hP k
      obtain ⟨D, d1, d2⟩ := encodes_z k S hS
      refine ⟨∑ j ∈ S, t.count j, same_flips N C cu cl hne k _ ?_⟩
      refine Encodes.unique hb.2 (d1.mul c2') ?_
      have e : (D * ((p * hopSign t) • (excOp t - excOp t.reverse)) : Oper ℂ) =
          ((-1 : ℂ) ^ (∑ j ∈ S, t.count j)) • (((p * hopSign t) • (excOp t - excOp t.reverse)) * D) := by
        have e1 := d2 t
        have e2 := d2 t.reverse
        simp only [List.count_reverse] at e2
        rw [mul_smul_comm, mul_sub, e1, e2, smul_mul_assoc, sub_mul]
        module
      rw [e]
      exact (c2'.mul d1).smul _
    have hreal : IsReal (denPO C) := encodes_isReal hb.2 c2' (((isReal_exc t).sub (isReal_exc _)).smul _ hsg)
    have hy : ∀ u ∈ C, yPar N u.1 = 1 := by
      intro u hu
      rw [← cl u hu]
      refine ySign_par u.1 ?_
      have h1 := real_coef N C cu cl hreal u hu
      have h2 : (starRingEnd ℂ) u.2 = -u.2 := by apply Complex.ext <;> simp [hre u hu]
      rw [h2] at h1
      have h0 := hne u hu
      have h3 : (ySign u.1 + 1) * u.2 = 0 := by linear_combination -h1
      rcases mul_eq_zero.mp h3 with h4 | h4
      · linear_combination h4
      · exact absurd h4 h0
    intro a ha b hb'
    refine comm_of_flips N a.1 b.1 (cl a ha) (cl b hb') (fun k _ => ?_) (hy a ha) (hy b hb')
    obtain ⟨n, hn⟩ := hfl k
    rw [hn a ha, hn b hb']

/-- The circuit of the variational ansatz under a reversing transform. -/
theorem circuit_enc {T : Term FStr ℂ → Option (POp ℂ)} {encd : ℕ → Cfg → Cfg} (hT : Reversing T encd) (d : ℝ) (N : ℕ)
    (hb : Function.Bijective (encd N)) (hP : Parities (encd N)) (ts : List (List ℕ)) (ps : List ℂ)
    (ht : ∀ t ∈ ts, t.length % 2 = 0 ∧ t.length ≤ 4 ∧ t.Nodup ∧ ∀ i ∈ t, i < N) (hp : ∀ p ∈ ps, conj p = p) :
    ∃ (psi : List (Term PStr ℂ)) (gs : List (ℝ × PStr)) (Ws : List (Oper ℂ)) (ph : ℂ),
      assign tinyC T N ts ps = some psi ∧ applyOp d none psi = some gs ∧
      List.Forall₂ (fun x W => IsExp ((x.2 / (d : ℂ)) • (hopSign x.1 • (excOp x.1 - excOp x.1.reverse) : Oper ℂ)) W)
        ((ts.zip ps).filter (fun x => !tinyC x.2)) Ws ∧
      ‖ph‖ = 1 ∧ Encodes (encd N) (ph • circOp (gatesOf gs)) Ws.reverse.prod := by
  set l := (ts.zip ps).filter (fun x => !tinyC x.2) with hl
  have hall : ∀ x ∈ l, tinyC x.2 = false ∧ x.1.length % 2 = 0 ∧ x.1.length ≤ 4 ∧ x.1.Nodup ∧ (∀ i ∈ x.1, i < N) ∧ conj x.2 = x.2 := by
    intro x hx
    obtain ⟨h1, h2⟩ := List.mem_filter.mp hx
    have hm := List.of_mem_zip (show (x.1, x.2) ∈ ts.zip ps from h1)
    obtain ⟨q1, q2, q4, q3⟩ := ht _ hm.1
    exact ⟨by simpa using h2, q1, q2, q4, q3, hp _ hm.2⟩
  have key : ∀ l : List (List ℕ × ℂ), (∀ x ∈ l, tinyC x.2 = false ∧ x.1.length % 2 = 0 ∧ x.1.length ≤ 4 ∧ x.1.Nodup ∧
      (∀ i ∈ x.1, i < N) ∧ conj x.2 = x.2) →
      ∃ rs Ws, l.mapM (fun x => (gen x.2 x.1 N).bind (OpD.transform T)) = some rs ∧
        (∀ u ∈ rs.flatten, u.2.re = 0 ∧ (1e-14 : ℝ) < |u.2.im|) ∧
        List.Forall₂ (fun x W => IsExp ((x.2 / (d : ℂ)) • (hopSign x.1 • (excOp x.1 - excOp x.1.reverse) : Oper ℂ)) W) l Ws ∧
        List.Forall₂ (Encodes (encd N)) (rs.map fun C => (C.map fun t => eul (t.2.im / d) t.1).reverse.prod) Ws := by
    intro l
    induction l with
    | nil => exact fun _ => ⟨[], [], by simp, by simp, .nil, .nil⟩
    | cons x l ih =>
      intro h
      obtain ⟨rs, Ws, r1, r2, r3, r4⟩ := ih (fun y hy => h y (by simp [hy]))
      obtain ⟨q1, q2, q3, q4, q5, q6⟩ := h x (by simp)
      obtain ⟨C, c1, c2, c3, c4⟩ := block_enc hT x.2 q1 x.1 q2 q3 q4 N q5 q6 hb hP
      have hx0 : x.2 ≠ 0 := by
        intro h0
        rw [h0] at q1
        simp [tinyC] at q1
        norm_num at q1
      have hE := block_exp d C (x.2⁻¹ • denPO C) x.2 (by rw [smul_smul, mul_inv_cancel₀ hx0, one_smul]) (fun u hu => (c3 u hu).1) c4
      have hc : Encodes (encd N) ((x.2 / (d : ℂ)) • (x.2⁻¹ • denPO C)) ((x.2 / (d : ℂ)) • (hopSign x.1 • (excOp x.1 - excOp x.1.reverse) : Oper ℂ)) := by
        refine Encodes.smul _ ?_
        have := c2.smul x.2⁻¹
        rwa [smul_smul x.2⁻¹ x.2, inv_mul_cancel₀ hx0, one_smul] at this
      obtain ⟨W, w1, w2⟩ := encodes_exp hb hc hE
      refine ⟨C :: rs, W :: Ws, by simp [r1, c1], ?_, .cons w2 r3, .cons w1 r4⟩
      intro u hu
      rw [List.flatten_cons, List.mem_append] at hu
      exact hu.elim (c3 u) (r2 u)
  obtain ⟨rs, Ws, r1, r2, r3, r4⟩ := key l hall
  obtain ⟨ph, p1, p2⟩ := gates_eul (rs.flatten.map fun t => (t.2.im / d, t.1))
  refine ⟨rs.flatten, _, Ws, ph, by rw [assign, ← hl, r1]; rfl, applyOp_imag d _ r2 none, r3, p1, ?_⟩
  have e : ((rs.flatten.map fun t => (t.2.im / d, t.1)).map fun g => eul g.1 g.2).reverse.prod =
      (rs.map fun C => (C.map fun t => eul (t.2.im / d) t.1).reverse.prod).reverse.prod := by
    clear p1 p2 r1 r2 r3 r4
    induction rs with
    | nil => rfl
    | cons C rs ih =>
      rw [List.flatten_cons, List.map_append, List.map_append, List.reverse_append, List.prod_append, ih, List.map_cons, List.reverse_cons,
        List.prod_append, List.prod_singleton, List.map_map]
      rfl
  rw [p2, e]
  exact encodes_prod _ _ (List.forall₂_reverse_iff.mpr r4)

/-! ### The reference signs -/

/-- The virtual spin orbitals. -/
def virts (no na nb : ℕ) : Finset ℕ := (Finset.range (2 * no)).filter fun i => hfCfg no na nb i = false

theorem sum_count (S : Finset ℕ) (t : List ℕ) : ∑ j ∈ S, t.count j = t.countP (fun i => decide (i ∈ S)) := by
  induction t with
  | nil => simp
  | cons x t ih =>
    simp only [List.count_cons, Finset.sum_add_distrib, ih, List.countP_cons, beq_iff_eq]
    congr 1
    rw [Finset.sum_ite_eq]
    simp

theorem virts_count (no na nb : ℕ) (t : List ℕ) (ht : ∀ i ∈ t, i < 2 * no) :
    ∑ j ∈ virts no na nb, t.count j = t.countP (fun i => !hfCfg no na nb i) := by
  rw [sum_count]
  refine List.countP_congr fun i hi => ?_
  have := ht i hi
  simp [virts, this]

theorem isExp_sign {D A W : Oper ℂ} {s : Cfg → ℂ} (hs : ∀ ψ b, D ψ b = s b * ψ b) (h2 : D * D = 1) (h : IsExp A W) : IsExp (D * A * D) (D * W * D) := by
  intro ψ b
  have e : ∀ k, (D * A * D) ^ k = D * A ^ k * D := by
    intro k
    induction k with
    | zero => rw [pow_zero, pow_zero, mul_one, h2]
    | succ k ih =>
      rw [pow_succ, ih, pow_succ]
      calc D * A ^ k * D * (D * A * D) = D * A ^ k * (D * D) * A * D := by simp only [mul_assoc]
        _ = _ := by rw [h2, mul_one]; simp only [mul_assoc]
  have := (h (D ψ) b).mul_left (s b)
  simp only [e]
  simp only [Module.End.mul_apply]
  rw [hs]
  refine this.congr_fun ?_ |> id
  intro k
  rw [hs]
  ring

theorem prod_sign {D : Oper ℂ} (h2 : D * D = 1) (Ws : List (Oper ℂ)) : (Ws.map fun W => D * W * D).prod = D * Ws.prod * D := by
  induction Ws with
  | nil => simp [h2]
  | cons W Ws ih =>
    rw [List.map_cons, List.prod_cons, ih, List.prod_cons]
    calc D * W * D * (D * Ws.prod * D) = D * W * (D * D) * Ws.prod * D := by simp only [mul_assoc]
      _ = _ := by rw [h2, mul_one]; simp only [mul_assoc]

/-- Half of the indices of an excitation are virtual. -/
theorem exc_virts (no na nb : ℕ) (ha : na ≤ no) (hb : nb ≤ no) (ts : List (List ℕ))
    (h : getUCC (defaultOrbs no).1 (defaultOrbs no).2 ((defaultOrbs no).1.take na ++ (defaultOrbs no).2.take nb) true true false false = some ts) :
    ∀ t ∈ ts, (-1 : ℂ) ^ (∑ j ∈ virts no na nb, t.count j) = hopSign t := by
  have hlt : ∀ x, x ∈ (defaultOrbs no).1 ∨ x ∈ (defaultOrbs no).2 → x < 2 * no := by
    intro x hx
    rcases hx with hx | hx
    · have : x < no := List.mem_range.mp hx
      omega
    · rw [beta_default, mem_beta] at hx
      omega
  have hm : ∀ x, x ∈ (defaultOrbs no).1.take na ++ (defaultOrbs no).2.take nb ↔ hfCfg no na nb x = true := by
    intro x
    rw [← hfCfg_eq no na nb ha hb]
    simp [Props.occ]
  have hL : ts = full (defaultOrbs no).1 (defaultOrbs no).2 ((defaultOrbs no).1.take na ++ (defaultOrbs no).2.take nb) := by
    simpa [getUCC, full] using h.symm
  subst hL
  intro t ht
  rw [sum_count]
  have hv : ∀ x, (x ∈ (defaultOrbs no).1 ∨ x ∈ (defaultOrbs no).2) → x ∉ (defaultOrbs no).1.take na ++ (defaultOrbs no).2.take nb → x ∈ virts no na nb := by
    intro x h1 h2
    rw [hm] at h2
    simp [virts, hlt x h1, h2]
  have ho : ∀ x, x ∈ (defaultOrbs no).1.take na ++ (defaultOrbs no).2.take nb → x ∉ virts no na nb := by
    intro x h1
    rw [hm] at h1
    simp [virts, h1]
  simp only [full, List.mem_append] at ht
  rcases ht with (he | he) | ((he | he) | he)
  · obtain ⟨i, j, hi, hj, rfl⟩ := mem_singles _ _ _ he
    rw [mem_occ] at hi; rw [mem_vir] at hj
    simp [hopSign, List.countP_cons, hv j (.inl hj.1) hj.2, ho i hi.2]
  · obtain ⟨i, j, hi, hj, rfl⟩ := mem_singles _ _ _ he
    rw [mem_occ] at hi; rw [mem_vir] at hj
    simp [hopSign, List.countP_cons, hv j (.inr hj.1) hj.2, ho i hi.2]
  · obtain ⟨i, k, l, j, hi, hk, hl, hj, h1, h2, rfl⟩ := mem_same _ _ _ he
    rw [mem_occ] at hi hk; rw [mem_vir] at hj hl
    simp [hopSign, List.countP_cons, hv j (.inl hj.1) hj.2, hv l (.inl hl.1) hl.2, ho i hi.2, ho k hk.2]
  · obtain ⟨i, k, l, j, hi, hk, hl, hj, h1, h2, rfl⟩ := mem_same _ _ _ he
    rw [mem_occ] at hi hk; rw [mem_vir] at hj hl
    simp [hopSign, List.countP_cons, hv j (.inr hj.1) hj.2, hv l (.inr hl.1) hl.2, ho i hi.2, ho k hk.2]
  · obtain ⟨i, k, l, j, hi, hk, hl, hj, h1, rfl⟩ := mem_mixed _ _ _ _ _ he
    rw [mem_occ] at hi hk; rw [mem_vir] at hj hl
    simp [hopSign, List.countP_cons, hv j (.inl hj.1) hj.2, hv l (.inr hl.1) hl.2, ho i hi.2, ho k hk.2]

/-! ### The state -/

/-- A state with the sign of each configuration given by the number of electrons it has in virtual orbitals. -/
def signed (no na nb : ℕ) (Ψ : Cfg →₀ ℂ) : Cfg →₀ ℂ :=
  Finsupp.onFinset Ψ.support (fun b => sg (parOver (virts no na nb) b) * Ψ b) (fun b h => by
    rw [Finsupp.mem_support_iff]
    rintro h0
    exact h (by rw [h0, mul_zero]))

theorem signed_apply (no na nb : ℕ) (Ψ : Cfg →₀ ℂ) (b : Cfg) : signed no na nb Ψ b = sg (parOver (virts no na nb) b) * Ψ b := rfl

theorem conj_sg (x : Bool) : (starRingEnd ℂ) (sg x : ℂ) = sg x := by cases x <;> simp [sg]

theorem pair_signed (no na nb : ℕ) (Ψ : Cfg →₀ ℂ) (ψ : Cfg → ℂ) :
    pair (signed no na nb Ψ) ψ = pair Ψ (fun b => sg (parOver (virts no na nb) b) * ψ b) := by
  unfold pair
  rw [Finsupp.sum_of_support_subset _ (show (signed no na nb Ψ).support ⊆ Ψ.support from Finsupp.support_onFinset_subset) _ (by simp [conj_zero]),
    Finsupp.sum]
  refine Finset.sum_congr rfl fun b _ => ?_
  rw [signed_apply]
  show (starRingEnd ℂ) _ * _ = (starRingEnd ℂ) _ * _
  rw [map_mul, conj_sg]
  ring

theorem parOver_hf (no na nb : ℕ) : parOver (virts no na nb) (hfCfg no na nb) = false := by
  unfold parOver
  have : (virts no na nb).filter (fun j => hfCfg no na nb j = true) = ∅ := by
    refine Finset.filter_eq_empty_iff.mpr fun j hj => ?_
    have := (Finset.mem_filter.mp hj).2
    simp [this]
  rw [this]; simp

theorem vqe_state_enc {T : Term FStr ℂ → Option (POp ℂ)} {encd : ℕ → Cfg → Cfg} (hT : Reversing T encd) (hbij : ∀ N, Function.Bijective (encd N))
    (hpar : ∀ N, Parities (encd N))
    (hprep : ∀ (N : ℕ) (l : List ℕ), (∀ k ∈ l, k < N) → l.Nodup → ∃ (gs : List QG) (d : ℂ), prepare T N N l = some gs ∧ ‖d‖ = 1 ∧
      circOp gs (ket fun _ => false) = d • ket (encd N (Props.occ l)))
    (d : ℝ) (no na nb : ℕ) (ha : na ≤ no) (hb : nb ≤ no) (ps : List ℂ) (hp : ∀ p ∈ ps, conj p = p) :
    ∃ (l : List ℕ) (ts : List (List ℕ)) (Us : List (Oper ℂ)) (Ψ : Cfg →₀ ℂ) (ph : ℂ),
      initial (defaultOrbs no).1 (defaultOrbs no).2 na nb = some l ∧
      getUCC (defaultOrbs no).1 (defaultOrbs no).2 l true true false false = some ts ∧
      List.Forall₂ (fun x U => IsExp ((x.2 / (d : ℂ)) • (excOp x.1 - excOp x.1.reverse : Oper ℂ)) U)
        ((ts.zip ps).filter (fun x => !tinyC x.2)) Us ∧
      (Ψ : Cfg → ℂ) = Us.reverse.prod (ket (hfCfg no na nb)) ∧ ‖ph‖ = 1 ∧
      vqeState T d no na nb ps = some (relabel (encd (2 * no)) (ph • signed no na nb Ψ) : Cfg → ℂ) ∧
      pair Ψ Ψ = 1 ∧ InS (InSec no (2 * no) na (na + nb)) Ψ ∧ RealAmp (Ψ : Cfg → ℂ) := by
  classical
  obtain ⟨h1, i2, i3, _⟩ := C78_initial no na nb ha hb _ (Or.inl rfl)
  obtain ⟨pg, dd, h2, h3, h4⟩ := hprep (2 * no) _ i3 i2
  rw [hfCfg_eq no na nb ha hb] at h4
  have ex : ∃ ts, getUCC (defaultOrbs no).1 (defaultOrbs no).2 ((defaultOrbs no).1.take na ++ (defaultOrbs no).2.take nb) true true false false = some ts :=
    ⟨_, rfl⟩
  obtain ⟨ts, h5⟩ := ex
  have hbal := bal_full no _ ts h5
  have hent := C110_entries (defaultOrbs no).1 (defaultOrbs no).2 _ (by
    intro x hx hx'
    rw [beta_default, mem_beta] at hx'
    have : x < no := List.mem_range.mp hx
    omega) (2 * no) (by
    intro x hx
    rcases List.mem_append.mp hx with hx | hx
    · have : x < no := List.mem_range.mp hx
      omega
    · rw [beta_default, mem_beta] at hx
      omega) ts h5
  have hsgn := exc_virts no na nb ha hb ts h5
  obtain ⟨psi, gs, Ws, ph, e1, e2, e3, e4, e5⟩ := circuit_enc hT d (2 * no) (hbij _) (hpar _) ts ps hent hp
  obtain ⟨D, d1, d2⟩ := zprod (virts no na nb)
  have dd1 : D * D = 1 := by
    refine LinearMap.ext fun ψ => funext fun b => ?_
    rw [Module.End.mul_apply, d1, d1, ← mul_assoc, sg_par_sq, one_mul]
    rfl
  have e6 : List.Forall₂ (fun x U => IsExp ((x.2 / (d : ℂ)) • (excOp x.1 - excOp x.1.reverse : Oper ℂ)) U)
        ((ts.zip ps).filter (fun x => !tinyC x.2)) (Ws.map fun W => D * W * D) := by
    rw [List.forall₂_map_right_iff]
    have hm : ∀ x ∈ (ts.zip ps).filter (fun x => !tinyC x.2), x.1 ∈ ts := fun x hx =>
      (List.of_mem_zip (show (x.1, x.2) ∈ ts.zip ps from (List.mem_filter.mp hx).1)).1
    revert hm e3
    generalize (ts.zip ps).filter (fun x => !tinyC x.2) = L
    intro e3
    clear e5
    induction e3 with
    | nil => exact fun _ => .nil
    | @cons x W L' Ws' hW _ ih =>
      intro hm
      refine .cons ?_ (ih fun x hx => hm x (by simp [hx]))
      have := isExp_sign d1 dd1 hW
      have hs := hsgn x.1 (hm x (by simp))
      have q1 := d2 x.1
      have q2 := d2 x.1.reverse
      simp only [List.count_reverse] at q2
      rw [hs] at q1 q2
      have hq : hopSign x.1 * hopSign x.1 = 1 := by unfold hopSign; split <;> norm_num
      have e : D * ((x.2 / (d : ℂ)) • (hopSign x.1 • (excOp x.1 - excOp x.1.reverse))) * D = (x.2 / (d : ℂ)) • (excOp x.1 - excOp x.1.reverse : Oper ℂ) := by
        have q3 : D * (excOp x.1 - excOp x.1.reverse) = hopSign x.1 • ((excOp x.1 - excOp x.1.reverse) * D) := by
          rw [mul_sub, q1, q2, sub_mul]; module
        rw [mul_smul_comm, mul_smul_comm, q3, smul_smul (hopSign x.1), hq, one_smul, smul_mul_assoc, mul_assoc, dd1, mul_one]
      rwa [e] at this
  have hdk : D (ket (hfCfg no na nb)) = ket (hfCfg no na nb) := by
    funext b
    rw [d1]
    unfold ket
    split
    · rename_i h
      rw [h, parOver_hf]
      simp [sg]
    · rw [mul_zero]
  obtain ⟨g, g1, g2⟩ := Function.bijective_iff_has_inverse.mp (hbij (2 * no))
  have hk : ((relabel (encd (2 * no)) (det (K := ℂ) (hfCfg no na nb)) : Cfg →₀ ℂ) : Cfg → ℂ) = ket (encd (2 * no) (hfCfg no na nb)) := by
    unfold relabel det
    rw [Finsupp.mapDomain_single]
    funext b
    rw [Finsupp.single_apply]
    unfold ket
    by_cases hbb : b = encd (2 * no) (hfCfg no na nb)
    · rw [if_pos hbb.symm, if_pos hbb]
    · rw [if_neg (Ne.symm hbb), if_neg hbb]
  obtain ⟨φ, f1, f2⟩ := circ_norm gs (relabel (encd (2 * no)) (det (K := ℂ) (hfCfg no na nb)))
  rw [hk] at f1
  have e0 : relabel (encd (2 * no)) (relabel g φ) = φ := by
    unfold relabel
    rw [← Finsupp.mapDomain_comp]
    have : encd (2 * no) ∘ g = id := funext g2
    rw [this, Finsupp.mapDomain_id]
  have hφ : ∀ b, relabel g φ b = φ (encd (2 * no) b) := by
    intro b
    conv_rhs => rw [← e0]
    rw [relabel_apply (hbij _).1]
  have hW : ((ph • relabel g φ : Cfg →₀ ℂ) : Cfg → ℂ) = Ws.reverse.prod (ket (hfCfg no na nb)) := by
    funext b
    have := e5 (ket (encd (2 * no) (hfCfg no na nb))) b
    have ek : (fun b' => ket (encd (2 * no) (hfCfg no na nb)) (encd (2 * no) b')) = ket (hfCfg no na nb) := by
      funext b'
      unfold ket
      congr 1
      exact propext ((hbij _).1.eq_iff)
    rw [ek, LinearMap.smul_apply, ← f1] at this
    rw [← this]
    show ph * relabel g φ b = ph * φ _
    rw [hφ]
  have hΨ : ((signed no na nb (ph • relabel g φ) : Cfg →₀ ℂ) : Cfg → ℂ) = (Ws.map fun W => D * W * D).reverse.prod (ket (hfCfg no na nb)) := by
    rw [← List.map_reverse, prod_sign dd1, Module.End.mul_apply, Module.End.mul_apply, hdk, ← hW]
    funext b
    rw [d1, signed_apply]
  have hss : signed no na nb (signed no na nb (ph • relabel g φ)) = ph • relabel g φ := by
    ext b
    rw [signed_apply, signed_apply, ← mul_assoc, sg_par_sq, one_mul]
  have hph : ph ≠ 0 := by rintro rfl; simp at e4
  have hmem : ∀ x ∈ (ts.zip ps).filter (fun x => !tinyC x.2), Bal no (2 * no) x.1 ∧ (starRingEnd ℂ) x.2 = x.2 := by
    intro x hx
    have hm := List.of_mem_zip (show (x.1, x.2) ∈ ts.zip ps from (List.mem_filter.mp hx).1)
    exact ⟨hbal _ hm.1, hp _ hm.2⟩
  refine ⟨_, ts, _, signed no na nb (ph • relabel g φ), dd * ph⁻¹, h1, h5, e6, hΨ, by simp [h3, e4], ?_, ?_, ?_, ?_⟩
  · unfold vqeState
    have e1' : assign VQEObj.tiny T (2 * no) ts ps = some psi := by
      have : VQEObj.tiny = tinyC := by
        funext p
        unfold VQEObj.tiny tinyC
        rw [decide_eq_decide]
      rw [this]; exact e1
    rw [h1, Option.bind_some, h5, Option.bind_some, e1', Option.bind_some, e2, Option.bind_some, h2, Option.map_some, circOp_append]
    congr 1
    have hk0 : (fun b : Cfg => if b = (fun _ => false) then (1 : ℂ) else 0) = ket (fun _ => false) := by
      funext b
      unfold ket
      congr 1
    have hk0' := congrArg (fun ψ => (circOp (gatesOf gs) * circOp pg) ψ) hk0
    simp only at hk0'
    refine Eq.trans ?_ (hk0'.trans ?_)
    · congr 1
    · rw [Module.End.mul_apply, h4, map_smul, ← f1, hss, smul_smul, mul_assoc, inv_mul_cancel₀ hph, mul_one, relabel_smul, e0]
      rfl
  · rw [pair_signed]
    have e : (fun b => sg (parOver (virts no na nb) b) * signed no na nb (ph • relabel g φ) b) = ((ph • relabel g φ : Cfg →₀ ℂ) : Cfg → ℂ) := by
      funext b
      rw [signed_apply, ← mul_assoc, sg_par_sq, one_mul]
    rw [e, pair_phase ph e4]
    have q : pair (relabel g φ) (relabel g φ) = pair φ φ := by
      have := pair_relabel (encd (2 * no)) (relabel g φ) φ
      rw [e0] at this
      rw [this]
      congr 1
      funext b
      exact hφ b
    rw [q, f2, pair_relabel]
    unfold det
    rw [pair_single, relabel_apply (hbij _).1, Finsupp.single_eq_same]
    simp [conj_one]
  · rw [hΨ]
    refine prod_preserves _ (InS (InSec no (2 * no) na (na + nb))) _ _ e6 ?_ _ ?_
    · intro x hx U hU
      exact InS.exp hU (inS_gen (hmem x hx).1 _)
    · intro b hb0
      unfold ket at hb0
      split at hb0
      · rename_i h; rw [h]; exact hfCfg_sec no na nb ha hb
      · exact absurd rfl hb0
  · rw [hΨ]
    refine prod_preserves _ RealAmp _ _ e6 ?_ _ ?_
    · intro x hx U hU
      refine RealAmp.exp hU (((isReal_exc _).sub (isReal_exc _)).smul _ ?_)
      rw [map_div₀, (hmem x hx).2, Complex.conj_ofReal]
    · intro b
      unfold ket
      split
      · exact conj_one
      · exact conj_zero

/-! ### The energy -/

theorem neg_one_pow_par (n : ℕ) : (-1 : ℂ) ^ n = if n % 2 = 1 then -1 else 1 := by
  split
  · rename_i h; exact Odd.neg_one_pow (Nat.odd_iff.mpr h)
  · rename_i h; exact Even.neg_one_pow (Nat.even_iff.mpr (by omega))

theorem twist1_eq (no na nb : ℕ) (h1 : Fin (2 * no) → Fin (2 * no) → ℂ) (a b : Fin (2 * no)) :
    (-1 : ℂ) ^ (∑ j ∈ virts no na nb, [a.val, b.val].count j) * flip1 h1 a b = twist1 (hfCfg no na nb) h1 a b := by
  rw [virts_count no na nb _ (by simp), neg_one_pow_par]
  unfold flip1 twist1 crosses
  by_cases h : a = b
  · subst h
    have : ¬ ([a.val, a.val].countP (fun i => !hfCfg no na nb i)) % 2 = 1 := by
      simp only [List.countP_cons, List.countP_nil]; split <;> omega
    rw [if_neg this]; simp
  · by_cases h2 : ([a.val, b.val].countP (fun i => !hfCfg no na nb i)) % 2 = 1 <;> simp [h, h2]

theorem twist2_eq (no na nb : ℕ) (V : Fin (2 * no) → Fin (2 * no) → Fin (2 * no) → Fin (2 * no) → ℂ) (p t s q : Fin (2 * no)) :
    (-1 : ℂ) ^ (∑ j ∈ virts no na nb, [p.val, t.val, s.val, q.val].count j) * flip2 V p t q s = twist2 (hfCfg no na nb) V p t q s := by
  rw [virts_count no na nb _ (by simp), neg_one_pow_par]
  unfold flip2 twist2 crosses
  have e : [p.val, t.val, s.val, q.val].countP (fun i => !hfCfg no na nb i) = [p.val, t.val, q.val, s.val].countP (fun i => !hfCfg no na nb i) := by
    simp only [List.countP_cons, List.countP_nil]; omega
  rw [e]
  by_cases h2 : ([p.val, t.val, q.val, s.val].countP (fun i => !hfCfg no na nb i)) % 2 = 1 <;>
    by_cases h : ({p.val, t.val} : Multiset ℕ) ≠ {q.val, s.val} ∧ (p = q ∨ p = s ∨ t = q ∨ t = s)
  · rw [if_pos h2, if_pos h, if_pos (iff_of_true h h2)]; ring
  · rw [if_pos h2, if_neg h, if_neg (fun x => h (x.mpr h2))]; ring
  · rw [if_neg h2, if_pos h, if_neg (fun x => h2 (x.mp h))]; ring
  · rw [if_neg h2, if_neg h, if_pos (iff_of_false h h2)]; ring

theorem secondQ_sign (no na nb : ℕ) (D : Oper ℂ) (h2 : D * D = 1)
    (d2 : ∀ t : List ℕ, (D * excOp t : Oper ℂ) = ((-1 : ℂ) ^ (∑ j ∈ virts no na nb, t.count j)) • (excOp t * D))
    (h1 : Fin (2 * no) → Fin (2 * no) → ℂ) (V : Fin (2 * no) → Fin (2 * no) → Fin (2 * no) → Fin (2 * no) → ℂ) :
    D * secondQ (flip1 h1) (flip2 V) * D = secondQ (twist1 (hfCfg no na nb) h1) (twist2 (hfCfg no na nb) V) := by
  have hc : ∀ t : List ℕ, D * excOp t * D = ((-1 : ℂ) ^ (∑ j ∈ virts no na nb, t.count j)) • excOp t := by
    intro t
    rw [d2, smul_mul_assoc, mul_assoc, h2, mul_one]
  have e1 : ∀ p q : ℕ, (cre p * ann q : Oper ℂ) = excOp [p, q] := by intro p q; simp [excOp]
  have e2 : ∀ p t s q : ℕ, (cre p * (cre t * (ann s * ann q)) : Oper ℂ) = excOp [p, t, s, q] := by intro p t s q; simp [excOp, mul_assoc]
  let c : Oper ℂ →ₗ[ℂ] Oper ℂ :=
    { toFun := fun X => D * X * D
      map_add' := fun X Y => by rw [mul_add, add_mul]
      map_smul' := fun r X => by rw [mul_smul_comm, smul_mul_assoc]; rfl }
  have hc' : ∀ t : List ℕ, c (excOp t) = ((-1 : ℂ) ^ (∑ j ∈ virts no na nb, t.count j)) • excOp t := hc
  show c (secondQ (flip1 h1) (flip2 V)) = _
  clear_value c
  unfold secondQ
  simp only [map_add, map_sum, map_smul, e1, e2, hc', smul_smul]
  refine congrArg₂ (· + ·) ?_ ?_
  · refine Finset.sum_congr rfl fun p _ => Finset.sum_congr rfl fun q _ => ?_
    rw [← twist1_eq no na nb h1 p q, mul_comm]
  · refine Finset.sum_congr rfl fun p _ => Finset.sum_congr rfl fun t _ => Finset.sum_congr rfl fun s _ => Finset.sum_congr rfl fun q _ => ?_
    rw [← twist2_eq no na nb V p t s q]
    congr 1
    ring

theorem energy_signed (no na nb : ℕ) (h1 : Fin (2 * no) → Fin (2 * no) → ℂ) (V : Fin (2 * no) → Fin (2 * no) → Fin (2 * no) → Fin (2 * no) → ℂ)
    (Ψ : Cfg →₀ ℂ) : pair (signed no na nb Ψ) (secondQ (flip1 h1) (flip2 V) (signed no na nb Ψ)) =
      pair Ψ (secondQ (twist1 (hfCfg no na nb) h1) (twist2 (hfCfg no na nb) V) Ψ) := by
  obtain ⟨D, d1, d2⟩ := zprod (virts no na nb)
  have dd1 : D * D = 1 := by
    refine LinearMap.ext fun ψ => funext fun b => ?_
    rw [Module.End.mul_apply, d1, d1, ← mul_assoc, sg_par_sq, one_mul]
    rfl
  rw [← secondQ_sign no na nb D dd1 d2, pair_signed]
  have e : ((signed no na nb Ψ : Cfg →₀ ℂ) : Cfg → ℂ) = D Ψ := by funext b; rw [d1, signed_apply]
  rw [e]
  congr 1
  funext b
  rw [Module.End.mul_apply, Module.End.mul_apply, d1]

theorem objective_enc {T : Term FStr ℂ → Option (POp ℂ)} {encd : ℕ → Cfg → Cfg} (hT : Reversing T encd) (hbij : ∀ N, Function.Bijective (encd N))
    (hpar : ∀ N, Parities (encd N))
    (hprep : ∀ (N : ℕ) (l : List ℕ), (∀ k ∈ l, k < N) → l.Nodup → ∃ (gs : List QG) (d : ℂ), prepare T N N l = some gs ∧ ‖d‖ = 1 ∧
      circOp gs (ket fun _ => false) = d • ket (encd N (Props.occ l)))
    (d : ℝ) (no na nb : ℕ) (hno : 0 < no) (ha : na ≤ no) (hb : nb ≤ no) (hne : na + nb ≠ 1)
    (col : List PStr → ℕ → ℕ) (hcol : ColouringOK col) (h1 : Fin (2 * no) → Fin (2 * no) → ℂ)
    (V : Fin (2 * no) → Fin (2 * no) → Fin (2 * no) → Fin (2 * no) → ℂ) (hh : ∀ a b, h1 a b = h1 b a)
    (hV : ∀ a b c d, V a b c d = V c d a b) (enc : ℝ) (ps : List ℂ) (hp : ∀ p ∈ ps, conj p = p) :
    ∃ (l : List ℕ) (ts : List (List ℕ)) (Us : List (Oper ℂ)) (Ψ : Cfg →₀ ℂ) (E : ℝ),
      initial (defaultOrbs no).1 (defaultOrbs no).2 na nb = some l ∧
      getUCC (defaultOrbs no).1 (defaultOrbs no).2 l true true false false = some ts ∧
      List.Forall₂ (fun x U => IsExp ((x.2 / (d : ℂ)) • (excOp x.1 - excOp x.1.reverse : Oper ℂ)) U)
        ((ts.zip ps).filter (fun x => !tinyC x.2)) Us ∧
      (Ψ : Cfg → ℂ) = Us.reverse.prod (ket (hfCfg no na nb)) ∧ pair Ψ Ψ = 1 ∧ InS (InSec no (2 * no) na (na + nb)) Ψ ∧
      objective T d no na nb col h1 V enc ps = some E ∧
      |E - ((pair Ψ (secondQ (twist1 (hfCfg no na nb) h1) (twist2 (hfCfg no na nb) V) Ψ)).re + enc)|
        ≤ 2 ^ (2 * no) * 1e-28 * ∑ a, ∑ b, ∑ c, ∑ e, ‖k2 h1 V ((na + nb : ℕ) : ℂ) a b c e‖ := by
  obtain ⟨l, ts, Us, Ψ, ph, s1, s2, s3, s4, s5, s6, s7, s8, s9⟩ := vqe_state_enc hT hbij hpar hprep d no na nb ha hb ps hp
  obtain ⟨E, a1, a2⟩ := energy_enc hT no na nb hno hne col hcol h1 V hh hV enc (signed no na nb Ψ) ph s5
    (by
      rw [pair_signed, ← s7]
      congr 1
      funext b
      rw [signed_apply, ← mul_assoc, sg_par_sq, one_mul])
    (fun b hb0 => s8 b fun h => hb0 (by rw [signed_apply, h, mul_zero]))
    (fun b => by
      rw [signed_apply]
      have := s9 b
      show (starRingEnd ℂ) _ = _
      rw [map_mul, conj_sg]
      congr 1)
  rw [energy_signed] at a2
  refine ⟨l, ts, Us, Ψ, E, s1, s2, s3, s4, s7, s8, ?_, a2⟩
  unfold objective
  rw [s6, Option.bind_some, a1]

/-- **C149, partial.** One evaluation of the VQE objective with the parity or the Bravyi–Kitaev transform, with any real parameters: it returns the core energy plus the
expectation value, in the normalised cluster state `Π exp((p/d)(X − X†)) |HF⟩` of the parameters, of the Hamiltonian with the integrals of `twist1` and
`twist2` reversed, up to the error of C111.  Missing: the energy of the given Hamiltonian when reversed integrals contribute (`C149_within_fails`). -/
theorem C149_objective_partial (T : Term FStr ℂ → Option (POp ℂ)) (hT : T = parity ∨ T = bravyiKitaev) (d : ℝ) (_ : d ≠ 0)
    (no na nb : ℕ) (hno : 0 < no) (ha : na ≤ no) (hb : nb ≤ no) (hne : na + nb ≠ 1)
    (col : List PStr → ℕ → ℕ) (hcol : ColouringOK col) (h1 : Fin (2 * no) → Fin (2 * no) → ℂ)
    (V : Fin (2 * no) → Fin (2 * no) → Fin (2 * no) → Fin (2 * no) → ℂ) (hh : ∀ a b, h1 a b = h1 b a)
    (hV : ∀ a b c d, V a b c d = V c d a b) (enc : ℝ) (ps : List ℂ) (hp : ∀ p ∈ ps, conj p = p) :
    ∃ (l : List ℕ) (ts : List (List ℕ)) (Us : List (Oper ℂ)) (Ψ : Cfg →₀ ℂ) (E : ℝ),
      initial (defaultOrbs no).1 (defaultOrbs no).2 na nb = some l ∧
      getUCC (defaultOrbs no).1 (defaultOrbs no).2 l true true false false = some ts ∧
      List.Forall₂ (fun x U => IsExp ((x.2 / (d : ℂ)) • (excOp x.1 - excOp x.1.reverse : Oper ℂ)) U)
        ((ts.zip ps).filter (fun x => !tinyC x.2)) Us ∧
      (Ψ : Cfg → ℂ) = Us.reverse.prod (ket (hfCfg no na nb)) ∧ pair Ψ Ψ = 1 ∧ InS (InSec no (2 * no) na (na + nb)) Ψ ∧
      objective T d no na nb col h1 V enc ps = some E ∧
      |E - ((pair Ψ (secondQ (twist1 (hfCfg no na nb) h1) (twist2 (hfCfg no na nb) V) Ψ)).re + enc)|
        ≤ 2 ^ (2 * no) * 1e-28 * ∑ a, ∑ b, ∑ c, ∑ e, ‖k2 h1 V ((na + nb : ℕ) : ℂ) a b c e‖ := by
  rcases hT with rfl | rfl
  · exact objective_enc reversing_parity parityEnc_bijective parities_parity C78_parity d no na nb hno ha hb hne col hcol h1 V hh hV enc ps hp
  · exact objective_enc reversing_bk bkEnc_bijective parities_bk C78_bravyi_kitaev d no na nb hno ha hb hne col hcol h1 V hh hV enc ps hp

/-- **C149, agreeing transforms.** When no reversed integral is present, the objective with either transform agrees, up to twice the error, with the objective of the
Jordan–Wigner transform, for all real parameters. -/
theorem C149_agrees (T : Term FStr ℂ → Option (POp ℂ)) (hT : T = parity ∨ T = bravyiKitaev) (d : ℝ) (hd : d ≠ 0)
    (no na nb : ℕ) (hno : 0 < no) (ha : na ≤ no) (hb : nb ≤ no) (hne : na + nb ≠ 1)
    (col : List PStr → ℕ → ℕ) (hcol : ColouringOK col) (h1 : Fin (2 * no) → Fin (2 * no) → ℂ)
    (V : Fin (2 * no) → Fin (2 * no) → Fin (2 * no) → Fin (2 * no) → ℂ) (hh : ∀ a b, h1 a b = h1 b a)
    (hV : ∀ a b c d, V a b c d = V c d a b) (enc : ℝ) (ps : List ℂ) (hp : ∀ p ∈ ps, conj p = p)
    (h0 : twist1 (hfCfg no na nb) h1 = h1) (h0' : twist2 (hfCfg no na nb) V = V) :
    ∃ E E' : ℝ, objective T d no na nb col h1 V enc ps = some E ∧ VQEObj.objective d no na nb col h1 V enc ps = some E' ∧
      |E - E'| ≤ 2 * (2 ^ (2 * no) * 1e-28 * ∑ a, ∑ b, ∑ c, ∑ e, ‖k2 h1 V ((na + nb : ℕ) : ℂ) a b c e‖) := by
  obtain ⟨l, ts, Us, Ψ, E, s1, s2, s3, s4, _, _, a1, a2⟩ := C149_objective_partial T hT d hd no na nb hno ha hb hne col hcol h1 V hh hV enc ps hp
  obtain ⟨l', ts', Us', Ψ', E', s1', s2', s3', s4', _, _, a1', a2'⟩ := C111_objective_partial d hd no na nb hno ha hb hne col hcol h1 V hh hV enc ps hp
  rw [h0, h0'] at a2
  have e1 : l = l' := Option.some.inj (s1.symm.trans s1')
  subst e1
  have e2 : ts = ts' := Option.some.inj (s2.symm.trans s2')
  subst e2
  have e3 : Us = Us' := by
    clear s4 s4' a2 a2'
    revert s3 s3'
    generalize (ts.zip ps).filter (fun x => !tinyC x.2) = L
    intro s3
    induction s3 generalizing Us' with
    | nil => intro h; cases h; rfl
    | cons a _ ih =>
      intro h
      cases h with
      | cons a' h' => rw [ih _ h', isExp_unique a a']
  subst e3
  have e4 : Ψ = Ψ' := DFunLike.coe_injective (s4.trans s4'.symm)
  subst e4
  refine ⟨E, E', a1, a1', ?_⟩
  have : |E - E'| ≤ _ := (abs_sub_le E _ E').trans (add_le_add a2 (abs_sub_comm E' _ ▸ a2'))
  linarith [this]

/-- **C149, variational bound.** The objective is never below the core energy plus a lower bound of the reversed Hamiltonian. -/
theorem C149_variational (T : Term FStr ℂ → Option (POp ℂ)) (hT : T = parity ∨ T = bravyiKitaev) (d : ℝ) (hd : d ≠ 0)
    (no na nb : ℕ) (hno : 0 < no) (ha : na ≤ no) (hb : nb ≤ no) (hne : na + nb ≠ 1)
    (col : List PStr → ℕ → ℕ) (hcol : ColouringOK col) (h1 : Fin (2 * no) → Fin (2 * no) → ℂ)
    (V : Fin (2 * no) → Fin (2 * no) → Fin (2 * no) → Fin (2 * no) → ℂ) (hh : ∀ a b, h1 a b = h1 b a)
    (hV : ∀ a b c d, V a b c d = V c d a b) (enc : ℝ) (ps : List ℂ) (hp : ∀ p ∈ ps, conj p = p) (E0 : ℝ)
    (hE : ∀ φ : Cfg →₀ ℂ, pair φ φ = 1 → (∀ b, φ b ≠ 0 → InSec no (2 * no) na (na + nb) b) →
      E0 ≤ (pair φ (secondQ (twist1 (hfCfg no na nb) h1) (twist2 (hfCfg no na nb) V) φ)).re) :
    ∃ E, objective T d no na nb col h1 V enc ps = some E ∧
      E0 + enc - 2 ^ (2 * no) * 1e-28 * ∑ a, ∑ b, ∑ c, ∑ e, ‖k2 h1 V ((na + nb : ℕ) : ℂ) a b c e‖ ≤ E := by
  obtain ⟨_, _, _, Ψ, E, _, _, _, _, a1, a2, a3, a4⟩ :=
    C149_objective_partial T hT d hd no na nb hno ha hb hne col hcol h1 V hh hV enc ps hp
  refine ⟨E, a3, ?_⟩
  have := hE Ψ a1 a2
  have := (abs_le.mp a4).1
  linarith

theorem two_orbitals_hop : ∀ a b : Fin 4, a.val / 2 = b.val / 2 → ¬ (a ≠ b ∧ ¬ ([a.val, b.val].countP fun i => !hfCfg 2 1 1 i) % 2 = 1) := by decide

theorem two_orbitals_pair : ∀ a b c d : Fin 4, a.val / 2 = c.val / 2 → b.val / 2 = d.val / 2 →
    ((({a.val, b.val} : Multiset ℕ) ≠ {c.val, d.val} ∧ (a = c ∨ a = d ∨ b = c ∨ b = d)) ↔
      ([a.val, b.val, c.val, d.val].countP fun i => !hfCfg 2 1 1 i) % 2 = 1) := by decide

theorem twist_two (h1 : Fin (2 * 2) → Fin (2 * 2) → ℂ) (V : Fin (2 * 2) → Fin (2 * 2) → Fin (2 * 2) → Fin (2 * 2) → ℂ)
    (hs : ∀ a b, a.val / 2 ≠ b.val / 2 → h1 a b = 0) (hs' : ∀ a b c d, ¬ (a.val / 2 = c.val / 2 ∧ b.val / 2 = d.val / 2) → V a b c d = 0) :
    twist1 (hfCfg 2 1 1) h1 = h1 ∧ twist2 (hfCfg 2 1 1) V = V := by
  constructor
  · funext a b
    unfold twist1 crosses
    by_cases h : a.val / 2 = b.val / 2
    · rw [if_neg (two_orbitals_hop a b h)]
    · rw [hs a b h]; simp
  · funext a b c e
    unfold twist2 crosses
    by_cases h : a.val / 2 = c.val / 2 ∧ b.val / 2 = e.val / 2
    · rw [if_pos (two_orbitals_pair a b c e h.1 h.2)]
    · rw [hs' a b c e h]; simp

/-- **C149, two spatial orbitals.** For one alpha and one beta electron in two spatial orbitals and a spin-conserving Hamiltonian, with or without hops, the objective with
either transform agrees with that of the Jordan–Wigner transform for all real parameters. -/
theorem C149_two_orbitals (T : Term FStr ℂ → Option (POp ℂ)) (hT : T = parity ∨ T = bravyiKitaev) (d : ℝ) (hd : d ≠ 0)
    (col : List PStr → ℕ → ℕ) (hcol : ColouringOK col) (h1 : Fin 4 → Fin 4 → ℂ) (V : Fin 4 → Fin 4 → Fin 4 → Fin 4 → ℂ) (hh : ∀ a b, h1 a b = h1 b a)
    (hV : ∀ a b c d, V a b c d = V c d a b) (hs : ∀ a b, a.val / 2 ≠ b.val / 2 → h1 a b = 0)
    (hs' : ∀ a b c d, ¬ (a.val / 2 = c.val / 2 ∧ b.val / 2 = d.val / 2) → V a b c d = 0) (enc : ℝ) (ps : List ℂ) (hp : ∀ p ∈ ps, conj p = p) :
    ∃ E E' : ℝ, objective T d 2 1 1 col h1 V enc ps = some E ∧ VQEObj.objective d 2 1 1 col h1 V enc ps = some E' ∧
      |E - E'| ≤ 2 * (2 ^ 4 * 1e-28 * ∑ a, ∑ b, ∑ c, ∑ e, ‖k2 h1 V ((1 + 1 : ℕ) : ℂ) a b c e‖) := by
  obtain ⟨t1, t2⟩ := twist_two h1 V hs hs'
  exact C149_agrees T hT d hd 2 1 1 (by norm_num) (by norm_num) (by norm_num) (by norm_num) col hcol h1 V hh hV enc ps hp t1 t2

/-- **C149, hops within the virtual or within the occupied orbitals.** For a Hamiltonian of such hops the objective with either transform is minus the expectation value
in the cluster state. -/
theorem C149_within_fails (T : Term FStr ℂ → Option (POp ℂ)) (hT : T = parity ∨ T = bravyiKitaev) (d : ℝ) (hd : d ≠ 0)
    (no na nb : ℕ) (hno : 0 < no) (ha : na ≤ no) (hb : nb ≤ no) (hne : na + nb ≠ 1)
    (col : List PStr → ℕ → ℕ) (hcol : ColouringOK col) (h1 : Fin (2 * no) → Fin (2 * no) → ℂ) (hh : ∀ a b, h1 a b = h1 b a)
    (h0 : ∀ a b, a = b ∨ hfCfg no na nb a.val ≠ hfCfg no na nb b.val → h1 a b = 0) (enc : ℝ) (ps : List ℂ) (hp : ∀ p ∈ ps, conj p = p) :
    ∃ (l : List ℕ) (ts : List (List ℕ)) (Us : List (Oper ℂ)) (Ψ : Cfg →₀ ℂ) (E : ℝ),
      initial (defaultOrbs no).1 (defaultOrbs no).2 na nb = some l ∧
      getUCC (defaultOrbs no).1 (defaultOrbs no).2 l true true false false = some ts ∧
      List.Forall₂ (fun x U => IsExp ((x.2 / (d : ℂ)) • (excOp x.1 - excOp x.1.reverse : Oper ℂ)) U)
        ((ts.zip ps).filter (fun x => !tinyC x.2)) Us ∧
      (Ψ : Cfg → ℂ) = Us.reverse.prod (ket (hfCfg no na nb)) ∧
      objective T d no na nb col h1 (fun _ _ _ _ => 0) enc ps = some E ∧
      |E - (-(pair Ψ (secondQ h1 (fun _ _ _ _ => 0) Ψ)).re + enc)|
        ≤ 2 ^ (2 * no) * 1e-28 * ∑ a, ∑ b, ∑ c, ∑ e, ‖k2 h1 (fun _ _ _ _ => 0) ((na + nb : ℕ) : ℂ) a b c e‖ := by
  obtain ⟨l, ts, Us, Ψ, E, s1, s2, s3, s4, _, _, a1, a2⟩ :=
    C149_objective_partial T hT d hd no na nb hno ha hb hne col hcol h1 (fun _ _ _ _ => 0) hh (by simp) enc ps hp
  refine ⟨l, ts, Us, Ψ, E, s1, s2, s3, s4, a1, ?_⟩
  have e1 : twist1 (hfCfg no na nb) h1 = fun a b => -h1 a b := by
    funext a b
    unfold twist1 crosses
    by_cases h : a = b ∨ hfCfg no na nb a.val ≠ hfCfg no na nb b.val
    · rw [h0 a b h]; simp
    · push Not at h
      have hc : ¬ ([a.val, b.val].countP fun i => !hfCfg no na nb i) % 2 = 1 := by
        simp only [List.countP_cons, List.countP_nil, h.2]
        cases hfCfg no na nb b.val <;> simp
      exact if_pos ⟨h.1, hc⟩
  have e2 : twist2 (hfCfg no na nb) (fun _ _ _ _ => (0 : ℂ)) = fun (_ _ _ _ : Fin (2 * no)) => (0 : ℂ) := by
    funext a b c e
    unfold twist2
    simp
  rw [e1, e2, secondQ_neg] at a2
  have e3 : pair Ψ ((-(secondQ h1 fun _ _ _ _ => (0 : ℂ)) : Oper ℂ) Ψ) = -pair Ψ (secondQ h1 (fun _ _ _ _ => 0) Ψ) := by
    rw [LinearMap.neg_apply]
    have := pair_smul_right Ψ (-1) ((secondQ h1 fun _ _ _ _ => (0 : ℂ) : Oper ℂ) Ψ)
    rw [neg_one_mul] at this
    rw [← this]
    congr 1
    funext b
    exact (neg_one_mul _).symm
  rw [e3, Complex.neg_re] at a2
  exact a2

/-! ### A concrete case: a hop between two virtual orbitals -/

/-- One alpha electron in orbital `k` and one beta electron in the first beta orbital of three spatial orbitals. -/
def at3 (k : ℕ) : Cfg := fun i => decide (i = k ∨ i = 3)

/-- Hopping `t` between the second and the third alpha orbital of three spatial orbitals. -/
def hopV (t : ℝ) (a b : Fin (2 * 3)) : ℂ := if (a.val = 1 ∧ b.val = 2) ∨ (a.val = 2 ∧ b.val = 1) then (t : ℂ) else 0

theorem at3_inj {i j : ℕ} (hi : i < 3) (h : at3 i = at3 j) : i = j := by
  have := congrFun h i
  simp [at3] at this
  omega

theorem hop_ket (i j k : ℕ) (hi : i < 3) (hj : j < 3) :
    (cre i * ann j : Oper ℂ) (ket (at3 k)) = if j = k then ket (at3 i) else 0 := by
  funext b
  have hca : (cre i * ann j : Oper ℂ) (ket (at3 k)) b = if b i then fsign b i *
      (if Function.update b i false j then 0 else fsign (Function.update b i false) j * ket (at3 k) (Function.update (Function.update b i false) j true)) else 0 := rfl
  rw [hca]
  by_cases hjk : j = k
  · subst hjk
    rw [if_pos rfl]
    by_cases hb : b = at3 i
    · subst hb
      have u : Function.update (Function.update (at3 i) i false) j true = at3 j := by
        funext x
        simp only [Function.update_apply, at3]
        by_cases h1 : x = j <;> by_cases h2 : x = i <;> simp [h1, h2] <;> omega
      have f1 : fsign (K := ℂ) (at3 i) i = 1 := by
        unfold fsign
        rw [Finset.filter_eq_empty_iff.mpr]
        · simp
        · intro x hx
          have := Finset.mem_range.mp hx
          simp [at3]; omega
      have f2 : fsign (K := ℂ) (Function.update (at3 i) i false) j = 1 := by
        unfold fsign
        rw [Finset.filter_eq_empty_iff.mpr]
        · simp
        · intro x hx
          have := Finset.mem_range.mp hx
          simp only [Function.update_apply, at3]
          split <;> simp; omega
      have f3 : Function.update (at3 i) i false j = false := by
        simp only [Function.update_apply, at3]
        split <;> simp; omega
      rw [u, f1, f2, f3]
      simp [at3, ket]
    · have e0 : ket (at3 i) b = 0 := if_neg hb
      rw [e0]
      by_cases hbi : b i = true
      · rw [if_pos hbi]
        by_cases hbj : Function.update b i false j = true
        · rw [if_pos hbj, mul_zero]
        · rw [if_neg hbj]
          have : ket (at3 j) (Function.update (Function.update b i false) j true) = 0 := by
            refine if_neg fun h => hb ?_
            funext x
            have hx := congrFun h x
            simp only [Function.update_apply, at3] at hx hbj ⊢
            by_cases h1 : x = i
            · subst h1; simp [hbi]
            · by_cases h2 : x = j
              · subst h2
                rw [if_neg h1] at hbj
                have : ¬ x = 3 := by omega
                simpa [h1, this] using hbj
              · rw [if_neg h2, if_neg h1] at hx
                rw [hx]
                simp [h1, h2]
          rw [this]; ring
      · rw [if_neg hbi]
  · rw [if_neg hjk]
    have : ket (at3 k) (Function.update (Function.update b i false) j true) = 0 := by
      refine if_neg fun h => ?_
      have hx := congrFun h j
      simp [at3] at hx
      omega
    rw [this]
    simp

theorem rot_exp {A U : Oper ℂ} {u v : Cfg → ℂ} (θ : ℝ) (h : IsExp A U) (hu : A u = (-(θ : ℂ)) • v) (hv : A v = (θ : ℂ) • u) :
    U u = ((Real.cos θ : ℝ) : ℂ) • u - ((Real.sin θ : ℝ) : ℂ) • v := by
  have key : ∀ m : ℕ, (A ^ (2 * m)) u = ((-1 : ℂ) ^ m * (θ : ℂ) ^ (2 * m)) • u ∧ (A ^ (2 * m)) v = ((-1 : ℂ) ^ m * (θ : ℂ) ^ (2 * m)) • v := by
    intro m
    induction m with
    | zero => simp
    | succ m ih =>
      have e : A ^ (2 * (m + 1)) = A ^ (2 * m) * (A * A) := by rw [show 2 * (m + 1) = 2 * m + 1 + 1 by ring, pow_succ, pow_succ, mul_assoc]
      have e' : (-1 : ℂ) ^ (m + 1) * (θ : ℂ) ^ (2 * (m + 1)) = -((θ : ℂ) * θ) * ((-1) ^ m * (θ : ℂ) ^ (2 * m)) := by
        rw [show 2 * (m + 1) = 2 * m + 1 + 1 by ring, pow_succ, pow_succ, pow_succ]; ring
      constructor
      · rw [e, Module.End.mul_apply, Module.End.mul_apply, hu, map_smul, hv, map_smul, map_smul, ih.1, e']
        module
      · rw [e, Module.End.mul_apply, Module.End.mul_apply, hv, map_smul, hu, map_smul, map_smul, ih.2, e']
        module
  funext b
  refine (h u b).unique ?_
  have h1 : HasSum (fun m : ℕ => ((Nat.factorial (2 * m) : ℂ))⁻¹ * (A ^ (2 * m)) u b) (((Real.cos θ : ℝ) : ℂ) * u b) := by
    have := (Complex.hasSum_cos (θ : ℂ)).mul_right (u b)
    rw [Complex.ofReal_cos]
    refine this.congr_fun ?_ |> id
    intro m
    rw [(key m).1]
    show _ * ((-1) ^ m * _ * u b) = _
    ring
  have h2 : HasSum (fun m : ℕ => ((Nat.factorial (2 * m + 1) : ℂ))⁻¹ * (A ^ (2 * m + 1)) u b) (-(((Real.sin θ : ℝ) : ℂ) * v b)) := by
    have := ((Complex.hasSum_sin (θ : ℂ)).mul_right (v b)).neg
    rw [Complex.ofReal_sin]
    refine this.congr_fun ?_ |> id
    intro m
    rw [pow_succ, Module.End.mul_apply, hu, map_smul, (key m).2]
    show _ * (-(θ : ℂ) * ((-1) ^ m * _ * v b)) = _
    rw [pow_succ (θ : ℂ)]
    ring
  have := HasSum.even_add_odd (f := fun k : ℕ => ((Nat.factorial k : ℂ))⁻¹ * (A ^ k) u b) h1 h2
  rw [← sub_eq_add_neg] at this
  exact this

theorem rot_fix {A U : Oper ℂ} {u : Cfg → ℂ} (h : IsExp A U) (hu : A u = 0) : U u = u := by
  funext b
  refine (h u b).unique ?_
  have : HasSum (fun k : ℕ => ((Nat.factorial k : ℂ))⁻¹ * (A ^ k) u b) (((Nat.factorial 0 : ℂ))⁻¹ * (A ^ 0) u b) := by
    refine hasSum_single 0 fun k hk => ?_
    obtain ⟨m, rfl⟩ := Nat.exists_eq_succ_of_ne_zero hk
    rw [pow_succ, Module.End.mul_apply, hu, map_zero]
    simp
  simpa using this

/-- A state with real amplitudes on the three places. -/
def three (x y z : ℝ) : Cfg → ℂ := (x : ℂ) • ket (at3 0) + (y : ℂ) • ket (at3 1) + (z : ℂ) • ket (at3 2)

/-- The cluster state of the parameters `p, q` on the first two single excitations. -/
theorem cluster3 (p q : ℝ) (Us : List (Oper ℂ)) (Ψ : Cfg →₀ ℂ)
    (h : List.Forall₂ (fun x U => IsExp ((x.2 / ((1 : ℝ) : ℂ)) • (excOp x.1 - excOp x.1.reverse : Oper ℂ)) U) [([0, 1], (p : ℂ)), ([0, 2], (q : ℂ))] Us)
    (hΨ : (Ψ : Cfg → ℂ) = Us.reverse.prod (ket (at3 0))) :
    (Ψ : Cfg → ℂ) = three (Real.cos p * Real.cos q) (-Real.sin p) (-(Real.cos p * Real.sin q)) := by
  cases h with
  | @cons _ U1 _ _ a1 h =>
    cases h with
    | @cons _ U2 _ _ a2 h =>
      cases h
      have e1 : ∀ p q : ℕ, (excOp [p, q] : Oper ℂ) = cre p * ann q := by intro p q; simp [excOp]
      simp only [List.reverse_cons, List.reverse_nil, List.nil_append, List.cons_append, e1, Complex.ofReal_one, div_one] at a1 a2
      have b1 := rot_exp p a1 (u := ket (at3 0)) (v := ket (at3 1)) (by rw [LinearMap.smul_apply, LinearMap.sub_apply, hop_ket, hop_ket] <;> simp)
        (by rw [LinearMap.smul_apply, LinearMap.sub_apply, hop_ket, hop_ket] <;> simp)
      have b2 := rot_exp q a2 (u := ket (at3 0)) (v := ket (at3 2)) (by rw [LinearMap.smul_apply, LinearMap.sub_apply, hop_ket, hop_ket] <;> simp)
        (by rw [LinearMap.smul_apply, LinearMap.sub_apply, hop_ket, hop_ket] <;> simp)
      have b3 := rot_fix a2 (u := ket (at3 1)) (by rw [LinearMap.smul_apply, LinearMap.sub_apply, hop_ket, hop_ket] <;> simp)
      rw [hΨ]
      simp only [List.reverse_cons, List.reverse_nil, List.nil_append, List.cons_append, List.prod_cons, List.prod_nil, mul_one]
      rw [Module.End.mul_apply, b1, map_sub, map_smul, map_smul, b2, b3]
      unfold three
      push_cast
      module

/-- Energy of such a state for hops `s` between the first and the others and `t` between the others. -/
theorem three_energy (s t x y z : ℝ) (Ψ : Cfg →₀ ℂ) (hΨ : (Ψ : Cfg → ℂ) = three x y z) (h : Fin (2 * 3) → Fin (2 * 3) → ℂ)
    (hh : ∀ a b, h a b = if (a.val = 0 ∧ (b.val = 1 ∨ b.val = 2)) ∨ ((a.val = 1 ∨ a.val = 2) ∧ b.val = 0) then (s : ℂ) else
      if (a.val = 1 ∧ b.val = 2) ∨ (a.val = 2 ∧ b.val = 1) then (t : ℂ) else 0) :
    (pair Ψ (secondQ h (fun _ _ _ _ => 0) Ψ)).re = 2 * (s * (x * y) + s * (x * z) + t * (y * z)) := by
  classical
  have n01 : at3 0 ≠ at3 1 := fun h => absurd (at3_inj (by norm_num) h) (by norm_num)
  have n02 : at3 0 ≠ at3 2 := fun h => absurd (at3_inj (by norm_num) h) (by norm_num)
  have n12 : at3 1 ≠ at3 2 := fun h => absurd (at3_inj (by norm_num) h) (by norm_num)
  have hs : (secondQ h (fun _ _ _ _ => 0) : Oper ℂ) = (s : ℂ) • (cre 0 * ann 1) + (s : ℂ) • (cre 0 * ann 2) + (s : ℂ) • (cre 1 * ann 0) +
      (t : ℂ) • (cre 1 * ann 2) + (s : ℂ) • (cre 2 * ann 0) + (t : ℂ) • (cre 2 * ann 1) := by
    unfold secondQ
    simp only [mul_zero, zero_smul, Finset.sum_const_zero, add_zero, hh]
    rw [show ∀ f : Fin (2 * 3) → Fin (2 * 3) → Oper ℂ, (∑ p, ∑ q, f p q) = ∑ p : Fin 6, ∑ q : Fin 6, f p q from fun _ => rfl]
    simp only [Fin.sum_univ_six]
    simp
    abel
  have hf : Ψ = Finsupp.single (at3 0) (x : ℂ) + Finsupp.single (at3 1) (y : ℂ) + Finsupp.single (at3 2) (z : ℂ) := by
    ext b
    rw [hΨ]
    simp only [three, Finsupp.add_apply, Finsupp.single_apply, Pi.add_apply, Pi.smul_apply, ket, smul_eq_mul]
    by_cases h0 : b = at3 0
    · subst h0; simp [n01, n02, n01.symm, n02.symm]
    · by_cases h1 : b = at3 1
      · subst h1; simp [n01, n12, n01.symm, n12.symm]
      · by_cases h2 : b = at3 2
        · subst h2; simp [n02, n12, n02.symm, n12.symm]
        · simp [h0, h1, h2, Ne.symm h0, Ne.symm h1, Ne.symm h2]
  have hX : (secondQ h (fun _ _ _ _ => 0) : Oper ℂ) Ψ = three (s * y + s * z) (s * x + t * z) (s * x + t * y) := by
    rw [hs, hΨ]
    unfold three
    simp only [LinearMap.add_apply, LinearMap.smul_apply, map_add, map_smul]
    simp only [hop_ket _ _ _ (show 0 < 3 by norm_num) (show 1 < 3 by norm_num), hop_ket _ _ _ (show 0 < 3 by norm_num) (show 2 < 3 by norm_num),
      hop_ket _ _ _ (show 1 < 3 by norm_num) (show 0 < 3 by norm_num), hop_ket _ _ _ (show 1 < 3 by norm_num) (show 2 < 3 by norm_num),
      hop_ket _ _ _ (show 2 < 3 by norm_num) (show 0 < 3 by norm_num), hop_ket _ _ _ (show 2 < 3 by norm_num) (show 1 < 3 by norm_num)]
    simp only [OfNat.ofNat_ne_zero, OfNat.zero_ne_ofNat, OfNat.ofNat_ne_one, OfNat.one_ne_ofNat, one_ne_zero, zero_ne_one, if_true, if_false, smul_zero, add_zero, zero_add]
    push_cast
    module
  rw [hX, hf, pair_add, pair_add, pair_single, pair_single, pair_single]
  have hc : ∀ z : ℂ, (conj z : ℂ) = (starRingEnd ℂ) z := fun z => rfl
  simp only [three, hc, Complex.conj_ofReal, Pi.add_apply, Pi.smul_apply, smul_eq_mul, ket, n01, n02, n12, n01.symm, n02.symm, n12.symm, if_true, if_false, mul_zero, mul_one,
    add_zero, zero_add]
  rw [← Complex.ofReal_mul, ← Complex.ofReal_mul, ← Complex.ofReal_mul, ← Complex.ofReal_add, ← Complex.ofReal_add, Complex.ofReal_re]
  ring

theorem first_two (l : List ℕ) (ts : List (List ℕ)) (p q : ℝ) (hp : 1e-10 ≤ |p|) (hq : 1e-10 ≤ |q|)
    (h1 : initial (defaultOrbs 3).1 (defaultOrbs 3).2 1 1 = some l) (h2 : getUCC (defaultOrbs 3).1 (defaultOrbs 3).2 l true true false false = some ts) :
    (ts.zip [(p : ℂ), (q : ℂ)]).filter (fun x => !tinyC x.2) = [([0, 1], (p : ℂ)), ([0, 2], (q : ℂ))] := by
  have e : l = [0, 3] := by
    have := (C78_initial 3 1 1 (by norm_num) (by norm_num) _ (Or.inl rfl)).1
    exact Option.some.inj (h1.symm.trans this)
  subst e
  have e : ∃ r, ts = [0, 1] :: [0, 2] :: r := ⟨_, (Option.some.inj h2).symm⟩
  obtain ⟨r, rfl⟩ := e
  have t1 : tinyC (p : ℂ) = false := by simpa [tinyC] using hp
  have t2 : tinyC (q : ℂ) = false := by simpa [tinyC] using hq
  simp [t1, t2]

theorem hf3 : hfCfg 3 1 1 = at3 0 := by
  funext i
  simp only [hfCfg, at3, decide_eq_decide]
  omega

/-- **C149 is violated**, a concrete case: three spatial orbitals, one electron of each spin, hopping `t` between the two virtual alpha orbitals, parameters 1 and 1 on the first
two excitations.  The Jordan–Wigner transform gives `2 t cos 1 sin² 1`, the other two minus that. -/
theorem C149_fails (T : Term FStr ℂ → Option (POp ℂ)) (hT : T = parity ∨ T = bravyiKitaev) (t : ℝ) (col : List PStr → ℕ → ℕ) (hcol : ColouringOK col) :
    0 < Real.cos 1 * Real.sin 1 ^ 2 ∧
    ∃ E E' : ℝ, VQEObj.objective 1 3 1 1 col (hopV t) (fun _ _ _ _ => 0) 0 [1, 1] = some E ∧
      objective T 1 3 1 1 col (hopV t) (fun _ _ _ _ => 0) 0 [1, 1] = some E' ∧
      |E - 2 * t * (Real.cos 1 * Real.sin 1 ^ 2)| ≤ 2 ^ 6 * 1e-28 * ∑ a, ∑ b, ∑ c, ∑ e, ‖k2 (hopV t) (fun _ _ _ _ => 0) ((1 + 1 : ℕ) : ℂ) a b c e‖ ∧
      |E' - -(2 * t * (Real.cos 1 * Real.sin 1 ^ 2))| ≤ 2 ^ 6 * 1e-28 * ∑ a, ∑ b, ∑ c, ∑ e, ‖k2 (hopV t) (fun _ _ _ _ => 0) ((1 + 1 : ℕ) : ℂ) a b c e‖ := by
  have hp : ∀ p ∈ [(1 : ℂ), 1], conj p = p := by
    intro p hp
    simp only [List.mem_cons, List.not_mem_nil, or_false, or_self] at hp
    subst hp
    exact conj_one
  have hh : ∀ a b, hopV t a b = hopV t b a := by
    intro a b
    unfold hopV
    congr 1
    exact propext ⟨fun h => h.elim (fun h => .inr ⟨h.2, h.1⟩) (fun h => .inl ⟨h.2, h.1⟩), fun h => h.elim (fun h => .inr ⟨h.2, h.1⟩) (fun h => .inl ⟨h.2, h.1⟩)⟩
  have h0 : ∀ a b, a = b ∨ hfCfg 3 1 1 a.val ≠ hfCfg 3 1 1 b.val → hopV t a b = 0 := by
    intro a b h
    refine if_neg fun hc => ?_
    rcases hc with ⟨h1, h2⟩ | ⟨h1, h2⟩ <;> rcases h with rfl | h
    · omega
    · rw [h1, h2] at h; exact h (by decide)
    · omega
    · rw [h1, h2] at h; exact h (by decide)
  refine ⟨mul_pos Real.cos_one_pos (pow_pos (Real.sin_pos_of_pos_of_le_one one_pos le_rfl) 2), ?_⟩
  obtain ⟨l, ts, Us, Ψ, E, s1, s2, s3, s4, _, _, a1, a2⟩ := C111_objective_partial 1 one_ne_zero 3 1 1 (by norm_num) (by norm_num) (by norm_num)
    (by norm_num) col hcol (hopV t) (fun _ _ _ _ => 0) hh (by simp) 0 [1, 1] hp
  obtain ⟨l', ts', Us', Ψ', E', s1', s2', s3', s4', a1', a2'⟩ := C149_within_fails T hT 1 one_ne_zero 3 1 1 (by norm_num) (by norm_num) (by norm_num)
    (by norm_num) col hcol (hopV t) hh h0 0 [1, 1] hp
  have o : (1e-10 : ℝ) ≤ |1| := by norm_num
  have f1 := first_two l ts 1 1 o o s1 s2
  have f2 := first_two l' ts' 1 1 o o s1' s2'
  rw [Complex.ofReal_one] at f1 f2
  rw [f1] at s3
  rw [f2] at s3'
  rw [hf3] at s4 s4'
  have g : ∀ a b : Fin (2 * 3), hopV t a b = if (a.val = 0 ∧ (b.val = 1 ∨ b.val = 2)) ∨ ((a.val = 1 ∨ a.val = 2) ∧ b.val = 0) then ((0 : ℝ) : ℂ) else
      if (a.val = 1 ∧ b.val = 2) ∨ (a.val = 2 ∧ b.val = 1) then (t : ℂ) else 0 := by
    intro a b
    unfold hopV
    split <;> split <;> simp <;> omega
  rw [three_energy 0 t _ _ _ Ψ (cluster3 1 1 Us Ψ (by simpa using s3) s4) _ g, add_zero] at a2
  rw [three_energy 0 t _ _ _ Ψ' (cluster3 1 1 Us' Ψ' (by simpa using s3') s4') _ g, add_zero] at a2'
  refine ⟨E, E', a1, a1', ?_, ?_⟩
  · convert a2 using 3; ring
  · convert a2' using 3; ring

/-- Hopping `t` between any two of the three alpha orbitals. -/
def ring3 (t : ℝ) (a b : Fin (2 * 3)) : ℂ := if a.val < 3 ∧ b.val < 3 ∧ a ≠ b then (t : ℂ) else 0

/-- The lowest energy of one alpha electron on the ring. -/
theorem ring3_bound (t : ℝ) (ht : 0 ≤ t) (φ : Cfg →₀ ℂ) (h1 : pair φ φ = 1) (h2 : ∀ b, φ b ≠ 0 → InSec 3 (2 * 3) 1 (1 + 1) b) :
    -t ≤ (pair φ (secondQ (ring3 t) (fun _ _ _ _ => 0) φ)).re := by
  have hs : (secondQ (ring3 t) (fun _ _ _ _ => 0) : Oper ℂ) =
      (t : ℂ) • ((cre 0 + cre 1 + cre 2) * (ann 0 + ann 1 + ann 2)) + (-(t : ℂ)) • numberOp 3 := by
    unfold secondQ numberOp
    simp only [mul_zero, zero_smul, Finset.sum_const_zero, add_zero, ring3]
    rw [show ∀ f : Fin (2 * 3) → Fin (2 * 3) → Oper ℂ, (∑ p, ∑ q, f p q) = ∑ p : Fin 6, ∑ q : Fin 6, f p q from fun _ => rfl]
    simp only [Fin.sum_univ_six, Fin.sum_univ_three]
    simp [mul_add, add_mul]
    module
  have hn := number_sec 3 1 φ fun b hb => (h2 b hb).1
  rw [hs, LinearMap.add_apply, LinearMap.smul_apply, LinearMap.smul_apply, hn, Module.End.mul_apply, pair_add_right, pair_smul_right, pair_smul_right, pair_smul_right, h1]
  obtain ⟨φ', e1, e2⟩ := ((isAdj_cre (K := ℂ) 0).add (isAdj_cre 1)).add (isAdj_cre 2) φ
  rw [e2, ← e1, pair_self]
  have hp : 0 ≤ ∑ b ∈ φ'.support, ‖φ' b‖ ^ 2 := Finset.sum_nonneg fun _ _ => by positivity
  have : (t * ∑ b ∈ φ'.support, ‖φ' b‖ ^ 2 : ℝ) ≥ 0 := mul_nonneg ht hp
  rw [Nat.cast_one, mul_one, mul_one, ← Complex.ofReal_mul, Complex.add_re, Complex.ofReal_re, Complex.neg_re, Complex.ofReal_re]
  linarith

/-- **C149 is violated**, the variational principle: on a ring of three orbitals with hopping `t > 0` no state of one alpha and one beta electron has an energy below `-t`, and the
objective of the Jordan–Wigner transform respects this for all parameters; with the parity or the Bravyi–Kitaev transform there are two parameters for which the
objective is `-2t`. -/
theorem C149_below_ground (T : Term FStr ℂ → Option (POp ℂ)) (hT : T = parity ∨ T = bravyiKitaev) (t : ℝ) (ht : 0 < t) (col : List PStr → ℕ → ℕ)
    (hcol : ColouringOK col) :
    (∀ φ : Cfg →₀ ℂ, pair φ φ = 1 → (∀ b, φ b ≠ 0 → InSec 3 (2 * 3) 1 (1 + 1) b) → -t ≤ (pair φ (secondQ (ring3 t) (fun _ _ _ _ => 0) φ)).re) ∧
    (∀ ps : List ℂ, (∀ p ∈ ps, conj p = p) → ∃ E, VQEObj.objective 1 3 1 1 col (ring3 t) (fun _ _ _ _ => 0) 0 ps = some E ∧
      -t - 2 ^ 6 * 1e-28 * ∑ a, ∑ b, ∑ c, ∑ e, ‖k2 (ring3 t) (fun _ _ _ _ => 0) ((1 + 1 : ℕ) : ℂ) a b c e‖ ≤ E) ∧
    ∃ (p q : ℝ) (E : ℝ), objective T 1 3 1 1 col (ring3 t) (fun _ _ _ _ => 0) 0 [(p : ℂ), (q : ℂ)] = some E ∧
      |E - -(2 * t)| ≤ 2 ^ 6 * 1e-28 * ∑ a, ∑ b, ∑ c, ∑ e, ‖k2 (ring3 t) (fun _ _ _ _ => 0) ((1 + 1 : ℕ) : ℂ) a b c e‖ := by
  have hh : ∀ a b, ring3 t a b = ring3 t b a := by
    intro a b
    unfold ring3
    congr 1
    exact propext ⟨fun h => ⟨h.2.1, h.1, h.2.2.symm⟩, fun h => ⟨h.2.1, h.1, h.2.2.symm⟩⟩
  refine ⟨ring3_bound t ht.le, fun ps hp => ?_, ?_⟩
  · obtain ⟨E, e1, e2⟩ := C111_variational 1 one_ne_zero 3 1 1 (by norm_num) (by norm_num) (by norm_num) (by norm_num) col hcol (ring3 t) (fun _ _ _ _ => 0) hh (by simp) 0
      ps hp (-t) (ring3_bound t ht.le)
    rw [add_zero] at e2
    exact ⟨E, e1, e2⟩
  · have r0 : (0 : ℝ) < Real.sqrt (1 / 3) := Real.sqrt_pos.mpr (by norm_num)
    have r2 : Real.sqrt (1 / 3) * Real.sqrt (1 / 3) = 1 / 3 := Real.mul_self_sqrt (by norm_num)
    have r1 : Real.sqrt (1 / 3) ≤ 1 := by nlinarith
    have sp : Real.sin (Real.arcsin (Real.sqrt (1 / 3))) = Real.sqrt (1 / 3) := Real.sin_arcsin (by linarith) r1
    have cp0 : 0 ≤ Real.cos (Real.arcsin (Real.sqrt (1 / 3))) := Real.cos_arcsin_nonneg _
    have cp2 : Real.cos (Real.arcsin (Real.sqrt (1 / 3))) ^ 2 = 2 / 3 := by
      have := Real.sin_sq_add_cos_sq (Real.arcsin (Real.sqrt (1 / 3)))
      rw [sp] at this
      nlinarith
    have hq2 : (Real.sqrt 2 / 2) ^ 2 = 1 / 2 := by
      rw [div_pow, Real.sq_sqrt (by norm_num)]; norm_num
    have hx : Real.cos (Real.arcsin (Real.sqrt (1 / 3))) * (Real.sqrt 2 / 2) = Real.sqrt (1 / 3) := by
      have a0 : 0 ≤ Real.cos (Real.arcsin (Real.sqrt (1 / 3))) * (Real.sqrt 2 / 2) := mul_nonneg cp0 (by positivity)
      have a2 : (Real.cos (Real.arcsin (Real.sqrt (1 / 3))) * (Real.sqrt 2 / 2)) ^ 2 = 1 / 3 := by rw [mul_pow, cp2, hq2]; norm_num
      rw [← Real.sqrt_sq a0, a2]
    have hp : (1e-10 : ℝ) ≤ |Real.arcsin (Real.sqrt (1 / 3))| := by
      have b1 : 0 ≤ Real.arcsin (Real.sqrt (1 / 3)) := Real.arcsin_nonneg.mpr r0.le
      have b2 := Real.sin_le b1
      rw [sp] at b2
      have b3 : (1 / 3 : ℝ) ≤ Real.sqrt (1 / 3) := by nlinarith
      rw [abs_of_nonneg b1]
      refine le_trans ?_ (b3.trans b2)
      norm_num
    have hq : (1e-10 : ℝ) ≤ |Real.pi / 4| := by
      have b1 := Real.two_le_pi
      rw [abs_of_nonneg (by linarith)]
      refine le_trans ?_ (show (1 / 2 : ℝ) ≤ Real.pi / 4 by linarith)
      norm_num
    obtain ⟨l, ts, Us, Ψ, E, s1, s2, s3, s4, _, _, a1, a2⟩ :=
      C149_objective_partial T hT 1 one_ne_zero 3 1 1 (by norm_num) (by norm_num) (by norm_num) (by norm_num) col hcol (ring3 t) (fun _ _ _ _ => 0) hh (by simp) 0
      [((Real.arcsin (Real.sqrt (1 / 3)) : ℝ) : ℂ), ((Real.pi / 4 : ℝ) : ℂ)] (by
        intro p hp
        simp only [List.mem_cons, List.not_mem_nil, or_false] at hp
        rcases hp with rfl | rfl <;> exact Complex.conj_ofReal _)
    refine ⟨_, _, E, a1, ?_⟩
    rw [first_two l ts _ _ hp hq s1 s2] at s3
    rw [hf3] at s4
    have e2 : twist2 (hfCfg 3 1 1) (fun _ _ _ _ => (0 : ℂ)) = fun (_ _ _ _ : Fin (2 * 3)) => (0 : ℂ) := by
      funext a b c e
      unfold twist2
      simp
    have g : ∀ a b : Fin (2 * 3), twist1 (hfCfg 3 1 1) (ring3 t) a b = if (a.val = 0 ∧ (b.val = 1 ∨ b.val = 2)) ∨ ((a.val = 1 ∨ a.val = 2) ∧ b.val = 0) then (t : ℂ) else
        if (a.val = 1 ∧ b.val = 2) ∨ (a.val = 2 ∧ b.val = 1) then ((-t : ℝ) : ℂ) else 0 := by
      intro a b
      unfold twist1 crosses ring3
      rw [hf3]
      fin_cases a <;> fin_cases b <;> simp [at3, List.countP_cons]
    rw [e2, three_energy t (-t) _ _ _ Ψ (cluster3 _ _ Us Ψ s3 s4) _ g, add_zero, Real.cos_pi_div_four, Real.sin_pi_div_four, sp, hx] at a2
    convert a2 using 3
    linear_combination (6 * t) * r2

/-- The two-orbital theorem applies to a Hamiltonian with a hop and a repulsion. -/
example : ∃ E E' : ℝ, objective parity 1 2 1 1 (fun _ i => i) (fun a b => if a.val / 2 = b.val / 2 then -1 else 0)
    (fun a b c e => if a = c ∧ b = e then 1 else 0) (1 / 2) [1, 2, (-1 : ℂ)] = some E ∧ VQEObj.objective 1 2 1 1 (fun _ i => i)
    (fun a b => if a.val / 2 = b.val / 2 then -1 else 0) (fun a b c e => if a = c ∧ b = e then 1 else 0) (1 / 2) [1, 2, (-1 : ℂ)] = some E' := by
  obtain ⟨E, E', h, h', _⟩ := C149_two_orbitals parity (Or.inl rfl) 1 one_ne_zero (fun _ i => i) colouring_id
    (fun a b => if a.val / 2 = b.val / 2 then -1 else 0) (fun a b c e => if a = c ∧ b = e then 1 else 0)
    (fun a b => by simp only [eq_comm]) (fun a b c e => by simp only [eq_comm]) (fun a b h => if_neg h)
    (fun a b c e h => if_neg fun h' => h ⟨by rw [h'.1], by rw [h'.2]⟩) (1 / 2) [1, 2, (-1 : ℂ)] (by
      intro p hp
      show (starRingEnd ℂ) p = p
      simp only [List.mem_cons, List.not_mem_nil, or_false] at hp
      rcases hp with rfl | rfl | rfl
      · exact map_one _
      · exact Complex.conj_ofNat 2
      · rw [map_neg, map_one])
  exact ⟨E, E', h, h'⟩

end
end HQCA.Props
