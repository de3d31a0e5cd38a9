import Verif.Proofs.TaperBasis
import Verif.Proofs.TransformErr
import Verif.Props.Operators

/-!
# Properties C20, C21: tapering
-/

set_option linter.unusedSectionVars false

namespace HQCA.Props
open Taper
variable {K : Type} [Coef K]

/-- Every non-identity letter and every sign has eigenvector data, so the hypothesis `Good` is met for all
tapering requests with eigenvalues `±1`. -/
theorem good_exists (q : ℕ) (p : PL) (hp : p ≠ .I) (e : K) (he : e = 1 ∨ e = -1) :
    ∃ x : Q K, x.q = q ∧ x.p = p ∧ x.e = e ∧ Good x := by
  have h2 : (2 : K) ≠ 0 := Coef.two_ne_zero'
  have hI : (I : K) * I = -1 := Coef.I_mul_I
  have hee : e * e = 1 := by rcases he with rfl | rfl <;> ring
  have hne : e ≠ 0 := by rintro rfl; simp at hee
  cases p with
  | I => exact absurd rfl hp
  | X =>
    refine ⟨⟨q, .X, e, fun b => if b then e else 1, fun b => if b then e / 2 else 1 / 2⟩, rfl, rfl, rfl,
      ?_, ?_, ?_, hne, hp⟩
    · intro a; cases a <;> simp [mapp, pmat, hee]
    · intro b
      cases b
      · simp [pmat]; ring
      · simp [pmat]; linear_combination (-1/2 : K) * hee
    · simp; field_simp; linear_combination hee
  | Y =>
    refine ⟨⟨q, .Y, e, fun b => if b then I * e else 1, fun b => if b then -I * e / 2 else 1 / 2⟩, rfl, rfl, rfl,
      ?_, ?_, ?_, hne, hp⟩
    · intro a
      cases a
      · simp [mapp, pmat]; linear_combination (-e) * hI
      · simp [mapp, pmat]; linear_combination (-I) * hee
    · intro b
      cases b
      · simp [pmat]; linear_combination (-e/2) * hI
      · simp [pmat]; linear_combination (I/2) * hee
    · simp; field_simp; linear_combination (-e*e) * hI + hee
  | Z =>
    rcases he with rfl | rfl
    · refine ⟨⟨q, .Z, 1, fun b => if b then 0 else 1, fun b => if b then 0 else 1⟩, rfl, rfl, rfl,
        ?_, ?_, ?_, hne, hp⟩
      · intro a; cases a <;> simp [mapp, pmat]
      · intro b; cases b <;> simp [pmat]
      · simp
    · refine ⟨⟨q, .Z, -1, fun b => if b then 1 else 0, fun b => if b then 1 else 0⟩, rfl, rfl, rfl,
        ?_, ?_, ?_, hne, hp⟩
      · intro a; cases a <;> simp [mapp, pmat]
      · intro b; cases b <;> simp [pmat]
      · simp

/-- The same for the letter `X`, with the eigenvector spelled out. -/
theorem good_X (q : ℕ) (e : K) (he : e = 1 ∨ e = -1) :
    ∃ x : Q K, x.q = q ∧ x.p = .X ∧ x.e = e ∧ Good x ∧ x.v = fun b => if b then e else 1 := by
  have h2 : (2 : K) ≠ 0 := Coef.two_ne_zero'
  have hee : e * e = 1 := by rcases he with rfl | rfl <;> ring
  have hne : e ≠ 0 := by rintro rfl; simp at hee
  refine ⟨⟨q, .X, e, fun b => if b then e else 1, fun b => if b then e / 2 else 1 / 2⟩, rfl, rfl, rfl,
    ⟨?_, ?_, ?_, hne, by simp⟩, rfl⟩
  · intro a; cases a <;> simp [mapp, pmat, hee]
  · intro b
    cases b
    · simp [pmat]; ring
    · simp [pmat]; linear_combination (-1/2 : K) * hee
  · simp; field_simp; linear_combination hee

/-- **C20.** Trimming an operator whose letters on the tapered qubits are `I` or the chosen letter gives the
restriction of the operator to the chosen common eigenspace: the eigenspace is the range of an injective
embedding of states on the remaining qubits, and the embedding intertwines the trimmed operator with the
original one.  (`null` plays no role here.) -/
theorem C20_trim_restricts (l : List (Q K)) (hl : (l.map (·.q)).Pairwise (· > ·)) (hg : ∀ x ∈ l, Good x)
    (n : ℕ) (A : POp K) (hn : ∀ t ∈ A, t.1.length = n) (null : K)
    (hA : ∀ t ∈ A, ∀ x ∈ l, t.1[x.q]? = some x.p ∨ t.1[x.q]? = some .I) :
    ∃ (B : POp K) (emb : (Cfg → K) → (Cfg → K)), trim null (args l) A = some B ∧ UniqueKeys B ∧
      (∀ u ∈ B, u.1.length = n - l.length) ∧ emb = insAll (vs l) ∧ Function.Injective emb ∧
      (∀ ψ, InSector l ψ ↔ ∃ φ, ψ = emb φ) ∧ (∀ φ, denPO A (emb φ) = emb (denPO B φ)) := by
  obtain ⟨B, h1, h2, h3, h4⟩ := trim_den null (args l) (descending_of_strict l hl) A (insAll (vs l)) (insAll (vs l))
    (insAll_zero _) (insAll_add _) (n - l.length) (fun a b => a = insAll (vs l) b) (insAll_zero _).symm
    (fun a b c d h h' => by rw [h, h', insAll_add]) (by
      intro t ht
      obtain ⟨u, g1, g2, g3⟩ := trimStr_spec null l (fun x hx => (hg x hx).eig) t
        (compatible_of_forall l hl t.1 (hA t ht))
      exact ⟨u, g1, by have := hn t ht; omega, g3⟩)
  exact ⟨B, _, h1, h2, h3, rfl, fun φ χ h => insAll_injective l hg φ χ h, sector_iff l hl hg, h4⟩

/-- **C20, arbitrary operators** (`null = 0`, the value used outside initial-state preparation): the trimmed
operator is the compression to the eigenspace, `w† A v`, whatever letters occur. -/
theorem C20_trim_compresses (l : List (Q K)) (hl : (l.map (·.q)).Pairwise (· > ·)) (hg : ∀ x ∈ l, Good x)
    (n : ℕ) (A : POp K) (hn : ∀ t ∈ A, t.1.length = n) (hq : ∀ x ∈ l, x.q < n) :
    ∃ B, trim 0 (args l) A = some B ∧ UniqueKeys B ∧ (∀ u ∈ B, u.1.length = n - l.length) ∧
      ∀ φ, conAll (ws l) (denPO A (insAll (vs l) φ)) = denPO B φ := by
  obtain ⟨B, h1, h2, h3, h4⟩ := trim_den 0 (args l) (descending_of_strict l hl) A (insAll (vs l)) (insAll (vs l))
    (insAll_zero _) (insAll_add _) (n - l.length) (fun a b => conAll (ws l) a = b) (conAll_zero _)
    (fun a b c d h h' => by rw [conAll_add, h, h']) (by
      intro t ht
      obtain ⟨u, g1, g2, g3⟩ := trimStr_compress l hg t (by
        rw [hn t ht]; exact inRange_of_forall l hl n hq)
      exact ⟨u, g1, by have := hn t ht; omega, g3⟩)
  exact ⟨B, h1, h2, h3, h4⟩

/-- **C20, errors.** Qubits not listed in descending order are refused. -/
theorem C20_order_required (null : K) (l : List (ℕ × PL × K)) (A : POp K)
    (h : ¬ (l.map (·.1)).Pairwise (· ≥ ·)) : trim null l A = none := by
  unfold trim descending
  rw [if_neg (by simpa using h)]

/-- A concrete case: two tapered qubits, four strings, two of which merge. -/
example : trim (K := GQ) 0 [(3, .X, -1), (1, .X, 1)]
    [([.Z, .X, .Y, .X], 2), ([.Z, .I, .Y, .I], 5), ([.I, .X, .I, .I], 3), ([.X, .I, .Z, .X], ⟨0, 1⟩)] =
    some [([.Z, .Y], 3), ([.I, .I], 3), ([.X, .Z], ⟨0, -1⟩)] := by decide +kernel

example : trim (K := GQ) 0 [(1, .X, 1), (3, .X, -1)] [([.Z, .X, .Y, .X], 2)] = none := by decide +kernel

/-- **C21.** When `tau` carries `Z` or `Y` on qubit `q`, `U = (tau + X_q)/sqrt 2` is unitary, Hermitian, and
exchanges `tau` and `X_q`. -/
theorem C21_basis_change (r : K) (hr : 2 * (r * r) = 1) (hrc : conj r = r) (tau : PStr) (q : ℕ)
    (h : tau[q]? = some .Z ∨ tau[q]? = some .Y) :
    let U : Oper K := denPO (symU r tau q)
    U * U = 1 ∧ IsAdj U U ∧ U * denP 0 tau * U = site q (pmat .X) ∧ U * site q (pmat .X) * U = denP 0 tau := by
  intro U
  obtain ⟨a, ha, haX, hs⟩ : ∃ a, tau[q]? = some a ∧ a ≠ .X ∧ (sgnX a : K) = -1 := by
    rcases h with h | h
    · exact ⟨_, h, by simp, rfl⟩
    · exact ⟨_, h, by simp, rfl⟩
  have hq : q < tau.length := (List.getElem?_eq_some_iff.mp ha).1
  have hU : U = (r • (denP 0 tau + site q (pmat .X)) : Oper K) :=
    symU_den_of_ne r tau q hq (symU_ne tau q a ha haX)
  have hanti := site_denP_letter (K := K) .X q 0 tau a ha _ (sgnX_spec a)
  rw [zero_add, hs] at hanti
  obtain ⟨h1, h2, h3⟩ := unitary_algebra r hr (denP 0 tau : Oper K) (site q (pmat .X)) (Reduce.denP_sq 0 tau)
    (siteX_sq q) hanti
  rw [hU]
  refine ⟨h1, ?_, h2, h3⟩
  have hX := isAdj_site q (pmat .X : M2 K)
  rw [dag_pmat] at hX
  have := ((isAdj_denP 0 tau).add hX).smul r
  rwa [hrc] at this

/-- **C21, necessity.** On qubits inside the string the construction is unitary only in that case: with `I`
or `X` at `q` the operator built by the code does not square to the identity. -/
theorem C21_unitary_iff (r : K) (hr : 2 * (r * r) = 1) (tau : PStr) (q : ℕ) (hq : q < tau.length) :
    (denPO (symU r tau q) * denPO (symU r tau q) : Oper K) = 1 ↔ tau[q]? = some .Z ∨ tau[q]? = some .Y := by
  constructor
  · intro h
    have hg : tau[q]? = some tau[q] := List.getElem?_eq_getElem hq
    have hr0 : r * r ≠ 0 := by intro h0; rw [h0] at hr; simp at hr
    have hcomm : (sgnX tau[q] : K) = 1 → False := by
      intro hs
      have hc := site_denP_letter (K := K) .X q 0 tau _ hg _ (sgnX_spec tau[q])
      rw [zero_add, hs, one_smul] at hc
      by_cases hx : tau = xString tau.length q
      · rw [symU_eq, if_pos hx] at h
        have e : (denPO [(tau, r)] : Oper K) = r • denP 0 tau := by
          unfold denPO; rw [OpD.denD_cons, OpD.denD_nil, add_zero]
        rw [e, smul_mul_smul_comm, Reduce.denP_sq] at h
        have h1 := congrFun (congrArg (fun f : Oper K => f (fun _ => 1)) h) (fun _ => false)
        simp at h1
        rw [h1] at hr
        have : (1 : K) = 0 := by linear_combination hr
        exact one_ne_zero this
      · rw [symU_den_of_ne r tau q hq hx, smul_mul_smul_comm] at h
        have e : (denP 0 tau + site q (pmat .X)) * (denP 0 tau + site q (pmat .X)) =
            (2 : K) • (1 + denP 0 tau * site q (pmat .X) : Oper K) := by
          rw [mul_add, add_mul, add_mul, Reduce.denP_sq, siteX_sq, hc]
          module
        rw [e, smul_smul, mul_comm (r * r), hr, one_smul] at h
        have h0 : (denP 0 tau * site q (pmat .X) : Oper K) = 0 := by simpa using h
        have h1 : (denP 0 tau * (denP 0 tau * site q (pmat .X)) * site q (pmat .X) : Oper K) = 1 := by
          rw [← mul_assoc, Reduce.denP_sq, one_mul, siteX_sq]
        rw [h0, mul_zero, zero_mul] at h1
        exact Reduce.Oper_one_ne_zero h1.symm
    rw [hg]
    cases hx : tau[q] with
    | I => exact (hcomm (by rw [hx]; rfl)).elim
    | X => exact (hcomm (by rw [hx]; rfl)).elim
    | Y => right; rfl
    | Z => left; rfl
  · intro h
    obtain ⟨a, ha, haX, hs⟩ : ∃ a, tau[q]? = some a ∧ a ≠ .X ∧ (sgnX a : K) = -1 := by
      rcases h with h | h
      · exact ⟨_, h, by simp, rfl⟩
      · exact ⟨_, h, by simp, rfl⟩
    have hanti := site_denP_letter (K := K) .X q 0 tau a ha _ (sgnX_spec a)
    rw [zero_add, hs] at hanti
    rw [symU_den_of_ne r tau q hq (symU_ne tau q a ha haX)]
    exact (unitary_algebra r hr (denP 0 tau : Oper K) (site q (pmat .X)) (Reduce.denP_sq 0 tau)
      (siteX_sq q) hanti).1

/-- `1/np.sqrt(2)`. -/
noncomputable def rt : ℂ := ((1 / Real.sqrt 2 : ℝ) : ℂ)

theorem rt_spec : 2 * (rt * rt) = 1 ∧ conj rt = rt := by
  constructor
  · unfold rt
    rw [← Complex.ofReal_mul, div_mul_div_comm, Real.mul_self_sqrt (by norm_num)]
    norm_num
  · exact Complex.conj_ofReal _

theorem pauli_mul_coef (s t u : Term PStr ℂ) (h : Pauli.mul s t = some u) :
    (∃ e, GI e ∧ u.2 = e * (s.2 * t.2)) ∧ s.1.length = t.1.length ∧ u.1.length = s.1.length := by
  unfold Pauli.mul at h
  split at h
  · rename_i hl
    simp only [Option.some.injEq] at h
    have hz : ∀ m : ℤ, GI ((HQCA.I : ℂ) ^ m) := by
      intro m
      have hI : (HQCA.I : ℂ) ≠ 0 := I_ne_zero
      have hinv : GI ((HQCA.I : ℂ)⁻¹) := by
        have : ((HQCA.I : ℂ)⁻¹) = -HQCA.I := by
          rw [inv_eq_iff_eq_inv, eq_comm, inv_eq_of_mul_eq_one_left]
          have := (Coef.I_mul_I : (HQCA.I : ℂ) * HQCA.I = -1)
          linear_combination (-1 : ℂ) * this
        rw [this]; exact GI.I.neg
      induction m using Int.induction_on with
      | zero => simpa using GI.one
      | succ i ih => rw [zpow_add_one₀ hI]; exact ih.mul GI.I
      | pred i ih => rw [zpow_sub_one₀ hI]; exact ih.mul hinv
    rw [← h]
    refine ⟨⟨_, (hz _).mul (hz _), mul_comm _ _⟩, hl, ?_⟩
    simp [Pauli.construct, hl]
  · cases h

theorem mul_lengths (n : ℕ) (A B C : POp K) (hA : ∀ t ∈ A, t.1.length = n)
    (hB : ∀ t ∈ B, t.1.length = n) (h : OpD.mul Pauli.mul A B = some C) :
    (∀ t ∈ C, t.1.length = n) ∧ ∀ t ∈ C, small t.2 = false := by
  unfold OpD.mul at h
  rcases hl : (OpD.mulPairs A B).mapM (fun p => Pauli.mul p.1 p.2) with _ | l
  · simp [hl] at h
  · simp only [hl, Option.map_some, Option.some.injEq] at h
    subst h
    constructor
    · intro t ht
      have ht' := List.mem_of_mem_filter ht
      have hk : t.1 ∈ (l.foldl OpD.addStr []).map (·.1) := List.mem_map_of_mem ht'
      rw [OpD.mem_keys_foldl_addStr] at hk
      rcases hk with hk | hk
      · simp at hk
      · obtain ⟨u, hu, he⟩ := List.mem_map.mp hk
        rw [← he]
        rw [OpD.mapM_option] at hl
        obtain ⟨i, hi, rfl⟩ := List.getElem_of_mem hu
        have hlen := hl.length_eq
        have h5 := (List.forall₂_iff_get.mp hl).2 i (by omega) hi
        simp only [List.get_eq_getElem] at h5
        have hm := (OpD.mem_mulPairs A B _).mp (List.getElem_mem (by omega : i < (OpD.mulPairs A B).length))
        obtain ⟨R, hR, hRl, _⟩ := C01_pauli_product _ _ ((hA _ hm.1).trans (hB _ hm.2).symm)
        rw [hR] at h5
        rw [← Option.some.inj h5, hRl, hA _ hm.1]
    · intro t ht
      have := (List.mem_filter.mp ht).2
      simpa using this

theorem pauli_mul_exact (n : ℕ) (a c : ℂ) (hc : small (a * c) = false) (A B : POp ℂ) (hA : GIop a A) (hB : GIop c B)
    (hAn : ∀ t ∈ A, t.1.length = n) (hBn : ∀ t ∈ B, t.1.length = n) :
    ∃ C, OpD.mul Pauli.mul A B = some C ∧ GIop (a * c) C ∧ (denPO C : Oper ℂ) = denPO A * denPO B ∧
      UniqueKeys C ∧ (∀ t ∈ C, t.1.length = n) ∧ ∀ t ∈ C, small t.2 = false := by
  obtain ⟨C, hC, _⟩ := C04_mul_den n A B hAn hBn
  obtain ⟨h1, h2, h3⟩ := GIop.mul' (denP 0) Pauli.mul hc hA hB (by
    intro s hs t ht u hu
    obtain ⟨R, hR, _, hd⟩ := C01_pauli_product s t ((hAn s hs).trans (hBn t ht).symm)
    rw [hR] at hu
    rw [← Option.some.inj hu]; exact hd) (fun s _ t _ u hu => (pauli_mul_coef s t u hu).1) hC
  exact ⟨C, hC, h1, h2, h3, mul_lengths n A B C hAn hBn hC⟩

theorem symU_lengths (r : K) (tau : PStr) (q : ℕ) (hq : q < tau.length) :
    ∀ t ∈ symU r tau q, t.1.length = tau.length ∧ t.2 = r := by
  intro t ht
  rw [symU_eq] at ht
  split at ht
  · simp only [List.mem_singleton] at ht; subst ht; exact ⟨rfl, rfl⟩
  · simp only [List.mem_cons, List.not_mem_nil, or_false] at ht
    rcases ht with rfl | rfl
    · exact ⟨rfl, rfl⟩
    · exact ⟨xString_length _ _ hq, rfl⟩

theorem mapM_mem' {α β : Type} (f : α → Option β) : ∀ (l : List α) (r : List β), l.mapM f = some r →
    ∀ u ∈ r, ∃ t ∈ l, f t = some u
  | [], r, h, u, hu => by simp at h; subst h; simp at hu
  | a :: l, r, h, u, hu => by
    rw [List.mapM_cons] at h
    cases ha : f a with
    | none => simp [ha] at h
    | some b =>
      cases hl : l.mapM f with
      | none => simp [ha, hl] at h
      | some r' =>
        simp [ha, hl] at h
        subst h
        rcases List.mem_cons.mp hu with rfl | hu
        · exact ⟨a, by simp, ha⟩
        · obtain ⟨t, ht, e⟩ := mapM_mem' f l r' hl u hu
          exact ⟨t, by simp [ht], e⟩

/-- Trimming one qubit keeps coefficients in the same lattice. -/
theorem trim_GIop (null c e : ℂ) (he : e = 1 ∨ e = -1) (q : ℕ) (p : PL) (B T : POp ℂ) (hB : GIop c B)
    (hlet : ∀ t ∈ B, t.1[q]? = some p ∨ t.1[q]? = some .I) (h : trim null [(q, p, e)] B = some T) : GIop c T := by
  unfold trim at h
  rw [if_pos (by simp [descending])] at h
  cases hm : B.mapM (trimStr null [(q, p, e)]) with
  | none => simp [hm] at h
  | some r =>
    simp only [hm, Option.map_some, Option.some.injEq] at h
    subst h
    refine GIop.foldl r (GIop.nil c) ?_
    intro u hu
    obtain ⟨t, ht, e1⟩ := mapM_mem' _ B r hm u hu
    obtain ⟨z, hz, ez⟩ := hB t ht
    rcases hlet t ht with hl | hl
    · simp only [trimStr, hl, if_true, Option.some.injEq] at e1
      subst e1
      refine ⟨e * z, GI.mul (by rcases he with rfl | rfl; exacts [GI.one, GI.neg_one]) hz, ?_⟩
      show t.2 * e = _
      rw [ez]; ring
    · simp only [trimStr, hl, Option.some.injEq] at e1
      subst e1
      by_cases hp : PL.I = p
      · refine ⟨e * z, GI.mul (by rcases he with rfl | rfl; exacts [GI.one, GI.neg_one]) hz, ?_⟩
        simp only [hp, if_true, ez]; ring
      · exact ⟨z, hz, by simp only [hp, if_false, if_true, ez]⟩

/-- One step of the tapered transform with the embedding spelled out. -/
theorem tapered_step (tau : PStr) (q : ℕ) (h : tau[q]? = some .Z ∨ tau[q]? = some .Y)
    (e : ℂ) (he : e = 1 ∨ e = -1) (null c : ℂ) (hc : 2e-12 < ‖c‖) (A : POp ℂ) (hA : GIop c A)
    (hn : ∀ t ∈ A, t.1.length = tau.length)
    (hsym : (denP 0 tau * denPO A : Oper ℂ) = denPO A * denP 0 tau) :
    ∃ (B : POp ℂ) (emb : (Cfg → ℂ) → (Cfg → ℂ)), modifyOne rt null tau q e A = some B ∧
      (∀ u ∈ B, u.1.length = tau.length - 1) ∧ Function.Injective emb ∧
      (∀ ψ, denP 0 tau ψ = e • ψ ↔ ∃ φ, ψ = emb φ) ∧
      (∀ φ, denPO A (emb φ) = emb (denPO B φ)) ∧ GIop (rt * c * rt) B ∧ ‖rt * c * rt‖ = ‖c‖ / 2 ∧
      emb = fun φ => denPO (symU rt tau q) (ins q (fun b => if b then e else 1) φ) := by
  have hq : q < tau.length := by rcases h with h | h <;> exact (List.getElem?_eq_some_iff.mp h).1
  obtain ⟨hUU, _, hUT, hUX⟩ := C21_basis_change rt rt_spec.1 rt_spec.2 tau q h
  set U : Oper ℂ := denPO (symU rt tau q) with hU
  have hUg : GIop rt (symU rt tau q) := fun t ht =>
    ⟨1, GI.one, by rw [(symU_lengths rt tau q hq t ht).2, one_mul]⟩
  have hUn := fun t ht => (symU_lengths rt tau q hq t ht).1
  have hrt : ‖rt‖ ^ 2 = 1 / 2 := by
    have h1 := congrArg norm rt_spec.1
    rw [norm_mul, norm_mul] at h1
    simp at h1
    nlinarith
  have hrp : 0 ≤ ‖rt‖ := norm_nonneg _
  have hrl : 1 / 2 ≤ ‖rt‖ := by nlinarith
  have s1 : small (rt * c) = false := by
    rw [Bool.eq_false_iff]; intro hs
    have := (small_complex _).mp hs
    rw [norm_mul] at this
    nlinarith [norm_nonneg c]
  have hnorm : ‖rt * c * rt‖ = ‖c‖ / 2 := by
    rw [norm_mul, norm_mul]
    calc ‖rt‖ * ‖c‖ * ‖rt‖ = ‖rt‖ ^ 2 * ‖c‖ := by ring
      _ = ‖c‖ / 2 := by rw [hrt]; ring
  have s2 : small (rt * c * rt) = false := by
    rw [Bool.eq_false_iff]; intro hs
    have := (small_complex _).mp hs
    rw [hnorm] at this
    linarith
  obtain ⟨R, hR, hRg, hRd, _, hRn, _⟩ := pauli_mul_exact tau.length rt c s1 _ A hUg hA hUn hn
  obtain ⟨B, hB, hBg, hBd, hBu, hBn, hBs⟩ := pauli_mul_exact tau.length _ rt s2 R _ hRg hUg hRn hUn
  have hBd' : (denPO B : Oper ℂ) = U * denPO A * U := by rw [hBd, hRd]
  have hcomm : (site q (pmat .X) * denPO B : Oper ℂ) = denPO B * site q (pmat .X) := by
    rw [hBd', ← hUT]
    calc U * denP 0 tau * U * (U * denPO A * U) = U * denP 0 tau * (U * U) * denPO A * U := by noncomm_ring
      _ = U * (denP 0 tau * denPO A) * U := by rw [hUU]; noncomm_ring
      _ = U * (denPO A * denP 0 tau) * U := by rw [hsym]
      _ = U * denPO A * (U * U) * denP 0 tau * U := by rw [hUU]; noncomm_ring
      _ = U * denPO A * U * (U * denP 0 tau * U) := by noncomm_ring
  have hlet := letters_of_comm tau.length q hq B hBn hBu (fun t ht h0 => by
    have := hBs t ht
    rw [h0, Coef.small_zero] at this
    cases this) hcomm
  obtain ⟨x, rfl, hxp, rfl, hx, hxv⟩ := good_X q e he
  obtain ⟨T, emb, h1, h2, h3, h4, h5, h6, h7⟩ := C20_trim_restricts [x] (by simp) (by simpa using hx) tau.length B hBn null
    (by
      intro t ht y hy
      simp only [List.mem_singleton] at hy
      subst hy
      rw [hxp]; exact hlet t ht)
  have hx1 : args [x] = [(x.q, .X, x.e)] := by simp [args, hxp]
  rw [hx1] at h1
  refine ⟨T, fun φ => U (emb φ), ?_, by simpa using h3, ?_, ?_, ?_,
    trim_GIop null _ x.e he x.q .X B T hBg hlet h1, hnorm, by rw [h4, ← hxv]; rfl⟩
  · unfold modifyOne changeBasis
    rw [hR, Option.bind_some, hB, Option.bind_some]
    exact h1
  · intro φ χ hφ
    apply h5
    have := congrArg U hφ
    simp only [← Module.End.mul_apply, hUU] at this
    exact this
  · intro ψ
    have hs : InSector [x] (U ψ) ↔ denP 0 tau ψ = x.e • ψ := by
      simp only [InSector, List.mem_singleton, forall_eq, hxp]
      rw [← hUT]
      constructor
      · intro hh
        have := congrArg U hh
        rw [map_smul] at this
        simp only [← Module.End.mul_apply] at this
        rw [show U * (U * denP 0 tau * U * U) = (U * U) * denP 0 tau * (U * U) by noncomm_ring, hUU] at this
        simpa using this
      · intro hh
        simp only [← Module.End.mul_apply]
        rw [show U * denP 0 tau * U * U = U * denP 0 tau * (U * U) by noncomm_ring, hUU, mul_one,
          Module.End.mul_apply, hh, map_smul]
    rw [← hs, h6]
    constructor
    · rintro ⟨φ, hφ⟩
      refine ⟨φ, ?_⟩
      have := congrArg U hφ
      rw [← Module.End.mul_apply, hUU] at this
      exact this
    · rintro ⟨φ, rfl⟩
      refine ⟨φ, ?_⟩
      rw [← Module.End.mul_apply, hUU]; rfl
  · intro φ
    show denPO A (U (emb φ)) = U (emb (denPO T φ))
    rw [← h7, hBd']
    simp only [← Module.End.mul_apply]
    rw [show U * (U * denPO A * U) = (U * U) * denPO A * U by noncomm_ring, hUU, one_mul]

/-- **C20/C21 end to end.** One step of the tapered transform (basis change, then trimming) applied to an
operator that commutes with the symmetry `tau`: the result acts on one qubit less, and an injective embedding
`emb` with range the `e`-eigenspace of `tau` intertwines it with the original operator.  The coefficients are
Gaussian-integer multiples of a number `c` above the cleaning threshold, so that cleaning removes nothing. -/
theorem C20_tapered_transform (tau : PStr) (q : ℕ) (h : tau[q]? = some .Z ∨ tau[q]? = some .Y)
    (e : ℂ) (he : e = 1 ∨ e = -1) (null c : ℂ) (hc : 2e-12 < ‖c‖) (A : POp ℂ) (hA : GIop c A)
    (hn : ∀ t ∈ A, t.1.length = tau.length)
    (hsym : (denP 0 tau * denPO A : Oper ℂ) = denPO A * denP 0 tau) :
    ∃ (B : POp ℂ) (emb : (Cfg → ℂ) → (Cfg → ℂ)), modifyOne rt null tau q e A = some B ∧
      (∀ u ∈ B, u.1.length = tau.length - 1) ∧ Function.Injective emb ∧
      (∀ ψ, denP 0 tau ψ = e • ψ ↔ ∃ φ, ψ = emb φ) ∧
      (∀ φ, denPO A (emb φ) = emb (denPO B φ)) := by
  obtain ⟨B, emb, h1, h2, h3, h4, h5, _⟩ := tapered_step tau q h e he null c hc A hA hn hsym
  exact ⟨B, emb, h1, h2, h3, h4, h5⟩

/-- The hypotheses are met by a two-qubit Hamiltonian with the symmetry `ZZ`. -/
example : ([PL.Z, .Z])[1]? = some PL.Z ∧
    (denP 0 [.Z, .Z] * denPO [([.X, .X], 1), ([.Z, .I], 2), ([.I, .Z], -1)] : Oper ℂ) =
      denPO [([.X, .X], 1), ([.Z, .I], 2), ([.I, .Z], -1)] * denP 0 [.Z, .Z] ∧
    GIop 1 ([([.X, .X], 1), ([.Z, .I], 2), ([.I, .Z], -1)] : POp ℂ) := by
  refine ⟨rfl, ?_, ?_⟩
  · have c : ∀ s : PStr, Reduce.commute [.Z, .Z] s = some true → s.length = 2 →
        (denP 0 [.Z, .Z] * denP 0 s : Oper ℂ) = denP 0 s * denP 0 [.Z, .Z] :=
      fun s h hl => (C02_commute_iff [.Z, .Z] s hl.symm).mp h
    unfold denPO
    simp only [OpD.denD_cons, OpD.denD_nil, mul_add, add_mul, mul_smul_comm, smul_mul_assoc, mul_zero, zero_mul,
      c [.X, .X] rfl rfl, c [.Z, .I] rfl rfl, c [.I, .Z] rfl rfl]
  intro t ht
  simp only [List.mem_cons, List.not_mem_nil, or_false] at ht
  rcases ht with rfl | rfl | rfl
  · exact ⟨1, GI.one, by simp⟩
  · exact ⟨2, ⟨2, 0, by simp⟩, by simp⟩
  · exact ⟨-1, GI.neg_one, by simp⟩

/-- **C21, general basis change**: `change_basis` with any `U`, `Ut` computes `U A Ut`, in that order; both products
drop terms of small coefficient. -/
theorem C21_change_basis (n : ℕ) (U Ut A : POp K) (hU : ∀ t ∈ U, t.1.length = n) (hUt : ∀ t ∈ Ut, t.1.length = n)
    (hA : ∀ t ∈ A, t.1.length = n) :
    ∃ R M, changeBasis U Ut A = some R ∧ Rounds (denP 0) M (denPO U * denPO A) ∧
      Rounds (denP 0) R (denPO M * denPO Ut) ∧ UniqueKeys R := by
  obtain ⟨M, hM, _, hMr⟩ := C04_mul_den n U A hU hA
  obtain ⟨R, hR, hRu, hRr⟩ := C04_mul_den n M Ut (mul_lengths n U A M hU hA hM).1 hUt
  exact ⟨R, M, by unfold changeBasis; rw [hM, Option.bind_some, hR], hMr, hRr, hRu⟩

/-- A basis change that tells `U` from its adjoint: `U = I + iX`. -/
example : changeBasis ([([.I], 1), ([.X], ⟨0, 1⟩)] : POp GQ) [([.I], 1), ([.X], ⟨0, -1⟩)] [([.Z], 1)] =
    some [([.Y], 2)] := by decide +kernel

end HQCA.Props
